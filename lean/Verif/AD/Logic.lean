import Verif.AD.AxisExtremum
import Verif.AD.Unary
/-!
# The logic functions (logic.py:16-33)

`compute_r` hands the object itself to numpy, which reads its value through `__array__` (ch.py:331-332).  Truth values are the
numbers 1 and 0.  Of the keyword arguments only `axis` is modelled, as an integer or None.
-/
namespace Chumpy
open scoped BigOperators Topology

open Classical in
/-- `np.all` of the entries `g 0, …, g (n - 1)`. -/
noncomputable def allQ (n : ℕ) (g : ℕ → ℝ) : ℝ := if ∀ t < n, g t ≠ 0 then 1 else 0

open Classical in
/-- `np.any`. -/
noncomputable def anyQ (n : ℕ) (g : ℕ → ℝ) : ℝ := if ∃ t < n, g t ≠ 0 then 1 else 0

/-- `fn(arr, *self.args, **self.kwargs)` for `all` and `any` (logic.py:20-23).  Of no entries these are True and False. -/
noncomputable def quantR (q : ℕ → (ℕ → ℝ) → ℝ) : Prog Par Arr Arr :=
  .child nmA fun v => .term nmP fun
    | some (.int a) =>
      match normAxis v.shape.length a with
      | none => .raise 1
      | some i => .ret (Arr.of (v.shape.eraseIdx i) fun k => q (v.shape.getD i 0) (alongAxis i v k)).atleast1
    | none => .ret (Arr.of [1] fun _ => q v.size v.vec)
    | some .none => .ret (Arr.of [1] fun _ => q v.size v.vec)
    | _ => .raise 1

/-- `LogicFunc` with `funcname` `all` or `any` (logic.py:16-26): `compute_dr_wrt` returns None. -/
noncomputable def chQuant (q : ℕ → (ℕ → ℝ) → ℝ) : ClassDef where
  r := quantR q
  dr := fun _ _ => .ret none
  dr_none := rfl

/-- `all` (logic.py:29-31). -/
noncomputable def chAll := chQuant allQ
/-- `any` (logic.py:29-31). -/
noncomputable def chAny := chQuant anyQ
/-- `logical_not` (logic.py:29-31). -/
noncomputable def chLogicalNot := chSimpleton fun x => if x = 0 then 1 else 0
/-- `isfinite` (logic.py:29-31).  The entries of the model are real numbers, never infinite or NaN. -/
noncomputable def chIsfinite := chSimpleton fun _ => 1
/-- `isinf`, `isnan`, `isneginf`, `isposinf` (logic.py:29-31), with the same simplification. -/
noncomputable def chIsNever := chSimpleton fun _ => 0

section
variable {tm : Name → Option Par} {q : ℕ → (ℕ → ℝ) → ℝ} {v : Arr}

theorem returns_quant_axis {z : ℤ} {i : ℕ} {u : Arr} (hp : tm nmP = some (.int z)) (hi : normAxis u.shape.length z = some i) :
    Returns lib (chQuant q) tm (env1 u) (Arr.of (if u.shape.eraseIdx i = [] then [1] else u.shape.eraseIdx i) fun k =>
      q (u.shape.getD i 0) fun t => u.vec (axisPos u.shape i k t)) := by
  refine ⟨0, ?_⟩
  show runBody _ _ _ _ (chQuant q).r = _
  have : (Arr.of (u.shape.eraseIdx i) fun k => q (u.shape.getD i 0) (alongAxis i u k)).atleast1 =
      Arr.of (if u.shape.eraseIdx i = [] then [1] else u.shape.eraseIdx i) fun k =>
        q (u.shape.getD i 0) fun t => u.vec (axisPos u.shape i k t) := by
    refine Arr.of_congr fun k hk => ?_
    rw [Arr.vec_of _ _ (by rwa [show (Arr.of (u.shape.eraseIdx i) _).shape = u.shape.eraseIdx i from rfl, aext_osh] at hk)]
    rfl
  simp only [chQuant, quantR, runBody, env1, if_true, hp, hi, this]

theorem returns_quant_flat (hp : tm nmP = none ∨ tm nmP = some .none) {u : Arr} :
    Returns lib (chQuant q) tm (env1 u) (Arr.of [1] fun _ => q u.size u.vec) := by
  refine ⟨0, ?_⟩
  show runBody _ _ _ _ (chQuant q).r = _
  rcases hp with hp | hp <;> (simp only [chQuant, quantR, runBody, env1, if_true, hp])

theorem returnsDr_quant {env : Name → Option Arr} {out : Arr} {S : List Name} : ReturnsDr lib (chQuant q) tm env out S none := ⟨0, rfl⟩

/-- `q` does not change near `g`. -/
def SteadyQ (q : ℕ → (ℕ → ℝ) → ℝ) (n : ℕ) (g : ℕ → ℝ) : Prop := ∀ᶠ x in 𝓝 (fun t : Fin n => g t), ∀ g', (∀ t : Fin n, g' t = x t) → q n g' = q n g

theorem steady_all {n : ℕ} {g : ℕ → ℝ} (h : ∀ t < n, g t ≠ 0) : SteadyQ allQ n g := by
  have : ∀ t : Fin n, ∀ᶠ x in 𝓝 (fun t : Fin n => g t), x t ≠ 0 := fun t =>
    (continuous_apply t).continuousAt.eventually_ne (h t t.2)
  filter_upwards [Filter.eventually_all.2 this] with x hx g' hg
  unfold allQ
  rw [if_pos h, if_pos fun t ht => by rw [hg ⟨t, ht⟩]; exact hx ⟨t, ht⟩]

theorem steady_any {n : ℕ} {g : ℕ → ℝ} (h : n = 0 ∨ ∃ t < n, g t ≠ 0) : SteadyQ anyQ n g := by
  rcases h with rfl | ⟨t, ht, hne⟩
  · refine Filter.Eventually.of_forall fun x g' _ => ?_
    unfold anyQ; simp
  · have : ∀ᶠ x in 𝓝 (fun t : Fin n => g t), x ⟨t, ht⟩ ≠ 0 := (continuous_apply (⟨t, ht⟩ : Fin n)).continuousAt.eventually_ne hne
    filter_upwards [this] with x hx g' hg
    unfold anyQ
    rw [if_pos (show ∃ t < n, g' t ≠ 0 from ⟨t, ht, by rw [hg ⟨t, ht⟩]; exact hx⟩), if_pos ⟨t, ht, hne⟩]

theorem exact_quant {osh : List ℕ} {N : ℕ} (π : ℕ → ℕ → ℕ) (hπ : ∀ k < osh.prod, ∀ t < N, π k t < v.size)
    (hs : ∀ k < osh.prod, SteadyQ q N fun t => v.vec (π k t))
    (hc : ∀ u : Arr, u.shape = v.shape → Returns lib (chQuant q) tm (env1 u) (Arr.of osh fun k => q N fun t => u.vec (π k t))) :
    Exact (chQuant q) tm [nmA] (fun _ => v) (Arr.of osh fun k => q N fun t => v.vec (π k t)) (fun _ => fun _ _ => 0) := by
  refine exact_one (hc v rfl) (fun _ k => q N fun t => v.vec (π k t)) ?_ ?_ ⟨none, returnsDr_quant, fun _ _ _ _ => rfl⟩
  · have key : ∀ k : Fin osh.prod, ∀ᶠ x in 𝓝 (num.fn v.size v), q N (fun t => (v.put x).vec (π k t)) = q N fun t => v.vec (π k t) := by
      intro k
      have hcont : Filter.Tendsto (fun (x : Fin v.size → ℝ) (t : Fin N) => x ⟨π k t, hπ k k.2 t t.2⟩) (𝓝 (num.fn v.size v))
          (𝓝 fun t : Fin N => v.vec (π k t)) := by
        have : (fun t : Fin N => v.vec (π k t)) = (fun (x : Fin v.size → ℝ) (t : Fin N) => x ⟨π k t, hπ k k.2 t t.2⟩) (num.fn v.size v) := rfl
        rw [this]
        exact (continuous_pi fun t => continuous_apply _).continuousAt
      filter_upwards [hcont.eventually (hs k k.2)] with x hx
      refine hx _ fun t => ?_
      exact dif_pos (hπ k k.2 t t.2)
    filter_upwards [Filter.eventually_all.2 key] with x hx
    have h1 := hc (v.put x) rfl
    have e : (Arr.of osh fun k => q N fun t => (v.put x).vec (π k t)) =
        (Arr.of osh fun k => q N fun t => v.vec (π k t)).put fun k => q N fun t => v.vec (π k t) := by
      unfold Arr.of Arr.put
      congr 1
      funext k
      exact hx k
    rw [← e]; exact h1
  · refine (hasFDerivAt_const _ _).congr_fderiv ?_
    ext; simp [Ent.lin, Matrix.mulVec, dotProduct]
end
end Chumpy
