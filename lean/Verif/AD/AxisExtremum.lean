import Verif.AD.Reduce
import Verif.AD.Compose
import Verif.AD.Dot
/-!
# amax, amin, nanmax, nanmin (ch_ops.py:613-674)
-/
namespace Chumpy
open scoped BigOperators Topology

/-- `np.amax`/`np.amin` of the entries `g 0, …, g (n - 1)`; `f` is `max` or `min`. -/
noncomputable def pickF (f : ℝ → ℝ → ℝ) : ℕ → (ℕ → ℝ) → ℝ
  | 0, _ => 0
  | 1, g => g 0
  | n + 2, g => f (pickF f (n + 1) g) (g (n + 1))

/-- `np.argmax`/`np.argmin`: the first position of the extremum. -/
noncomputable def argF (f : ℝ → ℝ → ℝ) : ℕ → (ℕ → ℝ) → ℕ
  | 0, _ => 0
  | 1, _ => 0
  | n + 2, g => if f (pickF f (n + 1) g) (g (n + 1)) = pickF f (n + 1) g then argF f (n + 1) g else n + 1

/-- The entries along axis `i` at flat position `k` of the result. -/
noncomputable def alongAxis (i : ℕ) (v : Arr) (k : ℕ) (t : ℕ) : ℝ := v.at ((unravel (v.shape.eraseIdx i) k).insertIdx i t)

/-- `f(self.a.r, axis=self.axis)` (ch_ops.py:628).  An extremum of no entries raises (numpy raises also for an empty axis of
a result without entries only if the axis itself is empty, as here).  A tuple of axes is not modelled. -/
noncomputable def aextR (f : ℝ → ℝ → ℝ) : Prog Par Arr Arr :=
  .child nmA fun v => .term nmP fun
    | some (.int a) =>
      match normAxis v.shape.length a with
      | none => .raise 1
      | some i => if v.shape.getD i 0 = 0 then .raise 1
          else .ret (Arr.of (v.shape.eraseIdx i) fun k => pickF f (v.shape.getD i 0) (alongAxis i v k)).atleast1
    | none => if v.size = 0 then .raise 1 else .ret (Arr.of [1] fun _ => pickF f v.size v.vec)
    | some .none => if v.size = 0 then .raise 1 else .ret (Arr.of [1] fun _ => pickF f v.size v.vec)
    | _ => .raise 1

/-- `data.ravel()[0]` if both sizes are 1, else the matrix (ch_ops.py:638-640). -/
noncomputable def aextMat (out v : Arr) (n : ℕ) (JS : ℕ → ℕ) : Jac :=
  if out.size * v.size = 1 then .num 1 else .sparse out.size v.size (coo n id JS fun _ => 1)

/-- `compute_dr_wrt` (ch_ops.py:630-640).  `_stride_for_axis` (642-654) gives the first position along the axis, `mn`, and the
distance of consecutive positions, `stride`, which for an array in C order is the product of the lengths of the later axes
(the strides numpy keeps for axes of length 1 are taken to be those too).  The rounding and `uint32` are not modelled. -/
noncomputable def aextDr (f : ℝ → ℝ → ℝ) : Prog Par Arr (Option Jac) :=
  .child nmA fun v => .term nmP fun
    | some (.int a) =>
      match normAxis v.shape.length a with
      | none => .raise 1
      | some i => .selfR fun out => .ret (some (aextMat out v (v.shape.eraseIdx i).prod fun k =>
          ravel v.shape ((unravel (v.shape.eraseIdx i) k).insertIdx i 0) +
            (v.shape.drop (i + 1)).prod * argF f (v.shape.getD i 0) (alongAxis i v k)))
    | none => .selfR fun out => .ret (some (aextMat out v 1 fun _ => argF f v.size v.vec))
    | some .none => .selfR fun out => .ret (some (aextMat out v 1 fun _ => argF f v.size v.vec))
    | _ => .raise 1

/-- `A_extremum` with `f` and `argf` (ch_ops.py:613-654). -/
noncomputable def chAExt (f : ℝ → ℝ → ℝ) : ClassDef where
  r := aextR f
  dr := fun _ S => if nmA ∈ S then aextDr f else .ret none
  dr_none := rfl

/-- `amax`, and `nanmax`, which differs only for NaN (ch_ops.py:657-659, 672-674). -/
noncomputable def chAmax : ClassDef := chAExt max

/-- `amin`, `nanmin` (ch_ops.py:663-665, 668-670). -/
noncomputable def chAmin : ClassDef := chAExt min

/-- What the proofs need of `max` and `min`. -/
structure Extr (f : ℝ → ℝ → ℝ) : Prop where
  choice : ∀ x y, f x y = x ∨ f x y = y
  comm : ∀ x y, f x y = f y x
  assoc : ∀ x y z, f (f x y) z = f x (f y z)
  idem : ∀ x, f x x = x
  opn : ∀ x y, f x y = x → x ≠ y → ∀ᶠ p in 𝓝 (x, y), f p.1 p.2 = p.1

theorem extr_max : Extr max where
  choice := max_choice
  comm := max_comm
  assoc := max_assoc
  idem := max_self
  opn := by
    intro x y h hne
    have hlt : y < x := lt_of_le_of_ne (max_eq_left_iff.1 h) (Ne.symm hne)
    have := (isOpen_lt (continuous_snd (X := ℝ) (Y := ℝ)) continuous_fst).mem_nhds (show ((x, y) : ℝ × ℝ).2 < ((x, y) : ℝ × ℝ).1 from hlt)
    filter_upwards [this] with p hp
    exact max_eq_left (le_of_lt hp)

theorem extr_min : Extr min where
  choice := min_choice
  comm := min_comm
  assoc := min_assoc
  idem := min_self
  opn := by
    intro x y h hne
    have hlt : x < y := lt_of_le_of_ne (min_eq_left_iff.1 h) hne
    have := (isOpen_lt (continuous_fst (X := ℝ) (Y := ℝ)) continuous_snd).mem_nhds (show ((x, y) : ℝ × ℝ).1 < ((x, y) : ℝ × ℝ).2 from hlt)
    filter_upwards [this] with p hp
    exact min_eq_left (le_of_lt hp)

section
variable {f : ℝ → ℝ → ℝ} {n : ℕ} {g : ℕ → ℝ}

theorem pickF_bound (hf : Extr f) : ∀ {n : ℕ} {t : ℕ}, t < n → f (pickF f n g) (g t) = pickF f n g
  | 1, t, h => by obtain rfl : t = 0 := by omega
                  exact hf.idem _
  | n + 2, t, h => by
    show f (f (pickF f (n + 1) g) (g (n + 1))) (g t) = f (pickF f (n + 1) g) (g (n + 1))
    by_cases ht : t = n + 1
    · rw [ht, hf.assoc, hf.idem]
    · rw [hf.assoc, hf.comm (g (n + 1)), ← hf.assoc, pickF_bound hf (n := n + 1) (by omega)]

theorem argF_lt : ∀ {n : ℕ}, 0 < n → argF f n g < n
  | 1, _ => Nat.one_pos
  | n + 2, _ => by
    have := argF_lt (n := n + 1) (Nat.succ_pos _)
    unfold argF; split <;> omega

theorem argF_pick (hf : Extr f) : ∀ {n : ℕ}, 0 < n → g (argF f n g) = pickF f n g
  | 1, _ => rfl
  | n + 2, _ => by
    have ih := argF_pick hf (n := n + 1) (Nat.succ_pos _)
    unfold argF
    split
    · next h => rw [ih]; exact h.symm
    · next h => exact ((hf.choice _ _).resolve_left h).symm

/-- A position better than all others is the one picked. -/
theorem pickF_eq (hf : Extr f) {t : ℕ} (ht : t < n) (h : ∀ s < n, f (g t) (g s) = g t) : pickF f n g = g t := by
  have h1 := pickF_bound hf (g := g) ht
  have h2 := h _ (argF_lt (f := f) (g := g) (Nat.zero_lt_of_lt ht))
  rw [argF_pick (g := g) hf (Nat.zero_lt_of_lt ht), hf.comm] at h2
  exact h1.symm.trans h2
end

/-- Positions along an axis are evenly spaced. -/
theorem ravel_insertIdx : ∀ {sh c : List ℕ} {i t : ℕ}, i < sh.length → InB (sh.eraseIdx i) c →
    ravel sh (c.insertIdx i t) = ravel sh (c.insertIdx i 0) + (sh.drop (i + 1)).prod * t
  | n :: sh, c, 0, t, _, _ => by simp [ravel]; ring
  | n :: sh, [], i + 1, t, _, h => by simp [InB] at h
  | n :: sh, a :: c, i + 1, t, hi, h => by
    have h' : InB (sh.eraseIdx i) c := by
      rw [List.eraseIdx_cons_succ] at h; cases h; assumption
    rw [List.insertIdx_succ_cons, List.insertIdx_succ_cons]
    simp only [ravel, List.drop_succ_cons]
    rw [ravel_insertIdx (by simpa using hi) h']; ring

section
variable {f : ℝ → ℝ → ℝ} {tm : Name → Option Par} {v : Arr}

/-- The matrix returned is the selection matrix, in any of its forms. -/
theorem rep_aextMat {out : Arr} {m : ℕ} {σ : ℕ → ℕ} (hm : out.size = m) (hσ : ∀ k < m, σ k < v.size) :
    num.RepO (some (aextMat out v m σ)) m v.size (selMat σ fun _ => 1) := by
  subst hm
  unfold aextMat
  split
  · next h =>
    have h1 : out.size = 1 := Nat.eq_one_of_mul_eq_one_right h
    have h2 : v.size = 1 := Nat.eq_one_of_mul_eq_one_left h
    have := hσ 0 (by omega)
    exact ⟨h1, h2, by unfold selMat; rw [if_pos (by omega)]⟩
  · exact ⟨rfl, rfl, coo_rows _ _⟩

/-- Every entry of the output equals, near the present input, one entry of the input: the class is exact. -/
theorem exact_pick (hf : Extr f) {osh : List ℕ} {N : ℕ} (hN : 0 < N) (π : ℕ → ℕ → ℕ) (hπ : ∀ k < osh.prod, ∀ t < N, π k t < v.size)
    (huniq : ∀ k < osh.prod, ∀ t < N, t ≠ argF f N (fun t => v.vec (π k t)) → v.vec (π k t) ≠ pickF f N fun t => v.vec (π k t))
    (hc : ∀ u : Arr, u.shape = v.shape → Returns lib (chAExt f) tm (env1 u) (Arr.of osh fun k => pickF f N fun t => u.vec (π k t)))
    (hd : ReturnsDr lib (chAExt f) tm (env1 v) (Arr.of osh fun k => pickF f N fun t => v.vec (π k t)) [nmA]
      (some (aextMat (Arr.of osh fun k => pickF f N fun t => v.vec (π k t)) v osh.prod fun k => π k (argF f N fun t => v.vec (π k t))))) :
    Exact (chAExt f) tm [nmA] (fun _ => v) (Arr.of osh fun k => pickF f N fun t => v.vec (π k t))
      (fun _ => selMat (fun k => π k (argF f N fun t => v.vec (π k t))) fun _ => 1) := by
  have hσ : ∀ k < osh.prod, π k (argF f N fun t => v.vec (π k t)) < v.size := fun k hk => hπ k hk _ (argF_lt hN)
  refine exact_one (hc v rfl) (fun x k => x ⟨_, hσ k k.2⟩) ?_ ?_ ⟨_, hd, rep_aextMat rfl hσ⟩
  · have key : ∀ (k : Fin osh.prod) (t : Fin N), ∀ᶠ x in 𝓝 (num.fn v.size v),
        f (x ⟨_, hσ k k.2⟩) (x ⟨π k t, hπ k k.2 t t.2⟩) = x ⟨_, hσ k k.2⟩ := by
      intro k t
      by_cases ht : t.1 = argF f N fun t => v.vec (π k t)
      · refine Filter.Eventually.of_forall fun x => ?_
        have : (⟨π k t, hπ k k.2 t t.2⟩ : Fin v.size) = ⟨_, hσ k k.2⟩ := Fin.ext (congrArg (π k) ht)
        rw [this, hf.idem]
      · have e0 := argF_pick (g := fun t => v.vec (π k t)) hf hN
        have hb := pickF_bound (g := fun t => v.vec (π k t)) hf t.2
        have ho := hf.opn _ _ hb (huniq k k.2 t t.2 ht).symm
        have hcont : Filter.Tendsto (fun x : Fin v.size → ℝ => (x ⟨_, hσ k k.2⟩, x ⟨π k t, hπ k k.2 t t.2⟩)) (𝓝 (num.fn v.size v))
            (𝓝 (pickF f N (fun t => v.vec (π k t)), v.vec (π k t))) := by
          have h1 : num.fn v.size v ⟨_, hσ k k.2⟩ = pickF f N fun t => v.vec (π k t) := e0
          have h2 : num.fn v.size v ⟨π k t, hπ k k.2 t t.2⟩ = v.vec (π k t) := rfl
          rw [← h2, ← h1]
          exact ((continuous_apply _).prodMk (continuous_apply _)).continuousAt
        exact hcont.eventually ho
    have := Filter.eventually_all.2 fun k => Filter.eventually_all.2 (key k)
    filter_upwards [this] with x hx
    have h1 := hc (v.put x) rfl
    have e : (Arr.of osh fun k => pickF f N fun t => (v.put x).vec (π k t)) =
        (Arr.of osh fun k => pickF f N fun t => v.vec (π k t)).put fun k => x ⟨_, hσ k k.2⟩ := by
      show Arr.mk osh _ = Arr.mk osh _
      congr 1
      funext k
      show pickF f N (fun t => (v.put x).vec (π k t)) = x ⟨_, hσ k k.2⟩
      rw [pickF_eq (g := fun t => (v.put x).vec (π k t)) hf (argF_lt (f := f) (g := fun t => v.vec (π k t)) hN)]
      · exact Arr.vec_put v x ⟨_, hσ k k.2⟩
      · intro s hs
        have h2 : (v.put x).vec (π k s) = x ⟨π k s, hπ k k.2 s hs⟩ := Arr.vec_put v x ⟨π k s, _⟩
        have h3 : (v.put x).vec (π k (argF f N fun t => v.vec (π k t))) = x ⟨_, hσ k k.2⟩ := Arr.vec_put v x ⟨_, hσ k k.2⟩
        rw [h2, h3]; exact hx k ⟨s, hs⟩
    rwa [e] at h1
  · have h1 : HasFDerivAt (fun (x : Fin v.size → ℝ) (k : Fin osh.prod) => x ⟨_, hσ k k.2⟩)
        (Ent.lin osh.prod v.size (selMat (fun k => π k (argF f N fun t => v.vec (π k t))) fun _ => 1)) (num.fn v.size v) :=
      hasFDerivAt_elem₁ (fun _ x => x) hσ _ (fun _ => 1) (fun k hk => hasDerivAt_id _)
    exact h1

/-- The positions along axis `i`. -/
def axisPos (sh : List ℕ) (i k t : ℕ) : ℕ := ravel sh ((unravel (sh.eraseIdx i) k).insertIdx i t)

theorem axisPos_lt {sh : List ℕ} {i k t : ℕ} (hi : i < sh.length) (hk : k < (sh.eraseIdx i).prod) (ht : t < sh.getD i 0) :
    axisPos sh i k t < sh.prod := ravel_lt (inB_insertIdx hi (unravel_inB hk) ht)

theorem aext_osh (sh : List ℕ) : (if sh = [] then [1] else sh).prod = sh.prod := by
  split
  · next h => rw [h]; rfl
  · rfl

theorem returns_aext_axis {z : ℤ} {i : ℕ} {u : Arr} (hp : tm nmP = some (.int z)) (hi : normAxis u.shape.length z = some i)
    (hN : 0 < u.shape.getD i 0) :
    Returns lib (chAExt f) tm (env1 u) (Arr.of (if u.shape.eraseIdx i = [] then [1] else u.shape.eraseIdx i) fun k =>
      pickF f (u.shape.getD i 0) fun t => u.vec (axisPos u.shape i k t)) := by
  refine ⟨0, ?_⟩
  show runBody _ _ _ _ (chAExt f).r = _
  have : (Arr.of (u.shape.eraseIdx i) fun k => pickF f (u.shape.getD i 0) (alongAxis i u k)).atleast1 =
      Arr.of (if u.shape.eraseIdx i = [] then [1] else u.shape.eraseIdx i) fun k =>
        pickF f (u.shape.getD i 0) fun t => u.vec (axisPos u.shape i k t) := by
    refine Arr.of_congr fun k hk => ?_
    rw [Arr.vec_of _ _ (by rwa [show (Arr.of (u.shape.eraseIdx i) _).shape = u.shape.eraseIdx i from rfl, aext_osh] at hk)]
    rfl
  simp only [chAExt, aextR, runBody, env1, if_true, hp, hi, this]
  rw [if_neg hN.ne']
  rfl

theorem returnsDr_aext_axis {z : ℤ} {i : ℕ} {out : Arr} (hp : tm nmP = some (.int z)) (hi : normAxis v.shape.length z = some i)
    (ho : out.size = (v.shape.eraseIdx i).prod) :
    ReturnsDr lib (chAExt f) tm (env1 v) out [nmA] (some (aextMat out v out.size fun k =>
      axisPos v.shape i k (argF f (v.shape.getD i 0) fun t => v.vec (axisPos v.shape i k t)))) := by
  refine ⟨0, ?_⟩
  have e : aextMat out v (v.shape.eraseIdx i).prod (fun k =>
        ravel v.shape ((unravel (v.shape.eraseIdx i) k).insertIdx i 0) +
          (v.shape.drop (i + 1)).prod * argF f (v.shape.getD i 0) (alongAxis i v k)) =
      aextMat out v out.size fun k => axisPos v.shape i k (argF f (v.shape.getD i 0) fun t => v.vec (axisPos v.shape i k t)) := by
    unfold aextMat
    split
    · rfl
    · rw [ho]
      congr 1
      funext a b
      unfold coo
      refine Finset.sum_congr rfl fun k hk => ?_
      dsimp only
      have := ravel_insertIdx (t := argF f (v.shape.getD i 0) (alongAxis i v k)) (normAxis_lt hi) (unravel_inB (Finset.mem_range.1 hk))
      simp only [← this]
      rfl
  show runBody _ _ _ _ ((chAExt f).dr false [nmA]) = _
  simp only [chAExt, List.mem_singleton, if_true, aextDr, runBody, env1, hp, hi, e]

theorem exact_aext_axis (hf : Extr f) {z : ℤ} {i : ℕ} (hp : tm nmP = some (.int z)) (hi : normAxis v.shape.length z = some i)
    (hN : 0 < v.shape.getD i 0)
    (huniq : ∀ k < (v.shape.eraseIdx i).prod, ∀ t < v.shape.getD i 0, t ≠ argF f (v.shape.getD i 0) (fun t => v.vec (axisPos v.shape i k t)) →
      v.vec (axisPos v.shape i k t) ≠ pickF f (v.shape.getD i 0) fun t => v.vec (axisPos v.shape i k t)) :
    ∃ P, Exact (chAExt f) tm [nmA] (fun _ => v) (Arr.of (if v.shape.eraseIdx i = [] then [1] else v.shape.eraseIdx i) fun k =>
      pickF f (v.shape.getD i 0) fun t => v.vec (axisPos v.shape i k t)) P := by
  refine ⟨_, exact_pick hf hN (axisPos v.shape i) (fun k hk t ht => axisPos_lt (normAxis_lt hi) (by rwa [aext_osh] at hk) ht)
    (fun k hk => huniq k (by rwa [aext_osh] at hk)) (fun u hu => ?_) ?_⟩
  · have := returns_aext_axis (f := f) (u := u) hp (by rw [hu]; exact hi) (by rw [hu]; exact hN)
    rwa [hu] at this
  · exact returnsDr_aext_axis hp hi (aext_osh _)

theorem returns_aext_flat (hp : tm nmP = none ∨ tm nmP = some .none) {u : Arr} (hN : 0 < u.size) :
    Returns lib (chAExt f) tm (env1 u) (Arr.of [1] fun _ => pickF f u.size u.vec) := by
  refine ⟨0, ?_⟩
  show runBody _ _ _ _ (chAExt f).r = _
  rcases hp with hp | hp <;> (simp only [chAExt, aextR, runBody, env1, if_true, hp]; rw [if_neg hN.ne']; rfl)

theorem returnsDr_aext_flat (hp : tm nmP = none ∨ tm nmP = some .none) {out : Arr} (ho : out.size = 1) :
    ReturnsDr lib (chAExt f) tm (env1 v) out [nmA] (some (aextMat out v out.size fun _ => argF f v.size v.vec)) := by
  refine ⟨0, ?_⟩
  show runBody _ _ _ _ ((chAExt f).dr false [nmA]) = _
  rcases hp with hp | hp <;> simp only [chAExt, List.mem_singleton, if_true, aextDr, runBody, env1, hp, ho]

theorem exact_aext_flat (hf : Extr f) (hp : tm nmP = none ∨ tm nmP = some .none) (hN : 0 < v.size)
    (huniq : ∀ t < v.size, t ≠ argF f v.size v.vec → v.vec t ≠ pickF f v.size v.vec) :
    ∃ P, Exact (chAExt f) tm [nmA] (fun _ => v) (Arr.of [1] fun _ => pickF f v.size v.vec) P := by
  refine ⟨_, exact_pick hf hN (fun _ t => t) (fun k hk t ht => ht) (fun k _ => huniq) (fun u hu => ?_) ?_⟩
  · have hs : u.size = v.size := by unfold Arr.size; rw [hu]
    have := returns_aext_flat (f := f) (u := u) hp (by rw [hs]; exact hN)
    rwa [hs] at this
  · exact returnsDr_aext_flat hp rfl
end
end Chumpy
