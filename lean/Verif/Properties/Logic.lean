import Verif.AD.Logic
import Verif.Properties.Extrema
import Verif.Properties.Elementwise
/-!
# C76: the logic functions
-/
namespace Chumpy
open scoped BigOperators Topology

open Classical in
/-- A truth value as a number. -/
noncomputable def bit (p : Prop) : ℝ := if p then 1 else 0

/-- `out` tells of each row along axis `i` of `v` whether `Q` holds of it; `Q n g` speaks of the `n` entries of `g`. -/
def TellsAlong (Q : ℕ → (ℕ → ℝ) → Prop) (i : ℕ) (v out : Arr) : Prop :=
  out.shape = (if v.shape.eraseIdx i = [] then [1] else v.shape.eraseIdx i) ∧
    ∀ c, InB (v.shape.eraseIdx i) c →
      out.vec (ravel (v.shape.eraseIdx i) c) = bit (Q (v.shape.getD i 0) fun t => v.at (c.insertIdx i t))

/-- No entry is zero. -/
def AllSet (n : ℕ) (g : ℕ → ℝ) : Prop := ∀ t < n, g t ≠ 0

/-- Some entry is not zero. -/
def SomeSet (n : ℕ) (g : ℕ → ℝ) : Prop := ∃ t < n, g t ≠ 0

/-- `Q` of `g`'s entries does not hang on an exact zero: for `all`, no entry is zero; for `any`, some entry is not, or there
are none. -/
inductive Quantifier : ClassDef → (ℕ → (ℕ → ℝ) → Prop) → (ℕ → (ℕ → ℝ) → Prop) → Prop
  | all : Quantifier chAll AllSet AllSet
  | any : Quantifier chAny SomeSet fun n g => n = 0 ∨ SomeSet n g

theorem Quantifier.is {c : ClassDef} {Q S : ℕ → (ℕ → ℝ) → Prop} (h : Quantifier c Q S) :
    ∃ q, c = chQuant q ∧ (∀ n g, q n g = bit (Q n g)) ∧ ∀ n g, S n g → SteadyQ q n g := by
  cases h with
  | all => exact ⟨allQ, rfl, fun _ _ => by unfold allQ bit AllSet; congr, fun _ _ h => steady_all h⟩
  | any => exact ⟨anyQ, rfl, fun _ _ => by unfold anyQ bit SomeSet; congr, fun _ _ h => steady_any h⟩

/-- The functions of one entry, with the entries near which they jump. -/
inductive LogicOfEntry : ClassDef → (ℝ → Prop) → (ℝ → Prop) → Prop
  | logicalNot : LogicOfEntry chLogicalNot (fun x => x = 0) fun x => x = 0
  | isfinite : LogicOfEntry chIsfinite (fun _ => True) fun _ => False
  | isNever : LogicOfEntry chIsNever (fun _ => False) fun _ => False

theorem LogicOfEntry.is {c : ClassDef} {P jump : ℝ → Prop} (h : LogicOfEntry c P jump) :
    c = chSimpleton (fun x => bit (P x)) ∧ ∀ x, ¬ jump x → HasDerivAt (fun x => bit (P x)) 0 x := by
  cases h with
  | logicalNot =>
    refine ⟨?_, fun x hx => ?_⟩
    · unfold chLogicalNot
      congr 1
    · refine (hasDerivAt_const x (0 : ℝ)).congr_of_eventuallyEq ?_
      filter_upwards [isOpen_ne.mem_nhds hx] with z hz
      exact if_neg hz
  | isfinite => exact ⟨by unfold chIsfinite bit; simp, fun x _ => by simpa [bit] using hasDerivAt_const x (1 : ℝ)⟩
  | isNever => exact ⟨by unfold chIsNever bit; simp, fun x _ => by simpa [bit] using hasDerivAt_const x (0 : ℝ)⟩

section
variable {h : Heap ClassDef Par Arr Jac} {y a : Id} {v : Arr} {c : ClassDef} {Q S : ℕ → (ℕ → ℝ) → Prop}

/-- C76 for `all(a, axis=z)` and `any(a, axis=z)`: the value tells of each row along the axis whether all or some entries are
nonzero, `dr_wrt` reports zero, and where no row hangs on an exact zero that is the derivative. -/
theorem C76_quantifiers_axis (hc : Quantifier c Q S) (hr : Reach lib ⟨False, True⟩ h) (hy : IsA h.graph y c [nmA] fun _ => a)
    (hv : Means lib h.graph (.r a) (.ok v)) {z : ℤ} {i : ℕ} (hp : (h.graph y).terms nmP = some (.int z))
    (hi : normAxis v.shape.length z = some i) :
    ∃ out, TellsAlong Q i v out ∧ (∃ f₀, ∀ f ≥ f₀, (read lib f (.r y) h).2 = .ok out) ∧
      (IsLeaf h.graph a → Reports h y a out.size v.size fun _ _ => 0) ∧
      ((∀ c, InB (v.shape.eraseIdx i) c → S (v.shape.getD i 0) fun t => v.at (c.insertIdx i t)) → Right h y out) := by
  obtain ⟨q, rfl, hq, hS⟩ := hc.is
  have hm := means_of_isA hy (v := fun _ => v) (fun _ => hv) (by erw [env_one]; exact returns_quant_axis (q := q) hp hi)
  have hpos : ∀ c, InB (v.shape.eraseIdx i) c → ∀ t, axisPos v.shape i (ravel (v.shape.eraseIdx i) c) t = ravel v.shape (c.insertIdx i t) := by
    intro c hc t; unfold axisPos; rw [unravel_ravel hc]
  refine ⟨_, ⟨rfl, fun c hc => ?_⟩, read_of_means hr hm, fun hl => ?_, fun hs => ?_⟩
  · rw [Arr.vec_of _ _ (by rw [aext_osh]; exact ravel_lt hc), ← hq]
    simp only [hpos c hc]; rfl
  · exact reports_of_rep hr hy (v := fun _ => v) (fun _ => hv) hm (fun _ => hl) (w := a) ⟨(0 : Fin 1), rfl⟩ (d := none)
      returnsDr_quant (fun _ _ _ _ => rfl)
  · refine right_of_exact hr hy (v := fun _ => v) (fun _ => hv) (exact_quant (axisPos v.shape i)
      (fun k hk t ht => axisPos_lt (normAxis_lt hi) (by rwa [aext_osh] at hk) ht) (fun k hk => hS _ _ (hs _ (unravel_inB (by rwa [aext_osh] at hk))))
      fun u hu => ?_)
    have := returns_quant_axis (q := q) (tm := (h.graph y).terms) (u := u) hp (by rw [hu]; exact hi)
    rwa [hu] at this

/-- C76 for `all(a)` and `any(a)` over all entries, with the axis None or not given. -/
theorem C76_quantifiers (hc : Quantifier c Q S) (hr : Reach lib ⟨False, True⟩ h) (hy : IsA h.graph y c [nmA] fun _ => a)
    (hv : Means lib h.graph (.r a) (.ok v)) (hp : (h.graph y).terms nmP = none ∨ (h.graph y).terms nmP = some .none) :
    ∃ out, Number (bit (Q v.size v.vec)) out ∧ (∃ f₀, ∀ f ≥ f₀, (read lib f (.r y) h).2 = .ok out) ∧
      (IsLeaf h.graph a → Reports h y a 1 v.size fun _ _ => 0) ∧
      (S v.size v.vec → Right h y out) := by
  obtain ⟨q, rfl, hq, hS⟩ := hc.is
  have hm := means_of_isA hy (v := fun _ => v) (fun _ => hv) (by erw [env_one]; exact returns_quant_flat (q := q) hp)
  refine ⟨_, by rw [← hq]; exact number_of _, read_of_means hr hm, fun hl => ?_, fun hs => ?_⟩
  · exact reports_of_rep hr hy (v := fun _ => v) (fun _ => hv) hm (fun _ => hl) (w := a) ⟨(0 : Fin 1), rfl⟩ (d := none)
      returnsDr_quant (fun _ _ _ _ => rfl)
  · refine right_of_exact hr hy (v := fun _ => v) (fun _ => hv) (exact_quant (N := v.size) (fun _ t => t) (fun _ _ _ ht => ht)
      (fun k hk => hS _ _ hs) fun u hu => ?_)
    have := returns_quant_flat (q := q) hp (u := u)
    have e : u.size = v.size := congrArg List.prod hu
    rwa [e] at this

/-- C76 for the functions of one entry. -/
theorem C76_of_entries {P jump : ℝ → Prop} (hc : LogicOfEntry c P jump)
    (hr : Reach lib ⟨False, True⟩ h) (hy : IsA h.graph y c [nmA] fun _ => a) (hv : Means lib h.graph (.r a) (.ok v)) :
    ∃ out, MapResult (fun x => bit (P x)) v out ∧ (∃ f₀, ∀ f ≥ f₀, (read lib f (.r y) h).2 = .ok out) ∧
      (IsLeaf h.graph a → Reports h y a out.size v.size fun _ _ => 0) ∧
      ((∀ k < v.size, ¬ jump (v.vec k)) → Right h y out) := by
  obtain ⟨rfl, hd⟩ := hc.is
  have hm : Means lib h.graph (.r y) (.ok (mapVal (fun x => bit (P x)) v)) := means_of_isA hy (v := fun _ => v) (fun _ => hv) (by
    erw [env_one]; exact ⟨0, by simp [lib, chSimpleton, runBody, env1, mapVal]⟩)
  refine ⟨_, mapVal_result _ v, read_of_means hr hm, fun hl => ?_, fun hj => ?_⟩
  · exact reports_of_rep hr hy (v := fun _ => v) (fun _ => hv) hm (fun _ => hl) (w := a) ⟨(0 : Fin 1), rfl⟩ (d := none)
      ⟨0, by simp [lib, chSimpleton, runBody]⟩ (fun _ _ _ _ => rfl)
  · exact right_of_exact hr hy (fun _ => hv) (exact_simpleton _ fun k hk => hd _ (hj k hk))
end

namespace ADDemo
/-- The hypotheses of C76 are met by a 2×3 array with a zero, and the axis -1. -/
example : ∃ h, Reach lib ⟨False, True⟩ h ∧ IsA h.graph 1 chAny [nmA] (fun _ => 0) ∧
    Means lib h.graph (.r 0) (.ok ⟨[2, 3], fun k => k.1⟩) ∧ IsLeaf h.graph 0 ∧ (h.graph 1).terms nmP = some (.int (-1)) ∧
    normAxis [2, 3].length (-1) = some 1 ∧
    ∀ c, InB [2] c → SomeSet 3 fun t => (⟨[2, 3], fun k => k.1⟩ : Arr).at (c.insertIdx 1 t) := by
  obtain ⟨h, h1, h2, h3, h4, h5, _⟩ := reordered_reach chAny ⟨[2, 3], fun k => k.1⟩ (by simp) (.int (-1)) .none
  refine ⟨h, h1, h2, h3, h4, h5, by decide, fun c hc => ⟨2, by omega, ?_⟩⟩
  have h6 := inB_insertIdx (sh := [2, 3]) (i := 1) (t := 2) (by decide) hc (by decide)
  show (⟨[2, 3], fun k => k.1⟩ : Arr).vec (ravel [2, 3] (c.insertIdx 1 2)) ≠ 0
  rw [show (⟨[2, 3], fun k => k.1⟩ : Arr).vec (ravel [2, 3] (c.insertIdx 1 2)) = (ravel [2, 3] (c.insertIdx 1 2) : ℕ) from dif_pos (ravel_lt h6)]
  match c, hc.length with
  | [x], _ => simp [ravel]; positivity
end ADDemo
end Chumpy
