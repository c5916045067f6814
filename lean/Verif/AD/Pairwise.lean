import Mathlib.Analysis.Calculus.Deriv.Add
import Verif.AD.Arith
/-!
# `maximum`, `minimum`, `NanDivide`, comparisons
-/
namespace Chumpy
open scoped BigOperators Topology

/-- `Extremum` (ch_ops.py:677-697) for `f` = `np.maximum` or `np.minimum`.  Keeping only the items `IS[whichmax]`,
`JS[whichmax]` is modelled as giving the others the value 0. -/
noncomputable def chExtremum (f : ℝ → ℝ → ℝ) : ClassDef where
  r := bcastBody f
  dr := fun _ S =>
    if nmA ∉ S ∧ nmB ∉ S then .ret none
    else .child nmA fun u => .child nmB fun v =>
      match bshape u.shape v.shape with
      | none => .raise 1
      | some o => .selfR fun r =>
        retOr (broadcastSetup u.shape v.shape (nmA ∈ S) fun k =>
          if r.vec k = (if nmA ∈ S then f (u.vec (bidx u.shape o k)) (v.vec (bidx v.shape o k) - f 1 (-1))
            else f (v.vec (bidx v.shape o k)) (u.vec (bidx u.shape o k) - f 1 (-1))) then 1 else 0)
  dr_none := rfl

/-- ch_ops.py:698-699. -/
noncomputable def chMaximum := chExtremum max
/-- ch_ops.py:701-702. -/
noncomputable def chMinimum := chExtremum min

theorem max_sel (a b : ℝ) : max a b = max a (b - max 1 (-1)) ↔ b ≤ a := by
  have : max (1 : ℝ) (-1) = 1 := max_eq_left (by norm_num)
  rw [this]
  constructor
  · intro h
    by_contra hc
    have hc := not_le.1 hc
    rw [max_eq_right hc.le] at h
    rcases max_choice a (b - 1) with e | e <;> rw [e] at h <;> linarith
  · intro h
    rw [max_eq_left h, max_eq_left (by linarith)]

theorem min_sel (a b : ℝ) : min a b = min a (b - min 1 (-1)) ↔ a ≤ b := by
  have : min (1 : ℝ) (-1) = -1 := min_eq_right (by norm_num)
  rw [this]
  constructor
  · intro h
    by_contra hc
    have hc := not_le.1 hc
    rw [min_eq_right hc.le] at h
    rcases min_choice a (b - -1) with e | e <;> rw [e] at h <;> linarith
  · intro h
    rw [min_eq_left h, min_eq_left (by linarith)]

/-- What the class returns when asked about `a`, about `b`, and about both at once. -/
theorem dr_extremum {f : ℝ → ℝ → ℝ} (tm : Name → Option Par) {u v : Arr} {o : List ℕ} (h : bshape u.shape v.shape = some o)
    {S : List Name} (hS : nmA ∈ S ∨ nmB ∈ S) :
    ∃ d, ReturnsDr lib (chExtremum f) tm (env2 u v) (bcastVal f u v o) S (some d) ∧
      Jac.Rep d o.prod (if nmA ∈ S then u.size else v.size) (selMat (if nmA ∈ S then bidx u.shape o else bidx v.shape o) fun k =>
        if f (u.vec (bidx u.shape o k)) (v.vec (bidx v.shape o k)) = (if nmA ∈ S then f (u.vec (bidx u.shape o k)) (v.vec (bidx v.shape o k) - f 1 (-1))
            else f (v.vec (bidx v.shape o k)) (u.vec (bidx u.shape o k) - f 1 (-1))) then 1 else 0) := by
  obtain ⟨d, h1, h2⟩ := rep_broadcastSetup h (decide (nmA ∈ S)) fun k =>
    if (bcastVal f u v o).vec k = (if nmA ∈ S then f (u.vec (bidx u.shape o k)) (v.vec (bidx v.shape o k) - f 1 (-1))
            else f (v.vec (bidx v.shape o k)) (u.vec (bidx u.shape o k) - f 1 (-1))) then 1 else 0
  refine ⟨d, ⟨0, ?_⟩, ?_⟩
  · simp only [lib, chExtremum]
    rw [if_neg (by tauto)]
    simp only [runBody, env2, if_true, if_neg (show nmB ≠ nmA by decide), h]
    rw [h1]; rfl
  · have e : ∀ k < o.prod, (bcastVal f u v o).vec k = f (u.vec (bidx u.shape o k)) (v.vec (bidx v.shape o k)) :=
      fun k hk => Arr.vec_of _ _ hk
    simp only [decide_eq_true_eq] at h2
    refine Jac.rep_congr (selMat_congr (fun _ _ => rfl) fun k hk => ?_) h2
    rw [e k hk]

theorem hasFDerivAt_max_left {a b : ℝ} (h : b < a) :
    HasFDerivAt (fun p : ℝ × ℝ => max p.1 p.2) (ContinuousLinearMap.fst ℝ ℝ ℝ) (a, b) := by
  refine hasFDerivAt_fst.congr_of_eventuallyEq ?_
  filter_upwards [(isOpen_lt continuous_snd continuous_fst).mem_nhds (show (a, b) ∈ {p : ℝ × ℝ | p.2 < p.1} from h)] with p hp
  exact max_eq_left (le_of_lt hp)
theorem hasFDerivAt_max_right {a b : ℝ} (h : a < b) :
    HasFDerivAt (fun p : ℝ × ℝ => max p.1 p.2) (ContinuousLinearMap.snd ℝ ℝ ℝ) (a, b) := by
  refine hasFDerivAt_snd.congr_of_eventuallyEq ?_
  filter_upwards [(isOpen_lt continuous_fst continuous_snd).mem_nhds (show (a, b) ∈ {p : ℝ × ℝ | p.1 < p.2} from h)] with p hp
  exact max_eq_right (le_of_lt hp)
theorem hasFDerivAt_min_left {a b : ℝ} (h : a < b) :
    HasFDerivAt (fun p : ℝ × ℝ => min p.1 p.2) (ContinuousLinearMap.fst ℝ ℝ ℝ) (a, b) := by
  refine hasFDerivAt_fst.congr_of_eventuallyEq ?_
  filter_upwards [(isOpen_lt continuous_fst continuous_snd).mem_nhds (show (a, b) ∈ {p : ℝ × ℝ | p.1 < p.2} from h)] with p hp
  exact min_eq_left (le_of_lt hp)
theorem hasFDerivAt_min_right {a b : ℝ} (h : b < a) :
    HasFDerivAt (fun p : ℝ × ℝ => min p.1 p.2) (ContinuousLinearMap.snd ℝ ℝ ℝ) (a, b) := by
  refine hasFDerivAt_snd.congr_of_eventuallyEq ?_
  filter_upwards [(isOpen_lt continuous_snd continuous_fst).mem_nhds (show (a, b) ∈ {p : ℝ × ℝ | p.2 < p.1} from h)] with p hp
  exact min_eq_right (le_of_lt hp)

/-- `maximum` or `minimum` where no two meeting entries are equal. -/
theorem exact_extremum {f : ℝ → ℝ → ℝ} (le : ℝ → ℝ → Prop) [DecidableRel le] (hf : ∀ a b, f a b = f a (b - f 1 (-1)) ↔ le b a)
    (hsym : ∀ a b, f a b = f b a)
    (hd : ∀ a b : ℝ, a ≠ b → HasFDerivAt (fun p : ℝ × ℝ => f p.1 p.2)
      ((if le b a then (1 : ℝ) else 0) • ContinuousLinearMap.fst ℝ ℝ ℝ + (if le a b then (1 : ℝ) else 0) • ContinuousLinearMap.snd ℝ ℝ ℝ) (a, b))
    (tm : Name → Option Par) {u v : Arr} {o : List ℕ} (h : bshape u.shape v.shape = some o)
    (hne : ∀ k < o.prod, u.vec (bidx u.shape o k) ≠ v.vec (bidx v.shape o k)) :
    Exact (chExtremum f) tm [nmA, nmB] ![u, v] (bcastVal f u v o)
      ![selMat (bidx u.shape o) fun k => if le (v.vec (bidx v.shape o k)) (u.vec (bidx u.shape o k)) then 1 else 0,
        selMat (bidx v.shape o) fun k => if le (u.vec (bidx u.shape o k)) (v.vec (bidx v.shape o k)) then 1 else 0] := by
  refine exact_bcast rfl tm h _ _ (fun k hk => hd _ _ (hne k hk)) ?_ ?_ ?_
  · obtain ⟨d, h1, h2⟩ := dr_extremum (f := f) tm h (S := [nmA]) (by simp)
    refine ⟨some d, h1, Jac.rep_congr ?_ h2⟩
    simp only [List.mem_singleton, if_true, hf]
    exact selMat_congr (fun _ _ => rfl) fun _ _ => by congr
  · obtain ⟨d, h1, h2⟩ := dr_extremum (f := f) tm h (S := [nmB]) (by simp)
    simp only [show (nmA ∈ [nmB]) = False from by simp, if_false] at h2
    refine ⟨some d, h1, Jac.rep_congr (selMat_congr (fun _ _ => rfl) fun k _ => ?_) h2⟩
    rw [hsym (u.vec _)]
    simp only [hf]
  · intro e
    subst e
    rw [bshape_self] at h; cases h
    obtain ⟨d, h1, h2⟩ := dr_extremum (f := f) tm (bshape_self u.shape) (S := [nmA, nmB]) (by simp)
    refine ⟨some d, h1, Jac.rep_congr ?_ (by simpa using h2)⟩
    intro i hi
    exact absurd rfl (hne i hi)

theorem exact_maximum (tm : Name → Option Par) {u v : Arr} {o : List ℕ} (h : bshape u.shape v.shape = some o)
    (hne : ∀ k < o.prod, u.vec (bidx u.shape o k) ≠ v.vec (bidx v.shape o k)) :
    Exact chMaximum tm [nmA, nmB] ![u, v] (bcastVal max u v o)
      ![selMat (bidx u.shape o) fun k => if v.vec (bidx v.shape o k) ≤ u.vec (bidx u.shape o k) then 1 else 0,
        selMat (bidx v.shape o) fun k => if u.vec (bidx u.shape o k) ≤ v.vec (bidx v.shape o k) then 1 else 0] := by
  refine exact_extremum (fun a b => a ≤ b) max_sel max_comm ?_ tm h hne
  intro a b hab
  rcases lt_or_gt_of_ne hab with c | c
  · rw [if_neg (not_le.2 c), if_pos c.le]
    exact (hasFDerivAt_max_right c).congr_fderiv (by simp)
  · rw [if_pos c.le, if_neg (not_le.2 c)]
    exact (hasFDerivAt_max_left c).congr_fderiv (by simp)

theorem exact_minimum (tm : Name → Option Par) {u v : Arr} {o : List ℕ} (h : bshape u.shape v.shape = some o)
    (hne : ∀ k < o.prod, u.vec (bidx u.shape o k) ≠ v.vec (bidx v.shape o k)) :
    Exact chMinimum tm [nmA, nmB] ![u, v] (bcastVal min u v o)
      ![selMat (bidx u.shape o) fun k => if u.vec (bidx u.shape o k) ≤ v.vec (bidx v.shape o k) then 1 else 0,
        selMat (bidx v.shape o) fun k => if v.vec (bidx v.shape o k) ≤ u.vec (bidx u.shape o k) then 1 else 0] := by
  refine exact_extremum (fun a b => b ≤ a) min_sel min_comm ?_ tm h hne
  intro a b hab
  rcases lt_or_gt_of_ne hab with c | c
  · rw [if_pos c.le, if_neg (not_le.2 c)]
    exact (hasFDerivAt_min_left c).congr_fderiv (by simp)
  · rw [if_neg (not_le.2 c), if_pos c.le]
    exact (hasFDerivAt_min_right c).congr_fderiv (by simp)

/-! ## Comparisons -/

/-- `greater`, `greater_equal`, `less`, `less_equal`, `equal`, `not_equal` (ch_ops.py:766-791), with truth values as 0 and 1. -/
noncomputable def chCompare (p : ℝ → ℝ → Prop) [DecidableRel p] : ClassDef where
  r := bcastBody fun x y => if p x y then 1 else 0
  dr := fun _ _ => .ret none
  dr_none := rfl

/-! ## `NanDivide` -/

/-- `NanDivide` (ch_ops.py:421-448) on arrays of (finite) reals: quotients by zero become 0, and so do the entries of the
Jacobian.  For inputs that are infinite or NaN see `Verif/AD/XFloat.lean`. -/
noncomputable def chNanDivide : ClassDef where
  r := bcastBody fun x y => if y = 0 then 0 else x / y
  dr := fun _ S =>
    if (nmA ∈ S) = (nmB ∈ S) then .ret none
    else .child nmA fun u => .child nmB fun v =>
      match bshape u.shape v.shape with
      | none => .raise 1
      | some o =>
        retOr (broadcastSetup u.shape v.shape (nmA ∈ S) fun k =>
          if v.vec (bidx v.shape o k) = 0 then 0
          else if nmA ∈ S then 1 / v.vec (bidx v.shape o k)
          else -u.vec (bidx u.shape o k) / (v.vec (bidx v.shape o k) * v.vec (bidx v.shape o k)))
  dr_none := by simp

theorem nanDivide_eq : chNanDivide = chDiv := by
  unfold chNanDivide chDiv
  congr 1
  · congr 1; funext x y; split
    · next h => simp [h]
    · rfl
  · funext b S
    split
    · rfl
    · congr 1; funext u; congr 1; funext v
      cases bshape u.shape v.shape with
      | none => rfl
      | some o =>
        dsimp only
        congr 2; funext k
        split
        · next h => simp [h]
        · rfl
end Chumpy
