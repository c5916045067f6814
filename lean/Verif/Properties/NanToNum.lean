import Verif.AD.NanToNum
import Verif.Properties.Elementwise
/-!
# C84: replacing entries that are not finite
-/
namespace Chumpy
open scoped Topology

/-- The extended number is an ordinary one. -/
def XF.Finite (a : XF) : Prop := ∃ x, a = .fin x

/-- C84: the value has the shape of the operand and only finite entries; finite entries are kept, NaN gives 0, an infinity gives the
largest number with its sign. -/
theorem C84_nan_to_num_value (big : ℝ) (v : XArr) :
    (nanToNumR big v).shape = v.shape ∧ ∀ k, ((nanToNumR big v).vec k).Finite ∧ ((v.vec k).Finite → (nanToNumR big v).vec k = v.vec k) ∧
      (v.vec k = .nan → (nanToNumR big v).vec k = .fin 0) ∧ (v.vec k = .pinf → (nanToNumR big v).vec k = .fin big) ∧
      (v.vec k = .ninf → (nanToNumR big v).vec k = .fin (-big)) := by
  refine ⟨rfl, fun k => ?_⟩
  unfold nanToNumR
  dsimp only
  cases v.vec k <;> simp [XF.toNum, XF.Finite]

/-- C84: the entry of the derivative is 1 where the operand's entry is finite, and 0 where it was replaced. -/
theorem C84_nan_to_num_derivative (v : XArr) (k : ℕ) :
    ((v.vec k).Finite → nanToNumD v k = .fin 1) ∧ (¬ (v.vec k).Finite → nanToNumD v k = .fin 0) := by
  unfold nanToNumD
  cases v.vec k <;> simp [XF.isFin, XF.Finite]

/-- C84: twice is once. -/
theorem C84_nan_to_num_twice (big : ℝ) (v : XArr) : nanToNumR big (nanToNumR big v) = nanToNumR big v := by
  unfold nanToNumR
  congr 1
  funext k
  dsimp only
  cases v.vec k <;> rfl

/-- C84: the reported derivative of `sqrt` is finite for every operand, also where it has none: it is the derivative at positive numbers,
half the largest number at 0, and 0 at all others. -/
theorem C84_sqrt_derivative (big : ℝ) (v : XArr) (k : ℕ) : (sqrtD big v k).Finite ∧
    (∀ x, 0 < x → v.vec k = .fin x → sqrtD big v k = .fin (deriv Real.sqrt x)) ∧ (v.vec k = .fin 0 → sqrtD big v k = .fin (big / 2)) ∧
    ((∀ x, 0 ≤ x → v.vec k ≠ .fin x) → sqrtD big v k = .fin 0) := by
  have hd : ∀ x : ℝ, 0 < x → 0.5 * x ^ (-0.5 : ℝ) = deriv Real.sqrt x := by
    intro x hx
    have h3 : HasDerivAt Real.sqrt (1 / (2 * Real.sqrt x)) x := Real.hasDerivAt_sqrt hx.ne'
    rw [h3.deriv, show (-0.5 : ℝ) = -(1 / 2) by norm_num, Real.rpow_neg hx.le, ← Real.sqrt_eq_rpow]
    have := (Real.sqrt_pos.2 hx).ne'
    field_simp
    norm_num
  unfold sqrtD
  cases hv : v.vec k with
  | fin x =>
    rcases lt_trichotomy 0 x with hx | hx | hx
    · simp only [XF.powNegHalf, if_pos hx, XF.toNum, XF.mul, hd x hx]
      refine ⟨⟨_, rfl⟩, fun y _ e => by cases e; rfl, fun e => ?_, fun h => absurd rfl (h x hx.le)⟩
      cases e; exact absurd hx (lt_irrefl _)
    · subst hx
      simp only [XF.powNegHalf, lt_irrefl, if_false, if_true, XF.toNum, XF.mul]
      refine ⟨⟨_, rfl⟩, fun y hy e => ?_, fun _ => by congr 1; ring, fun h => absurd rfl (h 0 le_rfl)⟩
      cases e; exact absurd hy (lt_irrefl _)
    · simp only [XF.powNegHalf, if_neg hx.le.not_gt, if_neg hx.ne, XF.toNum, XF.mul, mul_zero]
      refine ⟨⟨_, rfl⟩, fun y hy e => ?_, fun e => ?_, fun _ => by trivial⟩
      · cases e; exact absurd hy hx.le.not_gt
      · cases e; exact absurd hx (lt_irrefl _)
  | pinf => simp [XF.powNegHalf, XF.toNum, XF.mul, XF.Finite]
  | ninf => simp [XF.powNegHalf, XF.toNum, XF.mul, XF.Finite]
  | nan => simp [XF.powNegHalf, XF.toNum, XF.mul, XF.Finite]

section
variable {h : Heap ClassDef Par Arr Jac} {y a : Id} {v : Arr}

/-- C84: as an object of the graph, on finite values, it is the identity, and so is the matrix it reports.  (For the shapes of C32.) -/
theorem C84_objects (hr : Reach lib ⟨False, True⟩ h) (hy : IsA h.graph y chNanToNum [nmA] fun _ => a)
    (hv : Means lib h.graph (.r a) (.ok v)) (hs : DiagShape v.shape) :
    Right h y v ∧ (IsLeaf h.graph a → Reports h y a v.size v.size Ent.one) := by
  have hm : mapVal (fun x => x) v = v := Arr.ext_vec rfl fun k hk => Arr.vec_of _ _ hk
  have hd' : ∀ k < v.size, HasDerivAt (fun x : ℝ => x) 1 (v.vec k) := fun k _ => hasDerivAt_id _
  have hR := right_unary (d := fun _ => 1) hr hy hv hs hd'
  rw [hm] at hR
  refine ⟨hR, fun hl => ?_⟩
  obtain ⟨j, h1, h2⟩ := diagOr_rep hs fun _ => 1
  refine reports_of_rep hr hy (v := fun _ => v) (out := v) (fun _ => hv) ?_ (fun _ => hl) ⟨(0 : Fin 1), rfl⟩ (d := some j) ?_ ?_
  · have := means_of_isA hy (v := fun _ => v) (fun _ => hv) (by erw [env_one]; exact returns_unary (fun x => x) (fun _ => 1) _ v)
    rwa [hm] at this
  · rw [namesOf_one hy]; erw [env_one]
    exact ⟨0, by simp [lib, chNanToNum, chUnary, runBody, env1, h1]⟩
  · exact Jac.rep_congr (fun i _ k _ => by simp [selMat, Ent.one]) h2
end

/-- The model on extended numbers, restricted to finite ones, is the class `C84_objects` is about. -/
theorem nanToNum_finite (big : ℝ) (v : Arr) : nanToNumR big ⟨v.shape, fun k => .fin (v.vec k)⟩ = ⟨v.shape, fun k => .fin (v.vec k)⟩ ∧
    nanToNumD ⟨v.shape, fun k => .fin (v.vec k)⟩ = fun _ => .fin 1 := ⟨rfl, rfl⟩

/-- The hypotheses of C84 are met. -/
example : ∃ h, Reach lib ⟨False, True⟩ h ∧ IsA h.graph 1 chNanToNum [nmA] (fun _ => 0) ∧ Means lib h.graph (.r 0) (.ok ⟨[2], ![1, 5]⟩) ∧
    IsLeaf h.graph 0 := by
  obtain ⟨h, a, b, c, d⟩ := ADDemo.unary_reach (c := chNanToNum) rfl ⟨[2], ![1, 5]⟩ (by simp)
  exact ⟨h, a, b, c, d⟩
end Chumpy
