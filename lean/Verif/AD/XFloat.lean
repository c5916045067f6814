import Verif.AD.Pairwise
/-!
# `NanDivide` on extended numbers

Reals together with the two infinities and NaN.  Rounding, overflow and the sign of zero are not modelled: the sign of
zero only decides between the two infinities, both of which `NanDivide` replaces by 0.
-/
namespace Chumpy

/-- A number as floating point has them, without rounding. -/
inductive XF where
  | fin (x : ℝ)
  | pinf
  | ninf
  | nan

namespace XF
/-- An infinity with the sign of `x` (`x ≠ 0`). -/
noncomputable def infOf (x : ℝ) : XF := if 0 < x then pinf else ninf

/-- `-a`. -/
noncomputable def neg : XF → XF
  | fin x => fin (-x)
  | pinf => ninf
  | ninf => pinf
  | nan => nan

/-- `a * b`. -/
noncomputable def mul : XF → XF → XF
  | fin x, fin y => fin (x * y)
  | nan, _ => nan
  | _, nan => nan
  | fin x, pinf => if x = 0 then nan else infOf x
  | fin x, ninf => if x = 0 then nan else infOf (-x)
  | pinf, fin x => if x = 0 then nan else infOf x
  | ninf, fin x => if x = 0 then nan else infOf (-x)
  | pinf, pinf => pinf
  | pinf, ninf => ninf
  | ninf, pinf => ninf
  | ninf, ninf => pinf

/-- `a / b`. -/
noncomputable def div : XF → XF → XF
  | fin x, fin y => if y = 0 then (if x = 0 then nan else infOf x) else fin (x / y)
  | nan, _ => nan
  | _, nan => nan
  | fin _, pinf => fin 0
  | fin _, ninf => fin 0
  | pinf, fin y => if 0 ≤ y then pinf else ninf
  | ninf, fin y => if 0 ≤ y then ninf else pinf
  | pinf, pinf => nan
  | pinf, ninf => nan
  | ninf, pinf => nan
  | ninf, ninf => nan

/-- `result[np.isinf(result)] = 0; result[np.isnan(result)] = 0` (ch_ops.py:430-431, 441-442). -/
noncomputable def clean : XF → XF
  | fin x => fin x
  | _ => fin 0
end XF

/-- An array of extended numbers. -/
structure XArr where
  shape : List ℕ
  vec : ℕ → XF

/-- `NanDivide.compute_r` (ch_ops.py:424-432). -/
noncomputable def nanDivR (u v : XArr) : Option XArr :=
  (bshape u.shape v.shape).map fun o =>
    ⟨o, fun k => (XF.div (u.vec (bidx u.shape o k)) (v.vec (bidx v.shape o k))).clean⟩

/-- The stored entries of `NanDivide.compute_dr_wrt` (ch_ops.py:434-448 and 403-416), one for each entry of the result. -/
noncomputable def nanDivDr (u v : XArr) (o : List ℕ) (wrtA : Bool) : ℕ → XF := fun k =>
  (if wrtA then XF.div (.fin 1) (v.vec (bidx v.shape o k))
    else XF.div (XF.neg (u.vec (bidx u.shape o k))) (XF.mul (v.vec (bidx v.shape o k)) (v.vec (bidx v.shape o k)))).clean

namespace XF
@[simp] theorem clean_infOf (x : ℝ) : (infOf x).clean = fin 0 := by unfold infOf; split <;> rfl

/-- On finite numbers this is what `chNanDivide` does. -/
theorem div_fin (x y : ℝ) : (div (fin x) (fin y)).clean = fin (if y = 0 then 0 else x / y) := by
  simp only [div]
  by_cases h : y = 0
  · rw [if_pos h, if_pos h]; split
    · rfl
    · simp
  · rw [if_neg h, if_neg h]; rfl

theorem dr_fin (x y : ℝ) : (div (neg (fin x)) (mul (fin y) (fin y))).clean = fin (if y = 0 then 0 else -x / (y * y)) := by
  simp only [neg, mul]
  rw [div_fin]
  by_cases h : y = 0 <;> simp [h]
end XF
end Chumpy
