import Verif.AD.XFloat
import Verif.AD.Unary
/-!
# `nan_to_num`, and the derivative of `sqrt` built on it, on extended numbers
-/
namespace Chumpy
namespace XF
/-- `np.nan_to_num`: NaN becomes 0, the infinities become the largest numbers; `big` is the largest double. -/
noncomputable def toNum (big : ℝ) : XF → XF
  | fin x => fin x
  | nan => fin 0
  | pinf => fin big
  | ninf => fin (-big)

/-- `np.asarray(np.isfinite(x), np.float64)`. -/
noncomputable def isFin : XF → XF
  | fin _ => fin 1
  | _ => fin 0

/-- `np.power(x, -0.5)`. -/
noncomputable def powNegHalf : XF → XF
  | fin x => if 0 < x then fin (x ^ (-0.5 : ℝ)) else if x = 0 then pinf else nan
  | pinf => fin 0
  | ninf => fin 0
  | nan => nan
end XF

/-- `nan_to_num._r` (ch_ops.py:232), entry by entry. -/
noncomputable def nanToNumR (big : ℝ) (v : XArr) : XArr := ⟨v.shape, fun k => (v.vec k).toNum big⟩

/-- `nan_to_num._d` (ch_ops.py:233), the diagonal that `UnaryElemwise.compute_dr_wrt` stores. -/
noncomputable def nanToNumD (v : XArr) : ℕ → XF := fun k => (v.vec k).isFin

/-- `sqrt._d` (ch_ops.py:243-250): `.5 * my_power(x, -0.5)`, `my_power` being `np.nan_to_num(np.power(…))`. -/
noncomputable def sqrtD (big : ℝ) (v : XArr) : ℕ → XF := fun k => XF.mul (.fin 0.5) ((v.vec k).powNegHalf.toNum big)

/-- `nan_to_num` (ch_ops.py:231-233) as an object of the graph, where all entries are finite. -/
noncomputable def chNanToNum : ClassDef := chUnary (fun x => x) (fun _ => 1)
end Chumpy
