import Verif.AD.XFloat
import Verif.Opt.Dogleg
/-!
# The dogleg method on floating-point numbers with infinities and NaN, in one dimension

One free variable with one entry, an objective with one entry; no rounding.
-/
namespace Chumpy
namespace XF

/-- `a + b`. -/
noncomputable def add : XF → XF → XF
  | fin x, fin y => fin (x + y)
  | nan, _ => nan
  | _, nan => nan
  | pinf, ninf => nan
  | ninf, pinf => nan
  | pinf, _ => pinf
  | ninf, _ => ninf
  | fin _, pinf => pinf
  | fin _, ninf => ninf

/-- `a - b`. -/
noncomputable def sub (a b : XF) : XF := add a (neg b)

open Classical in
/-- `a < b`; a comparison with NaN is false. -/
noncomputable def lt : XF → XF → Bool
  | fin x, fin y => decide (x < y)
  | nan, _ => false
  | _, nan => false
  | _, ninf => false
  | pinf, _ => false
  | ninf, _ => true
  | fin _, pinf => true

open Classical in
/-- `a <= b`. -/
noncomputable def le : XF → XF → Bool
  | fin x, fin y => decide (x ≤ y)
  | nan, _ => false
  | _, nan => false
  | ninf, _ => true
  | _, pinf => true
  | _, ninf => false
  | pinf, fin _ => false

/-- `np.sqrt`. -/
noncomputable def sqrt : XF → XF
  | fin x => if x < 0 then nan else fin (Real.sqrt x)
  | pinf => pinf
  | ninf => nan
  | nan => nan

/-- The norm of a vector with one entry. -/
noncomputable def abs : XF → XF
  | fin x => fin |x|
  | pinf => pinf
  | ninf => pinf
  | nan => nan

/-- Python's `max(a, b)`. -/
noncomputable def pmax (a b : XF) : XF := if lt a b then b else a
end XF

/-- The operations on vectors with one entry; `resid` and `jac` are the objective and its derivative; the solver divides
(optimization_internal.py:290). -/
noncomputable def xfOps (resid jac : XF → XF) : Ops XF XF XF XF XF XF where
  lt := XF.lt
  le := XF.le
  zero := .fin 0
  two := .fin 2
  quarter := .fin (1 / 4)
  twoHalf := .fin (5 / 2)
  lb := .fin (1 / 20)
  ub := .fin (9 / 10)
  add := XF.add
  sub := XF.sub
  mul := XF.mul
  div := XF.div
  max := XF.pmax
  sqrt := XF.sqrt
  vadd := XF.add
  vsub := XF.sub
  smul := XF.mul
  dot := XF.mul
  norm := XF.abs
  normInf := XF.abs
  rnorm := XF.abs
  jmul := XF.mul
  jtneg J r := XF.mul J (XF.neg r)
  gram J := XF.mul J J
  amul := XF.mul
  solve A g := XF.div g A
  resid := resid
  jac := jac
  put v _ := v
  get w := w
end Chumpy
