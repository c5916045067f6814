import Verif.AD.Operators
import Verif.AD.Reorder
import Verif.AD.Reduce
import Verif.AD.AxisExtremum
import Verif.AD.Dot
/-!
# Methods of `Ch` objects named after those of numpy arrays (ch.py:565-579, 1112-1129)
-/
namespace Chumpy

/-- A call `x.method(…)`.  An axis `none` is `axis=None`, also the default. -/
inductive Method where
  | T
  | transpose (args : List Par)
  | sum (axis : Option ℤ)
  | mean (axis : Option ℤ)
  | cumsum (axis : Option ℤ)
  | min (axis : Option ℤ)
  | max (axis : Option ℤ)
  | floor
  | ceil
  | dot (other : Operand)

/-- The value of a keyword `axis`. -/
def axisPar : Option ℤ → Par
  | none => .none
  | some z => .int z

/-- `cls(x, axis)`. -/
def axisO (c : ClassDef) (x : Id) (axis : Option ℤ) : ObjSpec ClassDef Par := ⟨c, [nmA], [.link nmA x, .term nmP (axisPar axis)]⟩

/-- `cls(x, p)`. -/
def parO (c : ClassDef) (x : Id) (p : Par) : ObjSpec ClassDef Par := ⟨c, [nmA], [.link nmA x, .term nmP p]⟩

/-- Make the object described. -/
noncomputable def makeSpec (o : ObjSpec ClassDef Par) : M ClassDef Par Arr Jac Id := newObj lib o.cls o.dnames false false o.kws

/-- `x.method(…)` (ch.py:565-579, 1112-1129).  `transpose(self, *axes)` is a constructor with positional arguments, which are assigned names by
`cls.term_order[idx]` (ch.py:119-120); there are two names, `a` and `axes` (reordering.py:113), so that two or more arguments to the method
raise `IndexError`. -/
noncomputable def callMethod (x : Id) : Method → M ClassDef Par Arr Jac Id
  | .T => makeSpec (unO chTranspose x)
  | .transpose [] => makeSpec (unO chTranspose x)
  | .transpose [p] => makeSpec (parO chTranspose x p)
  | .transpose (_ :: _ :: _) => M.throw (.user 2)
  | .sum axis => makeSpec (axisO chSum x axis)
  | .mean axis => makeSpec (axisO chMean x axis)
  | .cumsum axis => makeSpec (axisO chCumsum x axis)
  | .min axis => makeSpec (axisO chAmin x axis)
  | .max axis => makeSpec (axisO chAmax x axis)
  | .floor => makeSpec (unO chFloor x)
  | .ceil => makeSpec (unO chCeil x)
  | .dot other => makeBin chDot (.obj x) other
end Chumpy
