import Verif.AD.AxisExtremum
/-!
# What can be asked of an object other than its value (ch.py:202-204, 316-332, 555-559; ch_ops.py:62-68, 793-796)
-/
namespace Chumpy

/-- A question that is answered from the value of the object. -/
inductive Ask where
  | shape | size | ndim | len | float | int | array | argmax | argmin | flatnonzero | argwhere | nonzero

/-- The answers. -/
inductive Ans where
  | nat (n : ℕ)
  | nats (l : List ℕ)
  | natss (l : List (List ℕ))
  | real (x : ℝ)
  | int (z : ℤ)
  | arr (v : Arr)

/-- `int(x)` of a float: towards zero. -/
noncomputable def truncZ (x : ℝ) : ℤ := if 0 ≤ x then ⌊x⌋ else ⌈x⌉

open Classical in
/-- `np.flatnonzero`. -/
noncomputable def flatNonzero (v : Arr) : List ℕ := (List.range v.size).filter fun k => v.vec k ≠ 0

/-- What numpy answers about the value `v`. -/
noncomputable def answer (v : Arr) : Ask → Except Err Ans
  | .shape => .ok (.nats v.shape)
  | .size => .ok (.nat v.shape.prod)
  | .ndim => .ok (.nat v.shape.length)
  | .len => match v.shape with
    | [] => .error (.user 1)
    | n :: _ => .ok (.nat n)
  | .float => if v.size = 1 then .ok (.real (v.vec 0)) else .error (.user 1)
  | .int => if v.size = 1 then .ok (.int (truncZ (v.vec 0))) else .error (.user 1)
  | .array => .ok (.arr v)
  | .argmax => if v.size = 0 then .error (.user 1) else .ok (.nat (argF max v.size v.vec))
  | .argmin => if v.size = 0 then .error (.user 1) else .ok (.nat (argF min v.size v.vec))
  | .flatnonzero => .ok (.nats (flatNonzero v))
  | .argwhere => .ok (.natss ((flatNonzero v).map (unravel v.shape)))
  | .nonzero => .ok (.natss ((List.range v.shape.length).map fun d => (flatNonzero v).map fun k => (unravel v.shape k).getD d 0))

/-- `x.shape`, `x.size`, `x.ndim`, `len(x)`, `float(x)`, `int(x)`, `np.asarray(x)` (ch.py:202-204, 316-325, 331-332, 555-559),
`argmax(x)`, `argmin(x)` without axis, `flatnonzero(x)`, `argwhere(x)`, `nonzero(x)` (ch_ops.py:62-68, 793-796): each reads
`self.r` and asks numpy.  `size` reads `self.shape`, which reads `self.r` (ch.py:317, 323). -/
noncomputable def ask (f : ℕ) (q : Ask) (i : Id) (h : Heap ClassDef Par Arr Jac) : Heap ClassDef Par Arr Jac × Except Err Ans :=
  match read lib f (.r i) h with
  | (h', .ok v) => (h', answer v q)
  | (h', .error e) => (h', .error e)
end Chumpy
