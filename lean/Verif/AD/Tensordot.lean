import Verif.AD.Dot
import Verif.AD.Built
/-!
# `tensordot` (np_tensordot.py:45-228)

The text of numpy's `tensordot`, executed inside ch_ops.py (ch_ops.py:798-804), so that `asarray`, `dot`, `transpose` and
`reshape` are those of chumpy.  The function looks at the shapes of its operands once, makes six objects and returns the last.
-/
namespace Chumpy

/-- One entry of a pair `axes`: an axis or a list of axes (np_tensordot.py:174-185). -/
inductive AxisArg where
  | one (z : ℤ)
  | many (l : List ℤ)

/-- The argument `axes`: a number, or a pair. -/
inductive AxesArg where
  | count (n : ℤ)
  | pair (a b : AxisArg)

/-- `axes_a = list(axes_a)`, or `[axes_a]` (np_tensordot.py:174-185). -/
def AxisArg.list : AxisArg → List ℤ
  | .one z => [z]
  | .many l => l

/-- `axes_a`, `axes_b` (np_tensordot.py:166-185); `range(-n, 0)` and `range(0, n)` for a number. -/
def AxesArg.lists : AxesArg → List ℤ × List ℤ
  | .count n => ((List.range n.toNat).map fun (t : ℕ) => (t : ℤ) - n, (List.range n.toNat).map fun (t : ℕ) => (t : ℤ))
  | .pair a b => (a.list, b.list)

/-- `[k for k in range(nda) if k not in axes_a]` (np_tensordot.py:209, 217). -/
def notin (n : ℕ) (ax : List ℕ) : List ℕ := (List.range n).filter fun k => k ∉ ax

/-- `[as_[axis] for axis in …]` (np_tensordot.py:215, 223). -/
def lengthsOf (sh ax : List ℕ) : List ℕ := ax.map fun t => sh.getD t 0

/-- What the six objects are made with: the axes of `a` and of `b`, no longer negative. -/
structure TdPlan where
  sa : List ℕ
  sb : List ℕ
  ia : List ℕ
  ib : List ℕ

namespace TdPlan
variable (p : TdPlan)
/-- `newaxes_a` (np_tensordot.py:210). -/
def axesA : List ℕ := notin p.sa.length p.ia ++ p.ia
/-- `newaxes_b` (np_tensordot.py:218). -/
def axesB : List ℕ := p.ib ++ notin p.sb.length p.ib
/-- `newshape_a` (np_tensordot.py:211-214). -/
def shapeA : List ℤ := [-1, ((lengthsOf p.sa p.ia).prod : ℕ)]
/-- `newshape_b` (np_tensordot.py:219-222). -/
def shapeB : List ℤ := [((lengthsOf p.sb p.ib).prod : ℕ), -1]
/-- `olda` (np_tensordot.py:215). -/
def freeA : List ℕ := lengthsOf p.sa (notin p.sa.length p.ia)
/-- `oldb` (np_tensordot.py:223). -/
def freeB : List ℕ := lengthsOf p.sb (notin p.sb.length p.ib)
end TdPlan

/-- The checks of np_tensordot.py:187-205: `none` where `tensordot` raises. -/
def tdPlan (sa sb : List ℕ) (ax : AxesArg) : Option TdPlan :=
  if ax.lists.1.length ≠ ax.lists.2.length then none
  else match ax.lists.1.mapM (normAxis sa.length), ax.lists.2.mapM (normAxis sb.length) with
    | some ia, some ib => if lengthsOf sa ia = lengthsOf sb ib then some ⟨sa, sb, ia, ib⟩ else none
    | _, _ => none

/-- A list of nonnegative numbers as Python ints. -/
def asInts (l : List ℕ) : List ℤ := l.map fun (k : ℕ) => (k : ℤ)

/-- The objects made by `tensordot` when the next identity is `n` (np_tensordot.py:225-228): `a.transpose(newaxes_a)`,
`.reshape(newshape_a)`, the same for `b`, `dot(at, bt)`, and `res.reshape(olda + oldb)`.  No `Reshape` is made of a
`Reshape`, so the loop of reordering.py:182-185 does nothing. -/
noncomputable def tdObjs (p : TdPlan) (a b n : ℕ) : List (ObjSpec ClassDef Par) :=
  [unPO chTranspose (.ints (asInts p.axesA)) .none a, unPO chReshape (.ints p.shapeA) .none n,
   unPO chTranspose (.ints (asInts p.axesB)) .none b, unPO chReshape (.ints p.shapeB) .none (n + 2),
   binO chDot (n + 1) (n + 3), unPO chReshape (.ints (asInts (p.freeA ++ p.freeB))) .none (n + 4)]

/-- The objects `n`, …, `n + 5` of the graph are those made by `tensordot` of `a` and `b`; `n + 5` is the one returned. -/
def MadeByTensordot (g : Graph ClassDef Par) (p : TdPlan) (a b n : ℕ) : Prop :=
  a < n ∧ b < n ∧ ∀ (j : ℕ) (hj : j < 6), g (n + j) = ((tdObjs p a b n)[j]'(by simpa [tdObjs] using hj)).node
end Chumpy
