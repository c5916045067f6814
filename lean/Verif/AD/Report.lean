import Mathlib.Data.List.Sort
import Verif.AD.Packing
/-!
# The callback of the optimiser: one line of progress per step
-/
namespace Chumpy

/-- What one line of the report shows, before it is turned into text (optimization_internal.py:149-151): the sum of squares of the whole,
and one for each label. -/
structure ReportLine (L : Type) where
  total : ℝ
  parts : List (L × ℝ)

/-- `np.sum(v**2)` (optimization_internal.py:149,151). -/
noncomputable def sumSq (v : Arr) : ℝ := ((List.range v.size).map fun k => v.vec k ^ 2).sum

variable {L : Type} [LinearOrder L]

/-- `sorted(list(labels.items()), key=lambda x: x[0])` (optimization_internal.py:150). -/
def sortLabels (ls : List (L × Id)) : List (L × Id) := ls.mergeSort fun a b => decide (a.1 ≤ b.1)

/-- The loop over the labels (optimization_internal.py:150-151). -/
noncomputable def reportParts (f : ℕ) : List (L × Id) → M ClassDef Par Arr Jac (List (L × ℝ))
  | [] => M.pure []
  | (l, o) :: rest => M.bind (read lib f (.r o)) fun v => M.bind (reportParts f rest) fun ps => M.pure ((l, sumSq v) :: ps)

/-- `callback` (optimization_internal.py:145-153): `on_step(obj)` if one was given (any action), then, if `disp` is set, the line.  `ls`
are the labels of a dict of objectives, and none for a list or a single object.  Simplified: the numbers are not formatted. -/
noncomputable def stepCallback (f : ℕ) (y : Id) (fvs : List Id) (onStep : Option (M ClassDef Par Arr Jac Unit)) (disp : Bool)
    (ls : List (L × Id)) : M ClassDef Par Arr Jac (Option (ReportLine L)) :=
  M.bind (onStep.getD (M.pure ())) fun _ =>
    if disp then M.bind (stackedR f y fvs) fun v => M.bind (reportParts f (sortLabels ls)) fun ps => M.pure (some ⟨sumSq v, ps⟩)
    else M.pure none
end Chumpy
