import Verif.Core.Traverse
/-!
# The tree written by `DrWrtProfiler` (monitor.py:74-110)
-/
namespace Chumpy
variable {C T : Type}

/-- An entry of the file `root_….json`: `{'id': i, 'indirect': False, 'children': […]}` or `{'id': i, 'indirect': True}`
(monitor.py:92-110, 111-122).  The `id` is the object's identity. -/
inductive Dump where
  | full (i : Id) (kids : List Dump)
  | indirect (i : Id)

/-- The loop over the operands in `dump_tree` (monitor.py:103-108); `rec` is `dump_tree` of an operand.  `seen` are the objects with the
attribute `visited` set. -/
def dumpKids (rec : Id → List Id → Option (Dump × List Id)) : List Id → List Id → Option (List Dump × List Id)
  | [], seen => some ([], seen)
  | c :: cs, seen =>
    match rec c seen with
    | none => none
    | some (d, seen1) =>
      match dumpKids rec cs seen1 with
      | none => none
      | some (ds, seen2) => some (d :: ds, seen2)

/-- `DrWrtProfiler.dump_tree(node)` (monitor.py:92-110): the entry for the object `i`, and the objects with `visited` set afterwards;
nothing ever resets the attribute.  `none` is `RecursionError`. -/
def dumpTree (g : Graph C T) : Nat → Id → List Id → Option (Dump × List Id)
  | 0, _, _ => none
  | f + 1, i, seen =>
    if i ∈ seen then some (.indirect i, seen)
    else
      match dumpKids (dumpTree g f) (g i).kids (i :: seen) with
      | none => none
      | some (ds, seen') => some (.full i ds, seen')
end Chumpy
