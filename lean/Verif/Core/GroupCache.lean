import Verif.Core.Group
/-!
# The derivative cache of a `ChGroup`

`Verif/Core/Group.lean` computes the derivative of a group at every call.  Here the group's own `_cache['drs']` is added.
-/
namespace Chumpy
variable {C T V D : Type}

/-- A heap with a group, and the group's `_cache['drs']`.  As with the group's value, see `GSt`, the entries count as long as the heap has
something in the cache of `G`: `clear_cache` empties both (ch.py:426-427). -/
structure GCSt (C T V D : Type) where
  base : GSt C T V D
  drs : Id → Option (Option D)

/-- The group's `_cache['drs']` after `_call_on_changed` (ch.py:580-590, 1284-1287): assigning to a handle may clear it. -/
def keptDrs (s : Sig C T V D) (gr : Grp) (st : GCSt C T V D) : Id → Option (Option D) :=
  match ((syncG s gr.G (st.base.heap.node gr.G).dirty gr.args st.base.heap).1.node gr.G).cacheR with
  | none => fun _ => none
  | some _ => st.drs

/-- `Ch.dr_wrt`, forward mode (ch.py:729-834), of a group: what is in the cache is returned (ch.py:736-742), otherwise the derivative is
computed, as `drWrtG` does, and kept, the group having no parents (ch.py:820-821).  Simplification: the group has neither `_make_dense` nor
`_make_sparse`, so that what is kept and what is returned are the same. -/
def drWrtC (s : Sig C T V D) (gr : Grp) (f : Nat) (w : Id) (st : GCSt C T V D) : GCSt C T V D × Except Err (Option D) :=
  match callOnChangedG s gr st.base with
  | (b, .error e) => (⟨b, keptDrs s gr st⟩, .error e)
  | (b, .ok ()) =>
    match keptDrs s gr st w with
    | some d => (⟨b, keptDrs s gr st⟩, .ok d)
    | none =>
      match drWrtG s gr f w st.base with
      | (b', .error e) => (⟨b', keptDrs s gr st⟩, .error e)
      | (b', .ok d) => (⟨b', fun j => if j = w then some d else keptDrs s gr st j⟩, .ok d)

/-- One step; as `stepG`.  Assignments and reads of other objects do not touch the dictionary except through the mark. -/
def stepC (s : Sig C T V D) (gr : Grp) : GOp T → GCSt C T V D → GCSt C T V D
  | .group f, st => ⟨(readG s gr f st.base).1, keptDrs s gr st⟩
  | .groupDr f w, st => if (st.base.heap.node w).alive then (drWrtC s gr f w st).1 else st
  | op, st => ⟨stepG s gr op st.base, st.drs⟩

/-- A history from a state. -/
def runC (s : Sig C T V D) (gr : Grp) (ops : List (GOp T)) (st : GCSt C T V D) : GCSt C T V D :=
  ops.foldl (fun st op => stepC s gr op st) st
end Chumpy
