import Verif.Core.Heap
/-!
# `ChGroup`: an object whose `compute_r` and `compute_dr_wrt` read an object it has no link to

`ChGroup(result, args)` puts handles into `result` and keeps it as the plain attribute `_result` (ch.py:1279-1308).  Its value is
`_result.r` and its derivative wrt anything is `_result.dr_wrt`.  The expression graph of `Verif/Core/Spec.lean` has no such objects;
here they are added, one at a time, on top of the caching machine: the group is an object `G` of the heap with the arguments as its
differentiable terms, nobody refers to it, and what its methods do is written out.
-/
namespace Chumpy
variable {C T V D α : Type}

/-- A group: the object itself, its `_result`, and its attribute `args` (ch.py:1293), argument names and handles.  Simplification:
arguments the result does not depend on (ch.py:1298-1300) are left out. -/
structure Grp where
  G : Id
  res : Id
  args : List (Name × Id)
  deriving DecidableEq

/-- The specification: the expression graph in which every handle refers to what the group now has under the argument's name.  The
value of the group is meant to be the value of `res` there. -/
def regroup (s : Sig C T V D) (gr : Grp) (g : Graph C T) : Graph C T := fun i =>
  match gr.args.find? (fun e => e.2 == i) with
  | none => g i
  | some e => { g i with dterms := fun k => if k = s.xname then (g gr.G).dterms e.1 else (g i).dterms k }

/-- A heap with a group in it.  `val` is the group's `_cache['r']`, which counts as long as the heap has something in the cache of `G`:
the bookkeeping of `G` (`clear_cache`, `_dirty_vars`) is that of the heap, and `callOnChangedG` leaves a mark there. -/
structure GSt (C T V D : Type) where
  heap : Heap C T V D
  val : Option V

/-- What is in the group's `_cache['r']`. -/
def GSt.cached (gr : Grp) (st : GSt C T V D) : Option V :=
  match (st.heap.node gr.G).cacheR with
  | none => none
  | some _ => st.val

/-- `ChGroup.on_changed(which)` (ch.py:1284-1287): a handle is assigned to unless it refers to the argument already.  The order of
`args` stands for the unspecified order of the Python set. -/
def syncG (s : Sig C T V D) (G : Id) (which : List Name) : List (Name × Id) → M C T V D Unit
  | [] => M.pure ()
  | (a, hd) :: rest =>
    if a ∈ which then fun h =>
      match (h.node G).dterms a with
      | none => (h, .error .attr)
      | some y =>
        if (h.node hd).dterms s.xname = some y then syncG s G which rest h
        else M.bind (setattr s hd none (.link s.xname y)) (fun _ => syncG s G which rest) h
    else syncG s G which rest

/-- `Ch._call_on_changed` (ch.py:580-590) of a group: `on_changed`, then the set of changed names is emptied.  The read of the mark of
`G` does the latter, see `GSt`; afterwards the mark is there, and the cache is empty exactly if `val` is. -/
def callOnChangedG (s : Sig C T V D) (gr : Grp) (st : GSt C T V D) : GSt C T V D × Except Err Unit :=
  match syncG s gr.G (st.heap.node gr.G).dirty gr.args st.heap with
  | (h, .error e) => (⟨h, st.val⟩, .error e)
  | (h, .ok ()) => (⟨(read s 1 (.r gr.G) h).1, GSt.cached gr ⟨h, st.val⟩⟩, .ok ())

/-- `Ch.r` (ch.py:593-600) of a group, with `compute_r` (ch.py:1304-1305). -/
def readG (s : Sig C T V D) (gr : Grp) (f : Nat) (st : GSt C T V D) : GSt C T V D × Except Err V :=
  match callOnChangedG s gr st with
  | (st, .error e) => (st, .error e)
  | (st, .ok ()) =>
    match st.val with
    | some v => (st, .ok v)
    | none =>
      match read s f (.r gr.res) st.heap with
      | (h, .ok v) => (⟨h, some v⟩, .ok v)
      | (h, .error e) => (⟨h, none⟩, .error e)

/-- The loop over the slices under `wrt` (ch.py:294-303) for a group; as `sliceLoop`, with `compute_dr_wrt` (ch.py:1307-1308). -/
def sliceLoopG (s : Sig C T V D) (gr : Grp) (f : Nat) : Nat → Id → M C T V D (Option (Id × D))
  | 0, _ => M.throw .fuel
  | n + 1, inner => fun h =>
    if s.isPermute (h.node inner).cls then
      match (h.node inner).dterms s.permArg with
      | none => (h, .error .attr)
      | some inner' =>
        if inner' = gr.G then (h, .ok none)
        else
          M.bind (drWrt s f gr.res inner') (fun
            | some d => M.pure (some (inner', d))
            | none => sliceLoopG s gr f n inner') h
    else (h, .ok none)

/-- `Ch._compute_dr_wrt_sliced` (ch.py:283-312) of a group, with `compute_dr_wrt` (ch.py:1307-1308).  The call of `_call_on_changed` of
the group is left out: there is nothing pending after the one at the beginning of `dr_wrt`. -/
def drSlicedG (s : Sig C T V D) (gr : Grp) (f : Nat) (w : Id) : M C T V D (Option D) :=
  M.bind (drWrt s f gr.res w) fun
    | some d => M.pure (some d)
    | none =>
      M.bind (sliceLoopG s gr f f w) fun
        | none => M.pure none
        | some (inner, d) =>
          M.bind (callOnChanged w) fun _ =>
          M.bind (runCompDr s f w inner) fun
            | none => M.throw .attr
            | some j => M.lift ((s.superdot d (s.transp j)).map some)

/-- The forward-mode loop over the differentiable terms (ch.py:752-778) of a group; as `drTerms`. -/
def drTermsG (s : Sig C T V D) (gr : Grp) (f : Nat) (w : Id) : List Name → List D → M C T V D (List D)
  | [], acc => M.pure acc
  | k :: ks, acc => fun h =>
    match (h.node gr.G).dterms k with
    | none => drTermsG s gr f w ks acc h
    | some p =>
      if p = w then drTermsG s gr f w ks acc h
      else
        M.bind (drWrt s f p w) (fun
          | none => drTermsG s gr f w ks acc
          | some d2 =>
            M.bind (drSlicedG s gr f p) (fun
              | none => drTermsG s gr f w ks acc
              | some d =>
                M.bind (M.lift (s.superdot d d2)) (fun x =>
                  drTermsG s gr f w ks (acc ++ [x])))) h

/-- `Ch.dr_wrt`, forward mode (ch.py:729-834), of a group.  Simplification: the group's own cache of derivatives is left out, the
derivative is computed at every call. -/
def drWrtG (s : Sig C T V D) (gr : Grp) (f : Nat) (w : Id) (st : GSt C T V D) : GSt C T V D × Except Err (Option D) :=
  match callOnChangedG s gr st with
  | (st, .error e) => (st, .error e)
  | (st, .ok ()) =>
    match M.bind (drSlicedG s gr f w) (fun direct =>
        M.bind (fun h => drTermsG s gr f w (h.node gr.G).dnames direct.toList h) fun ds =>
        M.bind (M.lift (sumD s ds)) fun r => fun h =>
          (h, .ok ((r.map s.finish).map (s.outForm (h.node gr.G).makeDense (h.node gr.G).makeSparse)))) st.heap with
    | (h, out) => (⟨h, st.val⟩, out)

/-- The loop of `ChGroup.__init__` (ch.py:1293-1300): for each argument a `ChHandle` of class `hcls` around it (ch.py:1293), which becomes
the attribute of the result (ch.py:1295), and the argument becomes a differentiable term of the group (ch.py:1297).  Simplification: the
handles are made one by one instead of all before the loop. -/
def groupArgs (s : Sig C T V D) (hcls : C) (G res : Id) : List (Name × Id) → M C T V D (List (Name × Id))
  | [] => M.pure []
  | (a, p) :: rest =>
    M.bind (newObj s hcls [s.xname] false false [.link s.xname p]) fun hd =>
    M.bind (setObj s res [.link a hd]) fun _ =>
    M.bind (addDterm s G a (.link a p)) fun _ =>
    M.bind (groupArgs s hcls G res rest) fun l => M.pure ((a, hd) :: l)

/-- `ChGroup(result, args)` (ch.py:1292-1301). -/
def makeGroup (s : Sig C T V D) (gcls hcls : C) (res : Id) (args : List (Name × Id)) : M C T V D Grp :=
  M.bind (newObj s gcls [] false false []) fun G =>
  M.bind (groupArgs s hcls G res args) fun l => M.pure ⟨G, res, l⟩

/-- What a program does with the objects and the group: one assignment, also to an argument of the group; reads of other objects;
reads of the group. -/
inductive GOp (T : Type) where
  | set (i : Id) (kw : KW T)
  | readR (f : Nat) (i : Id)
  | readDr (f : Nat) (i w : Id)
  | group (f : Nat)
  | groupDr (f : Nat) (w : Id)

/-- One step.  Assignments are those of ch.py:361-407, without a tag. -/
def stepG (s : Sig C T V D) (gr : Grp) : GOp T → GSt C T V D → GSt C T V D
  | .set i kw, st => ⟨(setObj s i [kw] st.heap).1, st.val⟩
  | .readR f i, st => if (st.heap.node i).alive then ⟨(read s f (.r i) st.heap).1, st.val⟩ else st
  | .readDr f i w, st =>
    if (st.heap.node i).alive ∧ (st.heap.node w).alive then ⟨(drWrt s f i w st.heap).1, st.val⟩ else st
  | .group f, st => (readG s gr f st).1
  | .groupDr f w, st => if (st.heap.node w).alive then (drWrtG s gr f w st).1 else st

/-- A history from a state. -/
def runG (s : Sig C T V D) (gr : Grp) (ops : List (GOp T)) (st : GSt C T V D) : GSt C T V D :=
  ops.foldl (fun st op => stepG s gr op st) st

end Chumpy
