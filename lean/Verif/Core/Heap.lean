import Verif.Core.Spec
/-!
# The caching machine of ch.py
-/
namespace Chumpy
variable {C T V D α β : Type}

/-- One `Ch` object (`Ch.__new__`, ch.py:86-131): the graph part, and the bookkeeping
`_parents`, `_cache['r']`, `_cache['drs']`, `_depends_on_deps`, `_dirty_vars`, `_itr`.
* `parents`: the WeakKeyDictionary parent ↦ varnames, as an association list in insertion order.
* `drs w = some d`: `wrt in self._cache['drs']` with value `d` (which may itself be `None`).
* `props p = some v`: `out_of_date` is False with value `v`; `none`: out of date.  Simplification:
  the outdated value (only used for `out=` arguments) is dropped.
* `alive`: allocated and not collected. -/
structure Node (C T V D : Type) extends GNode C T where
  parents : List (Id × List Name)
  cacheR : Option V
  drs : Id → Option (Option D)
  props : Name → Option V
  dirty : List Name
  itr : Option Nat
  alive : Bool

/-- What an outside observer can see happening: a call `on_changed(which)`, and the starts of
`compute_r`, of a property function, of `compute_dr_wrt(w)`.  The trace is not in the source; it is the
model's record of those calls (ch.py:583, 595, 1213, 289). -/
inductive Event where
  | changed (i : Id) (which : List Name)
  | ranR (i : Id)
  | ranProp (i : Id) (p : Name)
  | ranDr (i w : Id)
  deriving DecidableEq, Repr

/-- All objects.  `next` is the next free identity, `giter` the global counter `_giter`
(optimization_internal.py:21), `log` the trace of calls made so far, oldest first. -/
structure Heap (C T V D : Type) where
  next : Nat
  node : Id → Node C T V D
  giter : Nat
  log : List Event

/-- The abstract graph of a heap. -/
def Heap.graph (h : Heap C T V D) : Graph C T := fun i => (h.node i).toGNode

/-- Change one object. -/
def Heap.modify (h : Heap C T V D) (i : Id) (f : Node C T V D → Node C T V D) : Heap C T V D :=
  { h with node := fun j => if j = i then f (h.node i) else h.node j }

/-- Stateful computations that may raise; the state survives the exception. -/
abbrev M (C T V D α : Type) := Heap C T V D → Heap C T V D × Except Err α

namespace M
def pure (a : α) : M C T V D α := fun h => (h, .ok a)
def throw (e : Err) : M C T V D α := fun h => (h, .error e)
def bind (m : M C T V D α) (k : α → M C T V D β) : M C T V D β := fun h =>
  match m h with
  | (h', .ok a) => k a h'
  | (h', .error e) => (h', .error e)
/-- Look at the graph part of object `i`. -/
def node (i : Id) : M C T V D (GNode C T) := fun h => (h, .ok (h.node i).toGNode)
def lift (r : Except Err α) : M C T V D α := fun h => (h, r)
end M

instance : Monad (M C T V D) where
  pure := M.pure
  bind := M.bind

/-- `Ch._call_on_changed` (ch.py:580-590).  `on_changed` itself is a hook whose calls are logged;
the `is_valid` hook and `_status` are not modelled.  Classes whose `on_changed` writes to other objects
(ChLambda, ChInputsStacked) are modelled separately. -/
def callOnChanged (i : Id) : M C T V D Unit := fun h =>
  if (h.node i).dirty.isEmpty then (h, .ok ())
  else ({ h.modify i (fun n => { n with dirty := [] }) with
          log := h.log ++ [.changed i (h.node i).dirty] }, .ok ())

/-- Record a call in the trace. -/
def emit (e : Event) : M C T V D Unit := fun h => ({ h with log := h.log ++ [e] }, .ok ())

/-- Run a body of object `i` on the heap; `rd` answers `.r` and property reads. -/
def runProg (rd : Req → M C T V D V) (i : Id) : Prog T V α → M C T V D α
  | .ret a => M.pure a
  | .raise c => M.throw (.user c)
  | .term n k => fun h => runProg rd i (k ((h.node i).terms n)) h
  | .child n k => fun h =>
    match (h.node i).dterms n with
    | none => (h, .error .attr)
    | some c => M.bind (rd (.r c)) (fun v => runProg rd i (k v)) h
  | .prop p k => M.bind (rd (.prop i p)) (fun v => runProg rd i (k v))
  | .selfR k => M.bind (rd (.r i)) (fun v => runProg rd i (k v))

/-- `self._cache['r'] = v` (ch.py:596). Simplification: `rview` (a read-only view) is the value. -/
def storeR (i : Id) (v : V) : M C T V D V := fun h =>
  (h.modify i (fun n => { n with cacheR := some v }), .ok v)

/-- `sdf['value'] = v; sdf['out_of_date'] = False` (ch.py:1213-1214). -/
def storeProp (i : Id) (p : Name) (v : V) : M C T V D V := fun h =>
  (h.modify i (fun n => { n with props := fun q => if q = p then some v else n.props q }), .ok v)

/-- `Ch.r` (ch.py:593-600) and the getter of a `@depends_on` property (ch.py:1207-1216). -/
def read (s : Sig C T V D) : Nat → Req → M C T V D V
  | 0, _ => M.throw .fuel
  | f + 1, .r i => M.bind (callOnChanged i) fun _ => fun h =>
    match (h.node i).cacheR with
    | some v => (h, .ok v)
    | none => M.bind (emit (.ranR i)) (fun _ =>
        M.bind (runProg (read s f) i (s.computeR (h.node i).cls)) (storeR i)) h
  | f + 1, .prop i p => fun h =>
    match s.propDecl (h.node i).cls p with
    | none => (h, .error .attr)
    | some d =>
      match (h.node i).props p with
      | some v => (h, .ok v)
      | none => M.bind (emit (.ranProp i p)) (fun _ =>
          M.bind (runProg (read s f) i d.2) (storeProp i p)) h

/-- `self.compute_dr_wrt(wrt)` for object `i` (e.g. ch.py:275-280). -/
def runCompDr (s : Sig C T V D) (f : Nat) (i w : Id) : M C T V D (Option D) :=
  M.bind (emit (.ranDr i w)) fun _ => fun h =>
  runProg (read s f) i
    (s.computeDr (h.node i).cls (i == w) ((h.node i).toGNode.namesOf w)) h

/-- The `while issubclass(inner.__class__, Permute)` loop (ch.py:294-303). -/
def sliceLoop (s : Sig C T V D) (f : Nat) (i : Id) : Nat → Id → M C T V D (Option (Id × D))
  | 0, _ => M.throw .fuel
  | n + 1, inner => fun h =>
    if s.isPermute (h.node inner).cls then
      match (h.node inner).dterms s.permArg with
      | none => (h, .error .attr)
      | some inner' =>
        if inner' = i then (h, .ok none)
        else
          M.bind (runCompDr s f i inner') (fun
            | some d => M.pure (some (inner', d))
            | none => sliceLoop s f i n inner') h
    else (h, .ok none)

/-- `Ch._compute_dr_wrt_sliced` (ch.py:283-312). `None.T` raises AttributeError. -/
def drSliced (s : Sig C T V D) (f : Nat) (i w : Id) : M C T V D (Option D) :=
  M.bind (callOnChanged i) fun _ =>
  M.bind (runCompDr s f i w) fun
    | some d => M.pure (some d)
    | none =>
      M.bind (sliceLoop s f i f w) fun
        | none => M.pure none
        | some (inner, d) =>
          M.bind (callOnChanged w) fun _ =>
          M.bind (runCompDr s f w inner) fun
            | none => M.throw .attr
            | some j => M.lift ((s.superdot d (s.transp j)).map some)

/-- The forward-mode loop over the differentiable terms (ch.py:752-778).  Simplification: the Python
set of names is traversed in list order; `rec p` is `p.dr_wrt(wrt)`; `compute_rop` (ch.py:723-727) is
inlined. -/
def drTerms (s : Sig C T V D) (f : Nat) (i w : Id) (rec : Id → M C T V D (Option D)) :
    List Name → List D → M C T V D (List D)
  | [], acc => M.pure acc
  | k :: ks, acc => fun h =>
    match (h.node i).dterms k with
    | none => drTerms s f i w rec ks acc h
    | some p =>
      if p = w then drTerms s f i w rec ks acc h
      else
        M.bind (rec p) (fun
          | none => drTerms s f i w rec ks acc
          | some d2 =>
            M.bind (drSliced s f i p) (fun
              | none => drTerms s f i w rec ks acc
              | some d =>
                M.bind (M.lift (s.superdot d d2)) (fun x =>
                  drTerms s f i w rec ks (acc ++ [x])))) h

/-- The caching rule at the end of `dr_wrt` (ch.py:820-821): store unless there is exactly one
parent.  (The test `alive` is redundant in Python: the caller holds a reference to `wrt`.) -/
def storeDr (i w : Id) (d : Option D) : M C T V D Unit := fun h =>
  if (h.node i).parents.length = 1 ∨ (h.node w).alive = false then (h, .ok ())
  else (h.modify i (fun n => { n with drs := fun x => if x = w then some d else n.drs x }), .ok ())

/-- `Ch.dr_wrt`, forward mode (ch.py:729-834). -/
def drWrt (s : Sig C T V D) : Nat → Id → Id → M C T V D (Option D)
  | 0, _, _ => M.throw .fuel
  | f + 1, i, w =>
    M.bind (callOnChanged i) fun _ => fun h =>
    match (h.node i).drs w with
    | some d => (h, .ok d)
    | none =>
      M.bind (drSliced s f i w) (fun direct =>
      M.bind (fun h => drTerms s f i w (fun p => drWrt s f p w) (h.node i).dnames direct.toList h) fun ds =>
      M.bind (M.lift (sumD s ds)) fun r =>
      M.bind (storeDr i w (r.map s.finish)) fun _ => fun h =>
        (h, .ok ((r.map s.finish).map (s.outForm (h.node i).makeDense (h.node i).makeSparse)))) h

/-! ## Writes -/

/-- `Ch._invalidate_cacheprop_names` (ch.py:409-413). -/
def Node.invalidate (s : Sig C T V D) (n : Node C T V D) (names : List Name) : Node C T V D :=
  { n with props := fun p =>
      match s.propDecl n.cls p with
      | none => n.props p
      | some d => if d.1.any (· ∈ names) then none else n.props p }

/-- `_dirty_vars.union(names)` / `_dirty_vars.add(name)`. -/
def Node.addDirty (n : Node C T V D) (names : List Name) : Node C T V D :=
  { n with dirty := names.foldl (fun d k => if k ∈ d then d else d ++ [k]) n.dirty }

/-- What `clear_cache` does to each parent of a cleared object (ch.py:429-431). -/
def touchParents (s : Sig C T V D) (ps : List (Id × List Name)) (h : Heap C T V D) : Heap C T V D :=
  ps.foldl (fun h p => h.modify p.1 (fun n => (n.addDirty p.2).invalidate s p.2)) h

/-- Clearing one object (ch.py:425-427). -/
def Node.wipe (n : Node C T V D) (itr : Option Nat) : Node C T V D :=
  { n with cacheR := none, drs := fun _ => none, itr := itr }

/-- The loop of `Ch.clear_cache` (ch.py:416-435); the stack's top is the list's head.  Result: the
heap, `nodes_visited`, and whether the loop ended (it always does, see `clearCache_terminates`). -/
def clearLoop (s : Sig C T V D) (itr : Option Nat) :
    Nat → List Id → List Id → Heap C T V D → Nat → Heap C T V D × Nat × Bool
  | 0, todo, _, h, c => (h, c, todo.isEmpty)
  | _ + 1, [], _, h, c => (h, c, true)
  | f + 1, n :: todo, done, h, c =>
    if itr.isSome && itr == (h.node n).itr then clearLoop s itr f todo done h (c + 1)
    else if n ∈ done then clearLoop s itr f todo done h (c + 1)
    else
      let ps := (h.node n).parents
      let h1 := h.modify n (·.wipe itr)
      let h2 := touchParents s ps h1
      clearLoop s itr f ((ps.map (·.1)).reverse ++ todo) (n :: done) h2 (c + 1)

/-- Total number of registrations in the heap. -/
def Heap.edges (h : Heap C T V D) : Nat :=
  ((List.range h.next).map (fun i => (h.node i).parents.length)).sum

/-- `Ch.clear_cache` with its return value. -/
def clearCacheFull (s : Sig C T V D) (i : Id) (itr : Option Nat) (h : Heap C T V D) :
    Heap C T V D × Nat × Bool :=
  clearLoop s itr (h.edges + 2) [i] [] h 0

/-- `Ch.clear_cache` for its effect. -/
def clearCache (s : Sig C T V D) (i : Id) (itr : Option Nat) (h : Heap C T V D) : Heap C T V D :=
  (clearCacheFull s i itr h).1

/-- Register `q` as a parent under name `k` (ch.py:390-393). -/
def addParent (q : Id) (k : Name) : List (Id × List Name) → List (Id × List Name)
  | [] => [(q, [k])]
  | (q', ns) :: rest =>
    if q' = q then (q', if k ∈ ns then ns else ns ++ [k]) :: rest
    else (q', ns) :: addParent q k rest

/-- Deregister (ch.py:383-387): `None` is the `KeyError` of `set.remove`. -/
def removeParent (q : Id) (k : Name) : List (Id × List Name) → Option (List (Id × List Name))
  | [] => some []
  | (q', ns) :: rest =>
    if q' = q then
      if k ∈ ns then
        let ns' := ns.filter (· ≠ k)
        some (if ns'.isEmpty then rest else (q', ns') :: rest)
      else none
    else (removeParent q k rest).map ((q', ns) :: ·)

/-- `__setattr__` on a non-differentiable term, or on `x` of a leaf (ch.py:361-407). -/
def setTerm (s : Sig C T V D) (i : Id) (n : Name) (t : T) (itr : Option Nat) : M C T V D Unit := fun h =>
  let h1 := h.modify i (fun nd => (nd.addDirty [n]).invalidate s [n])
  let h2 := clearCache s i itr h1
  (h2.modify i (fun nd => { nd with terms := fun m => if m = n then some t else nd.terms m }), .ok ())

/-- Make `i` not the parent of the value it has under `k` (ch.py:381-387); `none` is `KeyError`. -/
def unlink (i : Id) (k : Name) (h : Heap C T V D) : Option (Heap C T V D) :=
  match (h.node i).dterms k with
  | none => some h
  | some o =>
    match removeParent i k (h.node o).parents with
    | none => none
    | some ps => some (h.modify o (fun nd => { nd with parents := ps }))

/-- `__setattr__` on a differentiable term with a `Ch` value `c` (ch.py:361-407).  A value that is
not a `Ch` is first wrapped by `Ch(value)` (line 377), i.e. a new leaf. -/
def setDterm (s : Sig C T V D) (i : Id) (k : Name) (c : Id) (itr : Option Nat) : M C T V D Unit := fun h =>
  match unlink i k h with
  | none => (h, .error .key)
  | some h0 =>
    -- make ourselves parents of the new value
    let h1 := h0.modify c (fun nd => { nd with parents := addParent i k nd.parents })
    let h2 := h1.modify i (fun nd => (nd.addDirty [k]).invalidate s [k])
    let h3 := clearCache s i itr h2
    (h3.modify i (fun nd => { nd with dterms := fun m => if m = k then some c else nd.dterms m }), .ok ())

/-! ## Construction, keyword assignment, collection -/

/-- A new object before its keywords are assigned (ch.py:86-118). -/
def freshNode (cls : C) (dnames : List Name) (md ms : Bool) : Node C T V D where
  cls := cls
  terms := fun _ => none
  dnames := dnames
  dterms := fun _ => none
  makeDense := md
  makeSparse := ms
  parents := []
  cacheR := none
  drs := fun _ => none
  props := fun _ => none
  dirty := []
  itr := none
  alive := true

/-- An identity not in use. -/
def blankNode (cls : C) : Node C T V D := { freshNode cls [] false false with alive := false }

/-- No object yet. -/
def Heap.empty (s : Sig C T V D) : Heap C T V D where
  next := 0
  node := fun _ => blankNode s.base
  giter := 0
  log := []

/-- `object.__new__` and the initialisation of the bookkeeping fields (ch.py:91-118). -/
def alloc (cls : C) (dnames : List Name) (md ms : Bool) : M C T V D Id := fun h =>
  ({ h.modify h.next (fun _ => freshNode cls dnames md ms) with next := h.next + 1 }, .ok h.next)

/-- One keyword of `set` / one attribute assignment: a plain value for a non-differentiable term; an
existing object for a differentiable term; a plain value for a differentiable term (wrapped into a new
leaf, ch.py:376-377); or a value for which the assignment raises. -/
inductive KW (T : Type) where
  | term (n : Name) (t : T)
  | link (k : Name) (c : Id)
  | wrap (k : Name) (x : T)
  | bad (n : Name)

/-- `Ch(value)` (ch.py:128-129: the keyword `x`; `set` with one keyword, tag `None`). -/
def newLeaf (s : Sig C T V D) (x : T) : M C T V D Id :=
  M.bind (alloc s.base [] false false) fun l =>
  M.bind (setTerm s l s.xname x none) fun _ => M.pure l

/-- `__setattr__(name, value, itr)` (ch.py:361-407).  Guards (`attr`): a link needs a live object and a
declared differentiable name; anything else is outside the model. -/
def setattr (s : Sig C T V D) (i : Id) (itr : Option Nat) : KW T → M C T V D Unit
  | .term n t => setTerm s i n t itr
  | .link k c => fun h =>
    if k ∈ (h.node i).dnames ∧ (h.node c).alive = true then setDterm s i k c itr h
    else (h, .error .attr)
  | .wrap k x => fun h =>
    if k ∈ (h.node i).dnames then
      M.bind (newLeaf s x) (fun l => setDterm s i k l itr) h
    else (h, .error .attr)
  | .bad _ => M.throw (.user 0)

/-- `Ch.set(**kwargs)` (ch.py:467-482): all but the last keyword with tag 9999, the last with `None`.
Simplification: property-valued keywords are in Core/Alias.lean; the order of the list stands for the
(unspecified) order of the Python set. -/
def setAll (s : Sig C T V D) (i : Id) : List (KW T) → M C T V D Unit
  | [] => M.pure ()
  | [kw] => setattr s i none kw
  | kw :: kws => M.bind (setattr s i (some 9999) kw) fun _ => setAll s i kws

/-- Collection of an object nobody refers to: it disappears from the weak dictionaries of the others
(`_parents`, `_cache['drs']`, ch.py:99-100). -/
def collect (i : Id) (h : Heap C T V D) : Heap C T V D :=
  { h with node := fun j =>
      if j = i then { blankNode (h.node i).cls with itr := none }
      else { h.node j with
        parents := (h.node j).parents.filter (fun p => p.1 ≠ i)
        drs := fun w => if w = i then none else (h.node j).drs w } }

/-- The object an assignment refers to already exists in `h`. -/
def KW.Old (h : Heap C T V D) : KW T → Bool
  | .link _ c => (h.node c).alive
  | _ => true

/-- Hand out the new object `i`, or drop it if its initialisation raised. -/
def orCollect (i : Id) (m : M C T V D Unit) : M C T V D Id := fun h =>
  match m h with
  | (h', .ok _) => (h', .ok i)
  | (h', .error e) => (collect i h', .error e)

/-- `cls(**kwargs)` (ch.py:86-131).  If an assignment raises, the half-built object is garbage.
Guard (`attr`): the arguments are objects existing before the call (Python evaluates them first). -/
def newObj (s : Sig C T V D) (cls : C) (dnames : List Name) (md ms : Bool) (kws : List (KW T)) :
    M C T V D Id := fun h0 =>
  if kws.all (·.Old h0) then
    M.bind (alloc cls dnames md ms) (fun i => orCollect i (setAll s i kws)) h0
  else (h0, .error .attr)

/-- `Ch.add_dterm` (ch.py:337-339): the name joins `dterms`, then the attribute is assigned. -/
def addDterm (s : Sig C T V D) (i : Id) (k : Name) (kw : KW T) : M C T V D Unit := fun h =>
  setattr s i none kw (h.modify i (fun n => { n with dnames := if k ∈ n.dnames then n.dnames else n.dnames ++ [k] }))

/-- Any single assignment `obj.name = value` or `obj.set(...)` needs the object. -/
def setObj (s : Sig C T V D) (i : Id) (kws : List (KW T)) : M C T V D Unit := fun h =>
  if (h.node i).alive then setAll s i kws h else (h, .error .attr)

/-- Writes with tag `t`, one after the other. -/
def batchLoop (s : Sig C T V D) (t : Nat) : List (Id × KW T) → M C T V D Unit
  | [] => M.pure ()
  | w :: ws => M.bind (setattr s w.1 (some t) w.2) fun _ => batchLoop s t ws

/-- Several writes carrying the same new tag: what the optimiser does through the global counter
`_giter` (optimization_internal.py:73-98). -/
def batch (s : Sig C T V D) (ws : List (Id × KW T)) : M C T V D Unit := fun h =>
  let t := h.giter + 1
  if ws.all (fun w => (h.node w.1).alive) then batchLoop s t ws { h with giter := t }
  else (h, .error .attr)

/-! ## Copying -/

/-- The attribute dictionary restored by `Ch.__setstate__` (ch.py:351-355) for a copy of `n` whose differentiable
terms are `ls`: everything but `_parents` and `_cache` (`__getstate__`, ch.py:344-349).  For a plain `Ch` the loop of ch.py:358 then
assigns `x` to itself, which marks `x` as changed and resets `_itr`. -/
def cloneNode (s : Sig C T V D) (n : Node C T V D) (ls : List (Name × Id)) : Node C T V D :=
  { n with
    dterms := fun k => ls.lookup k
    parents := []
    cacheR := none
    drs := fun _ => none
    dirty := if s.isBase n.cls && (n.terms s.xname).isSome then (n.addDirty [s.xname]).dirty else n.dirty
    itr := if s.isBase n.cls && (n.terms s.xname).isSome then none else n.itr
    alive := true }

/-- `for k in ...: setattr(self, k, self.__dict__[k])` (ch.py:358-359). -/
def linkAll (s : Sig C T V D) (i : Id) : List (Name × Id) → M C T V D Unit
  | [] => M.pure ()
  | l :: ls => M.bind (setDterm s i l.1 l.2 none) fun _ => linkAll s i ls

/-- The links given to a copy of `j`: one existing object for each differentiable term `j` has. -/
def CloneOk (h : Heap C T V D) (j : Id) (ls : List (Name × Id)) : Bool :=
  (h.node j).alive && decide (ls.map (·.1)).Nodup &&
  ls.all (fun l => (h.node l.2).alive && ((h.node j).dnames.contains l.1 && ((h.node j).dterms l.1).isSome)) &&
  (h.node j).dnames.all (fun k => !((h.node j).dterms k).isSome || (ls.map (·.1)).contains k)

/-- Unpickling one object, the copy of `j`, after the objects `ls` it refers to (ch.py:344-359; ch_ops.py:95-96).  If a
`KeyError` is raised, the half-built object is garbage.  Simplification: the objects made from the class's default
arguments by the `__new__` call of the unpickler, which are dropped at once, are not modelled. -/
def clone (s : Sig C T V D) (j : Id) (ls : List (Name × Id)) : M C T V D Id := fun h =>
  if CloneOk h j ls then
    orCollect h.next (linkAll s h.next ls)
      { h.modify h.next (fun _ => cloneNode s (h.node j) ls) with next := h.next + 1 }
  else (h, .error .attr)

end Chumpy
