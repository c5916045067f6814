import Verif.Core.Step
/-!
# Differentiable terms declared as Python properties

A class may declare a differentiable term `aliased` and define `aliased` as a property that reads and
writes an attribute of one of its arguments:

    dterms = ('aliased', 'child')
    @property
    def aliased(self): return self.child.a
    @aliased.setter
    def aliased(self, val): self.child.a = val

(ch.py:38-42, 372-407, 466-482, 752-755; test_inner_composition.py:13-76).  Here is the machine of
`Core/Heap.lean` with such names.
-/
namespace Chumpy
variable {C T V D α β : Type}

/-- The aliases of each class: `al c n = some (k, k2)` says that in class `c` the name `n` is a property
that stands for `self.k.k2`.  Simplification: only this form of property is modelled, and `k2` is an ordinary
attribute of the object it is looked up in. -/
abbrev Aliases (C : Type) := C → Name → Option (Name × Name)

/-- `getattr(obj, n)` for a differentiable term, in a graph: through the property if `n` is one.  `none`
is `AttributeError`. -/
def Graph.look (al : Aliases C) (g : Graph C T) (i : Id) (n : Name) : Option Id :=
  match al (g i).cls n with
  | none => (g i).dterms n
  | some (k, k2) => ((g i).dterms k).bind (fun c => (g c).dterms k2)

/-- `getattr(obj, n)` on the heap. -/
def Heap.look (al : Aliases C) (h : Heap C T V D) (i : Id) (n : Name) : Option Id := h.graph.look al i n

/-! ## Reading -/

/-- As `runProg`: run a body of object `i`; `self.n` is looked up by `getattr`. -/
def runProgA (al : Aliases C) (rd : Req → M C T V D V) (i : Id) : Prog T V α → M C T V D α
  | .ret a => M.pure a
  | .raise c => M.throw (.user c)
  | .term n k => fun h => runProgA al rd i (k ((h.node i).terms n)) h
  | .child n k => fun h =>
    match h.look al i n with
    | none => (h, .error .attr)
    | some c => M.bind (rd (.r c)) (fun v => runProgA al rd i (k v)) h
  | .prop p k => M.bind (rd (.prop i p)) (fun v => runProgA al rd i (k v))
  | .selfR k => M.bind (rd (.r i)) (fun v => runProgA al rd i (k v))

/-- `Ch.r` (ch.py:593-600) and the getter of a `@depends_on` property (ch.py:1207-1216). -/
def readA (s : Sig C T V D) (al : Aliases C) : Nat → Req → M C T V D V
  | 0, _ => M.throw .fuel
  | f + 1, .r i => M.bind (callOnChanged i) fun _ => fun h =>
    match (h.node i).cacheR with
    | some v => (h, .ok v)
    | none => M.bind (emit (.ranR i)) (fun _ =>
        M.bind (runProgA al (readA s al f) i (s.computeR (h.node i).cls)) (storeR i)) h
  | f + 1, .prop i p => fun h =>
    match s.propDecl (h.node i).cls p with
    | none => (h, .error .attr)
    | some d =>
      match (h.node i).props p with
      | some v => (h, .ok v)
      | none => M.bind (emit (.ranProp i p)) (fun _ =>
          M.bind (runProgA al (readA s al f) i d.2) (storeProp i p)) h

/-- The declared names `k` with `wrt is self.k`: what `compute_dr_wrt(wrt)` finds out about `wrt`. -/
def Heap.namesA (al : Aliases C) (h : Heap C T V D) (i w : Id) : List Name :=
  (h.node i).dnames.filter (fun k => h.look al i k = some w)

/-- `self.compute_dr_wrt(wrt)` for object `i` (e.g. ch.py:275-280). -/
def runCompDrA (s : Sig C T V D) (al : Aliases C) (f : Nat) (i w : Id) : M C T V D (Option D) :=
  M.bind (emit (.ranDr i w)) fun _ => fun h =>
  runProgA al (readA s al f) i (s.computeDr (h.node i).cls (i == w) (h.namesA al i w)) h

/-- The `while issubclass(inner.__class__, Permute)` loop (ch.py:294-303). -/
def sliceLoopA (s : Sig C T V D) (al : Aliases C) (f : Nat) (i : Id) : Nat → Id → M C T V D (Option (Id × D))
  | 0, _ => M.throw .fuel
  | n + 1, inner => fun h =>
    if s.isPermute (h.node inner).cls then
      match h.look al inner s.permArg with
      | none => (h, .error .attr)
      | some inner' =>
        if inner' = i then (h, .ok none)
        else
          M.bind (runCompDrA s al f i inner') (fun
            | some d => M.pure (some (inner', d))
            | none => sliceLoopA s al f i n inner') h
    else (h, .ok none)

/-- `Ch._compute_dr_wrt_sliced` (ch.py:283-312). -/
def drSlicedA (s : Sig C T V D) (al : Aliases C) (f : Nat) (i w : Id) : M C T V D (Option D) :=
  M.bind (callOnChanged i) fun _ =>
  M.bind (runCompDrA s al f i w) fun
    | some d => M.pure (some d)
    | none =>
      M.bind (sliceLoopA s al f i f w) fun
        | none => M.pure none
        | some (inner, d) =>
          M.bind (callOnChanged w) fun _ =>
          M.bind (runCompDrA s al f w inner) fun
            | none => M.throw .attr
            | some j => M.lift ((s.superdot d (s.transp j)).map some)

/-- The forward-mode loop over the differentiable terms (ch.py:752-778): the names that are properties of the
class and those present in `__dict__`, each looked up by `getattr`.  Simplification: for a property whose
target is not set `getattr` would raise; the name is skipped here. -/
def drTermsA (s : Sig C T V D) (al : Aliases C) (f : Nat) (i w : Id) (rec : Id → M C T V D (Option D)) :
    List Name → List D → M C T V D (List D)
  | [], acc => M.pure acc
  | k :: ks, acc => fun h =>
    match h.look al i k with
    | none => drTermsA s al f i w rec ks acc h
    | some p =>
      if p = w then drTermsA s al f i w rec ks acc h
      else
        M.bind (rec p) (fun
          | none => drTermsA s al f i w rec ks acc
          | some d2 =>
            M.bind (drSlicedA s al f i p) (fun
              | none => drTermsA s al f i w rec ks acc
              | some d =>
                M.bind (M.lift (s.superdot d d2)) (fun x =>
                  drTermsA s al f i w rec ks (acc ++ [x])))) h

/-- `Ch.dr_wrt`, forward mode (ch.py:729-834). -/
def drWrtA (s : Sig C T V D) (al : Aliases C) : Nat → Id → Id → M C T V D (Option D)
  | 0, _, _ => M.throw .fuel
  | f + 1, i, w =>
    M.bind (callOnChanged i) fun _ => fun h =>
    match (h.node i).drs w with
    | some d => (h, .ok d)
    | none =>
      M.bind (drSlicedA s al f i w) (fun direct =>
      M.bind (fun h => drTermsA s al f i w (fun p => drWrtA s al f p w) (h.node i).dnames direct.toList h) fun ds =>
      M.bind (M.lift (sumD s ds)) fun r =>
      M.bind (storeDr i w (r.map s.finish)) fun _ => fun h =>
        (h, .ok ((r.map s.finish).map (s.outForm (h.node i).makeDense (h.node i).makeSparse)))) h

/-! ## Writing -/

/-- The name an assignment assigns to. -/
def KW.target : KW T → Name
  | .term n _ => n
  | .link k _ => k
  | .wrap k _ => k
  | .bad n => n

/-- The assignment `child.k2 = value` made by the setter of a property. -/
def KW.onto (k2 : Name) : KW T → KW T
  | .term _ t => .wrap k2 t
  | .link _ c => .link k2 c
  | .wrap _ x => .wrap k2 x
  | .bad _ => .bad k2

/-- Lines 398-404 of `__setattr__` alone: mark the name as changed, invalidate the properties that declare
it, clear the cache. -/
def touch (s : Sig C T V D) (i : Id) (n : Name) (itr : Option Nat) (h : Heap C T V D) : Heap C T V D :=
  clearCache s i itr (h.modify i (fun nd => (nd.addDirty [n]).invalidate s [n]))

/-- `__setattr__(name, value, itr)` (ch.py:361-407).  If `name` is a property the object is not made a parent
of the value (line 375); its caches are cleared if the name is declared as a term (line 397); then line 406 runs
the setter, `self.k.k2 = value`, an ordinary assignment without tag. -/
def setattrA (s : Sig C T V D) (al : Aliases C) (i : Id) (itr : Option Nat) (kw : KW T) : M C T V D Unit := fun h =>
  match al (h.node i).cls kw.target with
  | none => setattr s i itr kw h
  | some (k, k2) =>
    let h1 := if kw.target ∈ (h.node i).dnames then touch s i kw.target itr h else h
    match (h1.node i).dterms k with
    | none => (h1, .error .attr)
    | some c => setattr s c none (kw.onto k2) h1

/-- The keywords of `set` in the order in which they are assigned: those that are properties come last
(ch.py:472-475). -/
def ordered (al : Aliases C) (c : C) (kws : List (KW T)) : List (KW T) :=
  kws.filter (fun kw => (al c kw.target).isNone) ++ kws.filter (fun kw => (al c kw.target).isSome)

/-- The loop of `Ch.set` (ch.py:479-482): all but the last keyword with tag 9999, the last with `None`. -/
def setAllA (s : Sig C T V D) (al : Aliases C) (i : Id) : List (KW T) → M C T V D Unit
  | [] => M.pure ()
  | [kw] => setattrA s al i none kw
  | kw :: kws => M.bind (setattrA s al i (some 9999) kw) fun _ => setAllA s al i kws

/-- `obj.set(**kws)`, or `obj.name = value` for one keyword. -/
def setObjA (s : Sig C T V D) (al : Aliases C) (i : Id) (kws : List (KW T)) : M C T V D Unit := fun h =>
  if (h.node i).alive then setAllA s al i (ordered al (h.node i).cls kws) h else (h, .error .attr)

/-- `cls(**kws)` (ch.py:86-131); see `newObj`. -/
def newObjA (s : Sig C T V D) (al : Aliases C) (cls : C) (dnames : List Name) (kws : List (KW T)) : M C T V D Id := fun h0 =>
  if kws.all (·.Old h0) then
    M.bind (alloc cls dnames false false) (fun i => orCollect i (setAllA s al i (ordered al cls kws))) h0
  else (h0, .error .attr)

/-- The operations of a history with aliases.  Simplification: the tagged writes of the optimiser, `add_dterm`,
copies and reverse mode are those of `Core/Step.lean` and do not occur here. -/
inductive AOp (C T : Type) where
  | new (cls : C) (dnames : List Name) (kws : List (KW T))
  | set (i : Id) (kws : List (KW T))
  | clear (i : Id)
  | readR (f : Nat) (i : Id)
  | readProp (f : Nat) (i : Id) (p : Name)
  | readDr (f : Nat) (i w : Id)
  | gc (i : Id)

/-- One operation. -/
def stepA (s : Sig C T V D) (al : Aliases C) : AOp C T → M C T V D (Out V D)
  | .new cls dnames kws => M.map' Out.obj (newObjA s al cls dnames kws)
  | .set i kws => M.map' (fun _ => Out.unit) (setObjA s al i kws)
  | .clear i => ifAlive i (fun h => (clearCache s i none h, .ok .unit))
  | .readR f i => ifAlive i (M.map' Out.val (readA s al f (.r i)))
  | .readProp f i p => ifAlive i (M.map' Out.val (readA s al f (.prop i p)))
  | .readDr f i w => ifAlive i (ifAlive w (M.map' Out.dr (drWrtA s al f i w)))
  | .gc i => fun h => if (h.node i).parents = [] then (collect i h, .ok .unit) else (h, .ok .unit)

/-- A history from a state, exceptions included. -/
def runA (s : Sig C T V D) (al : Aliases C) (ops : List (AOp C T)) (h : Heap C T V D) : Heap C T V D :=
  ops.foldl (fun h op => (stepA s al op h).1) h

/-! ## What the objects stand for -/

/-- The graph in which every name leads where `getattr` leads: the specification is evaluation on this graph,
in which nothing is an alias. -/
def Graph.view (al : Aliases C) (g : Graph C T) : Graph C T := fun i => { g i with dterms := g.look al i }

end Chumpy
