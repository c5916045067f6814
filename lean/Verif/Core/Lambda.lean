import Verif.Core.Heap
/-!
# Reads whose `on_changed` assigns to other objects: `ChLambda`

`Ch(lambda a, b: body)` makes a `ChLambda` whose body refers to handles, one for each argument (ch.py:1236-1265).  When an argument
is assigned, nothing happens to the handles; they are re-pointed by `on_changed`, that is when the object, or something depending on
it, is next read.  `Verif/Core/Heap.lean` has reads that write nothing but caches; here are the same functions with this `on_changed`.
-/
namespace Chumpy
variable {C T V D α β : Type}

/-- What is known about the lambdas of a program, besides the expression graph.
* `args F`: the attribute `args` of the lambda `F` (ch.py:1264), argument names and handles.  Simplification: arguments the result does
  not depend on (ch.py:1261-1263), whose handles nobody refers to, are left out.
* `of hd`: the inverse.
* `owners j`: the lambdas `j` is part of the body of: `j` was made while the lambda's function ran, and only parts of the body refer
  to it.  This is not in the source; it is used to say which objects the user of a lambda can get hold of. -/
structure Lam where
  args : Id → List (Name × Id)
  of : Id → Option (Id × Name)
  owners : Id → List Id

/-- The specification: the expression graph in which every handle refers to what its lambda has under the argument's name.  A lambda's
value is the value of its body there. -/
def applied (s : Sig C T V D) (L : Lam) (g : Graph C T) : Graph C T := fun i =>
  match L.of i with
  | none => g i
  | some (F, a) => { g i with dterms := fun k => if k = s.xname then (g F).dterms a else (g i).dterms k }

/-- No lambda yet. -/
def Lam.empty : Lam := ⟨fun _ => [], fun _ => none, fun _ => []⟩

/-- `ChLambda.on_changed(which)` (ch.py:1241-1243).  `self.args[argname].x = getattr(self, argname)` for the changed arguments; the
order of `args` stands for the unspecified order of the Python set. -/
def syncLoop (s : Sig C T V D) (F : Id) (which : List Name) : List (Name × Id) → M C T V D Unit
  | [] => M.pure ()
  | (a, hd) :: rest =>
    if a ∈ which then fun h =>
      match (h.node F).dterms a with
      | none => (h, .error .attr)
      | some y => M.bind (setattr s hd none (.link s.xname y)) (fun _ => syncLoop s F which rest) h
    else syncLoop s F which rest

/-- `Ch._call_on_changed` (ch.py:580-590): `on_changed`, then the set of changed names is emptied, whatever was added meanwhile. -/
def callOnChangedL (s : Sig C T V D) (L : Lam) (i : Id) : M C T V D Unit := fun h =>
  if (h.node i).dirty.isEmpty then (h, .ok ())
  else M.bind (syncLoop s i (h.node i).dirty (L.args i)) (fun _ h' =>
    ({ h'.modify i (fun n => { n with dirty := [] }) with log := h'.log ++ [.changed i (h.node i).dirty] }, .ok ())) h

/-- `Ch.r` (ch.py:593-600) and the getter of a `@depends_on` property (ch.py:1207-1216); as `read`. -/
def readL (s : Sig C T V D) (L : Lam) : Nat → Req → M C T V D V
  | 0, _ => M.throw .fuel
  | f + 1, .r i => M.bind (callOnChangedL s L i) fun _ => fun h =>
    match (h.node i).cacheR with
    | some v => (h, .ok v)
    | none => M.bind (emit (.ranR i)) (fun _ =>
        M.bind (runProg (readL s L f) i (s.computeR (h.node i).cls)) (storeR i)) h
  | f + 1, .prop i p => fun h =>
    match s.propDecl (h.node i).cls p with
    | none => (h, .error .attr)
    | some d =>
      match (h.node i).props p with
      | some v => (h, .ok v)
      | none => M.bind (emit (.ranProp i p)) (fun _ =>
          M.bind (runProg (readL s L f) i d.2) (storeProp i p)) h

/-- `self.compute_dr_wrt(wrt)`; as `runCompDr`. -/
def runCompDrL (s : Sig C T V D) (L : Lam) (f : Nat) (i w : Id) : M C T V D (Option D) :=
  M.bind (emit (.ranDr i w)) fun _ => fun h =>
  runProg (readL s L f) i
    (s.computeDr (h.node i).cls (i == w) ((h.node i).toGNode.namesOf w)) h

/-- The `while issubclass(inner.__class__, Permute)` loop (ch.py:294-303); as `sliceLoop`. -/
def sliceLoopL (s : Sig C T V D) (L : Lam) (f : Nat) (i : Id) : Nat → Id → M C T V D (Option (Id × D))
  | 0, _ => M.throw .fuel
  | n + 1, inner => fun h =>
    if s.isPermute (h.node inner).cls then
      match (h.node inner).dterms s.permArg with
      | none => (h, .error .attr)
      | some inner' =>
        if inner' = i then (h, .ok none)
        else
          M.bind (runCompDrL s L f i inner') (fun
            | some d => M.pure (some (inner', d))
            | none => sliceLoopL s L f i n inner') h
    else (h, .ok none)

/-- `Ch._compute_dr_wrt_sliced` (ch.py:283-312); as `drSliced`. -/
def drSlicedL (s : Sig C T V D) (L : Lam) (f : Nat) (i w : Id) : M C T V D (Option D) :=
  M.bind (callOnChangedL s L i) fun _ =>
  M.bind (runCompDrL s L f i w) fun
    | some d => M.pure (some d)
    | none =>
      M.bind (sliceLoopL s L f i f w) fun
        | none => M.pure none
        | some (inner, d) =>
          M.bind (callOnChangedL s L w) fun _ =>
          M.bind (runCompDrL s L f w inner) fun
            | none => M.throw .attr
            | some j => M.lift ((s.superdot d (s.transp j)).map some)

/-- The forward-mode loop over the differentiable terms (ch.py:752-778); as `drTerms`. -/
def drTermsL (s : Sig C T V D) (L : Lam) (f : Nat) (i w : Id) (rec : Id → M C T V D (Option D)) :
    List Name → List D → M C T V D (List D)
  | [], acc => M.pure acc
  | k :: ks, acc => fun h =>
    match (h.node i).dterms k with
    | none => drTermsL s L f i w rec ks acc h
    | some p =>
      if p = w then drTermsL s L f i w rec ks acc h
      else
        M.bind (rec p) (fun
          | none => drTermsL s L f i w rec ks acc
          | some d2 =>
            M.bind (drSlicedL s L f i p) (fun
              | none => drTermsL s L f i w rec ks acc
              | some d =>
                M.bind (M.lift (s.superdot d d2)) (fun x =>
                  drTermsL s L f i w rec ks (acc ++ [x])))) h

/-- `Ch.dr_wrt`, forward mode (ch.py:729-834); as `drWrt`. -/
def drWrtL (s : Sig C T V D) (L : Lam) : Nat → Id → Id → M C T V D (Option D)
  | 0, _, _ => M.throw .fuel
  | f + 1, i, w =>
    M.bind (callOnChangedL s L i) fun _ => fun h =>
    match (h.node i).drs w with
    | some d => (h, .ok d)
    | none =>
      M.bind (drSlicedL s L f i w) (fun direct =>
      M.bind (fun h => drTermsL s L f i w (fun p => drWrtL s L f p w) (h.node i).dnames direct.toList h) fun ds =>
      M.bind (M.lift (sumD s ds)) fun r =>
      M.bind (storeDr i w (r.map s.finish)) fun _ => fun h =>
        (h, .ok ((r.map s.finish).map (s.outForm (h.node i).makeDense (h.node i).makeSparse)))) h

/-- One step of a program with lambdas.
* `alloc`, `term`, `link`: an object is made and its attributes are assigned, one by one (`cls(**kws)` does this, ch.py:128-129, with a
  tag on all but the last, which does not matter for an object nobody refers to).  A plain value assigned to a differentiable
  attribute is wrapped by `Ch(value)` (ch.py:376-377): `alloc`, `term`, `link`.
* `clear`: `obj.clear_cache()`.
* `gc`: the garbage collector.
* `lambda F args body`: the lambda `F`, whose links to the arguments and to the result have been made, gets its attribute `args`
  (ch.py:1264), `body` being the objects made by its function.  Simplification: in the code the link to the result follows. -/
inductive LOp (C T : Type) where
  | alloc (cls : C) (dnames : List Name)
  | term (i : Id) (n : Name) (t : T)
  | link (i : Id) (k : Name) (c : Id)
  | clear (i : Id)
  | readR (f : Nat) (i : Id)
  | readProp (f : Nat) (i : Id) (p : Name)
  | readDr (f : Nat) (i w : Id)
  | gc (i : Id)
  | lambda (F : Id) (args : List (Name × Id)) (body : List Id)

/-- The lambdas after a step. -/
def Lam.step (L : Lam) : LOp C T → Lam
  | .lambda F args body =>
    { args := fun j => if j = F then args else L.args j
      of := fun j => match args.find? (fun p => p.2 == j) with
        | some p => some (F, p.1)
        | none => L.of j
      owners := fun j => if j ∈ body then F :: L.owners j else L.owners j }
  | _ => L

/-- The objects after a step. -/
def stepL (s : Sig C T V D) (L : Lam) : LOp C T → Heap C T V D → Heap C T V D
  | .alloc cls dnames, h => (alloc cls dnames false false h).1
  | .term i n t, h => if (h.node i).alive then (setTerm s i n t none h).1 else h
  | .link i k c, h => if (h.node i).alive then (setattr s i none (.link k c) h).1 else h
  | .clear i, h => if (h.node i).alive then clearCache s i none h else h
  | .readR f i, h => if (h.node i).alive then (readL s L f (.r i) h).1 else h
  | .readProp f i p, h => if (h.node i).alive then (readL s L f (.prop i p) h).1 else h
  | .readDr f i w, h => if (h.node i).alive ∧ (h.node w).alive then (drWrtL s L f i w h).1 else h
  | .gc i, h => if (h.node i).parents = [] then collect i h else h
  | .lambda _ _ _, h => h

end Chumpy
