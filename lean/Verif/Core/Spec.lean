import Verif.Core.Prog
/-!
# Specification: evaluation without any cache

The value of an object is what its body computes when every `.r` and every property it asks for is
computed afresh.  No heap, no caches, no back-links, no iteration tags occur here.
-/
namespace Chumpy
variable {C T V D α : Type}

/-- Run a body of object `i`, asking `ev` for values of other objects and of properties. -/
def evalProg (g : Graph C T) (ev : Req → Except Err V) (i : Id) : Prog T V α → Except Err α
  | .ret a => .ok a
  | .raise c => .error (.user c)
  | .term n k => evalProg g ev i (k ((g i).terms n))
  | .child n k =>
    match (g i).dterms n with
    | none => .error .attr
    | some c =>
      match ev (.r c) with
      | .ok v => evalProg g ev i (k v)
      | .error e => .error e
  | .prop p k =>
    match ev (.prop i p) with
    | .ok v => evalProg g ev i (k v)
    | .error e => .error e
  | .selfR k =>
    match ev (.r i) with
    | .ok v => evalProg g ev i (k v)
    | .error e => .error e

/-- Value of `i.r`, or of property `i.p`, computed from scratch with recursion limit `fuel`. -/
def evalReq (s : Sig C T V D) (g : Graph C T) : Nat → Req → Except Err V
  | 0, _ => .error .fuel
  | f + 1, .r i => evalProg g (evalReq s g f) i (s.computeR (g i).cls)
  | f + 1, .prop i p =>
    match s.propDecl (g i).cls p with
    | none => .error .attr
    | some d => evalProg g (evalReq s g f) i d.2

/-- `Means s g q r`: with a sufficient recursion limit, evaluating `q` from scratch on graph `g`
ends with outcome `r` (a value, or an exception other than `RecursionError`). -/
def Means (s : Sig C T V D) (g : Graph C T) (q : Req) (r : Except Err V) : Prop :=
  r ≠ .error .fuel ∧ ∃ f, evalReq s g f q = r

/-- The names under which object `i` refers to `w`. -/
def GNode.namesOf (n : GNode C T) (w : Id) : List Name :=
  n.dnames.filter (fun k => n.dterms k = some w)

/-- `i.compute_dr_wrt(w)` from scratch. -/
def evalCompDr (s : Sig C T V D) (g : Graph C T) (f : Nat) (i w : Id) : Except Err (Option D) :=
  evalProg g (evalReq s g f) i (s.computeDr (g i).cls (i == w) ((g i).namesOf w))

/-- The walk down a chain of `Permute` objects starting at `inner` (ch.py:295-303). -/
def evalSlice (s : Sig C T V D) (g : Graph C T) (f : Nat) (i : Id) :
    Nat → Id → Except Err (Option (Id × D))
  | 0, _ => .error .fuel
  | n + 1, inner =>
    if s.isPermute (g inner).cls then
      match (g inner).dterms s.permArg with
      | none => .error .attr
      | some inner' =>
        if inner' = i then .ok none
        else
          match evalCompDr s g f i inner' with
          | .error e => .error e
          | .ok (some d) => .ok (some (inner', d))
          | .ok none => evalSlice s g f i n inner'
    else .ok none

/-- Derivative of `i` through its own body only, wrt `w` or through the chain of slices under `w`. -/
def evalSliced (s : Sig C T V D) (g : Graph C T) (f : Nat) (i w : Id) : Except Err (Option D) :=
  match evalCompDr s g f i w with
  | .error e => .error e
  | .ok (some d) => .ok (some d)
  | .ok none =>
    match evalSlice s g f i f w with
    | .error e => .error e
    | .ok none => .ok none
    | .ok (some (inner, d)) =>
      match evalCompDr s g f w inner with
      | .error e => .error e
      | .ok none => .error .attr
      | .ok (some j) => (s.superdot d (s.transp j)).map some

/-- Contributions of the children: for each differentiable name `k` holding `p ≠ w`, the derivative
of `i` wrt `p` times the derivative of `p` wrt `w`. -/
def evalTerms (s : Sig C T V D) (g : Graph C T) (f : Nat) (i w : Id)
    (ev : Id → Except Err (Option D)) : List Name → List D → Except Err (List D)
  | [], acc => .ok acc
  | k :: ks, acc =>
    match (g i).dterms k with
    | none => evalTerms s g f i w ev ks acc
    | some p =>
      if p = w then evalTerms s g f i w ev ks acc
      else
        match ev p with
        | .error e => .error e
        | .ok none => evalTerms s g f i w ev ks acc
        | .ok (some d2) =>
          match evalSliced s g f i p with
          | .error e => .error e
          | .ok none => evalTerms s g f i w ev ks acc
          | .ok (some d) =>
            match s.superdot d d2 with
            | .error e => .error e
            | .ok x => evalTerms s g f i w ev ks (acc ++ [x])

/-- `reduce(lambda x, y: x+y, drs)`, `None` for the empty list (ch.py:780-788). -/
def sumD (s : Sig C T V D) : List D → Except Err (Option D)
  | [] => .ok none
  | d :: ds => (ds.foldlM s.add d).map some

/-- The chain rule of `Ch.dr_wrt` in forward mode, from scratch: no derivative is ever looked up. -/
def evalDr (s : Sig C T V D) (g : Graph C T) : Nat → Id → Id → Except Err (Option D)
  | 0, _, _ => .error .fuel
  | f + 1, i, w =>
    match evalSliced s g f i w with
    | .error e => .error e
    | .ok direct =>
      match evalTerms s g f i w (fun p => evalDr s g f p w) (g i).dnames direct.toList with
      | .error e => .error e
      | .ok ds =>
        match sumD s ds with
        | .error e => .error e
        | .ok r => .ok (r.map (fun d => s.outForm (g i).makeDense (g i).makeSparse (s.finish d)))

/-- As `Means`, for derivatives. -/
def MeansDr (s : Sig C T V D) (g : Graph C T) (i w : Id) (r : Except Err (Option D)) : Prop :=
  r ≠ .error .fuel ∧ ∃ f, evalDr s g f i w = r

end Chumpy
