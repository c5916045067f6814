/-!
# Setting up classes and binding constructor arguments

The first construction of an object of a class completes the class: `Ch.setup_terms` (ch.py:142-174) assigns class attributes.
Class attributes are looked up along the chain of base classes, so what one class is given may be seen by others.
-/
namespace Chumpy.Cls

/-- The value of a class attribute `terms` or `dterms` as a programmer writes it: a string or a sequence of strings. -/
inductive Names where
  | str (n : Nat)
  | seq (l : List Nat)

/-- The sequence meant. -/
def Names.list : Names → List Nat
  | .str n => [n]
  | .seq l => l

/-- The classes of a program below `Ch`, numbered in the order in which they are defined: the base class (none for `Ch` itself;
single inheritance only), the `__name__`, the attributes written in the class body, and the names of the attributes which are
`Term` objects (ch.py:58-68).  `reserved` are the names in `Ch._reserved_kw` (ch.py:1168). -/
structure Classes where
  base : Nat → Option Nat
  base_lt : ∀ k p, base k = some p → p < k
  name : Nat → Nat
  terms : Nat → Option Names
  dterms : Nat → Option Names
  order : Nat → Option (List Nat)
  declared : Nat → List Nat
  reserved : Nat → Bool

variable (D : Classes)

/-- A class and its base classes, nearest first, without `Ch`. -/
def chain (k : Nat) : List Nat :=
  k :: match _h : D.base k with
    | none => []
    | some p => chain p
termination_by k
decreasing_by exact D.base_lt k p _h

/-- What is attached to the classes at some time: the attributes, the entries of `_setup_terms` and those of `_cached_parms`
(by `__name__`). -/
structure State where
  terms : Nat → Option Names
  dterms : Nat → Option Names
  order : Nat → Option (List Nat)
  ready : Nat → Bool
  parms : Nat → Option (List Nat)

/-- Before anything is constructed. -/
def start : State := ⟨D.terms, D.dterms, D.order, fun _ => false, fun _ => none⟩

/-- Looking up a class attribute; `none` if only `Ch` has it (or, for `term_order`, nobody). -/
def look {α : Type} (f : Nat → Option α) (k : Nat) : Option α := (chain D k).findSome? f

/-- Assigning a class attribute. -/
def put {α : Type} (f : Nat → Option α) (k : Nat) (x : α) : Nat → Option α := fun j => if j = k then some x else f j

/-- `parm_declarations` (ch.py:131-140): looked up by the name of the class, and computed if there is no entry. -/
def parmsOf (k : Nat) (s : State) : List Nat × State :=
  match s.parms (D.name k) with
  | some l => (l, s)
  | none => ((chain D k).flatMap D.declared, { s with parms := put s.parms (D.name k) ((chain D k).flatMap D.declared) })

/-- Lines 151-158, for one of the two attributes: empty if only `Ch` has it, a sequence if it is a string. -/
def tidy (f : Nat → Option Names) (k : Nat) : Nat → Option Names :=
  match look D f k with
  | none => put f k (.seq [])
  | some (.str n) => put f k (.seq [n])
  | some (.seq _) => f

/-- The sequence an attribute now is, for `cls`. -/
def listOf (f : Nat → Option Names) (k : Nat) : List Nat := ((look D f k).map Names.list).getD []

/-- Lines 151-158. -/
def tidied (k : Nat) (s : State) : State := { s with dterms := tidy D s.dterms k, terms := tidy D s.terms k }

/-- `list(cls.terms) + list(cls.dterms)`. -/
def allTerms (k : Nat) (s : State) : List Nat := listOf D s.terms k ++ listOf D s.dterms k

/-- Lines 168-169: `term_order`, unless the class has one or inherits one. -/
def ordered (k : Nat) (s : State) : State := if (look D s.order k).isNone then { s with order := put s.order k (allTerms D k s) } else s

/-- `setup_terms` (ch.py:142-174); `false` for an exception.  With `Term` declarations the method raises: either the assertion of
line 163 fails, or `t.name` of line 164 does, `t` being a string. -/
def setup (k : Nat) (s : State) : Bool × State :=
  if s.ready k then (true, s)
  else if (parmsOf D k s).1 ≠ [] then (false, tidied D k (parmsOf D k s).2)
  else if (allTerms D k (ordered D k (tidied D k (parmsOf D k s).2))).any D.reserved then (false, ordered D k (tidied D k (parmsOf D k s).2))
  else
    (true, { ordered D k (tidied D k (parmsOf D k s).2) with
      ready := fun j => j == k || (ordered D k (tidied D k (parmsOf D k s).2)).ready j })

/-- Lines 116-118: `kwargs[cls.term_order[idx]] = a` for the positional arguments in turn; `none` for an exception. -/
def bindArgs {α : Type} : List Nat → List α → (Nat → Option α) → Option (Nat → Option α)
  | _, [], kw => some kw
  | [], _ :: _, _ => none
  | n :: ns, a :: as, kw => bindArgs ns as (put kw n a)

/-- `cls(*pos, **kw)` (ch.py:86-126) up to the assignment of the attributes: what is assigned to each, or `none` for an exception.
Not modelled: `make_dense` and `make_sparse`, which are taken out of `kw`; a function as first argument, which makes a `ChLambda`. -/
def construct {α : Type} (k : Nat) (pos : List α) (kw : Nat → Option α) (s : State) : Option (Nat → Option α) × State :=
  let r := setup D k s
  if r.1 then
    let p := parmsOf D k r.2
    (if p.1 ≠ [] then none else bindArgs ((look D p.2.order k).getD []) pos kw, p.2)
  else (none, r.2)

/-- The constructions of a program so far: each names a class. -/
def after : List Nat → State
  | [] => start D
  | k :: older => (construct D (α := Unit) k [] (fun _ => none) (after older)).2

end Chumpy.Cls
