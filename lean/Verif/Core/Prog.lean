/-!
# What a class body may do

chumpy classes define `compute_r`, `compute_dr_wrt` and `@depends_on` properties as arbitrary Python
code.  `Prog` is the type of such code as far as the caching machinery can tell: an adaptive program
that reads the object's own terms, its children's `.r`, its own properties, its own `.r`, or raises.
-/
namespace Chumpy

/-- Object identity (`id(obj)`; `Ch.__hash__`, ch.py:198).  Identities are never reused. -/
abbrev Id := Nat

/-- Attribute names. -/
abbrev Name := Nat

/-- Exceptions as values.  `fuel` is Python's `RecursionError` (or a loop that never ends), `attr` an
`AttributeError`/`KeyError` on a missing attribute, `key` the `KeyError` of `set.remove` (ch.py:385),
`user` anything raised by a class body or by numpy. -/
inductive Err where
  | fuel
  | attr
  | key
  | user (code : Nat)
  deriving DecidableEq, Repr

/-- A class body.  `T` is the type of non-differentiable term values, `V` the type of array values.
`term n` is `self.n` for a non-differentiable term (`none` when the attribute is missing), `child n`
is `self.n.r` for a differentiable term, `prop p` is `self.p` for a `@depends_on` property, `selfR` is
`self.r`.  Simplification: bodies do not catch exceptions, and do not assign attributes. -/
inductive Prog (T V α : Type) where
  | ret (a : α)
  | raise (code : Nat)
  | term (n : Name) (k : Option T → Prog T V α)
  | child (n : Name) (k : V → Prog T V α)
  | prop (p : Name) (k : V → Prog T V α)
  | selfR (k : V → Prog T V α)

/-- `p.Only decl ns`: the body touches only the terms and children named in `ns`, and properties whose
declared names (`decl`) are among `ns`; never the own value.  This is what the author of a
`@depends_on(ns)` property promises (ch.py:1194-1220). -/
def Prog.Only {T V α : Type} (decl : Name → Option (List Name)) (ns : List Name) : Prog T V α → Prop
  | .ret _ => True
  | .raise _ => True
  | .term n k => n ∈ ns ∧ ∀ t, (k t).Only decl ns
  | .child n k => n ∈ ns ∧ ∀ v, (k v).Only decl ns
  | .prop p k => (∃ ds, decl p = some ds ∧ ∀ m ∈ ds, m ∈ ns) ∧ ∀ v, (k v).Only decl ns
  | .selfR _ => False

/-- The classes of a program: everything a subclass of `Ch` supplies, and the arithmetic on
Jacobians used by the chain rule.

* `computeR c` – `compute_r`.
* `computeDr c isSelf names` – `compute_dr_wrt(wrt)`, where `isSelf` says `wrt is self` and `names` are
  the differentiable terms `k` with `self.k is wrt`.  Class bodies inspect `wrt` only by identity
  with their own terms (e.g. ch_ops.py:552-557), which is what this signature expresses.
* `propDecl c p` – the `@depends_on` property `p`: declared names and body (ch.py:1194-1220).
* `isPermute c` – `issubclass(c, Permute)` (reordering.py:18); `permArg` is the name `a`.
* `isBase c` – `type(self) == Ch`, a leaf; `base` is that class, `xname` the name `x`.
* `superdot` (ch.py:602-645, both operands present), `add` (`x+y` in the `reduce`, ch.py:788),
  `transp` (`.T`, ch.py:310), `finish` (ch.py:792-806: sparse conversion and `atleast_2d`),
  `outForm` (ch.py:826-829: `_make_dense`, `_make_sparse`), `todense` (ch.py:706-708). -/
structure Sig (C T V D : Type) where
  computeR : C → Prog T V V
  computeDr : C → Bool → List Name → Prog T V (Option D)
  propDecl : C → Name → Option (List Name × Prog T V V)
  isPermute : C → Bool
  permArg : Name
  isBase : C → Bool
  base : C
  xname : Name
  superdot : D → D → Except Err D
  add : D → D → Except Err D
  transp : D → D
  finish : D → D
  todense : D → D
  outForm : Bool → Bool → D → D

/-- Every `@depends_on` property reads only what it declares. -/
def Sig.PropsOk {C T V D : Type} (s : Sig C T V D) : Prop :=
  ∀ c p d, s.propDecl c p = some d → d.2.Only (fun q => (s.propDecl c q).map (·.1)) d.1

/-- The links and parameters of one object: what the user can see of the expression graph. -/
structure GNode (C T : Type) where
  cls : C
  /-- names of the non-differentiable terms are those given to `setTerm`; values -/
  terms : Name → Option T
  /-- `self.dterms`, the names of the differentiable terms (may grow, `add_dterm` ch.py:337) -/
  dnames : List Name
  /-- the objects currently stored under those names -/
  dterms : Name → Option Id
  makeDense : Bool
  makeSparse : Bool

/-- The abstract expression graph: what values and derivatives are supposed to depend on. -/
abbrev Graph (C T : Type) := Id → GNode C T

/-- What can be asked of an object. -/
inductive Req where
  | r (i : Id)
  | prop (i : Id) (p : Name)
  deriving DecidableEq, Repr

end Chumpy
