import Verif.Core.Inv
/-!
# Concrete classes, for examples and counterexamples

Arrays are lists of integers, Jacobians are lists of rows with a flag saying "sparse".  The bodies are
written after the classes of the library they are named after.
-/
namespace Chumpy.Demo

/-- Matrices as lists of rows. -/
abbrev Mat := List (List Int)

def eye (n : Nat) : Mat := (List.range n).map fun i => (List.range n).map fun j => if i = j then 1 else 0
def diag (v : List Int) : Mat :=
  (List.range v.length).map fun i => (List.range v.length).map fun j => if i = j then v.getD i 0 else 0
def transp (m : Mat) : Mat :=
  (List.range (m.headD []).length).map fun j => m.map fun r => r.getD j 0
def dotv (a b : List Int) : Int := (List.zipWith (· * ·) a b).foldl (· + ·) 0
def matmul (a b : Mat) : Mat := a.map fun r => (transp b).map (dotv r)
def madd (a b : Mat) : Mat := List.zipWith (List.zipWith (· + ·)) a b

/-- `leaf`: `Ch` (ch.py:271-280).  `add`, `mul`: ch_ops.py:546-557, 704-721 without broadcasting.
`select`: `Select` with integer positions (reordering.py:276-301).  `root`: a body that raises on a
negative entry.  `twice`: a class with the property `p = 2*a` declared `@depends_on('a')` and value
`p + b`. -/
inductive Cls where
  | leaf | add | mul | select | root | twice
  deriving DecidableEq, Repr

/-- Attribute names: `x`, `a`, `b`, `idxs`, and the property `p`. -/
abbrev x : Name := 0
abbrev a : Name := 1
abbrev b : Name := 2
abbrev idxs : Name := 3
abbrev p : Name := 10

abbrev Arr := List Int
abbrev Jac := Mat × Bool

def computeR : Cls → Prog Arr Arr Arr
  | .leaf => .term x fun | some v => .ret v | none => .raise 9
  | .add => .child a fun u => .child b fun v => .ret (List.zipWith (· + ·) u v)
  | .mul => .child a fun u => .child b fun v => .ret (List.zipWith (· * ·) u v)
  | .select => .child a fun u => .term idxs fun
      | some ks => .ret (ks.map fun k => u.getD k.toNat 0)
      | none => .raise 9
  | .root => .child a fun u => if u.any (· < 0) then .raise 1 else .ret u
  | .twice => .prop p fun u => .child b fun v => .ret (List.zipWith (· + ·) u v)

/-- Sum of the contributions of the matching names. -/
def both (na nb : Bool) (ma mb : Mat) : Option Jac :=
  match na, nb with
  | true, true => some (madd ma mb, true)
  | true, false => some (ma, true)
  | false, true => some (mb, true)
  | false, false => none

def computeDr : Cls → Bool → List Name → Prog Arr Arr (Option Jac)
  | .leaf, true, _ => .selfR fun v => .ret (some (eye v.length, true))
  | .leaf, false, _ => .ret none
  | .add, _, ns =>
    if ns.isEmpty then .ret none
    else .child a fun u => .ret (both (ns.contains a) (ns.contains b) (eye u.length) (eye u.length))
  | .mul, _, ns =>
    if ns.isEmpty then .ret none
    else .child a fun u => .child b fun v => .ret (both (ns.contains a) (ns.contains b) (diag v) (diag u))
  | .select, _, ns =>
    if ns.isEmpty then .ret none
    else .child a fun u => .term idxs fun
      | some ks => .ret (some (ks.map fun k => (List.range u.length).map fun j => if k.toNat = j then 1 else 0, true))
      | none => .raise 9
  | .root, _, ns =>
    if ns.isEmpty then .ret none
    else .child a fun u => if u.any (· < 0) then .raise 1 else .ret (some (eye u.length, true))
  | .twice, _, ns =>
    if ns.isEmpty then .ret none
    else .child b fun u => .ret (both (ns.contains a) (ns.contains b) (diag (u.map fun _ => 2)) (eye u.length))

def sig : Sig Cls Arr Arr Jac where
  computeR := computeR
  computeDr := computeDr
  propDecl := fun
    | .twice, q => if q = p then some ([a], .child a fun u => .ret (u.map (2 * ·))) else none
    | _, _ => none
  isPermute := fun c => c = .select
  permArg := a
  isBase := fun c => c = .leaf
  base := .leaf
  xname := x
  superdot := fun m n => .ok (matmul m.1 n.1, m.2 && n.2)
  add := fun m n => .ok (madd m.1 n.1, m.2 && n.2)
  transp := fun m => (transp m.1, m.2)
  finish := fun m => m
  todense := fun m => (m.1, false)
  outForm := fun md ms m => (m.1, if md then false else if ms then true else m.2)

theorem propsOk : sig.PropsOk := by
  intro c q d h
  cases c <;> simp only [sig] at h
  all_goals try cases h
  split at h
  · cases h; simp [Prog.Only]
  · cases h

theorem localDr : sig.LocalDr := by
  intro c; cases c <;> rfl

/-- Results can be compared. -/
instance {ε α : Type} [DecidableEq ε] [DecidableEq α] : DecidableEq (Except ε α)
  | .ok u, .ok v => if h : u = v then isTrue (by rw [h]) else isFalse (fun e => h (by cases e; rfl))
  | .error u, .error v => if h : u = v then isTrue (by rw [h]) else isFalse (fun e => h (by cases e; rfl))
  | .ok _, .error _ => isFalse (fun e => by cases e)
  | .error _, .ok _ => isFalse (fun e => by cases e)

/-- Run a history from the empty state. -/
abbrev hist (ops : List (Op Cls Arr Jac)) : Heap Cls Arr Arr Jac := run sig ops (Heap.empty sig)

/-- Constructors. -/
abbrev leaf (v : Arr) : Op Cls Arr Jac := .new .leaf [] false false [.term x v]
abbrev bin (c : Cls) (i j : Id) : Op Cls Arr Jac := .new c [a, b] false false [.link a i, .link b j]
abbrev sel (i : Id) (ks : Arr) : Op Cls Arr Jac := .new .select [a] false false [.link a i, .term idxs ks]

end Chumpy.Demo
