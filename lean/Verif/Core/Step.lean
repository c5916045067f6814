import Verif.Core.Heap
import Verif.Core.Reverse
/-! The operations a user can perform, and histories of them. -/
namespace Chumpy
variable {C T V D : Type}

/-- One user-level operation.
* `new`: `cls(**kws)`; `set`: `obj.set(**kws)` or `obj.name = value`;
* `batch`: tagged writes of the optimiser; `clear`: `obj.clear_cache()`;
* `readR`, `readProp`, `readDr`: `obj.r`, `obj.p`, `obj.dr_wrt(w)` with recursion limit `f`;
* `readLop`, `readLmult`: `obj.lop(w, L)` and `obj.lmult_wrt(L, w)` with recursion limit `f`;
* `gc`: the garbage collector reclaims an object no other object refers to;
* `addDterm`: `obj.add_dterm(k, value)`;
* `clone`: one object of `obj.copy()` / of unpickling, built after the objects it refers to. -/
inductive Op (C T D : Type) where
  | new (cls : C) (dnames : List Name) (md ms : Bool) (kws : List (KW T))
  | set (i : Id) (kws : List (KW T))
  | batch (ws : List (Id × KW T))
  | clear (i : Id)
  | readR (f : Nat) (i : Id)
  | readProp (f : Nat) (i : Id) (p : Name)
  | readDr (f : Nat) (i w : Id)
  | readLop (todense : D → D) (f : Nat) (i w : Id) (L : D)
  | readLmult (neNone : D → Except Err Bool) (f : Nat) (i w : Id) (L : D)
  | gc (i : Id)
  | addDterm (i : Id) (k : Name) (kw : KW T)
  | clone (j : Id) (ls : List (Name × Id))

/-- Results of operations. -/
inductive Out (V D : Type) where
  | unit
  | obj (i : Id)
  | val (v : V)
  | dr (d : Option D)
  deriving DecidableEq

/-- Run `m` if the object exists. -/
def ifAlive {α : Type} (i : Id) (m : M C T V D α) : M C T V D α := fun h =>
  if (h.node i).alive then m h else (h, .error .attr)

def M.map' {α β : Type} (f : α → β) (m : M C T V D α) : M C T V D β := fun h => ((m h).1, (m h).2.map f)

/-- One operation: new state, and a result or an exception. -/
def step (s : Sig C T V D) : Op C T D → M C T V D (Out V D)
  | .new cls dnames md ms kws => M.map' Out.obj (newObj s cls dnames md ms kws)
  | .set i kws => M.map' (fun _ => Out.unit) (setObj s i kws)
  | .batch ws => M.map' (fun _ => Out.unit) (batch s ws)
  | .clear i => ifAlive i (fun h => (clearCache s i none h, .ok .unit))
  | .readR f i => ifAlive i (M.map' Out.val (read s f (.r i)))
  | .readProp f i p => ifAlive i (M.map' Out.val (read s f (.prop i p)))
  | .readDr f i w => ifAlive i (ifAlive w (M.map' Out.dr (drWrt s f i w)))
  | .readLop td f i w L => ifAlive i (ifAlive w (M.map' Out.dr (lop s td f i w L)))
  | .readLmult ne f i w L => ifAlive i (ifAlive w (M.map' Out.dr (lmultWrt s ne f i w (some L))))
  | .gc i => fun h => if (h.node i).parents = [] then (collect i h, .ok .unit) else (h, .ok .unit)
  | .addDterm i k kw => ifAlive i (M.map' (fun _ => Out.unit) (addDterm s i k kw))
  | .clone j ls => M.map' Out.obj (clone s j ls)

/-- A history from the empty state, exceptions included. -/
def run (s : Sig C T V D) (ops : List (Op C T D)) (h : Heap C T V D) : Heap C T V D :=
  ops.foldl (fun h op => (step s op h).1) h

end Chumpy
