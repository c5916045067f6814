import Verif.AD.SetItem
/-!
# Numpy arrays shared between `Ch` objects

`Ch(v)` for a float array `v` keeps `v` itself (`np.asarray` does not copy, ch.py:120-121), so does `l.x = v`, and `l[key] = value`
changes the array in place (ch.py:510-514).  The other modules replace arrays by changed copies; here the arrays have identities.
-/
namespace Chumpy
open scoped BigOperators

/-- All objects, and the numpy arrays the user or the objects hold.
* `mem b`: the contents of the array `b`; arrays `≥ free` do not exist yet.
* `ref l = some b`: the attribute `x` of the object `l` is the array `b`; `none`: an array nobody else holds. -/
structure Store where
  heap : Heap ClassDef Par Arr Jac
  mem : ℕ → Arr
  ref : Id → Option ℕ
  free : ℕ

/-- Nothing yet. -/
noncomputable def Store.empty : Store := ⟨Heap.empty lib, fun _ => ⟨[], fun _ => 0⟩, fun _ => none, 0⟩

/-- What a user can do.
* `array v`: make a numpy array; `take l`: look at `l.x` (the array itself);
* `leaf b`: `Ch(array)` (ch.py:120-121); `assign l b`: `l.x = array`;
* `item f y key value`: `y[key] = value` (ch.py:506-545), with recursion limit `f`;
* `op o`: anything else, with arrays nobody else holds. -/
inductive StoreOp where
  | array (v : Arr)
  | take (l : Id)
  | leaf (b : ℕ)
  | assign (l : Id) (b : ℕ)
  | item (f : ℕ) (y : Id) (key : List Key) (value : Arr)
  | op (o : Op ClassDef Par Jac)

/-- The array `b` has got the contents `x`: every object whose `x` it is sees that, and so does the cached value of that object, which is
the same memory (`np.asarray(np.atleast_1d(x))`, ch.py:595).  No cache is cleared.  Simplified: cached values of reshaped and transposed
views of such an object, which are this memory too, are not changed. -/
noncomputable def poke (ref : Id → Option ℕ) (b : ℕ) (x : Arr) (h : Heap ClassDef Par Arr Jac) : Heap ClassDef Par Arr Jac :=
  { h with node := fun j =>
      if ref j = some b then
        { h.node j with
          terms := fun k => if k = nmX then
              match (h.node j).terms nmX with
              | some (.arr x0) => some (.arr (Arr.of x0.shape x.vec))
              | t => t
            else (h.node j).terms k
          cacheR := (h.node j).cacheR.map fun v => Arr.of v.shape x.vec }
      else h.node j }

/-- The operation assigns to the attribute `x` of the object `j`. -/
def Op.writesX (j : Id) : Op ClassDef Par Jac → Prop
  | .set i kws => i = j ∧ ∃ kw ∈ kws, ∃ t, kw = KW.term nmX t
  | .batch ws => ∃ w ∈ ws, w.1 = j ∧ ∃ t, w.2 = KW.term nmX t
  | _ => False

open Classical in
/-- One operation: new state, and whether it raised.  Simplified: a `set` that raises after assigning to `x` an array with the contents it
had is taken not to have assigned. -/
noncomputable def Store.step (σ : Store) : StoreOp → Store × Except Err Unit
  | .array v => ({ σ with mem := fun b => if b = σ.free then v else σ.mem b, free := σ.free + 1 }, .ok ())
  | .take l =>
    match σ.ref l, (σ.heap.graph l).terms nmX with
    | none, some (.arr x) =>
      ({ σ with
         mem := fun b => if b = σ.free then x else σ.mem b
         ref := fun j => if j = l then some σ.free else σ.ref j
         free := σ.free + 1 }, .ok ())
    | _, _ => (σ, .ok ())
  | .leaf b =>
    if b < σ.free then
      ({ σ with
         heap := (Chumpy.step lib (.new chLeaf [] false false [.term nmX (.arr (σ.mem b))]) σ.heap).1
         ref := fun j => if j = σ.heap.next then some b else σ.ref j }, .ok ())
    else (σ, .error .attr)
  | .assign l b =>
    if b < σ.free ∧ (σ.heap.node l).alive = true then
      ({ σ with
         heap := (Chumpy.step lib (.set l [.term nmX (.arr (σ.mem b))]) σ.heap).1
         ref := fun j => if j = l then some b else σ.ref j }, .ok ())
    else (σ, .error .attr)
  | .item f y key value =>
    if (σ.heap.node y).alive = true then
      if (σ.heap.graph y).cls.isBase = true then
        match σ.ref y, (σ.heap.graph y).terms nmX with
        | some b, some (.arr x) =>
          match getitem key x.atleast1.shape with
          | some (idxs, ksh) =>
            if bshape value.shape ksh = some ksh then
              -- `data.__setitem__(key, value)` (ch.py:512), then `self.x = data` (ch.py:513), which sets `x` of `y` itself and clears its cache
              let x' := overwritten x value idxs ksh
              ({ σ with
                 heap := (Chumpy.step lib (.set y [.term nmX (.arr x')]) (poke (fun j => if j = y then none else σ.ref j) b x' σ.heap)).1
                 mem := fun c => if c = b then Arr.of (σ.mem b).shape x'.vec else σ.mem c }, .ok ())
            else (σ, .error (.user 0))
          | none => (σ, .error (.user 1))
        | _, _ => ({ σ with heap := (setItem f y key value σ.heap).1 }, (setItem f y key value σ.heap).2)
      else
        let r := setItem f y key value σ.heap
        ({ σ with
           heap := r.1
           ref := fun j => if r.2 = .ok () ∧ innerOf σ.heap.graph f y = .ok j then none else σ.ref j }, r.2)
    else (σ, .error .attr)
  | .op o =>
    let r := Chumpy.step lib o σ.heap
    ({ σ with
       heap := r.1
       ref := fun j => if (o.writesX j ∧ r.2.isOk = true) ∨ (r.1.graph j).terms nmX ≠ (σ.heap.graph j).terms nmX ∨ (r.1.node j).alive = false
         then none else σ.ref j }, r.2.map fun _ => ())
end Chumpy
