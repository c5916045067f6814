import Verif.AD.Packing
import Verif.Core.Reverse
/-!
# The callbacks of `minimize` for methods other than dogleg (optimization.py:37-152)

`scipy.optimize` calls `residuals`, `scalar_jacfunc`, `hess` and `hessp` with vectors of its own.  These are numpy arrays passed by
reference: the callbacks keep references to them as the keys of one-entry caches, and the caller may later write into them.
-/
namespace Chumpy
open scoped BigOperators

/-- The key of `freevar[:] = newvals` (optimization.py:90). -/
abbrev wholeKey : List Key := [.slice none none none]

open Classical in
/-- `changevars(vs, …)` (optimization.py:83-99), for the free variables that remain and the position `cur` in `vs`; the flag is `changed`.
`np.max` of an empty array raises (line 89), and so does the `reshape` of a segment that is too short (line 88).  Not modelled: `NaN` (a
segment with `NaN` is not written, as `NaN > 0` is false), and the user's `callback(None)` (lines 96-97), which may come between any two
calls here. -/
noncomputable def changeVars (f : ℕ) (xs : Arr) : List Id → ℕ → Bool → M ClassDef Par Arr Jac Bool
  | [], _, changed => M.pure changed
  | fv :: fvs, cur, changed =>
    M.bind (read lib f (.r fv)) fun v =>
    if cur + v.size ≤ xs.size ∧ v.size ≠ 0 then
      if ∀ k < v.size, xs.vec (cur + k) = v.vec k then changeVars f xs fvs (cur + v.size) changed
      else
        M.bind (setItem f fv wholeKey (Arr.of v.shape fun k => xs.vec (cur + k))) fun _ => changeVars f xs fvs (cur + v.size) true
    else M.throw (.user 0)

/-- `np.array(obj_scalar.lop(wrt, np.array([[1]]))).ravel()` (optimization.py:115): `lop` may return `None`, and then this is an array of
objects with the one entry `None`.  (`lop` does not return sparse matrices, ch.py:706-708.) -/
noncomputable def lopRow (f : ℕ) (o fv : Id) : M ClassDef Par Arr Jac (List (Option ℝ)) :=
  M.bind (lop lib Jac.todense f o fv (.dense 1 1 fun _ _ => 1)) fun
    | none => M.pure [none]
    | some d => M.pure ((List.range d.flat.1).map fun k => some (d.flat.2 k))

/-- The list comprehension and `np.concatenate` of optimization.py:115, which needs at least one array. -/
noncomputable def lopRows (f : ℕ) (o : Id) : List Id → M ClassDef Par Arr Jac (List (Option ℝ))
  | [] => M.throw (.user 0)
  | [fv] => lopRow f o fv
  | fv :: fvs => M.bind (lopRow f o fv) fun l => M.bind (lopRows f o fvs) fun r => M.pure (l ++ r)

/-- `[obj.dr_wrt(wrt) for wrt in free_variables]` (optimization.py:133). -/
noncomputable def drRows (f : ℕ) (o : Id) : List Id → M ClassDef Par Arr Jac (List (Option Jac))
  | [] => M.pure []
  | fv :: fvs => M.bind (drWrt lib f o fv) fun d => M.bind (drRows f o fvs) fun r => M.pure (d :: r)

/-- An array kept as the key of a cache: an array nobody else has, or a reference to an array of the caller. -/
inductive Held
  | own (a : Arr)
  | ref (r : ℕ)

/-- The attributes `vs` and `J` (or `H`) of a callback. -/
structure OneMemo (α : Type) where
  vs : Option Held
  out : Option α

/-- State of one call of `minimize`: the graph, the arrays of the caller, and the attributes of the functions `scalar_jacfunc`,
`ns_jacfunc` and `hessp`. -/
structure MinSt where
  heap : Heap ClassDef Par Arr Jac
  mem : ℕ → Arr
  grad : OneMemo (List (Option ℝ))
  ns : OneMemo Jac
  hess : OneMemo Jac

/-- The arguments `obj`, `obj_scalar` and `free_variables` of the callbacks. -/
structure Problem where
  obj : Id
  scalar : Id
  frees : List Id

/-- What the callbacks return. -/
inductive Answer
  | unit
  | number (x : ℝ)
  | row (l : List (Option ℝ))
  | matrix (d : Jac)
  | raised (e : Err)

/-- `vs*0+1e16` (optimization.py:63, 77, 108, 129). -/
noncomputable def far (a : Arr) : Arr := Arr.of a.shape fun _ => 10 ^ 16

def Held.deref (mem : ℕ → Arr) : Held → Arr
  | .own a => a
  | .ref r => mem r

open Classical in
/-- `np.max(np.abs(vs - memo)) == 0`.  Simplified: numpy would broadcast a vector of one entry; other different shapes raise. -/
noncomputable def sameVec (a b : Arr) : Except Err Bool :=
  if a.shape = b.shape ∧ a.size ≠ 0 then .ok (decide (∀ k < a.size, a.vec k = b.vec k)) else .error (.user 0)

/-- `if not hasattr(fun, 'vs'): fun.vs = vs*0+1e16`. -/
noncomputable def OneMemo.init {α : Type} (m : OneMemo α) (a : Arr) : OneMemo α := { m with vs := some (m.vs.getD (.own (far a))) }

/-- The key the memo holds (after `init`). -/
noncomputable def OneMemo.key {α : Type} (m : OneMemo α) (mem : ℕ → Arr) : Arr := (m.vs.getD (.own (Arr.of [] fun _ => 0))).deref mem

/-- `residuals` (optimization.py:101-104). -/
noncomputable def residuals (P : Problem) (f : ℕ) (xs : Arr) : M ClassDef Par Arr Jac ℝ :=
  M.bind (changeVars f xs P.frees 0 false) fun _ =>
  M.bind (read lib f (.r P.scalar)) fun v => if v.size = 0 then M.throw (.user 1) else M.pure (v.vec 0)

/-- `scalar_jacfunc` (optimization.py:106-125), called with the caller's array `r`. -/
noncomputable def scalarJac (P : Problem) (f r : ℕ) (st : MinSt) : MinSt × Answer :=
  let st := { st with grad := st.grad.init (st.mem r) }
  match sameVec (st.mem r) (st.grad.key st.mem) with
  | .error e => (st, .raised e)
  | .ok true => (st, match st.grad.out with
    | some l => .row l
    | none => .raised .attr)
  | .ok false =>
    match M.bind (changeVars f (st.mem r) P.frees 0 false) (fun _ => lopRows f P.scalar P.frees) st.heap with
    | (h, .error e) => ({ st with heap := h }, .raised e)
    | (h, .ok l) => ({ st with heap := h, grad := ⟨some (.ref r), some l⟩ }, .row l)

/-- `ns_jacfunc` (optimization.py:127-139).  `hstack` (line 134) is not a name of this module: `NameError`, here `.user 9`. -/
noncomputable def nsJac (P : Problem) (f r : ℕ) (st : MinSt) : MinSt × Except Err Jac :=
  let st := { st with ns := st.ns.init (st.mem r) }
  match sameVec (st.mem r) (st.ns.key st.mem) with
  | .error e => (st, .error e)
  | .ok true => (st, match st.ns.out with
    | some J => .ok J
    | none => .error .attr)
  | .ok false =>
    match M.bind (changeVars f (st.mem r) P.frees 0 false) (fun _ => M.bind (drRows f P.obj P.frees) fun _ => M.throw (.user 9)) st.heap with
    | (h, .error e) => ({ st with heap := h }, .error e)
    | (h, .ok J) => ({ st with heap := h, ns := ⟨some (.ref r), some J⟩ }, .ok J)

/-- `2. * J.T.dot(J)` (optimization.py:68, 80). -/
noncomputable def gram (J : Jac) : Except Err Jac := (Jac.superdot J.transp J).map (Jac.scale 2)

/-- The part common to `hessp` (optimization.py:61-69) and `hess` (lines 75-81): the matrix `hessp.H`; `keep` says whether `hessp.vs` is
set (line 69). -/
noncomputable def hessian (P : Problem) (keep : Bool) (f r : ℕ) (st : MinSt) : MinSt × Except Err Jac :=
  match changeVars f (st.mem r) P.frees 0 false st.heap with
  | (h, .error e) => ({ st with heap := h }, .error e)
  | (h, .ok _) =>
    let st := { st with heap := h, hess := st.hess.init (st.mem r) }
    match sameVec (st.mem r) (st.hess.key st.mem) with
    | .error e => (st, .error e)
    | .ok true => (st, match st.hess.out with
      | some H => .ok H
      | none => .error .attr)
    | .ok false =>
      match nsJac P f r st with
      | (st, .error e) => (st, .error e)
      | (st, .ok J) =>
        match gram J with
        | .error e => (st, .error e)
        | .ok H => ({ st with hess := ⟨if keep then some (.ref r) else st.hess.vs, some H⟩ }, .ok H)

/-- What the caller (`scipy.optimize` and the user's callback) may do: write an array of its own; write into the array the gradient
callback returned, which is the one it keeps (`result.ravel()`, optimization.py:125, is a view of `scalar_jacfunc.J`); call `residuals`,
`scalar_jacfunc`, `hess`, `hessp` with one of its arrays, at recursion limit `f`; use the objects in other ways. -/
inductive Call
  | store (r : ℕ) (a : Arr)
  | scribble (l : List (Option ℝ))
  | residuals (f r : ℕ)
  | gradient (f r : ℕ)
  | hess (f r : ℕ)
  | hessp (f r : ℕ) (p : Arr)
  | user (op : Op ClassDef Par Jac)

/-- One call. -/
noncomputable def Call.run (P : Problem) : Call → MinSt → MinSt × Answer
  | .store r a, st => ({ st with mem := fun i => if i = r then a else st.mem i }, .unit)
  | .scribble l, st => ({ st with grad := { st.grad with out := st.grad.out.map fun _ => l } }, .unit)
  | .residuals f r, st =>
    match Chumpy.residuals P f (st.mem r) st.heap with
    | (h, .ok x) => ({ st with heap := h }, .number x)
    | (h, .error e) => ({ st with heap := h }, .raised e)
  | .gradient f r, st => scalarJac P f r st
  | .hess f r, st => match hessian P false f r st with
    | (st, .ok H) => (st, .matrix H)
    | (st, .error e) => (st, .raised e)
  | .hessp f r p, st => match hessian P true f r st with
    | (st, .error e) => (st, .raised e)
    | (st, .ok H) => match Jac.superdot H (.dense p.size 1 fun i _ => p.vec i) with
      | .ok d => (st, .row ((List.range d.flat.1).map fun k => some (d.flat.2 k)))
      | .error e => (st, .raised e)
  | .user op, st => ({ st with heap := (step lib op st.heap).1 }, .unit)

/-- The state at the start of `minimize`: the functions have no attributes yet. -/
def MinSt.start (h : Heap ClassDef Par Arr Jac) (mem : ℕ → Arr) : MinSt := ⟨h, mem, ⟨none, none⟩, ⟨none, none⟩, ⟨none, none⟩⟩

end Chumpy
