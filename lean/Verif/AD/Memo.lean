import Verif.AD.Select
import Verif.AD.Reduce
import Verif.AD.Dot
/-!
# Jacobians that classes keep

Several classes keep the matrices they compute in a table and look them up by a key the next time.  The model of the classes
(`Reorder.lean`, `Reduce.lean`, `Select.lean`, `Arith.lean`, `Dot.lean`) computes them anew every time.  Here are the tables.  A
history is the list of what `compute_dr_wrt` found each time it was called: the parameters and the value of the operand.
-/
namespace Chumpy
open scoped BigOperators Classical

/-! ## A table -/

section
variable {I K M : Type}

/-- A table: what is stored under each key. -/
abbrev Table (K M : Type) := K → Option M

/-- One call (reordering.py:43-54, ch_ops.py:327-338, 361-372, 461-466, 473-484): look the key up; compute and store if it is not there.
Without a key (`unique_reorder_id` answering `None`, reordering.py:48) always compute; what is then stored under `None` is never used.
`fresh` is the computation, `none` an exception, which stores nothing. -/
noncomputable def memoStep (key : I → Option K) (fresh : I → Option M) (t : Table K M) (i : I) : Option M × Table K M :=
  match key i with
  | none => (fresh i, t)
  | some k =>
    match t k with
    | some m => (some m, t)
    | none =>
      match fresh i with
      | some m => (some m, Function.update t k (some m))
      | none => (none, t)

/-- What the calls of a history answer, starting from a table. -/
noncomputable def memoRun (key : I → Option K) (fresh : I → Option M) : Table K M → List I → List (Option M)
  | _, [] => []
  | t, i :: is => (memoStep key fresh t i).1 :: memoRun key fresh (memoStep key fresh t i).2 is

/-- The table of a new object (`self.dr_lookup = {}`, reordering.py:44-45). -/
def emptyTable : Table K M := fun _ => none

/-- The key says all that the computation depends on, among the inputs in `P`. -/
def KeySoundOn (P : I → Prop) (key : I → Option K) (fresh : I → Option M) : Prop :=
  ∀ i j k, P i → P j → key i = some k → key j = some k → fresh i = fresh j

/-- The key says all that the computation depends on. -/
def KeySound (key : I → Option K) (fresh : I → Option M) : Prop :=
  ∀ i j k, key i = some k → key j = some k → fresh i = fresh j

/-- What is stored was computed for that key. -/
def TableOk (P : I → Prop) (key : I → Option K) (fresh : I → Option M) (t : Table K M) : Prop :=
  ∀ k m, t k = some m → ∃ i, P i ∧ key i = some k ∧ fresh i = some m

theorem memoStep_ok {P : I → Prop} {key : I → Option K} {fresh : I → Option M} (hs : KeySoundOn P key fresh) {t : Table K M}
    (ht : TableOk P key fresh t) (i : I) (hi : P i) :
    (memoStep key fresh t i).1 = fresh i ∧ TableOk P key fresh (memoStep key fresh t i).2 := by
  unfold memoStep
  split
  · exact ⟨rfl, ht⟩
  · next k hk =>
    split
    · next m hm =>
      obtain ⟨j, hp, hj, hf⟩ := ht k m hm
      exact ⟨by rw [hs i j k hi hp hk hj, hf], ht⟩
    · split
      · next m hm =>
        refine ⟨hm.symm, fun k' m' h => ?_⟩
        change Function.update t k (some m) k' = some m' at h
        by_cases e : k' = k
        · subst e; rw [Function.update_self] at h; cases h; exact ⟨i, hi, hk, hm⟩
        · rw [Function.update_of_ne e] at h; exact ht k' m' h
      · next hm => exact ⟨hm.symm, ht⟩

theorem memoRun_eq_on {P : I → Prop} {key : I → Option K} {fresh : I → Option M} (hs : KeySoundOn P key fresh) :
    ∀ (is : List I) {t : Table K M}, TableOk P key fresh t → (∀ i ∈ is, P i) → memoRun key fresh t is = is.map fresh
  | [], _, _, _ => rfl
  | i :: is, t, ht, hP => by
    have := memoStep_ok hs ht i (hP i (by simp))
    show (memoStep key fresh t i).1 :: memoRun key fresh (memoStep key fresh t i).2 is = fresh i :: is.map fresh
    rw [this.1, memoRun_eq_on hs is this.2 fun j hj => hP j (by simp [hj])]

theorem emptyTable_ok {P : I → Prop} {key : I → Option K} {fresh : I → Option M} : TableOk P key fresh emptyTable :=
  fun _ _ h => by cases h

theorem memoRun_eq {key : I → Option K} {fresh : I → Option M} (hs : KeySound key fresh) (is : List I) :
    memoRun key fresh emptyTable is = is.map fresh :=
  memoRun_eq_on (P := fun _ => True) (fun i j k _ _ => hs i j k) is emptyTable_ok fun _ _ => trivial

/-- Two calls with one key: the second answers what the first computed. -/
theorem memoRun_two {key : I → Option K} {fresh : I → Option M} {i j : I} {k : K} {m : M} (hi : key i = some k) (hj : key j = some k)
    (hf : fresh i = some m) : memoRun key fresh emptyTable [i, j] = [some m, some m] := by
  simp [memoRun, memoStep, hi, hj, hf, emptyTable]

end

/-! ## Reorderings -/

/-- What `Reorder.compute_dr_wrt` finds: two parameters and the value of the operand. -/
abbrev RIn := Option Par × Option Par × Arr

/-- The parameters of a class with these two. -/
def tm2 (p q : Option Par) : Name → Option Par := fun n => if n = nmP then p else if n = nmQ then q else none

/-- The matrix of a reordering computed anew (reordering.py:49-53): as `chReorder`, the object's own value having been computed. -/
noncomputable def reorderFresh (ρ : Option Par → Option Par → Arr → Option Layout) (i : RIn) : Option Jac :=
  match ρ i.1 i.2.1 i.2.2 with
  | none => none
  | some L' =>
    match ρ i.1 i.2.1 (arange i.2.2.shape) with
    | none => none
    | some L => some (.sparse (L'.apply i.2.2).atleast1.size i.2.2.size (coo L.shape.prod id (fun k => (L.src k).getD 0) fun _ => 1))

/-- Keys: the shape of the operand, or nothing for the classes whose key lacks it, and the parameters. -/
abbrev RKey := Option (List ℕ) × Option Par × Option Par

/-- `axes if hasattr(self, 'axes') else None` and the like. -/
def orNone : Option Par → Option Par
  | some .none => none
  | p => p

/-- `Sort.unique_reorder_id` (reordering.py:61). -/
def sortKey (_ : RIn) : Option RKey := none
/-- `Tile.unique_reorder_id` (reordering.py:73): `(a.shape, tuple(reps))`. -/
def tileKey (i : RIn) : Option RKey := some (some i.2.2.shape, i.1, none)
/-- `Diag.unique_reorder_id` (reordering.py:84): `(a.shape, k)`. -/
def diagKey (i : RIn) : Option RKey := some (some i.2.2.shape, i.1, none)
/-- `DiagFlat.unique_reorder_id` (reordering.py:94): `(a.shape, k)`. -/
def diagflatKey (i : RIn) : Option RKey := some (some i.2.2.shape, i.1, none)
/-- `Repeat.unique_reorder_id` (reordering.py:105): `(repeats, axis)`. -/
def repeatKey (i : RIn) : Option RKey := some (none, i.1, i.2.1)
/-- `transpose.unique_reorder_id` (reordering.py:116): `(a.shape, None if axes is None else tuple(axes))`. -/
def transposeKey (i : RIn) : Option RKey := some (some i.2.2.shape, orNone i.1, none)
/-- `rollaxis.unique_reorder_id` (reordering.py:128): `(a.shape, axis, start)`; `on_changed` has set `start` to 0 if there was none. -/
def rollaxisKey (i : RIn) : Option RKey := some (some i.2.2.shape, i.1, some (i.2.1.getD (.int 0)))
/-- `swapaxes.unique_reorder_id` (reordering.py:140): `(a.shape, axis1, axis2)`. -/
def swapaxesKey (i : RIn) : Option RKey := some (some i.2.2.shape, i.1, i.2.1)
/-- `Roll.unique_reorder_id` (reordering.py:150): `(shift, axis)`. -/
def rollKey (i : RIn) : Option RKey := some (none, i.1, i.2.1)
/-- `Rot90.unique_reorder_id` (reordering.py:160): `(a.shape, k)`. -/
def rot90Key (i : RIn) : Option RKey := some (some i.2.2.shape, i.1, none)

/-! ## sum and mean -/

/-- What `compute_dr_wrt` of `sum` and `mean` finds when there is an axis: the axis and the value of the operand. -/
abbrev SIn := ℤ × Arr

/-- The value of the object itself, whose shape the matrix needs. -/
noncomputable def reduceOut (w : ℕ → ℝ) (i : SIn) : Option Arr :=
  (normAxis i.2.shape.length i.1).map fun d => (Arr.of (i.2.shape.eraseIdx d) fun k =>
    w (i.2.shape.getD d 0) * ∑ t ∈ Finset.range (i.2.shape.getD d 0), i.2.at ((unravel (i.2.shape.eraseIdx d) k).insertIdx d t)).atleast1

/-- The matrix computed anew (ch_ops.py:329-336, 363-370). -/
noncomputable def reduceFresh (w : ℕ → ℝ) (i : SIn) : Option Jac := (reduceOut w i).bind fun out => reduceMat w i.1 i.2 out

/-- `uid = tuple(list(self.x.shape) + [self.axis])` (ch_ops.py:327, 361). -/
def reduceKey (i : SIn) : Option (List ℤ) := some (i.2.shape.map Int.ofNat ++ [i.1])

/-! ## Broadcasting -/

/-- What `_broadcast_matrix` finds: the shapes of the operands, which of them is asked about, and the entries. -/
abbrev BIn := List ℕ × List ℕ × Bool × Bool × (ℕ → ℝ)

/-- The structure of the matrix, without its entries: rows, columns, and the column of each entry; row `k` has one entry (ch_ops.py:463-465,
475-482). -/
structure Pattern where
  rows : ℕ
  cols : ℕ
  js : ℕ → ℕ

/-- `IS`, `JS` and the shape for operands of different shapes (ch_ops.py:475-482). -/
def bcastPattern (sa sb : List ℕ) (wrtA : Bool) : Option Pattern :=
  (bshape sa sb).map fun o => ⟨o.prod, if wrtA then sa.prod else sb.prod, bcastJS sa sb o wrtA⟩

/-- The entries put into a stored structure (ch_ops.py:466-471, 484-489); a 1 by 1 matrix is replaced by its entry (lines 491-492). -/
noncomputable def Pattern.fill (P : Pattern) (sc : Bool) (data : ℕ → ℝ) : Jac :=
  if P.rows * P.cols = 1 then one1 sc (data 0) else .sparse P.rows P.cols (coo P.rows id P.js data)

/-- The two module-wide tables `_bs_setup_data1` and `_bs_setup_data2` (ch_ops.py:455-456). -/
structure BTables where
  same : Table (List ℕ) Pattern
  diff : Table (List ℕ × List ℕ × Bool) Pattern

/-- `_broadcast_matrix` (ch_ops.py:457-494) with its tables.  The key `(a.shape, b.shape, wrt is a, wrt is b)` has the shapes and
which operand is asked about; an object that is both operands has one shape, and takes the first branch. -/
noncomputable def broadcastStep (t : BTables) (i : BIn) : Option Jac × BTables :=
  if i.1 = i.2.1 then
    match memoStep (fun j : BIn => some j.1) (fun j => some ⟨j.1.prod, j.1.prod, id⟩) t.same i with
    | (some P, t') => (some (P.fill i.2.2.2.1 i.2.2.2.2), { t with same := t' })
    | (none, t') => (none, { t with same := t' })
  else
    match memoStep (fun j : BIn => some (j.1, j.2.1, j.2.2.1)) (fun j => bcastPattern j.1 j.2.1 j.2.2.1) t.diff i with
    | (some P, t') => (some (P.fill i.2.2.2.1 i.2.2.2.2), { t with diff := t' })
    | (none, t') => (none, { t with diff := t' })

/-- What the calls of a history, of all objects of the process, answer. -/
noncomputable def broadcastRun : BTables → List BIn → List (Option Jac)
  | _, [] => []
  | t, i :: is => (broadcastStep t i).1 :: broadcastRun (broadcastStep t i).2 is

/-! ## Select -/

/-- What happens to a `Select`: `on_changed(which)`, where `idxs` may be in `which`, and `compute_dr_wrt(a)`.  Both see the
current `idxs` and number of entries of `a`. -/
inductive SelEv where
  | changed (idxs : Bool) (i : List ℕ × ℕ)
  | dr (i : List ℕ × ℕ)

/-- What the event sees. -/
def SelEv.now : SelEv → List ℕ × ℕ
  | .changed _ i => i
  | .dr i => i

/-- The matrix computed anew (reordering.py:291-295). -/
noncomputable def selFresh (i : List ℕ × ℕ) : Option Jac :=
  if ∀ j ∈ i.1, j < i.2 then some (.sparse i.1.length i.2 (coo i.1.length id (fun k => i.1.getD k 0) fun _ => 1)) else none

/-- One event (reordering.py:289-301).  The state is `_dr_cached` with its number of columns. -/
noncomputable def selStep (st : Option (ℕ × Jac)) : SelEv → Option (Option Jac) × Option (ℕ × Jac)
  | .changed b i =>
    match st with
    | none => (none, none)
    | some (n, m) => if b = true ∨ i.2 ≠ n then (none, none) else (none, some (n, m))
  | .dr i =>
    match st with
    | some (n, m) => (some (some m), some (n, m))
    | none =>
      match selFresh i with
      | some m => (some (some m), some (i.2, m))
      | none => (some none, none)

/-- What the calls of `compute_dr_wrt` in a history answer. -/
noncomputable def selRun : Option (ℕ × Jac) → List SelEv → List (Option Jac)
  | _, [] => []
  | st, e :: es => ((selStep st e).1.toList) ++ selRun (selStep st e).2 es

/-- Histories as the dependency tracking makes them (C05): what an object depends on only changes if `on_changed` is called before it is
used again, and `idxs` is in `which` if it was assigned to.  `i` is what the last event saw. -/
def SelLegal : List ℕ × ℕ → List SelEv → Prop
  | _, [] => True
  | i, .changed b j :: es => (j.1 ≠ i.1 → b = true) ∧ SelLegal j es
  | i, .dr j :: es => j = i ∧ SelLegal j es

/-! ## cross -/

/-- `IS`, `JS` and the tiled identity (ch_ops.py:131-135) for `h` rows of `w` entries. -/
noncomputable def crossIdx (i : ℕ × ℕ) : (ℕ → ℕ) × (ℕ → ℕ) × (ℕ → ℕ → ℝ) :=
  (fun k => k / i.2, fun k => i.2 * (k / (i.2 * i.2)) + k % i.2, fun r c => if r % i.2 = c then 1 else 0)

/-- `_load_crossprod_cache` (ch_ops.py:125-139): the row and column of each entry for the last seen `(h, w)`. -/
noncomputable def crossStep {M : Type} (mk : ℕ × ℕ → M) (st : (ℕ × ℕ) × Option M) (i : ℕ × ℕ) : Option M × ((ℕ × ℕ) × Option M) :=
  if i ≠ st.1 then (some (mk i), (i, some (mk i))) else (st.2, st)

/-- What a history of calls answers; `none` is the exception about the missing attribute. -/
noncomputable def crossRun {M : Type} (mk : ℕ × ℕ → M) : (ℕ × ℕ) × Option M → List (ℕ × ℕ) → List (Option M)
  | _, [] => []
  | st, i :: is => (crossStep mk st i).1 :: crossRun mk (crossStep mk st i).2 is

end Chumpy
