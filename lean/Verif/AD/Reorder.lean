import Verif.AD.NdIndex
import Verif.AD.Arith
import Verif.AD.Api
/-!
# Reordering classes (reordering.py)

A numpy function that only moves entries is modelled by where each entry of the result comes from.  `compute_r` applies
it to the value, `compute_dr_wrt` to the array of the positions `0, 1, 2, …` (reordering.py:34-54).  The memo table
`dr_lookup` is the subject of `Verif/AD/Memo.lean`; here the matrix is computed anew.
-/
namespace Chumpy
open scoped BigOperators Topology

/-- The result of reordering an array: its shape and, for each entry, the position it comes from (`none`: the entry is 0,
as the entries off the diagonal in `np.diag`). -/
structure Layout where
  shape : List ℕ
  src : ℕ → Option ℕ

namespace Layout
/-- The reordered array. -/
noncomputable def apply (L : Layout) (v : Arr) : Arr := Arr.of L.shape fun k => ((L.src k).map v.vec).getD 0

/-- The array from its shape and the coordinates in the original array (of shape `sh`) of each entry. -/
def byCoord (osh sh : List ℕ) (src : List ℕ → List ℕ) : Layout := ⟨osh, fun k => some (ravel sh (src (unravel osh k)))⟩

/-- Every entry comes from one of `n` positions. -/
def Ok (L : Layout) (n : ℕ) : Prop := ∀ k < L.shape.prod, ∃ j < n, L.src k = some j

theorem byCoord_ok {osh sh : List ℕ} {src : List ℕ → List ℕ} (h : ∀ c, InB osh c → InB sh (src c)) : (byCoord osh sh src).Ok sh.prod :=
  fun _ hk => ⟨_, ravel_lt (h _ (unravel_inB hk)), rfl⟩

theorem byCoord_at {osh : List ℕ} {src : List ℕ → List ℕ} {v : Arr} {c : List ℕ} (hc : InB osh c) :
    ((byCoord osh v.shape src).apply v).at c = v.at (src c) := by
  unfold Arr.at
  show ((byCoord osh v.shape src).apply v).vec (ravel osh c) = _
  unfold apply
  rw [Arr.vec_of (byCoord osh v.shape src).shape _ (show ravel osh c < osh.prod from ravel_lt hc)]
  simp [byCoord, unravel_ravel hc]
end Layout

/-- `np.arange(a.size).reshape(a.shape)` (reordering.py:48). -/
noncomputable def arange (sh : List ℕ) : Arr := Arr.of sh fun k => k

/-- Names of the parameters of reordering classes: `axes`, `axis`, `axis1`, `reps`, `repeats`, `shift`, `k` are all called
`nmP` here, and `start`, `axis2`, the `axis` of `Repeat` and `Roll`, `nmQ`. -/
abbrev nmP : Name := 6
abbrev nmQ : Name := 7

/-- A subclass of `Reorder` (reordering.py:28-54) whose method `reorder` is `ρ` (of the parameters and the array; `none` is an
exception). -/
noncomputable def chReorder (ρ : Option Par → Option Par → Arr → Option Layout) : ClassDef where
  r := .child nmA fun v => .term nmP fun p => .term nmQ fun q =>
    match ρ p q v with
    | some L => .ret (L.apply v).atleast1
    | none => .raise 1
  dr := fun _ S => if nmA ∈ S then .child nmA fun v => .term nmP fun p => .term nmQ fun q =>
      match ρ p q (arange v.shape) with
      | some L => .selfR fun out =>
          .ret (some (.sparse out.size v.size (coo L.shape.prod id (fun k => (L.src k).getD 0) fun _ => 1)))
      | none => .raise 1
    else .ret none
  permute := true
  dr_none := rfl

theorem Arr.atleast1_size (v : Arr) : v.atleast1.size = v.size := by
  unfold Arr.atleast1 Arr.size Arr.of
  dsimp only
  split
  · next h => rw [h]; rfl
  · rfl

theorem Arr.atleast1_vec (v : Arr) (k : ℕ) : v.atleast1.vec k = v.vec k := by
  by_cases hk : k < v.size
  · have : k < (if v.shape = [] then [1] else v.shape).prod := by
      have := v.atleast1_size
      unfold Arr.atleast1 Arr.size Arr.of at this
      dsimp only at this
      rw [this]; exact hk
    unfold Arr.atleast1
    rw [Arr.vec_of _ _ this]
  · have h1 : ¬ k < v.atleast1.shape.prod := by
      have := v.atleast1_size
      unfold Arr.size at this hk
      rw [this]; exact hk
    unfold Arr.vec
    rw [dif_neg h1, dif_neg hk]

/-- A class with one child that moves entries about is exact if the matrix it returns has a 1 where each entry comes from. -/
theorem exact_gather {c : ClassDef} {tm : Name → Option Par} {v : Arr} {osh : List ℕ} (σ : ℕ → ℕ) (hσ : ∀ k < osh.prod, σ k < v.size)
    (hc : ∀ u : Arr, u.shape = v.shape → Returns lib c tm (env1 u) (Arr.of osh fun k => u.vec (σ k)))
    (hd : ∃ d, ReturnsDr lib c tm (env1 v) (Arr.of osh fun k => v.vec (σ k)) [nmA] d ∧ num.RepO d osh.prod v.size (selMat σ fun _ => 1)) :
    Exact c tm [nmA] (fun _ => v) (Arr.of osh fun k => v.vec (σ k)) (fun _ => selMat σ fun _ => 1) := by
  refine exact_one (hc v rfl) (fun x k => x ⟨σ k, hσ k k.2⟩) ?_ ?_ hd
  · refine Filter.Eventually.of_forall fun x => ?_
    have := hc (v.put x) rfl
    have e : (Arr.of osh fun k => (v.put x).vec (σ k)) = (Arr.of osh fun k => v.vec (σ k)).put fun k => x ⟨σ k, hσ k k.2⟩ := by
      show Arr.mk osh _ = Arr.mk osh _
      congr 1
      funext k
      exact Arr.vec_put v x ⟨σ k, hσ k k.2⟩
    rwa [e] at this
  · exact hasFDerivAt_elem₁ (fun _ x => x) hσ _ (fun _ => 1) (fun k hk => hasDerivAt_id _)

/-- Reordering classes are exact if `reorder` depends on the shape only and moves entries about. -/
theorem exact_reorder {ρ : Option Par → Option Par → Arr → Option Layout} {tm : Name → Option Par} {v : Arr} {L : Layout}
    (hρ : ∀ u : Arr, u.shape = v.shape → ρ (tm nmP) (tm nmQ) u = some L) (hL : L.Ok v.size) :
    Exact (chReorder ρ) tm [nmA] (fun _ => v) (L.apply v).atleast1 (fun _ => selMat (fun k => (L.src k).getD 0) fun _ => 1) := by
  have hp : (if L.shape = [] then [1] else L.shape).prod = L.shape.prod := by
    split
    · next h => rw [h]; rfl
    · rfl
  have e : ∀ u : Arr, u.shape = v.shape →
      (L.apply u).atleast1 = Arr.of (if L.shape = [] then [1] else L.shape) fun k => u.vec ((L.src k).getD 0) := by
    intro u _
    refine Arr.ext_vec rfl fun k hk => ?_
    have hk1 : k < (if L.shape = [] then [1] else L.shape).prod := hk
    have hk2 : k < L.shape.prod := by rw [hp] at hk1; exact hk1
    rw [Arr.atleast1_vec, Arr.vec_of _ _ hk1]
    unfold Layout.apply
    rw [Arr.vec_of _ _ hk2]
    obtain ⟨j, _, hj⟩ := hL k hk2
    rw [hj]; rfl
  rw [e v rfl]
  refine exact_gather _ (fun k hk => ?_) (fun u hu => ?_) ?_
  · obtain ⟨j, hj, h⟩ := hL k (by rw [hp] at hk; exact hk)
    rw [h]; exact hj
  · rw [← e u hu]
    exact ⟨0, by simp [lib, chReorder, runBody, env1, hρ u hu]⟩
  · refine ⟨some (.sparse (if L.shape = [] then [1] else L.shape).prod v.size (coo L.shape.prod id (fun k => (L.src k).getD 0) fun _ => 1)), ⟨0, ?_⟩, ?_⟩
    · simp [lib, chReorder, runBody, env1, hρ (arange v.shape) rfl]
      rfl
    · refine ⟨rfl, rfl, ?_⟩
      rw [hp]
      exact coo_rows _ _

/-! ## numpy's functions -/

/-- An axis number, possibly negative, of an array with `n` axes. -/
def normAxis (n : ℕ) (z : ℤ) : Option ℕ :=
  if 0 ≤ z ∧ z < n then some z.toNat else if -(n : ℤ) ≤ z ∧ z < 0 then some (z + n).toNat else none

theorem normAxis_lt {n : ℕ} {z : ℤ} {j : ℕ} (h : normAxis n z = some j) : j < n := by
  unfold normAxis at h
  split at h
  · cases h; omega
  · split at h
    · cases h; omega
    · cases h

/-- `np.transpose(a, axes)`: axis `i` of the result is axis `axes[i]` of `a`. -/
def transposeL (sh axes : List ℕ) : Option Layout :=
  if axes.Perm (List.range sh.length) then
    some (.byCoord (axes.map fun j => sh.getD j 0) sh fun c => (List.range sh.length).map fun j => c.getD (axes.idxOf j) 0)
  else none

/-- `transpose.reorder` (reordering.py:115); without `axes` the axes are reversed. -/
def transposeρ (p _ : Option Par) (v : Arr) : Option Layout :=
  match p with
  | some (.ints l) => (l.mapM (normAxis v.shape.length)).bind fun axes => transposeL v.shape axes
  | some .none => transposeL v.shape (List.range v.shape.length).reverse
  | none => transposeL v.shape (List.range v.shape.length).reverse
  | _ => none

/-- `transpose` (reordering.py:110-120). -/
noncomputable def chTranspose := chReorder transposeρ

/-- The axes `i` and `j` of `n` axes exchanged. -/
def swapAxes (n i j : ℕ) : List ℕ := (List.range n).map fun t => if t = i then j else if t = j then i else t

/-- `swapaxes.reorder` (reordering.py:139): `np.swapaxes(a, axis1, axis2)`. -/
def swapaxesρ (p q : Option Par) (v : Arr) : Option Layout :=
  match p, q with
  | some (.int a), some (.int b) =>
    (normAxis v.shape.length a).bind fun i => (normAxis v.shape.length b).bind fun j => transposeL v.shape (swapAxes v.shape.length i j)
  | _, _ => none

/-- `swapaxes` (reordering.py:134-140). -/
noncomputable def chSwapaxes := chReorder swapaxesρ

/-- The axes of `np.rollaxis(a, axis, start)` in terms of those of `a`, as numpy computes them. -/
def rollAxes (n axis start : ℕ) : List ℕ :=
  ((List.range n).erase axis).insertIdx (if axis < start then start - 1 else start) axis

/-- `rollaxis.reorder` (reordering.py:127): `np.rollaxis(a, axis, start)`; `start` is 0 unless given (lines 129-131) and may
be equal to the number of axes. -/
def rollaxisρ (p q : Option Par) (v : Arr) : Option Layout :=
  match p, q with
  | some (.int a), none => (normAxis v.shape.length a).bind fun i => transposeL v.shape (rollAxes v.shape.length i 0)
  | some (.int a), some (.int b) =>
    (normAxis v.shape.length a).bind fun i =>
    (if b = v.shape.length then some v.shape.length else normAxis v.shape.length b).bind fun j =>
    transposeL v.shape (rollAxes v.shape.length i j)
  | _, _ => none

/-- `rollaxis` (reordering.py:122-132). -/
noncomputable def chRollaxis := chReorder rollaxisρ

/-- A shape with 1s put in front up to `d` axes. -/
def padShape (d : ℕ) (sh : List ℕ) : List ℕ := List.replicate (d - sh.length) 1 ++ sh

/-- `Tile.reorder` (reordering.py:72): `np.tile(a, reps)`. -/
def tileρ (p _ : Option Par) (v : Arr) : Option Layout :=
  match p with
  | some (.nats reps) =>
    let d := max reps.length v.shape.length
    some (.byCoord (List.zipWith (· * ·) (padShape d v.shape) (padShape d reps)) v.shape fun c =>
      (List.zipWith (· % ·) c (padShape d v.shape)).drop (d - v.shape.length))
  | _ => none

/-- `Tile` (reordering.py:67-76). -/
noncomputable def chTile := chReorder tileρ

/-- `Repeat.reorder` (reordering.py:104): `np.repeat(a, repeats, axis)` with a number `repeats`; without an axis the array is
flattened. -/
def repeatρ (p q : Option Par) (v : Arr) : Option Layout :=
  match p, q with
  | some (.nat r), some .none => some ⟨[v.size * r], fun k => some (k / r)⟩
  | some (.nat r), some (.int a) => (normAxis v.shape.length a).map fun i =>
      .byCoord (v.shape.set i (v.shape.getD i 0 * r)) v.shape fun c => c.set i (c.getD i 0 / r)
  | _, _ => none

/-- `Repeat` (reordering.py:100-108). -/
noncomputable def chRepeat := chReorder repeatρ

/-- Position `k` moved back by `s`, cyclically in `n` positions. -/
def back (n : ℕ) (s : ℤ) (k : ℕ) : ℕ := (((k : ℤ) - s) % (n : ℤ)).toNat

/-- `Roll.reorder` (reordering.py:149): `np.roll(a, shift, axis)`; without an axis the flat array is rolled. -/
def rollρ (p q : Option Par) (v : Arr) : Option Layout :=
  match p, q with
  | some (.int s), some .none => some ⟨v.shape, fun k => some (back v.size s k)⟩
  | some (.int s), some (.int a) => (normAxis v.shape.length a).map fun i =>
      .byCoord v.shape v.shape fun c => c.set i (back (v.shape.getD i 0) s (c.getD i 0))
  | _, _ => none

/-- `Roll` (reordering.py:144-153). -/
noncomputable def chRoll := chReorder rollρ

/-- Coordinates before one, two and three quarter turns of an `m` by `n` array. -/
def turn1 (n : ℕ) : List ℕ → List ℕ
  | i :: j :: t => j :: (n - 1 - i) :: t
  | c => c
@[inherit_doc turn1] def turn2 (m n : ℕ) : List ℕ → List ℕ
  | i :: j :: t => (m - 1 - i) :: (n - 1 - j) :: t
  | c => c
@[inherit_doc turn1] def turn3 (m : ℕ) : List ℕ → List ℕ
  | i :: j :: t => (m - 1 - j) :: i :: t
  | c => c

/-- `Rot90.reorder` (reordering.py:159): `np.rot90(a, k)`, in the plane of the first two axes. -/
def rot90ρ (p _ : Option Par) (v : Arr) : Option Layout :=
  match p, v.shape with
  | some (.int k), m :: n :: rest =>
    if k % 4 = 0 then some (.byCoord v.shape v.shape id)
    else if k % 4 = 1 then some (.byCoord (n :: m :: rest) v.shape (turn1 n))
    else if k % 4 = 2 then some (.byCoord v.shape v.shape (turn2 m n))
    else some (.byCoord (n :: m :: rest) v.shape (turn3 m))
  | _, _ => none

/-- `Rot90` (reordering.py:155-163). -/
noncomputable def chRot90 := chReorder rot90ρ

/-- `np.diag(a, k)`: of a vector, the matrix with the vector on the `k`-th diagonal; of a matrix, its `k`-th diagonal. -/
def diagL (sh : List ℕ) (k : ℤ) : Option Layout :=
  match sh with
  | [n] => some ⟨[n + k.natAbs, n + k.natAbs], fun p =>
      if ((p % (n + k.natAbs) : ℕ) : ℤ) = (p / (n + k.natAbs) : ℕ) + k then some (p / (n + k.natAbs) - (-k).toNat) else none⟩
  | [m, n] => some ⟨[min (m - (-k).toNat) (n - k.toNat)], fun t => some ((t + (-k).toNat) * n + (t + k.toNat))⟩
  | _ => none

/-- `Diag.reorder` (reordering.py:83). -/
def diagρ (p _ : Option Par) (v : Arr) : Option Layout :=
  match p with
  | some (.int k) => diagL v.shape k
  | _ => none

/-- `Diag` (reordering.py:79-87). -/
noncomputable def chDiag := chReorder diagρ

/-- `DiagFlat.reorder` (reordering.py:93): `np.diagflat(a, k)`. -/
def diagflatρ (p _ : Option Par) (v : Arr) : Option Layout :=
  match p with
  | some (.int k) => diagL [v.size] k
  | _ => none

/-- `DiagFlat` (reordering.py:89-97). -/
noncomputable def chDiagFlat := chReorder diagflatρ

/-- The position in the vector `v` of the `k`-th smallest entry, equal entries in the order in which they occur. -/
noncomputable def argsort (v : Arr) : List ℕ := (List.range v.size).insertionSort fun i j => v.vec i ≤ v.vec j

/-- `Sort.reorder` (reordering.py:60) of vectors: `np.sort`.  Arrays with several axes are not modelled. -/
noncomputable def sortρ (_ _ : Option Par) (v : Arr) : Option Layout :=
  match v.shape with
  | [n] => some ⟨[n], fun k => (argsort v)[k]?⟩
  | _ => none

/-- `Sort` (reordering.py:56-64). -/
noncomputable def chSort := chReorder sortρ
end Chumpy
