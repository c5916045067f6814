import Verif.AD.Reorder
/-!
# Select, Reshape and `__getitem__` (reordering.py:165-185, 276-301; ch.py:499-504)
-/
namespace Chumpy
open scoped BigOperators Topology

/-- `Select` (reordering.py:276-301): the entries at the flat positions `idxs` (`nmP`), in the shape `preferred_shape` (`nmQ`)
if there is one.  Positions are non-negative, as `__getitem__` makes them.  The attribute `_dr_cached` is the subject of
`Verif/AD/Memo.lean`. -/
noncomputable def chSelect : ClassDef where
  r := .child nmA fun v => .term nmP fun p => .term nmQ fun q =>
    match p with
    | some (.nats idxs) =>
      if ∀ j ∈ idxs, j < v.size then
        match q with
        | some (.nats sh) => if sh.prod = idxs.length then .ret (Arr.of sh fun k => v.vec (idxs.getD k 0)).atleast1 else .raise 1
        | none => .ret (Arr.of [idxs.length] fun k => v.vec (idxs.getD k 0))
        | _ => .raise 1
      else .raise 1
    | _ => .raise 1
  dr := fun _ S => if nmA ∈ S then .child nmA fun v => .term nmP fun p =>
      match p with
      | some (.nats idxs) =>
        if ∀ j ∈ idxs, j < v.size then
          .ret (some (.sparse idxs.length v.size (coo idxs.length id (fun k => idxs.getD k 0) fun _ => 1)))
        else .raise 1
      | _ => .raise 1
    else .ret none
  permute := true
  dr_none := rfl

theorem exact_select {tm : Name → Option Par} {v : Arr} {idxs sh : List ℕ} (hp : tm nmP = some (.nats idxs)) (hq : tm nmQ = some (.nats sh))
    (hi : ∀ j ∈ idxs, j < v.size) (hs : sh.prod = idxs.length) :
    Exact chSelect tm [nmA] (fun _ => v) (Arr.of sh fun k => v.vec (idxs.getD k 0)).atleast1 (fun _ => selMat (fun k => idxs.getD k 0) fun _ => 1) := by
  have hpr : (if sh = [] then [1] else sh).prod = idxs.length := by
    rw [← hs]; split
    · next h => rw [h]; rfl
    · rfl
  have e : ∀ u : Arr, (Arr.of sh fun k => u.vec (idxs.getD k 0)).atleast1 = Arr.of (if sh = [] then [1] else sh) fun k => u.vec (idxs.getD k 0) := by
    intro u
    refine Arr.ext_vec rfl fun k hk => ?_
    have hk1 : k < (if sh = [] then [1] else sh).prod := hk
    rw [Arr.atleast1_vec, Arr.vec_of _ _ hk1, Arr.vec_of _ _ (by rw [hs, ← hpr]; exact hk1)]
  rw [e v]
  refine exact_gather _ (fun k hk => ?_) (fun u hu => ?_) ?_
  · rw [hpr] at hk
    rw [List.getD_eq_getElem _ _ hk]
    exact hi _ (List.getElem_mem hk)
  · rw [← e u]
    refine ⟨0, ?_⟩
    have hi' : ∀ j ∈ idxs, j < u.size := by unfold Arr.size; rw [hu]; exact hi
    simp [lib, chSelect, runBody, env1, hp, hq, if_pos hi', if_pos hs]
  · refine ⟨some (.sparse idxs.length v.size (coo idxs.length id (fun k => idxs.getD k 0) fun _ => 1)), ⟨0, ?_⟩, ?_⟩
    · simp [lib, chSelect, runBody, env1, hp, if_pos hi]
    · rw [hpr]
      exact ⟨rfl, rfl, coo_rows _ _⟩

/-! ## `__getitem__` -/

/-- One part of a basic key: an integer or a slice `start:stop:step`, parts left out being `none`. -/
inductive Key
  | int (z : ℤ)
  | slice (start stop step : Option ℤ)

/-- Python's `slice.indices(n)`: start, stop and step with defaults filled in and clipped (`none`: step 0, an exception). -/
def sliceIndices (n : ℕ) (start stop step : Option ℤ) : Option (ℤ × ℤ × ℤ) :=
  let step := step.getD 1
  if step = 0 then none
  else
    let lower : ℤ := if step < 0 then -1 else 0
    let upper : ℤ := if step < 0 then n - 1 else n
    let clip := fun (z : ℤ) => if z < 0 then max (z + n) lower else min z upper
    some ((start.map clip).getD (if step < 0 then upper else lower), (stop.map clip).getD (if step < 0 then lower else upper), step)

/-- The number of elements of `range(start, stop, step)`. -/
def rangeLen (start stop step : ℤ) : ℕ :=
  if 0 < step then ((stop - start + step - 1) / step).toNat else ((start - stop - step - 1) / -step).toNat

/-- What a key selects along each axis: one position, which removes the axis, or a list of positions. -/
inductive Sel
  | one (i : ℕ)
  | many (l : List ℕ)

/-- The selection of one part of a key along an axis of length `n`. -/
def Key.sel (n : ℕ) : Key → Option Sel
  | .int z => (normAxis n z).map .one
  | .slice start stop step => (sliceIndices n start stop step).map fun (b, e, s) =>
      .many ((List.range (rangeLen b e s)).map fun (k : ℕ) => (b + k * s).toNat)

/-- The selection of a key: axes beyond its length are taken whole; more parts than axes are an exception. -/
def selOf : List Key → List ℕ → Option (List Sel)
  | [], sh => some (sh.map fun n => .many (List.range n))
  | _ :: _, [] => none
  | k :: ks, n :: sh => (k.sel n).bind fun s => (selOf ks sh).map fun t => s :: t

/-- The shape of the result. -/
def selShape : List Sel → List ℕ
  | [] => []
  | .one _ :: t => selShape t
  | .many l :: t => l.length :: selShape t

/-- The coordinates selected by the coordinates of an entry of the result. -/
def selCoord : List Sel → List ℕ → List ℕ
  | [], _ => []
  | .one i :: t, c => i :: selCoord t c
  | .many l :: t, j :: c => l.getD j 0 :: selCoord t c
  | .many l :: t, [] => l.getD 0 0 :: selCoord t []

/-- `np.arange(np.prod(shape)).reshape(shape).__getitem__(key)` (ch.py:501): the terms `idxs` and `preferred_shape` of the
`Select` object that `__getitem__` returns. -/
def getitem (key : List Key) (sh : List ℕ) : Option (List ℕ × List ℕ) :=
  (selOf key sh).map fun t =>
    ((List.range (selShape t).prod).map fun k => ravel sh (selCoord t (unravel (selShape t) k)), selShape t)

/-! ## Reshape -/

/-- `np.reshape` with one axis of length -1: its length is what is left. -/
def fillShape (size : ℕ) (sh : List ℤ) : Option (List ℕ) :=
  let known := (sh.filter fun z => z ≠ -1).map Int.toNat
  if (sh.filter fun z => z = -1).length = 0 then (if known.prod = size ∧ ∀ z ∈ sh, 0 ≤ z then some (sh.map Int.toNat) else none)
  else if (sh.filter fun z => z = -1).length = 1 ∧ (∀ z ∈ sh, -1 ≤ z) ∧ 0 < known.prod ∧ size % known.prod = 0 then
    some (sh.map fun z => if z = -1 then size / known.prod else z.toNat)
  else none

/-- `Reshape` (reordering.py:165-176); `newshape` is `nmP`. -/
noncomputable def chReshape : ClassDef where
  r := .child nmA fun v => .term nmP fun p =>
    match p with
    | some (.ints sh) => match fillShape v.size sh with
      | some o => .ret (Arr.of o v.vec).atleast1
      | none => .raise 1
    | _ => .raise 1
  dr := fun _ S => if nmA ∈ S then .child nmA fun v => .ret (some (.sparse v.size v.size fun i j => if i = j then 1 else 0))
    else .ret none
  permute := true
  dr_none := rfl

theorem fillShape_prod {n : ℕ} {sh : List ℤ} {o : List ℕ} (h : fillShape n sh = some o) : o.prod = n := by
  have key : ∀ (l : List ℤ) (m : ℕ), (l.map fun z => if z = -1 then m else z.toNat).prod =
      m ^ (l.filter fun z => z = -1).length * ((l.filter fun z => z ≠ -1).map Int.toNat).prod := by
    intro l m
    induction l with
    | nil => simp
    | cons z l ih =>
      by_cases hz : z = -1
      · simp [hz] at ih ⊢
        rw [ih, pow_succ]; ring
      · simp [hz] at ih ⊢
        rw [ih]; ring
  unfold fillShape at h
  dsimp only at h
  split at h
  · next h0 =>
    split at h
    · next h1 =>
      cases h
      have hz : ∀ z ∈ sh, z ≠ -1 := by
        intro z hz e
        have := h1.2 z hz
        omega
      have := key sh 0
      rw [h0, pow_zero, one_mul, h1.1] at this
      rw [← this]
      congr 1
      refine List.map_congr_left fun z hz' => ?_
      rw [if_neg (hz z hz')]
    · cases h
  · split at h
    · next h1 =>
      cases h
      rw [key, h1.1, pow_one]
      exact Nat.div_mul_cancel (Nat.dvd_of_mod_eq_zero h1.2.2.2)
    · cases h

theorem exact_reshape {tm : Name → Option Par} {v : Arr} {sh : List ℤ} {o : List ℕ} (hp : tm nmP = some (.ints sh))
    (ho : fillShape v.size sh = some o) :
    Exact chReshape tm [nmA] (fun _ => v) (Arr.of o v.vec).atleast1 (fun _ => selMat (fun k => k) fun _ => 1) := by
  have hs := fillShape_prod ho
  have hpr : (if o = [] then [1] else o).prod = v.size := by
    rw [← hs]; split
    · next h => rw [h]; rfl
    · rfl
  have e : ∀ u : Arr, (Arr.of o u.vec).atleast1 = Arr.of (if o = [] then [1] else o) fun k => u.vec k := by
    intro u
    refine Arr.ext_vec rfl fun k hk => ?_
    have hk1 : k < (if o = [] then [1] else o).prod := hk
    rw [Arr.atleast1_vec, Arr.vec_of _ _ hk1, Arr.vec_of _ _ (by rw [hs, ← hpr]; exact hk1)]
  rw [e v]
  refine exact_gather _ (fun k hk => ?_) (fun u hu => ?_) ?_
  · rw [hpr] at hk; exact hk
  · rw [← e u]
    have ho' : fillShape u.size sh = some o := by
      have : u.size = v.size := by unfold Arr.size; rw [hu]
      rw [this]; exact ho
    exact ⟨0, by simp [lib, chReshape, runBody, env1, hp, ho']⟩
  · refine ⟨some (.sparse v.size v.size fun i j => if i = j then 1 else 0), ⟨0, ?_⟩, ?_⟩
    · simp [lib, chReshape, runBody, env1]
    · rw [hpr]
      exact ⟨rfl, rfl, fun i _ j _ => by simp [selMat]⟩
end Chumpy
