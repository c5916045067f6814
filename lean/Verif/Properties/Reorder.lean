import Verif.AD.Reorder
import Mathlib.Data.List.Perm.Basic
import Mathlib.Data.List.GetD
import Mathlib.Logic.Equiv.Basic
/-!
# C25: reordering classes
-/
namespace Chumpy
open scoped BigOperators Topology

/-! ## Specifications: numpy's functions, in coordinates -/

/-- Axis `t` of `out` is axis `π t` of `v`. -/
def AxesMoved (π : ℕ → ℕ) (v out : Arr) : Prop :=
  out.shape.length = v.shape.length ∧ (∀ t < v.shape.length, out.shape.getD t 0 = v.shape.getD (π t) 0) ∧
  ∀ c c', InB v.shape c → InB out.shape c' → (∀ t < v.shape.length, c'.getD t 0 = c.getD (π t) 0) → out.at c' = v.at c

/-- `out` consists of copies of `v`, `reps[t]` of them along axis `t` (missing axes of either are put in front). -/
def Tiled (reps : List ℕ) (v out : Arr) : Prop :=
  let d := max reps.length v.shape.length
  out.shape.length = d ∧
  (∀ t < d, out.shape.getD t 0 = (padShape d v.shape).getD t 0 * (padShape d reps).getD t 0) ∧
  ∀ c c', InB out.shape c → InB v.shape c' →
    (∀ t < v.shape.length, c.getD (t + (d - v.shape.length)) 0 % v.shape.getD t 0 = c'.getD t 0) → out.at c = v.at c'

/-- Each entry of `v` occurs `r` times in a row along axis `i`. -/
def RepeatedAlong (i r : ℕ) (v out : Arr) : Prop :=
  out.shape = v.shape.set i (v.shape.getD i 0 * r) ∧
  ∀ c, InB v.shape c → ∀ s < r, out.at (c.set i (c.getD i 0 * r + s)) = v.at c

/-- The entries of `v` in order, each `r` times. -/
def RepeatedFlat (r : ℕ) (v out : Arr) : Prop := out.shape = [v.size * r] ∧ ∀ k < v.size, ∀ s < r, out.vec (k * r + s) = v.vec k

/-- `v` moved by `s` along axis `i`, what goes out at one end coming in at the other. -/
def RolledAlong (i : ℕ) (s : ℤ) (v out : Arr) : Prop :=
  out.shape = v.shape ∧ ∀ c, InB v.shape c → ∀ j : ℕ, j < v.shape.getD i 0 → (j : ℤ) ≡ c.getD i 0 + s [ZMOD v.shape.getD i 0] →
    out.at (c.set i j) = v.at c

/-- The same for the flat entries. -/
def RolledFlat (s : ℤ) (v out : Arr) : Prop :=
  out.shape = v.shape ∧ ∀ k < v.size, ∀ j : ℕ, j < v.size → (j : ℤ) ≡ k + s [ZMOD v.size] → out.vec j = v.vec k

/-- `out` is `v` turned by a quarter, counterclockwise, in the plane of the first two axes. -/
def QuarterTurn (v out : Arr) : Prop :=
  ∃ m n rest, v.shape = m :: n :: rest ∧ out.shape = n :: m :: rest ∧
    ∀ i j t, InB v.shape (i :: j :: t) → out.at ((n - 1 - j) :: i :: t) = v.at (i :: j :: t)

/-- `k` quarter turns. -/
inductive Turned : ℕ → Arr → Arr → Prop
  | zero (v : Arr) : Turned 0 v v
  | succ {k : ℕ} {v u out : Arr} : Turned k v u → QuarterTurn u out → Turned (k + 1) v out

/-- `out` is the `k`-th diagonal of the matrix `v`. -/
def DiagonalOf (k : ℤ) (v out : Arr) : Prop :=
  ∃ m n l : ℕ, v.shape = [m, n] ∧ out.shape = [l] ∧
    (∀ i j : ℕ, i < m → j < n → (j : ℤ) = i + k → min i j < l ∧ out.vec (min i j) = v.at [i, j]) ∧
    ∀ t < l, ∃ i j : ℕ, i < m ∧ j < n ∧ (j : ℤ) = i + k ∧ t = min i j

/-- `out` is the square matrix with the entries of `v` on the `k`-th diagonal and 0 elsewhere. -/
def DiagonalMatrix (k : ℤ) (v out : Arr) : Prop :=
  out.shape = [v.size + k.natAbs, v.size + k.natAbs] ∧
  ∀ i j : ℕ, i < v.size + k.natAbs → j < v.size + k.natAbs →
    out.at [i, j] = if (j : ℤ) = i + k then v.vec (min i j) else 0

/-- `out` has the entries of the vector `v`, each as often, in order of size. -/
def SortedOf (v out : Arr) : Prop :=
  out.shape = v.shape ∧ ((List.range v.size).map out.vec).Perm ((List.range v.size).map v.vec) ∧ ∀ i j, i ≤ j → j < v.size → out.vec i ≤ out.vec j

/-! ## The layouts meet them -/

theorem getD_map {α β : Type} (f : α → β) (l : List α) (t : ℕ) (a : α) (b : β) (h : t < l.length) : (l.map f).getD t b = f (l.getD t a) := by
  rw [List.getD_eq_getElem _ _ (by simpa using h), List.getD_eq_getElem _ _ h, List.getElem_map]

theorem getD_range {n t : ℕ} (h : t < n) : (List.range n).getD t 0 = t := by
  rw [List.getD_eq_getElem _ _ (by simpa using h), List.getElem_range]

theorem list_ext_getD {l l' : List ℕ} (h : l.length = l'.length) (e : ∀ t < l.length, l.getD t 0 = l'.getD t 0) : l = l' := by
  refine List.ext_getElem h fun t h1 h2 => ?_
  have := e t h1
  rwa [List.getD_eq_getElem _ _ h1, List.getD_eq_getElem _ _ h2] at this

theorem getD_set (l : List ℕ) (i t x : ℕ) (h : t < l.length) : (l.set i x).getD t 0 = if i = t then x else l.getD t 0 := by
  rw [List.getD_eq_getElem _ _ (by simpa using h), List.getElem_set, List.getD_eq_getElem _ _ h]

theorem inB_set {sh c : List ℕ} {i n x : ℕ} (h : InB sh c) (hx : x < n) : InB (sh.set i n) (c.set i x) := by
  rw [inB_iff] at h ⊢
  refine ⟨by simp [h.1], fun j hj => ?_⟩
  have hj' : j < sh.length := by simpa using hj
  rw [getD_set _ _ _ _ (by rw [h.1]; exact hj'), getD_set _ _ _ _ hj']
  split
  · exact hx
  · exact h.2 j hj'

theorem inB_set_same {sh c : List ℕ} {i x : ℕ} (h : InB sh c) (hx : x < sh.getD i 0) : InB sh (c.set i x) := by
  have := inB_set (i := i) h hx
  rwa [show sh.set i (sh.getD i 0) = sh from ?_] at this
  refine list_ext_getD (by simp) fun t ht => ?_
  rw [getD_set _ _ _ _ (by simpa using ht)]
  split
  · next e => rw [e]
  · rfl

theorem atleast1_of_ne {v : Arr} (h : v.shape ≠ []) : v.atleast1 = v := by
  refine Arr.ext_vec (by simp [Arr.atleast1, Arr.of, h]) fun k _ => Arr.atleast1_vec v k

/-- `out` is a rearrangement by coordinates. -/
theorem byCoord_apply_shape (osh : List ℕ) (v : Arr) (src : List ℕ → List ℕ) : ((Layout.byCoord osh v.shape src).apply v).shape = osh := rfl

/-- A layout for all arrays of a shape. -/
def LayoutOf (ρ : Option Par → Option Par → Arr → Option Layout) (p q : Option Par) (v : Arr) (L : Layout) : Prop :=
  (∀ u : Arr, u.shape = v.shape → ρ p q u = some L) ∧ L.Ok v.size

theorem transposeL_ok {sh ax : List ℕ} (hax : ax.Perm (List.range sh.length)) :
    ∃ L, transposeL sh ax = some L ∧ L.Ok sh.prod ∧ L.shape.length = sh.length ∧
      ∀ v : Arr, v.shape = sh → AxesMoved (fun t => ax.getD t 0) v (L.apply v) := by
  have hlen : ax.length = sh.length := by rw [hax.length_eq, List.length_range]
  have hmem : ∀ j < sh.length, j ∈ ax := fun j hj => hax.mem_iff.2 (List.mem_range.2 hj)
  have hidx : ∀ j < sh.length, ax.idxOf j < ax.length := fun j hj => List.idxOf_lt_length_iff.2 (hmem j hj)
  have hget : ∀ j < sh.length, ax.getD (ax.idxOf j) 0 = j := fun j hj => by
    rw [List.getD_eq_getElem _ _ (hidx j hj), List.getElem_idxOf]
  have hsrc : ∀ c, InB (ax.map fun j => sh.getD j 0) c → InB sh ((List.range sh.length).map fun j => c.getD (ax.idxOf j) 0) := by
    intro c hc
    rw [inB_iff] at hc ⊢
    refine ⟨by simp, fun j hj => ?_⟩
    rw [getD_map _ _ _ 0 _ (by simpa using hj), getD_range hj]
    have := hc.2 (ax.idxOf j) (by simpa using hidx j hj)
    rwa [getD_map _ _ _ 0 _ (hidx j hj), hget j hj] at this
  refine ⟨_, if_pos hax, Layout.byCoord_ok hsrc, by simp [Layout.byCoord, hlen], ?_⟩
  rintro v rfl
  refine ⟨by simp [byCoord_apply_shape, hlen], fun t ht => ?_, fun c c' hc hc' he => ?_⟩
  · rw [byCoord_apply_shape, getD_map _ _ _ 0 _ (by rw [hlen]; exact ht)]
  · rw [byCoord_apply_shape] at hc'
    rw [Layout.byCoord_at hc']
    congr 1
    refine list_ext_getD (by simp [hc.length]) fun t ht => ?_
    have ht' : t < v.shape.length := by simpa using ht
    rw [getD_map _ _ _ 0 _ (by simpa using ht'), getD_range ht']
    have h1 := he (ax.idxOf t) (by rw [← hlen]; exact hidx t ht')
    rw [h1]; dsimp only; rw [hget t ht']

theorem swapAxes_perm {n i j : ℕ} (hi : i < n) (hj : j < n) : (swapAxes n i j).Perm (List.range n) := by
  refine (List.perm_ext_iff_of_nodup ?_ List.nodup_range).2 fun t => ?_
  · refine List.Nodup.map_on ?_ List.nodup_range
    intro x _ y _ h
    split_ifs at h <;> omega
  · unfold swapAxes
    rw [List.mem_map, List.mem_range]
    constructor
    · rintro ⟨a, ha, rfl⟩
      rw [List.mem_range] at ha
      split_ifs <;> omega
    · intro ht
      refine ⟨if t = i then j else if t = j then i else t, ?_, ?_⟩
      · rw [List.mem_range]; split_ifs <;> omega
      · split_ifs <;> omega

theorem swapAxes_getD {n i j t : ℕ} (ht : t < n) : (swapAxes n i j).getD t 0 = Equiv.swap i j t := by
  unfold swapAxes
  rw [getD_map _ _ _ 0 _ (by simpa using ht), getD_range ht, Equiv.swap_apply_def]

theorem AxesMoved.congr {π π' : ℕ → ℕ} {v out : Arr} (h : AxesMoved π v out) (e : ∀ t < v.shape.length, π t = π' t) : AxesMoved π' v out :=
  ⟨h.1, fun t ht => by rw [← e t ht]; exact h.2.1 t ht, fun c c' hc hc' he => h.2.2 c c' hc hc' fun t ht => by rw [e t ht]; exact he t ht⟩

/-- Where `np.rollaxis` puts the axis. -/
def rollPos (axis start : ℕ) : ℕ := if axis < start then start - 1 else start

theorem rollAxes_spec {n axis start : ℕ} (ha : axis < n) (hs : start ≤ n) :
    (rollAxes n axis start).Perm (List.range n) ∧ (rollAxes n axis start).getD (rollPos axis start) 0 = axis ∧
      ∀ s t, s < t → t < n → s ≠ rollPos axis start → t ≠ rollPos axis start →
        (rollAxes n axis start).getD s 0 < (rollAxes n axis start).getD t 0 := by
  have hmem : axis ∈ List.range n := List.mem_range.2 ha
  have hlen : ((List.range n).erase axis).length = n - 1 := by rw [List.length_erase_of_mem hmem, List.length_range]
  have hp : rollPos axis start ≤ ((List.range n).erase axis).length := by
    rw [hlen]; unfold rollPos; split <;> omega
  have hlen' : (rollAxes n axis start).length = n := by
    unfold rollAxes
    rw [List.length_insertIdx, if_pos (by exact hp), hlen]; omega
  have hsort : ((List.range n).erase axis).Pairwise (· < ·) :=
    List.Pairwise.sublist (List.erase_sublist) List.pairwise_lt_range
  have hget : ∀ t < n, ∀ (_ : t ≠ rollPos axis start), ∃ h, (rollAxes n axis start).getD t 0 =
      ((List.range n).erase axis)[if t < rollPos axis start then t else t - 1]'h := by
    intro t ht hne
    have hlt : t < (rollAxes n axis start).length := by rw [hlen']; exact ht
    rw [List.getD_eq_getElem _ _ hlt]
    by_cases h1 : t < rollPos axis start
    · simp only [if_pos h1]
      exact ⟨lt_of_lt_of_le h1 hp, List.getElem_insertIdx_of_lt h1 hlt⟩
    · simp only [if_neg h1]
      have h2 : rollPos axis start < t := by omega
      exact ⟨by rw [hlen]; omega, List.getElem_insertIdx_of_gt h2 hlt⟩
  refine ⟨?_, ?_, ?_⟩
  · exact (List.perm_insertIdx _ _ hp).trans (List.perm_cons_erase hmem).symm
  · have hlt : rollPos axis start < (rollAxes n axis start).length := by rw [hlen']; omega
    rw [List.getD_eq_getElem _ _ hlt]
    exact List.getElem_insertIdx_self hlt
  · intro s t hst ht h1 h2
    obtain ⟨_, e1⟩ := hget s (by omega) h1
    obtain ⟨_, e2⟩ := hget t ht h2
    rw [e1, e2]
    refine List.pairwise_iff_getElem.1 hsort _ _ _ _ ?_
    split_ifs <;> omega

theorem padShape_length {d : ℕ} {sh : List ℕ} (h : sh.length ≤ d) : (padShape d sh).length = d := by
  unfold padShape; simp; omega

theorem padShape_getD {d : ℕ} {sh : List ℕ} (t : ℕ) (_ : sh.length ≤ d) :
    (padShape d sh).getD (t + (d - sh.length)) 0 = sh.getD t 0 := by
  unfold padShape
  rw [List.getD_append_right _ _ _ _ (by simp)]
  simp

theorem tile_ok (reps : List ℕ) (v : Arr) :
    ∃ L, LayoutOf tileρ (some (.nats reps)) q v L ∧ L.shape.length = max reps.length v.shape.length ∧ Tiled reps v (L.apply v) := by
  have hd1 : v.shape.length ≤ max reps.length v.shape.length := le_max_right _ _
  have hd2 : reps.length ≤ max reps.length v.shape.length := le_max_left _ _
  generalize hd : max reps.length v.shape.length = d at hd1 hd2
  have l1 := padShape_length hd1
  have l2 := padShape_length hd2
  have hosh : (List.zipWith (· * ·) (padShape d v.shape) (padShape d reps)).length = d := by simp [l1, l2]
  have hoget : ∀ t < d, (List.zipWith (· * ·) (padShape d v.shape) (padShape d reps)).getD t 0 = (padShape d v.shape).getD t 0 * (padShape d reps).getD t 0 := by
    intro t ht
    rw [List.getD_eq_getElem _ _ (by rw [hosh]; exact ht), List.getElem_zipWith, List.getD_eq_getElem _ _ (by rw [l1]; exact ht),
      List.getD_eq_getElem _ _ (by rw [l2]; exact ht)]
  have hsrc : ∀ c, c.length = d → ((List.zipWith (· % ·) c (padShape d v.shape)).drop (d - v.shape.length)).length = v.shape.length ∧
      ∀ t < v.shape.length, ((List.zipWith (· % ·) c (padShape d v.shape)).drop (d - v.shape.length)).getD t 0 =
        c.getD (t + (d - v.shape.length)) 0 % v.shape.getD t 0 := by
    intro c hc
    have hl : (List.zipWith (· % ·) c (padShape d v.shape)).length = d := by simp [hc, l1]
    refine ⟨by rw [List.length_drop, hl]; omega, fun t ht => ?_⟩
    have h1 : (d - v.shape.length) + t < (List.zipWith (· % ·) c (padShape d v.shape)).length := by rw [hl]; omega
    rw [List.getD_eq_getElem _ _ (by rw [List.length_drop]; omega), List.getElem_drop, List.getElem_zipWith, ← padShape_getD t hd1,
      List.getD_eq_getElem _ _ (by rw [hc]; omega), List.getD_eq_getElem _ _ (by rw [l1]; omega)]
    simp only [Nat.add_comm]
  refine ⟨.byCoord (List.zipWith (· * ·) (padShape d v.shape) (padShape d reps)) v.shape fun c =>
      (List.zipWith (· % ·) c (padShape d v.shape)).drop (d - v.shape.length), ⟨?_, ?_⟩, hosh, ?_⟩
  · intro u hu
    simp only [tileρ, hu, hd]
  · refine Layout.byCoord_ok fun c hc => ?_
    rw [inB_iff] at hc
    rw [hosh] at hc
    obtain ⟨h1, h2⟩ := hsrc c hc.1
    refine inB_iff.2 ⟨h1, fun t ht => ?_⟩
    rw [h2 t ht]
    have h3 := hc.2 (t + (d - v.shape.length)) (by omega)
    rw [hoget _ (by omega), padShape_getD t hd1] at h3
    refine Nat.mod_lt _ ?_
    rcases Nat.eq_zero_or_pos (v.shape.getD t 0) with e | e
    · rw [e, Nat.zero_mul] at h3; omega
    · exact e
  · show _ ∧ _ ∧ _
    rw [hd, byCoord_apply_shape]
    refine ⟨hosh, hoget, fun c c' hc hc' he => ?_⟩
    rw [Layout.byCoord_at hc]
    congr 1
    obtain ⟨h1, h2⟩ := hsrc c (by rw [hc.length, hosh])
    refine list_ext_getD (by rw [h1, hc'.length]) fun t ht => ?_
    rw [h1] at ht
    rw [h2 t ht, he t ht]

theorem repeatAlong_ok {v : Arr} {a : ℤ} {i : ℕ} (hi : normAxis v.shape.length a = some i) (r : ℕ) :
    ∃ L, LayoutOf repeatρ (some (.nat r)) (some (.int a)) v L ∧ RepeatedAlong i r v (L.apply v) := by
  have hil := normAxis_lt hi
  refine ⟨_, ⟨fun u hu => by simp only [repeatρ, hu, hi]; rfl, ?_⟩, rfl, ?_⟩
  · refine Layout.byCoord_ok fun c hc => ?_
    have hc1 := hc
    rw [inB_iff] at hc ⊢
    have hcl : c.length = v.shape.length := by simpa using hc.1
    refine ⟨by simpa using hcl, fun t ht => ?_⟩
    rw [getD_set _ _ _ _ (by rw [hcl]; exact ht)]
    have h1 := hc.2 t (by simpa using ht)
    rw [getD_set _ _ _ _ ht] at h1
    split
    · next e =>
      subst e
      rw [if_pos rfl, Nat.mul_comm] at h1
      exact Nat.div_lt_of_lt_mul h1
    · next e => rwa [if_neg e] at h1
  · intro c hc s hs
    have hci : c.getD i 0 < v.shape.getD i 0 := (inB_iff.1 hc).2 i hil
    have hb : c.getD i 0 * r + s < v.shape.getD i 0 * r := by
      calc c.getD i 0 * r + s < c.getD i 0 * r + r := by omega
        _ = (c.getD i 0 + 1) * r := by ring
        _ ≤ _ := Nat.mul_le_mul_right _ hci
    rw [Layout.byCoord_at (inB_set hc hb)]
    congr 1
    refine list_ext_getD (by simp) fun t ht => ?_
    have htc : t < c.length := by simpa using ht
    rw [getD_set _ _ _ _ (by simpa using htc), getD_set _ _ _ _ htc, getD_set _ _ _ _ (by rw [hc.length]; exact hil)]
    split
    · next e =>
      rw [if_pos rfl, ← e, Nat.mul_comm, Nat.mul_add_div (by omega), Nat.div_eq_of_lt hs, Nat.add_zero]
    · rfl

theorem repeatFlat_ok {v : Arr} (r : ℕ) :
    ∃ L, LayoutOf repeatρ (some (.nat r)) (some .none) v L ∧ L.shape ≠ [] ∧ RepeatedFlat r v (L.apply v) := by
  refine ⟨⟨[v.size * r], fun k => some (k / r)⟩, ⟨fun u hu => by simp [repeatρ, Arr.size, hu], ?_⟩, by simp, rfl, ?_⟩
  · intro k hk
    simp only [List.prod_cons, List.prod_nil, mul_one] at hk
    exact ⟨_, Nat.div_lt_of_lt_mul (by rwa [Nat.mul_comm] at hk), rfl⟩
  · intro k hk s hs
    have hb : k * r + s < v.size * r := by
      calc k * r + s < k * r + r := by omega
        _ = (k + 1) * r := by ring
        _ ≤ _ := Nat.mul_le_mul_right _ hk
    unfold Layout.apply
    rw [Arr.vec_of _ _ (by simpa using hb)]
    simp [Nat.mul_comm k r, Nat.mul_add_div (show 0 < r by omega), Nat.div_eq_of_lt hs]

theorem back_lt {n : ℕ} {s : ℤ} {k : ℕ} (h : 0 < n) : back n s k < n := by
  unfold back
  have h1 := Int.emod_nonneg ((k : ℤ) - s) (b := (n : ℤ)) (by omega)
  have h2 := Int.emod_lt_of_pos ((k : ℤ) - s) (b := (n : ℤ)) (by omega)
  omega

theorem back_eq {n : ℕ} {s : ℤ} {j k : ℕ} (hk : k < n) (h : (j : ℤ) ≡ k + s [ZMOD n]) : back n s j = k := by
  have h1 : ((j : ℤ) - s) % n = k := by
    have : (j : ℤ) - s ≡ k [ZMOD n] := by
      have := h.sub_right s
      rwa [add_sub_cancel_right] at this
    rw [this.eq]
    exact Int.emod_eq_of_lt (by omega) (by omega)
  unfold back
  rw [h1]; simp

theorem rollAlong_ok {v : Arr} {a : ℤ} {i : ℕ} (hi : normAxis v.shape.length a = some i) (s : ℤ) :
    ∃ L, LayoutOf rollρ (some (.int s)) (some (.int a)) v L ∧ RolledAlong i s v (L.apply v) := by
  have hil := normAxis_lt hi
  refine ⟨_, ⟨fun u hu => by simp only [rollρ, hu, hi]; rfl, ?_⟩, rfl, ?_⟩
  · refine Layout.byCoord_ok fun c hc => inB_set_same hc (back_lt ?_)
    have := (inB_iff.1 hc).2 i hil
    omega
  · intro c hc j hj hm
    rw [Layout.byCoord_at (inB_set_same hc hj)]
    congr 1
    refine list_ext_getD (by simp) fun t ht => ?_
    have htc : t < c.length := by simpa using ht
    rw [getD_set _ _ _ _ (by simpa using htc), getD_set _ _ _ _ htc, getD_set _ _ _ _ (by rw [hc.length]; exact hil), if_pos rfl]
    split
    · next e => rw [back_eq ((inB_iff.1 hc).2 i hil) hm, e]
    · rfl

theorem rollFlat_ok {v : Arr} (s : ℤ) :
    ∃ L, LayoutOf rollρ (some (.int s)) (some .none) v L ∧ RolledFlat s v (L.apply v) := by
  refine ⟨⟨v.shape, fun k => some (back v.size s k)⟩, ⟨fun u hu => by simp [rollρ, Arr.size, hu], ?_⟩, rfl, ?_⟩
  · intro k hk
    exact ⟨_, back_lt (Nat.lt_of_le_of_lt (Nat.zero_le _) hk), rfl⟩
  · intro k hk j hj hm
    unfold Layout.apply
    rw [Arr.vec_of _ _ hj]
    simp [back_eq hk hm]

theorem rot1 {v : Arr} {m n : ℕ} {rest : List ℕ} (h : v.shape = m :: n :: rest) {f : List ℕ → List ℕ} (hf : ∀ i j t, f (i :: j :: t) = j :: (n - 1 - i) :: t) :
    QuarterTurn v ((Layout.byCoord (n :: m :: rest) v.shape f).apply v) := by
  refine ⟨m, n, rest, h, rfl, fun i j t hc => ?_⟩
  rw [h] at hc
  have hc' : i < m ∧ j < n ∧ InB rest t := by
    cases hc with | cons h1 h2 => cases h2 with | cons h3 h4 => exact ⟨h1, h3, h4⟩
  have hb : InB (n :: m :: rest) ((n - 1 - j) :: i :: t) := .cons (by omega) (.cons hc'.1 hc'.2.2)
  rw [Layout.byCoord_at hb, hf]
  congr 2
  congr 1
  omega

/-- The second and third quarter turn, put together from the coordinates. -/
theorem rot_comp {v : Arr} {m n : ℕ} {rest : List ℕ} {f g : List ℕ → List ℕ} {osh : List ℕ}
    (hu : osh = m :: n :: rest) (hf : ∀ i j t, f (i :: j :: t) = j :: (n - 1 - i) :: t)
    {k : List ℕ → List ℕ} (hk : ∀ c, InB (n :: m :: rest) c → k c = g (f c)) :
    QuarterTurn ((Layout.byCoord osh v.shape g).apply v) ((Layout.byCoord (n :: m :: rest) v.shape k).apply v) := by
  have := rot1 (v := (Layout.byCoord osh v.shape g).apply v) hu hf
  convert this using 1
  refine Arr.ext_at rfl fun c hc => ?_
  have hc' : InB (n :: m :: rest) c := hc
  rw [Layout.byCoord_at hc', Layout.byCoord_at hc', hk c hc']
  have hfc : InB osh (f c) := by
    rw [hu]
    cases hc' with | cons h1 h2 => cases h2 with | cons h3 h4 =>
      rw [hf]
      exact .cons h3 (.cons (by omega) h4)
  rw [Layout.byCoord_at hfc]

theorem rot90_ok {v : Arr} {m n : ℕ} {rest : List ℕ} (h : v.shape = m :: n :: rest) (k : ℤ) (q : Option Par) :
    ∃ L, LayoutOf rot90ρ (some (.int k)) q v L ∧ L.shape ≠ [] ∧ Turned (k % 4).toNat v (L.apply v) := by
  have h4 : k % 4 = 0 ∨ k % 4 = 1 ∨ k % 4 = 2 ∨ k % 4 = 3 := by omega
  have hid : (Layout.byCoord v.shape v.shape id).apply v = v :=
    Arr.ext_at rfl fun c hc => Layout.byCoord_at hc
  have t1 : Turned 1 v ((Layout.byCoord (n :: m :: rest) v.shape (turn1 n)).apply v) := .succ (.zero v) (rot1 h fun _ _ _ => rfl)
  have b1 : ∀ c, InB (n :: m :: rest) c → InB v.shape ((turn1 n) c) := by
    intro c hc
    rw [h]
    cases hc with | cons h1 h2 => cases h2 with | cons h3 h4 => exact .cons h3 (.cons (by omega) h4)
  have t2 : Turned 2 v ((Layout.byCoord v.shape v.shape (turn2 m n)).apply v) := by
    refine .succ t1 ?_
    have := rot_comp (v := v) (m := n) (n := m) (rest := rest) (osh := n :: m :: rest) rfl (f := turn1 m) (fun _ _ _ => rfl) (g := turn1 n) (k := turn2 m n) (by
        intro c hc
        cases hc with | cons h1 h2 => cases h2 with | cons h3 h4 => rfl)
    rwa [← h] at this
  have b2 : ∀ c, InB (m :: n :: rest) c → InB v.shape ((turn2 m n) c) := by
    intro c hc
    rw [h]
    cases hc with | cons h1 h2 => cases h2 with | cons h3 h4 => exact .cons (by omega) (.cons (by omega) h4)
  have b3 : ∀ c, InB (n :: m :: rest) c → InB v.shape ((turn3 m) c) := by
    intro c hc
    rw [h]
    cases hc with | cons h1 h2 => cases h2 with | cons h3 h4 => exact .cons (by omega) (.cons h1 h4)
  have t3 : Turned 3 v ((Layout.byCoord (n :: m :: rest) v.shape (turn3 m)).apply v) := by
    refine .succ t2 ?_
    exact rot_comp (v := v) (m := m) (n := n) (rest := rest) h (f := turn1 n) (fun _ _ _ => rfl) (by
        intro c hc
        cases hc with | cons h1 h2 => cases h2 with | cons h3 h4 =>
          simp only [turn1, turn2, turn3]
          congr 2
          omega)
  have hu : ∀ u : Arr, u.shape = v.shape → u.shape = m :: n :: rest := fun u hu => hu.trans h
  rcases h4 with e | e | e | e
  · refine ⟨.byCoord v.shape v.shape id, ⟨fun u hs => ?_, Layout.byCoord_ok fun _ hc => hc⟩, by simp [Layout.byCoord, h], ?_⟩
    · simp [rot90ρ, hu u hs, e, h]
    · rw [e, hid]; exact .zero v
  · refine ⟨.byCoord (n :: m :: rest) v.shape (turn1 n), ⟨fun u hs => ?_, Layout.byCoord_ok b1⟩, by simp [Layout.byCoord], ?_⟩
    · simp [rot90ρ, hu u hs, e, h]
    · rw [e]; exact t1
  · refine ⟨.byCoord v.shape v.shape (turn2 m n), ⟨fun u hs => ?_, Layout.byCoord_ok (h ▸ b2)⟩, by simp [Layout.byCoord, h], ?_⟩
    · simp [rot90ρ, hu u hs, e, h]
    · rw [e]; exact t2
  · refine ⟨.byCoord (n :: m :: rest) v.shape (turn3 m), ⟨fun u hs => ?_, Layout.byCoord_ok b3⟩, by simp [Layout.byCoord], ?_⟩
    · simp [rot90ρ, hu u hs, e, h]
    · rw [e]; exact t3

theorem diagOf_ok {v : Arr} {m n : ℕ} (h : v.shape = [m, n]) (k : ℤ) (q : Option Par) :
    ∃ L, LayoutOf diagρ (some (.int k)) q v L ∧ L.shape ≠ [] ∧ DiagonalOf k v (L.apply v) := by
  refine ⟨⟨[min (m - (-k).toNat) (n - k.toNat)], fun t => some ((t + (-k).toNat) * n + (t + k.toNat))⟩, ⟨fun u hu => ?_, ?_⟩, by simp, ?_⟩
  · simp [diagρ, diagL, hu, h]
  · intro t ht
    simp only [List.prod_cons, List.prod_nil, mul_one] at ht
    have h1 : t + (-k).toNat < m := by omega
    have h2 : t + k.toNat < n := by omega
    refine ⟨_, ?_, rfl⟩
    unfold Arr.size
    rw [h]
    simp only [List.prod_cons, List.prod_nil, mul_one]
    calc (t + (-k).toNat) * n + (t + k.toNat) < (t + (-k).toNat) * n + n := by omega
      _ = (t + (-k).toNat + 1) * n := by ring
      _ ≤ m * n := Nat.mul_le_mul_right _ h1
  · refine ⟨m, n, min (m - (-k).toNat) (n - k.toNat), h, rfl, fun i j hi hj e => ?_, fun t ht => ?_⟩
    · have hl : min i j < min (m - (-k).toNat) (n - k.toNat) := by omega
      refine ⟨hl, ?_⟩
      unfold Layout.apply
      rw [Arr.vec_of _ _ (by simpa using hl)]
      have e1 : min i j + (-k).toNat = i := by omega
      have e2 : min i j + k.toNat = j := by omega
      simp only [e1, e2, Option.map_some, Option.getD_some]
      unfold Arr.at
      rw [h]
      simp [ravel]
    · exact ⟨t + (-k).toNat, t + k.toNat, by omega, by omega, by omega, by omega⟩

theorem diagL_vector (n : ℕ) (k : ℤ) (v : Arr) (hv : v.size = n) :
    ∃ L, diagL [n] k = some L ∧ L.shape ≠ [] ∧ DiagonalMatrix k v (L.apply v) := by
  subst hv
  refine ⟨_, rfl, by simp, rfl, fun i j hi hj => ?_⟩
  have hN : 0 < v.size + k.natAbs := by omega
  have hlt : i * (v.size + k.natAbs) + j < (v.size + k.natAbs) * (v.size + k.natAbs) := by
    calc i * (v.size + k.natAbs) + j < i * (v.size + k.natAbs) + (v.size + k.natAbs) := by omega
      _ = (i + 1) * (v.size + k.natAbs) := by ring
      _ ≤ _ := Nat.mul_le_mul_right _ hi
  have hr : ravel [v.size + k.natAbs, v.size + k.natAbs] [i, j] = i * (v.size + k.natAbs) + j := by simp [ravel]
  have e1 : (i * (v.size + k.natAbs) + j) / (v.size + k.natAbs) = i := by
    rw [Nat.mul_comm, Nat.mul_add_div hN, Nat.div_eq_of_lt hj, Nat.add_zero]
  have e2 : (i * (v.size + k.natAbs) + j) % (v.size + k.natAbs) = j := by
    rw [Nat.mul_comm, Nat.mul_add_mod, Nat.mod_eq_of_lt hj]
  unfold Arr.at Layout.apply
  show (Arr.of [v.size + k.natAbs, v.size + k.natAbs] _).vec (ravel [v.size + k.natAbs, v.size + k.natAbs] [i, j]) = _
  rw [hr, Arr.vec_of _ _ (by simpa using hlt)]
  dsimp only
  rw [e1, e2]
  by_cases h : (j : ℤ) = i + k
  · rw [if_pos h, if_pos h]
    simp only [Option.map_some, Option.getD_some]
    congr 1
    omega
  · rw [if_neg h, if_neg h]; rfl

theorem argsort_perm (v : Arr) : (argsort v).Perm (List.range v.size) := by
  classical exact List.perm_insertionSort _ _

theorem argsort_length (v : Arr) : (argsort v).length = v.size := by
  rw [(argsort_perm v).length_eq, List.length_range]

theorem argsort_sorted (v : Arr) : (argsort v).Pairwise fun i j => v.vec i ≤ v.vec j := by
  have : Std.Total fun i j => v.vec i ≤ v.vec j := ⟨fun i j => le_total _ _⟩
  have : IsTrans ℕ fun i j => v.vec i ≤ v.vec j := ⟨fun i j k => le_trans⟩
  exact List.pairwise_insertionSort _ _

theorem argsort_id {v : Arr} (h : ∀ i j, i < j → j < v.size → v.vec i ≤ v.vec j) : argsort v = List.range v.size := by
  refine List.Pairwise.insertionSort_eq ?_
  rw [List.pairwise_iff_getElem]
  intro i j hi hj hij
  rw [List.getElem_range, List.getElem_range]
  exact h i j hij (by simpa using hj)

theorem sort_value {v : Arr} {n : ℕ} (h : v.shape = [n]) (p q : Option Par) :
    ∃ L, sortρ p q v = some L ∧ L.shape ≠ [] ∧ SortedOf v (L.apply v) := by
  have hn : v.size = n := by simp [Arr.size, h]
  refine ⟨_, by unfold sortρ; rw [h], by simp, ?_⟩
  have hvec : ∀ k (hk : k < v.size), (Layout.apply ⟨[n], fun k => (argsort v)[k]?⟩ v).vec k = v.vec ((argsort v)[k]'(by rw [argsort_length]; exact hk)) := by
    intro k hk
    unfold Layout.apply
    rw [Arr.vec_of _ _ (by simpa [hn] using hk)]
    dsimp only
    rw [List.getElem?_eq_getElem (by rw [argsort_length]; exact hk)]
    rfl
  refine ⟨by rw [h]; rfl, ?_, fun i j hij hj => ?_⟩
  · have : (List.range v.size).map (Layout.apply ⟨[n], fun k => (argsort v)[k]?⟩ v).vec = (argsort v).map v.vec := by
      refine List.ext_getElem (by simp [argsort_length]) fun k h1 h2 => ?_
      rw [List.getElem_map, List.getElem_map, List.getElem_range]
      exact hvec k (by simpa using h1)
    rw [this]
    exact (argsort_perm v).map _
  · rcases Nat.lt_or_ge i j with h1 | h1
    · rw [hvec i (by omega), hvec j hj]
      exact List.pairwise_iff_getElem.1 (argsort_sorted v) _ _ _ _ h1
    · rw [Nat.le_antisymm hij h1]

/-! ## C25 -/

/-- The functions C25 is about. -/
inductive Reordering : (Option Par → Option Par → Arr → Option Layout) → Prop
  | transpose : Reordering transposeρ
  | swapaxes : Reordering swapaxesρ
  | rollaxis : Reordering rollaxisρ
  | tile : Reordering tileρ
  | repeat : Reordering repeatρ
  | roll : Reordering rollρ
  | rot90 : Reordering rot90ρ
  | diag : Reordering diagρ
  | diagflat : Reordering diagflatρ
  | sort : Reordering sortρ

/-- C25 in full: whenever numpy accepts the arguments, the derivative is right.  The entries are taken to be distinct because
`sort` has no derivative otherwise. -/
def C25_full : Prop :=
  ∀ ρ, Reordering ρ → ∀ (h : Heap ClassDef Par Arr Jac) (y a : Id) (v : Arr) (L : Layout), Reach lib ⟨False, True⟩ h →
    IsA h.graph y (chReorder ρ) [nmA] (fun _ => a) → Means lib h.graph (.r a) (.ok v) → (∀ i j, i < j → j < v.size → v.vec i ≠ v.vec j) →
    ρ ((h.graph y).terms nmP) ((h.graph y).terms nmQ) v = some L → Right h y (L.apply v).atleast1

section
variable {h : Heap ClassDef Par Arr Jac} {y a : Id} {v : Arr}

theorem right_layout {ρ : Option Par → Option Par → Arr → Option Layout} {p q : Option Par} {L : Layout} (hr : Reach lib ⟨False, True⟩ h)
    (hy : IsA h.graph y (chReorder ρ) [nmA] fun _ => a) (hp : (h.graph y).terms nmP = p) (hq : (h.graph y).terms nmQ = q)
    (hv : Means lib h.graph (.r a) (.ok v)) (hL : LayoutOf ρ p q v L) (hs : L.shape ≠ []) : Right h y (L.apply v) := by
  have := right_of_exact hr hy (v := fun _ => v) (fun _ => hv) (exact_reorder (L := L) (by rw [hp, hq]; exact hL.1) hL.2)
  rwa [atleast1_of_ne (by exact hs)] at this

/-- C25 for `transpose(a, axes)`, axes in any order and possibly negative.  (Values of objects have at least one axis.)
The missing parts of C25 are those refuted below: `diag` of vectors, `diagflat`, `sort` of vectors that are not in order. -/
theorem C25_transpose_partial {axes : List ℤ} {ax : List ℕ} (hr : Reach lib ⟨False, True⟩ h)
    (hy : IsA h.graph y chTranspose [nmA] fun _ => a) (hv : Means lib h.graph (.r a) (.ok v)) (hs : v.shape ≠ [])
    (hp : (h.graph y).terms nmP = some (.ints axes)) (hax : axes.mapM (normAxis v.shape.length) = some ax)
    (hperm : ax.Perm (List.range v.shape.length)) :
    ∃ out, AxesMoved (fun t => ax.getD t 0) v out ∧ Right h y out := by
  obtain ⟨L, h1, h2, h3, h4⟩ := transposeL_ok hperm
  refine ⟨_, h4 v rfl, right_layout hr hy hp rfl hv ⟨fun u hu => ?_, h2⟩ ?_⟩
  · simp only [transposeρ, hu, hax]
    exact h1
  · intro e; rw [e] at h3; exact hs (List.length_eq_zero_iff.1 h3.symm)

/-- C25 for `transpose(a)` and `a.T`: the axes in reverse order. -/
theorem C25_transpose_reversed_partial (hr : Reach lib ⟨False, True⟩ h)
    (hy : IsA h.graph y chTranspose [nmA] fun _ => a) (hv : Means lib h.graph (.r a) (.ok v)) (hs : v.shape ≠ [])
    (hp : (h.graph y).terms nmP = none ∨ (h.graph y).terms nmP = some .none) :
    ∃ out, AxesMoved (fun t => v.shape.length - 1 - t) v out ∧ Right h y out := by
  obtain ⟨L, h1, h2, h3, h4⟩ := transposeL_ok (sh := v.shape) (List.reverse_perm _)
  refine ⟨_, (h4 v rfl).congr fun t ht => ?_, right_layout hr hy rfl rfl hv ⟨fun u hu => ?_, h2⟩ ?_⟩
  · rw [List.getD_eq_getElem _ _ (by simpa using ht), List.getElem_reverse, List.getElem_range, List.length_range]
  · rcases hp with hp | hp
    · simp only [transposeρ, hu, hp]; exact h1
    · simp only [transposeρ, hu, hp]; exact h1
  · intro e; rw [e] at h3; exact hs (List.length_eq_zero_iff.1 h3.symm)

/-- C25 for `swapaxes`. -/
theorem C25_swapaxes_partial {s t : ℤ} {i j : ℕ} (hr : Reach lib ⟨False, True⟩ h)
    (hy : IsA h.graph y chSwapaxes [nmA] fun _ => a) (hv : Means lib h.graph (.r a) (.ok v))
    (hp : (h.graph y).terms nmP = some (.int s)) (hq : (h.graph y).terms nmQ = some (.int t))
    (hi : normAxis v.shape.length s = some i) (hj : normAxis v.shape.length t = some j) :
    ∃ out, AxesMoved (Equiv.swap i j) v out ∧ Right h y out := by
  have hil := normAxis_lt hi
  obtain ⟨L, h1, h2, h3, h4⟩ := transposeL_ok (sh := v.shape) (swapAxes_perm hil (normAxis_lt hj))
  refine ⟨_, (h4 v rfl).congr fun t ht => swapAxes_getD ht, right_layout hr hy hp hq hv ⟨fun u hu => ?_, h2⟩ ?_⟩
  · simp only [swapaxesρ, hu, hi, hj]; exact h1
  · intro e; rw [e] at h3; simp at h3; omega

/-- C25 for `rollaxis`: the axis goes to the place before axis `start` and the others keep their order. -/
theorem C25_rollaxis_partial {s t : ℤ} {axis start : ℕ} (hr : Reach lib ⟨False, True⟩ h)
    (hy : IsA h.graph y chRollaxis [nmA] fun _ => a) (hv : Means lib h.graph (.r a) (.ok v))
    (hp : (h.graph y).terms nmP = some (.int s)) (hi : normAxis v.shape.length s = some axis)
    (hq : (h.graph y).terms nmQ = none ∧ start = 0 ∨
      (h.graph y).terms nmQ = some (.int t) ∧ (t = v.shape.length ∧ start = v.shape.length ∨ normAxis v.shape.length t = some start)) :
    ∃ (out : Arr) (π : ℕ → ℕ), π (rollPos axis start) = axis ∧
      (∀ s t, s < t → t < v.shape.length → s ≠ rollPos axis start → t ≠ rollPos axis start → π s < π t) ∧
      (∀ t < v.shape.length, π t < v.shape.length) ∧ AxesMoved π v out ∧ Right h y out := by
  have hil := normAxis_lt hi
  have hst : start ≤ v.shape.length := by
    rcases hq with ⟨_, rfl⟩ | ⟨_, ⟨_, rfl⟩ | h2⟩
    · omega
    · exact le_refl _
    · exact (normAxis_lt h2).le
  obtain ⟨r1, r2, r3⟩ := rollAxes_spec hil hst
  obtain ⟨L, h1, h2, h3, h4⟩ := transposeL_ok (sh := v.shape) r1
  refine ⟨_, _, r2, r3, fun t ht => ?_, h4 v rfl, right_layout hr hy hp rfl hv ⟨fun u hu => ?_, h2⟩ ?_⟩
  · have hl : t < (rollAxes v.shape.length axis start).length := by rw [r1.length_eq, List.length_range]; exact ht
    rw [List.getD_eq_getElem _ _ hl]
    exact List.mem_range.1 (r1.mem_iff.1 (List.getElem_mem hl))
  · rcases hq with ⟨hq, rfl⟩ | ⟨hq, ⟨e, rfl⟩ | hq2⟩
    · simp only [rollaxisρ, hu, hi, hq]; exact h1
    · simp only [rollaxisρ, hu, hi, hq, e]; simpa using h1
    · have hne : t ≠ v.shape.length := by
        intro e
        have h5 := normAxis_lt hq2
        rw [e] at hq2
        unfold normAxis at hq2
        rw [if_neg (by omega), if_neg (by omega)] at hq2
        cases hq2
      simp only [rollaxisρ, hu, hi, hq, if_neg hne, hq2]; exact h1
  · intro e; rw [e] at h3; simp at h3; omega

/-- C25 for `tile`. -/
theorem C25_tile_partial {reps : List ℕ} (hr : Reach lib ⟨False, True⟩ h)
    (hy : IsA h.graph y chTile [nmA] fun _ => a) (hv : Means lib h.graph (.r a) (.ok v)) (hs : v.shape ≠ [])
    (hp : (h.graph y).terms nmP = some (.nats reps)) : ∃ out, Tiled reps v out ∧ Right h y out := by
  obtain ⟨L, h1, h2, h3⟩ := tile_ok (q := (h.graph y).terms nmQ) reps v
  refine ⟨_, h3, right_layout hr hy hp rfl hv h1 ?_⟩
  intro e; rw [e] at h2; simp only [List.length_nil] at h2
  exact hs (List.length_eq_zero_iff.1 (by omega))

/-- C25 for `repeat` along an axis. -/
theorem C25_repeat_along_partial {r : ℕ} {s : ℤ} {i : ℕ} (hr : Reach lib ⟨False, True⟩ h)
    (hy : IsA h.graph y chRepeat [nmA] fun _ => a) (hv : Means lib h.graph (.r a) (.ok v))
    (hp : (h.graph y).terms nmP = some (.nat r)) (hq : (h.graph y).terms nmQ = some (.int s)) (hi : normAxis v.shape.length s = some i) :
    ∃ out, RepeatedAlong i r v out ∧ Right h y out := by
  obtain ⟨L, h1, h2⟩ := repeatAlong_ok hi r
  refine ⟨_, h2, right_layout hr hy hp hq hv h1 ?_⟩
  intro e
  have h3 : (L.apply v).shape = [] := e
  rw [h2.1] at h3
  have h4 := congrArg List.length h3
  have := normAxis_lt hi
  simp at h4; simp [h4] at this

/-- C25 for `repeat` of the flattened array. -/
theorem C25_repeat_partial {r : ℕ} (hr : Reach lib ⟨False, True⟩ h)
    (hy : IsA h.graph y chRepeat [nmA] fun _ => a) (hv : Means lib h.graph (.r a) (.ok v))
    (hp : (h.graph y).terms nmP = some (.nat r)) (hq : (h.graph y).terms nmQ = some .none) :
    ∃ out, RepeatedFlat r v out ∧ Right h y out := by
  obtain ⟨L, h1, h2, h3⟩ := repeatFlat_ok (v := v) r
  exact ⟨_, h3, right_layout hr hy hp hq hv h1 h2⟩

/-- C25 for `roll` along an axis, by any number of positions in either direction. -/
theorem C25_roll_along_partial {s b : ℤ} {i : ℕ} (hr : Reach lib ⟨False, True⟩ h)
    (hy : IsA h.graph y chRoll [nmA] fun _ => a) (hv : Means lib h.graph (.r a) (.ok v))
    (hp : (h.graph y).terms nmP = some (.int s)) (hq : (h.graph y).terms nmQ = some (.int b)) (hi : normAxis v.shape.length b = some i) :
    ∃ out, RolledAlong i s v out ∧ Right h y out := by
  obtain ⟨L, h1, h2⟩ := rollAlong_ok hi s
  refine ⟨_, h2, right_layout hr hy hp hq hv h1 ?_⟩
  intro e
  have h3 : (L.apply v).shape = [] := e
  rw [h2.1] at h3
  have := normAxis_lt hi
  simp [h3] at this

/-- C25 for `roll` of the flat entries. -/
theorem C25_roll_partial {s : ℤ} (hr : Reach lib ⟨False, True⟩ h)
    (hy : IsA h.graph y chRoll [nmA] fun _ => a) (hv : Means lib h.graph (.r a) (.ok v)) (hs : v.shape ≠ [])
    (hp : (h.graph y).terms nmP = some (.int s)) (hq : (h.graph y).terms nmQ = some .none) :
    ∃ out, RolledFlat s v out ∧ Right h y out := by
  obtain ⟨L, h1, h2⟩ := rollFlat_ok (v := v) s
  refine ⟨_, h2, right_layout hr hy hp hq hv h1 ?_⟩
  intro e
  have h3 : (L.apply v).shape = [] := e
  rw [h2.1] at h3
  exact hs h3

/-- C25 for `rot90`. -/
theorem C25_rot90_partial {k : ℤ} {m n : ℕ} {rest : List ℕ} (hr : Reach lib ⟨False, True⟩ h)
    (hy : IsA h.graph y chRot90 [nmA] fun _ => a) (hv : Means lib h.graph (.r a) (.ok v)) (hs : v.shape = m :: n :: rest)
    (hp : (h.graph y).terms nmP = some (.int k)) :
    ∃ out, Turned (k % 4).toNat v out ∧ Right h y out := by
  obtain ⟨L, h1, h2, h3⟩ := rot90_ok hs k ((h.graph y).terms nmQ)
  exact ⟨_, h3, right_layout hr hy hp rfl hv h1 h2⟩

/-- C25 for `diag` of matrices. -/
theorem C25_diag_matrix_partial {k : ℤ} {m n : ℕ} (hr : Reach lib ⟨False, True⟩ h)
    (hy : IsA h.graph y chDiag [nmA] fun _ => a) (hv : Means lib h.graph (.r a) (.ok v)) (hs : v.shape = [m, n])
    (hp : (h.graph y).terms nmP = some (.int k)) :
    ∃ out, DiagonalOf k v out ∧ Right h y out := by
  obtain ⟨L, h1, h2, h3⟩ := diagOf_ok hs k ((h.graph y).terms nmQ)
  exact ⟨_, h3, right_layout hr hy hp rfl hv h1 h2⟩
end
end Chumpy
