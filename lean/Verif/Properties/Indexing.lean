import Verif.AD.Select
import Verif.Properties.ReorderRefuted
/-!
# C23: indexing
-/
namespace Chumpy
open scoped BigOperators Topology

/-! ## Specification: numpy's basic indexing -/

/-- Coordinates `c` in the result and `c'` in the array belong to each other: an integer fixes a coordinate, the `j`-th place
along a slice is `start + j * step`, axes without a key are taken whole.  `sliceIndices` is Python's `slice.indices`. -/
def Selects : List Key → List ℕ → List ℕ → List ℕ → Prop
  | [], _, c, c' => c' = c
  | .int z :: ks, n :: sh, c, i :: c' => (i : ℤ) = (if z < 0 then z + n else z) ∧ Selects ks sh c c'
  | .slice st en sp :: ks, n :: sh, j :: c, i :: c' =>
      (∃ b e s, sliceIndices n st en sp = some (b, e, s) ∧ (i : ℤ) = b + j * s) ∧ Selects ks sh c c'
  | _, _, _, _ => False

/-- The shape of the result: an integer removes its axis; a slice has as many places as come before `stop`. -/
def ResultShape : List Key → List ℕ → List ℕ → Prop
  | [], sh, o => o = sh
  | .int _ :: ks, _ :: sh, o => ResultShape ks sh o
  | .slice st en sp :: ks, n :: sh, l :: o =>
      (∃ b e s, sliceIndices n st en sp = some (b, e, s) ∧ ∀ m : ℕ, m < l ↔ (0 < s ∧ b + m * s < e) ∨ (s < 0 ∧ e < b + m * s)) ∧ ResultShape ks sh o
  | _, _, _ => False

/-- `out` is `v[key]`, without the conversion to at least one axis. -/
def IndexResult (key : List Key) (v out : Arr) : Prop :=
  ResultShape key v.shape out.shape ∧
  ∀ c, InB out.shape c → ∃ c', InB v.shape c' ∧ Selects key v.shape c c' ∧ out.at c = v.at c'

open Classical in
/-- The 0/1 matrix of the selected positions: entry `(k, j)` is 1 if the `k`-th entry of the result is the `j`-th of the array. -/
noncomputable def selectionMatrix (key : List Key) (sh o : List ℕ) : Ent := fun k j =>
  if ∃ c c', InB o c ∧ InB sh c' ∧ Selects key sh c c' ∧ ravel o c = k ∧ ravel sh c' = j then 1 else 0

/-! ## Proofs -/

theorem normAxis_eq {n : ℕ} {z : ℤ} {i : ℕ} (h : normAxis n z = some i) : (i : ℤ) = if z < 0 then z + n else z := by
  unfold normAxis at h
  split at h
  · cases h; rw [if_neg (by omega)]; omega
  · split at h
    · cases h; rw [if_pos (by omega)]; omega
    · cases h

theorem rangeLen_iff {b e s : ℤ} (hs : s ≠ 0) (m : ℕ) : m < rangeLen b e s ↔ (0 < s ∧ b + m * s < e) ∨ (s < 0 ∧ e < b + m * s) := by
  unfold rangeLen
  rcases lt_or_gt_of_ne hs with h | h
  · rw [if_neg (by omega), Int.lt_toNat]
    have h1 : ((m : ℤ) < (b - e - s - 1) / -s) ↔ ((m : ℤ) + 1) * -s ≤ b - e - s - 1 := by
      rw [← Int.le_ediv_iff_mul_le (by omega)]; omega
    rw [h1]
    constructor
    · intro h2; right; refine ⟨h, ?_⟩; nlinarith
    · rintro (⟨h3, _⟩ | ⟨_, h3⟩)
      · omega
      · nlinarith
  · rw [if_pos h, Int.lt_toNat]
    have h1 : ((m : ℤ) < (e - b + s - 1) / s) ↔ ((m : ℤ) + 1) * s ≤ e - b + s - 1 := by
      rw [← Int.le_ediv_iff_mul_le h]; omega
    rw [h1]
    constructor
    · intro h2; left; refine ⟨h, ?_⟩; nlinarith
    · rintro (⟨_, h3⟩ | ⟨h3, _⟩)
      · nlinarith
      · omega

/-- What `slice.indices` returns is within the sequence. -/
theorem sliceIndices_bounds {n : ℕ} {st en sp : Option ℤ} {b e s : ℤ} (h : sliceIndices n st en sp = some (b, e, s)) :
    s ≠ 0 ∧ (0 < s → 0 ≤ b ∧ e ≤ n) ∧ (s < 0 → b < n ∧ -1 ≤ e) := by
  unfold sliceIndices at h
  dsimp only at h
  split at h
  · cases h
  · next hne =>
    simp only [Option.some.injEq, Prod.mk.injEq] at h
    obtain ⟨hb, he, hs⟩ := h
    rw [hs] at hb he hne
    refine ⟨hne, fun hp => ?_, fun hp => ?_⟩
    · rw [← hb, ← he]
      simp only [if_neg (not_lt.2 hp.le)]
      constructor
      · cases st with
        | none => simp
        | some z => simp only [Option.map_some, Option.getD_some]; split <;> omega
      · cases en with
        | none => simp
        | some z => simp only [Option.map_some, Option.getD_some]; split <;> omega
    · rw [← hb, ← he]
      simp only [if_pos hp]
      constructor
      · cases st with
        | none => simp
        | some z => simp only [Option.map_some, Option.getD_some]; split <;> omega
      · cases en with
        | none => simp
        | some z => simp only [Option.map_some, Option.getD_some]; split <;> omega

theorem slice_pos {n : ℕ} {st en sp : Option ℤ} {b e s : ℤ} (h : sliceIndices n st en sp = some (b, e, s)) {k : ℕ} (hk : k < rangeLen b e s) :
    0 ≤ b + k * s ∧ b + k * s < n := by
  obtain ⟨h0, hp, hn⟩ := sliceIndices_bounds h
  rcases (rangeLen_iff h0 k).1 hk with ⟨h1, h2⟩ | ⟨h1, h2⟩
  · obtain ⟨h3, h4⟩ := hp h1
    have : 0 ≤ (k : ℤ) * s := by positivity
    omega
  · obtain ⟨h3, h4⟩ := hn h1
    have : (k : ℤ) * s ≤ 0 := mul_nonpos_of_nonneg_of_nonpos (by positivity) h1.le
    omega

theorem selCoord_full (sh : List ℕ) {c : List ℕ} (hc : InB sh c) : selCoord (sh.map fun n => Sel.many (List.range n)) c = c := by
  induction hc with
  | nil => rfl
  | cons h _ ih =>
    simp only [List.map_cons, selCoord]
    rw [ih, getD_range h]

theorem selShape_full (sh : List ℕ) : selShape (sh.map fun n => Sel.many (List.range n)) = sh := by
  induction sh with
  | nil => rfl
  | cons n sh ih => simp only [List.map_cons, selShape, ih, List.length_range]

theorem selOf_spec (key : List Key) (sh : List ℕ) {t : List Sel} (h : selOf key sh = some t) :
    ResultShape key sh (selShape t) ∧ ∀ c, InB (selShape t) c → InB sh (selCoord t c) ∧ Selects key sh c (selCoord t c) := by
  induction key generalizing sh t with
  | nil =>
    simp only [selOf, Option.some.injEq] at h
    subst h
    rw [selShape_full]
    exact ⟨rfl, fun c hc => by rw [selCoord_full sh hc]; exact ⟨hc, rfl⟩⟩
  | cons k ks ih =>
    cases sh with
    | nil => simp [selOf] at h
    | cons n sh =>
      simp only [selOf, Option.bind_eq_some_iff, Option.map_eq_some_iff] at h
      obtain ⟨s, hs, t', ht', rfl⟩ := h
      obtain ⟨h1, h2⟩ := ih sh ht'
      cases k with
      | int z =>
        simp only [Key.sel, Option.map_eq_some_iff] at hs
        obtain ⟨i, hi, rfl⟩ := hs
        refine ⟨h1, fun c hc => ?_⟩
        obtain ⟨h3, h4⟩ := h2 c hc
        exact ⟨.cons (normAxis_lt hi) h3, normAxis_eq hi, h4⟩
      | slice st en sp =>
        simp only [Key.sel, Option.map_eq_some_iff] at hs
        obtain ⟨⟨b, e, s'⟩, hb, rfl⟩ := hs
        have h0 := (sliceIndices_bounds hb).1
        simp only [selShape, List.length_map, List.length_range]
        refine ⟨⟨⟨b, e, s', hb, fun m => rangeLen_iff h0 m⟩, h1⟩, fun c hc => ?_⟩
        cases hc with
        | cons hj hc' =>
          next j c =>
          obtain ⟨h3, h4⟩ := h2 _ hc'
          have hp := slice_pos hb hj
          have hg : ((List.range (rangeLen b e s')).map fun (k : ℕ) => (b + k * s').toNat).getD j 0 = (b + j * s').toNat := by
            rw [getD_map _ _ _ 0 _ (by simpa using hj), getD_range hj]
          simp only [selCoord]
          rw [hg]
          exact ⟨.cons (by omega) h3, ⟨b, e, s', hb, by omega⟩, h4⟩

theorem selects_unique (key : List Key) (sh c c₁ c₂ : List ℕ) (h1 : Selects key sh c c₁) (h2 : Selects key sh c c₂) : c₁ = c₂ := by
  induction key generalizing sh c c₁ c₂ with
  | nil => exact h1.trans h2.symm
  | cons k ks ih =>
    cases k with
    | int z =>
      cases sh with
      | nil => simp [Selects] at h1
      | cons n sh =>
        cases c₁ with
        | nil => simp [Selects] at h1
        | cons i c₁ =>
          cases c₂ with
          | nil => simp [Selects] at h2
          | cons i' c₂ =>
            rw [ih _ _ _ _ h1.2 h2.2]
            have := h1.1.trans h2.1.symm
            congr 1
            omega
    | slice st en sp =>
      cases sh with
      | nil => simp [Selects] at h1
      | cons n sh =>
        cases c with
        | nil => simp [Selects] at h1
        | cons j c =>
          cases c₁ with
          | nil => simp [Selects] at h1
          | cons i c₁ =>
            cases c₂ with
            | nil => simp [Selects] at h2
            | cons i' c₂ =>
              rw [ih _ _ _ _ h1.2 h2.2]
              obtain ⟨⟨b, e, s, hb, hi⟩, _⟩ := h1
              obtain ⟨⟨b', e', s', hb', hi'⟩, _⟩ := h2
              rw [hb] at hb'
              cases hb'
              congr 1
              omega

section
variable {h : Heap ClassDef Par Arr Jac} {y a : Id} {v : Arr}

/-- C23: `y = a[key]` is numpy's `a.r[key]` (with at least one axis), its derivative is right, and asked about a plain `Ch` it
reports the 0/1 matrix of the selected positions.  `__getitem__` gives the new object the terms `getitem key a.shape`, or raises an
exception where numpy does. -/
theorem C23_indexing {key : List Key} {idxs sh : List ℕ} (hr : Reach lib ⟨False, True⟩ h)
    (hy : IsA h.graph y chSelect [nmA] fun _ => a) (hv : Means lib h.graph (.r a) (.ok v)) (hk : getitem key v.shape = some (idxs, sh))
    (hp : (h.graph y).terms nmP = some (.nats idxs)) (hq : (h.graph y).terms nmQ = some (.nats sh)) :
    ∃ out, IndexResult key v out ∧ Right h y out.atleast1 ∧
      (IsLeaf h.graph a → Reports h y a out.atleast1.size v.size (selectionMatrix key v.shape out.shape)) := by
  simp only [getitem, Option.map_eq_some_iff, Prod.mk.injEq] at hk
  obtain ⟨t, ht, hidx, rfl⟩ := hk
  obtain ⟨h1, h2⟩ := selOf_spec key v.shape ht
  have hlen : (selShape t).prod = idxs.length := by rw [← hidx]; simp
  have hget : ∀ k < (selShape t).prod, idxs.getD k 0 = ravel v.shape (selCoord t (unravel (selShape t) k)) := by
    intro k hk
    rw [← hidx, getD_map _ _ _ 0 _ (by simpa using hk), getD_range hk]
  have hin : ∀ j ∈ idxs, j < v.size := by
    intro j hj
    rw [← hidx, List.mem_map] at hj
    obtain ⟨k, hk, rfl⟩ := hj
    exact ravel_lt (h2 _ (unravel_inB (List.mem_range.1 hk))).1
  have hE := exact_select (tm := (h.graph y).terms) hp hq hin hlen
  refine ⟨Arr.of (selShape t) fun k => v.vec (idxs.getD k 0), ⟨h1, fun c hc => ?_⟩, right_of_exact hr hy (fun _ => hv) hE, fun hl => ?_⟩
  · have hc' : InB (selShape t) c := hc
    refine ⟨selCoord t c, (h2 c hc').1, (h2 c hc').2, ?_⟩
    unfold Arr.at
    show (Arr.of (selShape t) _).vec (ravel (selShape t) c) = _
    rw [Arr.vec_of _ _ (ravel_lt hc'), hget _ (ravel_lt hc'), unravel_ravel hc']
  · have hm := means_of_isA hy (v := fun _ => v) (fun _ => hv) hE.val
    have hsz : (Arr.of (selShape t) fun k => v.vec (idxs.getD k 0)).atleast1.size = idxs.length := by
      rw [Arr.atleast1_size]; exact hlen
    refine reports_of_rep hr hy (v := fun _ => v) (fun _ => hv) hm (fun _ => hl) ⟨(0 : Fin 1), rfl⟩
      (d := some (.sparse idxs.length v.size (coo idxs.length id (fun k => idxs.getD k 0) fun _ => 1))) ?_ ?_
    · rw [namesOf_one hy]; erw [env_one]
      exact ⟨0, by simp [lib, chSelect, runBody, env1, hp, if_pos hin]⟩
    · rw [hsz]
      refine ⟨rfl, rfl, (coo_rows _ _).trans ?_⟩
      intro k hk j hj
      have hk' : k < (selShape t).prod := by rw [hlen]; exact hk
      unfold selMat selectionMatrix
      classical
      refine if_congr ?_ rfl rfl
      show idxs.getD k 0 = j ↔ ∃ c c', InB (selShape t) c ∧ InB v.shape c' ∧ Selects key v.shape c c' ∧ ravel (selShape t) c = k ∧ ravel v.shape c' = j
      rw [hget k hk']
      constructor
      · intro e
        exact ⟨_, _, unravel_inB hk', (h2 _ (unravel_inB hk')).1, (h2 _ (unravel_inB hk')).2, ravel_unravel hk', e⟩
      · rintro ⟨c, c', hc, hc', hs, rfl, rfl⟩
        rw [unravel_ravel hc, selects_unique _ _ _ _ _ hs (h2 c hc).2]
end

/-- A key is accepted: no more parts than axes, integers within the axis, no step 0. -/
def Accepted : List Key → List ℕ → Prop
  | [], _ => True
  | .int z :: ks, n :: sh => (-(n : ℤ) ≤ z ∧ z < n) ∧ Accepted ks sh
  | .slice _ _ sp :: ks, _ :: sh => sp ≠ some 0 ∧ Accepted ks sh
  | _ :: _, [] => False

/-- C23, exceptions: `__getitem__` returns for exactly the keys numpy accepts. -/
theorem C23_accepts (key : List Key) (sh : List ℕ) : (∃ r, getitem key sh = some r) ↔ Accepted key sh := by
  have : (∃ r, getitem key sh = some r) ↔ ∃ t, selOf key sh = some t := by
    unfold getitem
    cases selOf key sh <;> simp
  rw [this]
  clear this
  induction key generalizing sh with
  | nil => simp [selOf, Accepted]
  | cons k ks ih =>
    cases sh with
    | nil => cases k <;> simp [selOf, Accepted]
    | cons n sh =>
      have hb : (∃ t, selOf (k :: ks) (n :: sh) = some t) ↔ (∃ s, k.sel n = some s) ∧ ∃ t, selOf ks sh = some t := by
        simp only [selOf, Option.bind_eq_some_iff, Option.map_eq_some_iff]
        constructor
        · rintro ⟨_, s, hs, t, ht, _⟩; exact ⟨⟨s, hs⟩, t, ht⟩
        · rintro ⟨⟨s, hs⟩, t, ht⟩; exact ⟨_, s, hs, t, ht, rfl⟩
      refine hb.trans ((and_congr Iff.rfl (ih sh)).trans ?_)
      cases k with
      | int z =>
        refine and_congr ?_ Iff.rfl
        simp only [Key.sel, Option.map_eq_some_iff, normAxis]
        split
        · next h => exact ⟨fun _ => by omega, fun _ => ⟨_, _, rfl, rfl⟩⟩
        · split
          · next h => exact ⟨fun _ => by omega, fun _ => ⟨_, _, rfl, rfl⟩⟩
          · exact ⟨fun ⟨_, _, h, _⟩ => (by cases h), fun h => (by omega)⟩
      | slice st en sp =>
        refine and_congr ?_ Iff.rfl
        simp only [Key.sel, Option.map_eq_some_iff, sliceIndices]
        split
        · next h =>
          refine ⟨fun ⟨_, _, h, _⟩ => (by cases h), fun h' => ?_⟩
          cases sp with
          | none => simp at h
          | some z => simp at h; exact absurd (by rw [h]) h'
        · next h =>
          refine ⟨fun _ e => h (by rw [e]; rfl), fun _ => ⟨_, _, rfl, rfl⟩⟩

namespace ADDemo
/-- The hypotheses of C23 are met: `a[1, ::-2]` of a 2×5 array. -/
example : getitem [.int 1, .slice none none (some (-2))] [2, 5] = some ([9, 7, 5], [3]) := by decide
example : ∃ h, Reach lib ⟨False, True⟩ h ∧ IsA h.graph 1 chSelect [nmA] (fun _ => 0) ∧
      Means lib h.graph (.r 0) (.ok ⟨[2, 5], fun k => k.1⟩) ∧ IsLeaf h.graph 0 ∧
      (h.graph 1).terms nmP = some (.nats [9, 7, 5]) ∧ (h.graph 1).terms nmQ = some (.nats [3]) := reordered_reach _ _ (by simp) _ _
example : getitem [.int (-1)] [4] = some ([3], []) := by decide
example : getitem [.slice (some (-10)) (some 10) (some 2)] [5] = some ([0, 2, 4], [3]) := by decide
example : getitem [.int 2] [2] = none := by decide
example : getitem [.int 0, .int 0] [2] = none := by decide
end ADDemo
end Chumpy
