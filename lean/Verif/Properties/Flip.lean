import Verif.AD.Flip
import Verif.AD.Compose
import Verif.Properties.Indexing
import Verif.Properties.Tensordot
/-!
# C82: `fliplr` and `flipud`
-/
namespace Chumpy
open scoped BigOperators

/-! ## Specification -/

/-- The two functions. -/
inductive FlipFn | lr | ud

/-- The axis reversed: `flipud` reverses the first, `fliplr` the second. -/
def FlipFn.axis : FlipFn → ℕ
  | .lr => 1
  | .ud => 0

/-- The coordinates `c` seen in a mirror: entry `ax` counted from the end. -/
def mirror (ax : ℕ) (sh c : List ℕ) : List ℕ := c.set ax (sh.getD ax 0 - 1 - c.getD ax 0)

/-- `out` is `v` with axis `ax` reversed. -/
def Mirrored (ax : ℕ) (v out : Arr) : Prop :=
  out.shape = v.shape ∧ ∀ c, InB v.shape c → out.at c = v.at (mirror ax v.shape c)

open Classical in
/-- The permutation matrix of reversing axis `ax`: row `k` has its 1 in the column of the mirrored coordinates. -/
noncomputable def mirrorMatrix (ax : ℕ) (sh : List ℕ) : Ent := fun k j =>
  if unravel sh j = mirror ax sh (unravel sh k) then 1 else 0

/-- The function called on an array of shape `sh`: `idxs` and `preferred_shape` of the object made, or none where it raises. -/
def FlipFn.call : FlipFn → List ℕ → Option (List ℕ × List ℕ)
  | .lr => fliplr
  | .ud => flipud

/-- The key each of them indexes with. -/
def FlipFn.key : FlipFn → List Key
  | .lr => [.all, .back]
  | .ud => [.back]

/-! ## Proofs -/

theorem FlipFn.call_eq (f : FlipFn) (sh : List ℕ) : f.call sh = getitem f.key sh := by cases f <;> rfl

theorem all_indices (n : ℕ) : sliceIndices n none none none = some (0, (n : ℤ), 1) := by simp [sliceIndices]
theorem back_indices (n : ℕ) : sliceIndices n none none (some (-1)) = some ((n : ℤ) - 1, -1, -1) := by simp [sliceIndices]

theorem eq_of_lt_iff {a b : ℕ} (h : ∀ m : ℕ, m < a ↔ m < b) : a = b := by
  apply Nat.le_antisymm
  · exact Nat.not_lt.1 fun hl => absurd ((h b).1 hl) (Nat.lt_irrefl _)
  · exact Nat.not_lt.1 fun hl => absurd ((h a).2 hl) (Nat.lt_irrefl _)

theorem all_len {n l : ℕ} {b e s : ℤ} (hb : sliceIndices n none none none = some (b, e, s))
    (h : ∀ m : ℕ, m < l ↔ (0 < s ∧ b + m * s < e) ∨ (s < 0 ∧ e < b + m * s)) : l = n := by
  rw [all_indices] at hb; cases hb
  exact eq_of_lt_iff fun m => by rw [h m]; omega

theorem back_len {n l : ℕ} {b e s : ℤ} (hb : sliceIndices n none none (some (-1)) = some (b, e, s))
    (h : ∀ m : ℕ, m < l ↔ (0 < s ∧ b + m * s < e) ∨ (s < 0 ∧ e < b + m * s)) : l = n := by
  rw [back_indices] at hb; cases hb
  exact eq_of_lt_iff fun m => by rw [h m]; omega

theorem flip_shape (f : FlipFn) {sh o : List ℕ} (h : ResultShape f.key sh o) : o = sh := by
  cases f with
  | ud =>
    cases sh with
    | nil => cases o <;> exact h.elim
    | cons n sh =>
      cases o with
      | nil => exact h.elim
      | cons l o =>
        obtain ⟨⟨b, e, s, hb, hl⟩, h2⟩ := h
        rw [back_len hb hl, show o = sh from h2]
  | lr =>
    cases sh with
    | nil => cases o <;> exact h.elim
    | cons n sh =>
      cases o with
      | nil => exact h.elim
      | cons l o =>
        obtain ⟨⟨b, e, s, hb, hl⟩, h2⟩ := h
        cases sh with
        | nil => cases o <;> exact h2.elim
        | cons n' sh =>
          cases o with
          | nil => exact h2.elim
          | cons l' o =>
            obtain ⟨⟨b', e', s', hb', hl'⟩, h3⟩ := h2
            rw [all_len hb hl, back_len hb' hl', show o = sh from h3]

theorem flip_selects (f : FlipFn) {sh c c' : List ℕ} (hc : InB sh c) (h : Selects f.key sh c c') : c' = mirror f.axis sh c := by
  cases f with
  | ud =>
    cases hc with
    | nil => cases c' <;> exact h.elim
    | cons hj hc =>
      cases c' with
      | nil => exact h.elim
      | cons i c' =>
        obtain ⟨⟨b, e, s, hb, hi⟩, h2⟩ := h
        rw [back_indices] at hb; cases hb
        have h2' : c' = _ := h2
        subst h2'
        simp only [mirror, FlipFn.axis, List.set_cons_zero, List.getD_cons_zero]
        congr 1; omega
  | lr =>
    cases hc with
    | nil => cases c' <;> exact h.elim
    | cons hj hc =>
      cases c' with
      | nil => exact h.elim
      | cons i c' =>
        obtain ⟨⟨b, e, s, hb, hi⟩, h2⟩ := h
        rw [all_indices] at hb; cases hb
        cases hc with
        | nil => cases c' <;> exact h2.elim
        | cons hj' hc =>
          cases c' with
          | nil => exact h2.elim
          | cons i' c' =>
            obtain ⟨⟨b', e', s', hb', hi'⟩, h3⟩ := h2
            rw [back_indices] at hb'; cases hb'
            have h3' : c' = _ := h3
            subst h3'
            simp only [mirror, FlipFn.axis, List.set_cons_succ, List.set_cons_zero, List.getD_cons_succ, List.getD_cons_zero]
            congr 1
            · omega
            · congr 1; omega

theorem mirror_inB {ax : ℕ} {sh c : List ℕ} (hc : InB sh c) : InB sh (mirror ax sh c) := by
  rw [inB_iff] at hc ⊢
  refine ⟨by simp [mirror, hc.1], fun j hj => ?_⟩
  have h0 := hc.2 j hj
  by_cases e : j = ax
  · subst e
    rw [mirror, List.getD_eq_getElem?_getD, List.getElem?_set_self (by omega)]
    simp only [Option.getD_some]; omega
  · rw [mirror, List.getD_eq_getElem?_getD, List.getElem?_set_ne (Ne.symm e), ← List.getD_eq_getElem?_getD]
    exact h0

theorem mirror_mirror {ax : ℕ} {sh c : List ℕ} (hc : InB sh c) : mirror ax sh (mirror ax sh c) = c := by
  have hl : (mirror ax sh c).length = c.length := by simp [mirror]
  refine List.ext_getElem? fun j => ?_
  by_cases e : j = ax
  · subst e
    by_cases hj : j < c.length
    · have h0 := (inB_iff.1 hc).2 j (by rw [← hc.length]; exact hj)
      have h1 : (mirror j sh c).getD j 0 = sh.getD j 0 - 1 - c.getD j 0 := by
        rw [mirror, List.getD_eq_getElem?_getD, List.getElem?_set_self hj]; rfl
      rw [mirror, List.getElem?_set_self (by omega), h1, List.getElem?_eq_getElem hj]
      rw [List.getD_eq_getElem _ _ hj] at h0 ⊢
      congr 1; omega
    · rw [List.getElem?_eq_none (by simp [mirror]; omega), List.getElem?_eq_none (by omega)]
  · rw [mirror, List.getElem?_set_ne (Ne.symm e), mirror, List.getElem?_set_ne (Ne.symm e)]

section
variable {h : Heap ClassDef Par Arr Jac} {y z a : Id} {v : Arr}

/-- C82: the object has the shape of the array and its entries with the axis reversed; its derivative is right, and asked about a
plain `Ch` it reports the permutation matrix.  The functions make a `Select` object with the parameters `call`. -/
theorem C82_flip (f : FlipFn) {idxs sh : List ℕ} (hr : Reach lib ⟨False, True⟩ h) (hy : IsA h.graph y chSelect [nmA] fun _ => a)
    (hv : Means lib h.graph (.r a) (.ok v)) (hk : f.call v.shape = some (idxs, sh))
    (hp : (h.graph y).terms nmP = some (.nats idxs)) (hq : (h.graph y).terms nmQ = some (.nats sh)) :
    ∃ out, Mirrored f.axis v out ∧ Right h y out ∧
      (IsLeaf h.graph a → Reports h y a v.size v.size (mirrorMatrix f.axis v.shape)) := by
  rw [FlipFn.call_eq] at hk
  obtain ⟨out, ⟨hs, hat⟩, hR, hJ⟩ := C23_indexing hr hy hv hk hp hq
  have hsh := flip_shape f hs
  have hne : out.shape ≠ [] := by
    intro e
    rw [e] at hs
    cases f with
    | ud => cases hvs : v.shape <;> rw [hvs] at hs <;> exact hs.elim
    | lr => cases hvs : v.shape <;> rw [hvs] at hs <;> exact hs.elim
  have h1 := atleast1_of_ne hne
  rw [h1] at hR hJ
  have hsz : out.size = v.size := by unfold Arr.size; rw [hsh]
  have hsel : ∀ c, InB v.shape c → Selects f.key v.shape c (mirror f.axis v.shape c) := by
    intro c hc
    obtain ⟨c', _, h3, _⟩ := hat c (by rw [hsh]; exact hc)
    rw [← flip_selects f hc h3]; exact h3
  refine ⟨out, ⟨hsh, fun c hc => ?_⟩, hR, fun hl => ?_⟩
  · obtain ⟨c', _, h3, h4⟩ := hat c (by rw [hsh]; exact hc)
    rw [h4, flip_selects f hc h3]
  · have := hJ hl
    rw [hsz] at this
    refine Reports.congr this fun k hk' j hj => ?_
    unfold selectionMatrix mirrorMatrix
    classical
    refine if_congr ?_ rfl rfl
    rw [hsh]
    constructor
    · rintro ⟨c, c', hc, hc', h3, rfl, rfl⟩
      rw [unravel_ravel hc, unravel_ravel hc', flip_selects f hc h3]
    · intro e
      have hc := unravel_inB (sh := v.shape) hk'
      refine ⟨_, _, hc, mirror_inB hc, hsel _ hc, ravel_unravel hk', ?_⟩
      rw [← e]; exact ravel_unravel hj

/-- C82: called twice, the value is back. -/
theorem C82_flip_twice (f : FlipFn) {idxs sh idxs' sh' : List ℕ} {u : Arr} (hr : Reach lib ⟨False, True⟩ h)
    (hy : IsA h.graph y chSelect [nmA] fun _ => a) (hv : Means lib h.graph (.r a) (.ok v)) (hk : f.call v.shape = some (idxs, sh))
    (hp : (h.graph y).terms nmP = some (.nats idxs)) (hq : (h.graph y).terms nmQ = some (.nats sh))
    (hz : IsA h.graph z chSelect [nmA] fun _ => y) (hu : Means lib h.graph (.r y) (.ok u)) (hk' : f.call u.shape = some (idxs', sh'))
    (hp' : (h.graph z).terms nmP = some (.nats idxs')) (hq' : (h.graph z).terms nmQ = some (.nats sh')) : Right h z v := by
  obtain ⟨o, ⟨h1, h2⟩, hR, _⟩ := C82_flip f hr hy hv hk hp hq
  obtain ⟨f₀, h5⟩ := hR.value
  obtain ⟨f₁, h6⟩ := read_of_means hr hu
  have e := (h5 _ (Nat.le_max_left f₀ f₁)).symm.trans (h6 _ (Nat.le_max_right f₀ f₁))
  cases e
  obtain ⟨o', ⟨h3, h4⟩, hR', _⟩ := C82_flip f hr hz hu hk' hp' hq'
  have : o' = v := Arr.ext_at (h3.trans h1) fun c hc => by
    rw [h3] at hc
    rw [h4 c hc, h1]
    rw [h1] at hc
    rw [h2 _ (mirror_inB hc), mirror_mirror hc]
  exact this ▸ hR'

/-- C82: the functions raise exactly for arrays with too few axes, as numpy's do. -/
theorem C82_raises (f : FlipFn) (sh : List ℕ) : f.call sh = none ↔ sh.length ≤ f.axis := by
  have h := C23_accepts f.key sh
  rw [FlipFn.call_eq, ← not_iff_not, not_le, ← Ne, Option.ne_none_iff_exists', h]
  cases f with
  | ud => cases sh <;> simp [FlipFn.key, FlipFn.axis, Accepted, Key.back]
  | lr => match sh with
    | [] => simp [FlipFn.key, FlipFn.axis, Accepted, Key.all]
    | [_] => simp [FlipFn.key, FlipFn.axis, Accepted, Key.back, Key.all]
    | _ :: _ :: _ => simp [FlipFn.key, FlipFn.axis, Accepted, Key.back, Key.all]
end

namespace ADDemo
/-- The hypotheses of C82 are met: `fliplr` and `flipud` of a 2×3 array. -/
example : FlipFn.lr.call [2, 3] = some ([2, 1, 0, 5, 4, 3], [2, 3]) := by decide
example : FlipFn.ud.call [2, 3] = some ([3, 4, 5, 0, 1, 2], [2, 3]) := by decide
example : ∃ h, Reach lib ⟨False, True⟩ h ∧ IsA h.graph 1 chSelect [nmA] (fun _ => 0) ∧
      Means lib h.graph (.r 0) (.ok ⟨[2, 3], fun k => k.1⟩) ∧ IsLeaf h.graph 0 ∧
      (h.graph 1).terms nmP = some (.nats [2, 1, 0, 5, 4, 3]) ∧ (h.graph 1).terms nmQ = some (.nats [2, 3]) := reordered_reach _ _ (by simp) _ _
example : mirror 1 [2, 3] [1, 0] = [1, 2] := by decide
example : FlipFn.lr.call [4] = none := by decide
end ADDemo
end Chumpy
