import Verif.AD.Select
import Verif.Properties.Tensordot
import Verif.Properties.ReorderRefuted
/-!
# C67: indexing with any key numpy understands

C23 is about keys made of integers and slices.  numpy has many more: arrays of integers, masks, `...`, `np.newaxis` and all their
combinations.  What they have in common is that they move entries about without looking at them.
-/
namespace Chumpy
open scoped BigOperators Topology

/-- A numpy array with entries of any type. -/
@[ext] structure Nd (α : Type) where
  shape : List ℕ
  data : Fin shape.prod → α

/-- Apply a function to each entry. -/
def Nd.map {α β : Type} (f : α → β) (x : Nd α) : Nd β := ⟨x.shape, fun k => f (x.data k)⟩

/-- An operation of numpy, such as `x ↦ x[key]`, that is given for arrays with entries of any type (`none` is an exception) and does
not look at the entries: it commutes with functions applied to each of them. -/
structure NpSelect where
  op : {α : Type} → Nd α → Option (Nd α)
  natural : ∀ {α β : Type} (f : α → β) (x : Nd α), op (x.map f) = (op x).map (Nd.map f)

/-- The arrays of the model as arrays with real entries. -/
def Arr.nd (v : Arr) : Nd ℝ := ⟨v.shape, v.data⟩

/-- `__getitem__` (ch.py:499-504) with a key that is `sel`: the terms `idxs` and `preferred_shape` of the `Select` object it returns are
found by indexing `np.arange(np.prod(shape)).reshape(shape)` (`none`: an exception). -/
def getitemBy (sel : NpSelect) (sh : List ℕ) : Option (List ℕ × List ℕ) :=
  (sel.op (α := ℕ) ⟨sh, fun k => k.1⟩).map fun o => (List.ofFn o.data, o.shape)

/-- The array `x` is the array of positions of its shape, seen through its entries. -/
theorem nd_eq_map (v : Arr) : v.nd = (⟨v.shape, fun k => k.1⟩ : Nd ℕ).map v.vec := by
  unfold Nd.map Arr.nd
  congr 1
  funext k
  unfold Arr.vec
  rw [dif_pos k.2]

/-- The positions are those of entries: nothing else is there to be selected. -/
theorem getitemBy_lt {sel : NpSelect} {sh idxs osh : List ℕ} (hk : getitemBy sel sh = some (idxs, osh)) :
    (∀ j ∈ idxs, j < sh.prod) ∧ osh.prod = idxs.length := by
  simp only [getitemBy, Option.map_eq_some_iff, Prod.mk.injEq] at hk
  obtain ⟨o, ho, rfl, rfl⟩ := hk
  refine ⟨fun j hj => ?_, by simp⟩
  obtain ⟨k, rfl⟩ := (List.mem_ofFn' _ _).1 hj
  -- the array of the positions is the image of an array of `Fin`
  have e : (⟨sh, fun k => k.1⟩ : Nd ℕ) = (⟨sh, id⟩ : Nd (Fin sh.prod)).map Fin.val := rfl
  rw [e, sel.natural, Option.map_eq_some_iff] at ho
  obtain ⟨o', _, rfl⟩ := ho
  exact (o'.data k).2

theorem getitemBy_value {sel : NpSelect} {idxs osh : List ℕ} (v : Arr) (hk : getitemBy sel v.shape = some (idxs, osh)) :
    sel.op v.nd = some (Arr.of osh fun k => v.vec (idxs.getD k 0)).nd := by
  simp only [getitemBy, Option.map_eq_some_iff, Prod.mk.injEq] at hk
  obtain ⟨o, ho, rfl, rfl⟩ := hk
  rw [nd_eq_map, sel.natural, ho]
  show some _ = some _
  congr 1
  unfold Nd.map Arr.nd Arr.of
  congr 1
  funext k
  show v.vec (o.data k) = v.vec ((List.ofFn o.data).getD k 0)
  rw [List.getD_eq_getElem _ _ (by simp), List.getElem_ofFn]

/-- The matrix `M` is `sel` on arrays of shape `sh`: multiplying the flat data by it is selecting. -/
def SelectsBy (sel : NpSelect) (sh : List ℕ) (M : Ent) : Prop :=
  ∀ u : Arr, u.shape = sh → ∃ o : Arr, sel.op u.nd = some o.nd ∧ ∀ k < o.size, o.vec k = ∑ j ∈ Finset.range sh.prod, M k j * u.vec j

section
variable {h : Heap ClassDef Par Arr Jac} {y a : Id} {v : Arr}

/-- C67: whatever key numpy understands, `y = a[key]` is `a.r[key]` (with at least one axis), its derivative is right, and asked about a
plain `Ch` it reports the matrix by which the flat data is multiplied when the key is applied. -/
theorem C67_any_key (sel : NpSelect) {idxs sh : List ℕ} (hr : Reach lib ⟨False, True⟩ h)
    (hy : IsA h.graph y chSelect [nmA] fun _ => a) (hv : Means lib h.graph (.r a) (.ok v)) (hk : getitemBy sel v.shape = some (idxs, sh))
    (hp : (h.graph y).terms nmP = some (.nats idxs)) (hq : (h.graph y).terms nmQ = some (.nats sh)) :
    ∃ out : Arr, sel.op v.nd = some out.nd ∧ Right h y out.atleast1 ∧
      (IsLeaf h.graph a → ∃ M, SelectsBy sel v.shape M ∧ Reports h y a out.size v.size M) := by
  obtain ⟨hin, hlen⟩ := getitemBy_lt hk
  have hE := exact_select (tm := (h.graph y).terms) hp hq hin hlen
  refine ⟨_, getitemBy_value v hk, right_of_exact hr hy (fun _ => hv) hE, fun hl => ⟨selMat (fun k => idxs.getD k 0) fun _ => 1, fun u hu => ?_, ?_⟩⟩
  · refine ⟨_, getitemBy_value u (by rw [hu]; exact hk), fun k hk' => ?_⟩
    have hk1 : k < sh.prod := hk'
    rw [Arr.vec_of _ _ hk1, Finset.sum_eq_single (idxs.getD k 0)]
    · simp [selMat]
    · intro j _ hj
      unfold selMat; rw [if_neg (Ne.symm hj), zero_mul]
    · intro hn
      refine absurd (Finset.mem_range.2 (hin _ ?_)) hn
      rw [hlen] at hk1
      rw [List.getD_eq_getElem _ _ hk1]
      exact List.getElem_mem hk1
  · have hm := means_of_isA hy (v := fun _ => v) (fun _ => hv) hE.val
    have hsz : (Arr.of sh fun k => v.vec (idxs.getD k 0)).atleast1.size = idxs.length := by
      rw [Arr.atleast1_size]; exact hlen
    have hsz' : (Arr.of sh fun k => v.vec (idxs.getD k 0)).size = (Arr.of sh fun k => v.vec (idxs.getD k 0)).atleast1.size := by
      rw [Arr.atleast1_size]
    rw [hsz']
    refine reports_of_rep hr hy (v := fun _ => v) (fun _ => hv) hm (fun _ => hl) ⟨(0 : Fin 1), rfl⟩
      (d := some (.sparse idxs.length v.size (coo idxs.length id (fun k => idxs.getD k 0) fun _ => 1))) ?_ ?_
    · rw [namesOf_one hy]; erw [env_one]
      exact ⟨0, by simp [lib, chSelect, runBody, env1, hp, if_pos hin]⟩
    · rw [hsz]
      exact ⟨rfl, rfl, coo_rows _ _⟩

/-- C67: a key is refused exactly where numpy refuses it, whatever the entries. -/
theorem C67_refused (sel : NpSelect) (v : Arr) : getitemBy sel v.shape = none ↔ sel.op v.nd = none := by
  rw [nd_eq_map, sel.natural, getitemBy, Option.map_eq_none_iff, Option.map_eq_none_iff]
end

/-! ## Keys made of arrays -/

/-- The operation that, given the shape of an array, says the shape of the result and the position each entry comes from. -/
def NpSelect.ofPlan (plan : List ℕ → Option (List ℕ × (ℕ → ℕ))) : NpSelect where
  op := fun x => (plan x.shape).bind fun p =>
    if hp : ∀ k : Fin p.1.prod, p.2 k < x.shape.prod then some ⟨p.1, fun k => x.data ⟨p.2 k, hp k⟩⟩ else none
  natural := by
    intro α β f x
    show (plan x.shape).bind _ = Option.map _ ((plan x.shape).bind _)
    cases plan x.shape with
    | none => rfl
    | some p =>
      simp only [Option.bind_some]
      by_cases hp : ∀ k : Fin p.1.prod, p.2 k < x.shape.prod
      · rw [dif_pos hp, dif_pos (show ∀ k : Fin p.1.prod, p.2 k < (x.map f).shape.prod from hp)]; rfl
      · rw [dif_neg hp, dif_neg (show ¬ ∀ k : Fin p.1.prod, p.2 k < (x.map f).shape.prod from hp)]; rfl

theorem NpSelect.ofPlan_op {plan : List ℕ → Option (List ℕ × (ℕ → ℕ))} {v out : Arr} (h : (NpSelect.ofPlan plan).op v.nd = some out.nd) :
    ∃ σ, plan v.shape = some (out.shape, σ) ∧ (∀ k < out.size, σ k < v.size) ∧ ∀ k < out.size, out.vec k = v.vec (σ k) := by
  change (plan v.shape).bind _ = some out.nd at h
  cases hp : plan v.shape with
  | none => rw [hp] at h; cases h
  | some p =>
    obtain ⟨osh, σ⟩ := p
    rw [hp] at h
    simp only [Option.bind_some] at h
    split at h
    · next hσ =>
      obtain ⟨o, d⟩ := out
      simp only [Arr.nd, Option.some.injEq, Nd.mk.injEq] at h
      obtain ⟨rfl, h2⟩ := h
      have h2 := eq_of_heq h2
      refine ⟨σ, rfl, fun k hk => hσ ⟨k, hk⟩, fun k hk => ?_⟩
      have := congrFun h2 ⟨k, hk⟩
      unfold Arr.vec
      rw [dif_pos hk, dif_pos (show σ k < v.shape.prod from hσ ⟨k, hk⟩)]
      exact this.symm
    · cases h

/-- A key of arrays of integers, all of the shape `bsh`, for the first axes: `key i` is the flat data of the `i`-th of the `m` arrays
(numpy first broadcasts arrays of different shapes to a common one). -/
def arraysPlan (bsh : List ℕ) (m : ℕ) (key : ℕ → ℕ → ℤ) (sh : List ℕ) : Option (List ℕ × (ℕ → ℕ)) :=
  if m ≤ sh.length ∧ ∀ i < m, ∀ b < bsh.prod, -(sh.getD i 0 : ℤ) ≤ key i b ∧ key i b < sh.getD i 0 then
    some (bsh ++ sh.drop m, fun k =>
      let c := unravel (bsh ++ sh.drop m) k
      let b := ravel bsh (c.take bsh.length)
      ravel sh (((List.range m).map fun i => (if key i b < 0 then key i b + sh.getD i 0 else key i b).toNat) ++ c.drop bsh.length))
  else none

/-- The operation of indexing with arrays of integers. -/
def byArrays (bsh : List ℕ) (m : ℕ) (key : ℕ → ℕ → ℤ) : NpSelect := .ofPlan (arraysPlan bsh m key)

/-- `out` is `v[key 0, …, key (m - 1)]`: negative positions count from the end. -/
structure ArraysResult (bsh : List ℕ) (m : ℕ) (key : ℕ → ℕ → ℤ) (v out : Arr) : Prop where
  shape : out.shape = bsh ++ v.shape.drop m
  entry : ∀ b c, InB bsh b → InB (v.shape.drop m) c → ∃ p, p.length = m ∧ InB v.shape (p ++ c) ∧
    (∀ i < m, (p.getD i 0 : ℤ) = if key i (ravel bsh b) < 0 then key i (ravel bsh b) + v.shape.getD i 0 else key i (ravel bsh b)) ∧
    out.at (b ++ c) = v.at (p ++ c)

theorem arrays_result {bsh : List ℕ} {m : ℕ} {key : ℕ → ℕ → ℤ} {v out : Arr} (h : (byArrays bsh m key).op v.nd = some out.nd) :
    ArraysResult bsh m key v out := by
  obtain ⟨σ, hσ, _, hval⟩ := NpSelect.ofPlan_op h
  unfold arraysPlan at hσ
  split at hσ
  · next hc =>
    obtain ⟨hm, hin⟩ := hc
    simp only [Option.some.injEq, Prod.mk.injEq] at hσ
    obtain ⟨hsh, rfl⟩ := hσ
    refine ⟨hsh.symm, fun b c hb hc => ?_⟩
    have hB := ravel_lt hb
    have hpi : ∀ i < m, (((if key i (ravel bsh b) < 0 then key i (ravel bsh b) + v.shape.getD i 0 else key i (ravel bsh b)).toNat : ℕ) : ℤ) =
        (if key i (ravel bsh b) < 0 then key i (ravel bsh b) + v.shape.getD i 0 else key i (ravel bsh b)) ∧
        (if key i (ravel bsh b) < 0 then key i (ravel bsh b) + v.shape.getD i 0 else key i (ravel bsh b)).toNat < v.shape.getD i 0 := by
      intro i hi
      have := hin i hi _ hB
      split <;> omega
    refine ⟨(List.range m).map fun i => (if key i (ravel bsh b) < 0 then key i (ravel bsh b) + v.shape.getD i 0 else key i (ravel bsh b)).toNat,
      by simp, ?_, fun i hi => ?_, ?_⟩
    · conv => arg 1; rw [← List.take_append_drop m v.shape]
      refine inB_append (inB_iff.2 ⟨by simp [hm], fun j hj => ?_⟩) hc
      have hj' : j < m := by simp at hj; omega
      rw [getD_map _ _ _ 0 _ (by simpa using hj'), getD_range hj']
      have e : (v.shape.take m).getD j 0 = v.shape.getD j 0 := by
        simp [List.getD_eq_getElem?_getD, hj']
      rw [e]
      exact (hpi j hj').2
    · rw [getD_map _ _ _ 0 _ (by simpa using hi), getD_range hi]
      exact (hpi i hi).1
    · have hbc := inB_append hb hc
      unfold Arr.at
      rw [← hsh, hval _ (by unfold Arr.size; rw [← hsh]; exact ravel_lt hbc)]
      dsimp only
      rw [unravel_ravel hbc, List.take_left' hb.length, List.drop_left' hb.length]
  · cases hσ

/-- C67 for arrays of integers: a key of `m` arrays of positions within the axes is accepted, and the result is numpy's. -/
theorem C67_integer_arrays (bsh : List ℕ) (m : ℕ) (key : ℕ → ℕ → ℤ) (v : Arr) :
    (getitemBy (byArrays bsh m key) v.shape ≠ none ↔
      m ≤ v.shape.length ∧ ∀ i < m, ∀ b < bsh.prod, -(v.shape.getD i 0 : ℤ) ≤ key i b ∧ key i b < v.shape.getD i 0) ∧
    ∀ out : Arr, (byArrays bsh m key).op v.nd = some out.nd → ArraysResult bsh m key v out := by
  refine ⟨?_, fun out ho => arrays_result ho⟩
  rw [Ne, C67_refused]
  constructor
  · intro hne
    by_contra hc
    apply hne
    show (arraysPlan bsh m key v.shape).bind _ = none
    unfold arraysPlan
    rw [if_neg hc]; rfl
  · rintro ⟨hm, hin⟩ hne
    change (arraysPlan bsh m key v.shape).bind _ = none at hne
    unfold arraysPlan at hne
    rw [if_pos ⟨hm, hin⟩] at hne
    simp only [Option.bind_some] at hne
    split at hne
    · cases hne
    · next hbad =>
      apply hbad
      intro k
      have hu := unravel_inB (sh := bsh ++ v.shape.drop m) k.2
      have hu' := hu
      rw [← List.take_append_drop bsh.length (unravel (bsh ++ v.shape.drop m) k)] at hu'
      have h1 : InB bsh ((unravel (bsh ++ v.shape.drop m) k).take bsh.length) := by
        have := List.forall₂_take bsh.length hu
        rwa [List.take_left] at this
      have h2 : InB (v.shape.drop m) ((unravel (bsh ++ v.shape.drop m) k).drop bsh.length) := by
        have := List.forall₂_drop bsh.length hu
        rwa [List.drop_left] at this
      refine ravel_lt ?_
      show InB v.shape _
      conv => arg 1; rw [← List.take_append_drop m v.shape]
      refine inB_append (inB_iff.2 ⟨by simp [hm], fun j hj => ?_⟩) h2
      have hj' : j < m := by simp at hj; omega
      rw [getD_map _ _ _ 0 _ (by simpa using hj'), getD_range hj']
      have e : (v.shape.take m).getD j 0 = v.shape.getD j 0 := by
        simp [List.getD_eq_getElem?_getD, hj']
      rw [e]
      have := hin j hj' _ (ravel_lt h1)
      split <;> omega

/-- The positions at which a mask with flat data `bits` is true, in C order. -/
def maskPos (n : ℕ) (bits : ℕ → Bool) : List ℕ := (List.range n).filter bits

/-- A mask of shape `msh` for the first axes. -/
def maskPlan (msh : List ℕ) (bits : ℕ → Bool) (sh : List ℕ) : Option (List ℕ × (ℕ → ℕ)) :=
  if msh <+: sh then
    some ((maskPos msh.prod bits).length :: sh.drop msh.length, fun k =>
      let c := unravel ((maskPos msh.prod bits).length :: sh.drop msh.length) k
      ravel sh (unravel msh ((maskPos msh.prod bits).getD (c.headD 0) 0) ++ c.tail))
  else none

/-- The operation of indexing with a mask. -/
def byMask (msh : List ℕ) (bits : ℕ → Bool) : NpSelect := .ofPlan (maskPlan msh bits)

/-- `out` is `v[mask]`: `p` goes through the places at which the mask is true, in C order. -/
structure MaskResult (msh : List ℕ) (bits : ℕ → Bool) (v out : Arr) (n : ℕ) (p : ℕ → List ℕ) : Prop where
  shape : out.shape = n :: v.shape.drop msh.length
  place : ∀ t < n, InB msh (p t)
  all : ∀ d, InB msh d → (bits (ravel msh d) = true ↔ ∃ t < n, p t = d)
  order : ∀ t < n, ∀ t' < n, t < t' → ravel msh (p t) < ravel msh (p t')
  entry : ∀ t < n, ∀ c, InB (v.shape.drop msh.length) c → out.at (t :: c) = v.at (p t ++ c)

theorem maskPos_lt {n : ℕ} {bits : ℕ → Bool} {t : ℕ} (ht : t < (maskPos n bits).length) : (maskPos n bits).getD t 0 < n := by
  rw [List.getD_eq_getElem _ _ ht]
  exact List.mem_range.1 (List.mem_filter.1 (List.getElem_mem ht)).1

theorem mask_result {msh : List ℕ} {bits : ℕ → Bool} {v out : Arr} (h : (byMask msh bits).op v.nd = some out.nd) :
    ∃ n p, MaskResult msh bits v out n p := by
  obtain ⟨σ, hσ, _, hval⟩ := NpSelect.ofPlan_op h
  unfold maskPlan at hσ
  split at hσ
  · next hpre =>
    simp only [Option.some.injEq, Prod.mk.injEq] at hσ
    obtain ⟨hsh, rfl⟩ := hσ
    refine ⟨(maskPos msh.prod bits).length, fun t => unravel msh ((maskPos msh.prod bits).getD t 0), hsh.symm,
      fun t ht => unravel_inB (maskPos_lt ht), fun d hd => ?_, fun t ht t' ht' hlt => ?_, fun t ht c hc => ?_⟩
    · constructor
      · intro hb
        have hmem : ravel msh d ∈ maskPos msh.prod bits := by
          rw [maskPos, List.mem_filter, List.mem_range]; exact ⟨ravel_lt hd, hb⟩
        obtain ⟨t, ht, e⟩ := List.getElem_of_mem hmem
        refine ⟨t, ht, ?_⟩
        rw [List.getD_eq_getElem _ _ ht, e, unravel_ravel hd]
      · rintro ⟨t, ht, rfl⟩
        rw [ravel_unravel (maskPos_lt ht), List.getD_eq_getElem _ _ ht]
        exact (List.mem_filter.1 (List.getElem_mem ht)).2
    · rw [ravel_unravel (maskPos_lt ht), ravel_unravel (maskPos_lt ht'), List.getD_eq_getElem _ _ ht, List.getD_eq_getElem _ _ ht']
      have hs : (maskPos msh.prod bits).Pairwise (· < ·) := List.Pairwise.filter _ List.pairwise_lt_range
      exact List.pairwise_iff_getElem.1 hs t t' ht ht' hlt
    · have htc : InB ((maskPos msh.prod bits).length :: v.shape.drop msh.length) (t :: c) := .cons ht hc
      unfold Arr.at
      rw [← hsh, hval _ (by unfold Arr.size; rw [← hsh]; exact ravel_lt htc)]
      dsimp only
      rw [unravel_ravel htc]
      rfl
  · cases hσ

/-- C67 for masks: a mask that has the shape of the first axes is accepted, and the result is numpy's. -/
theorem C67_masks (msh : List ℕ) (bits : ℕ → Bool) (v : Arr) :
    (getitemBy (byMask msh bits) v.shape ≠ none ↔ msh <+: v.shape) ∧
    ∀ out : Arr, (byMask msh bits).op v.nd = some out.nd → ∃ n p, MaskResult msh bits v out n p := by
  refine ⟨?_, fun out ho => mask_result ho⟩
  rw [Ne, C67_refused]
  constructor
  · intro hne
    by_contra hc
    apply hne
    show (maskPlan msh bits v.shape).bind _ = none
    unfold maskPlan
    rw [if_neg hc]; rfl
  · intro hpre hne
    change (maskPlan msh bits v.shape).bind _ = none at hne
    unfold maskPlan at hne
    rw [if_pos hpre] at hne
    simp only [Option.bind_some] at hne
    split at hne
    · cases hne
    · next hbad =>
      apply hbad
      intro k
      have hu := unravel_inB (sh := (maskPos msh.prod bits).length :: v.shape.drop msh.length) k.2
      refine ravel_lt ?_
      show InB v.shape _
      generalize unravel ((maskPos msh.prod bits).length :: v.shape.drop msh.length) k = c at hu ⊢
      cases hu with
      | cons h1 h2 =>
        obtain ⟨rest, e⟩ := hpre
        rw [← e, List.drop_left] at h2
        rw [← e]
        exact inB_append (unravel_inB (maskPos_lt h1)) h2

namespace ADDemo
/-- The hypotheses of C67 are met: `a[[2, -1, 0, 0]]` of three entries, `a[[0, 1], [-1, 0]]` of two rows of two, and a mask. -/
example : getitemBy (byArrays [4] 1 fun _ b => [2, -1, 0, 0].getD b 0) [3] = some ([2, 2, 0, 0], [4]) := by decide
example : getitemBy (byArrays [2] 2 fun i b => ([[0, 1], [-1, 0]].getD i []).getD b 0) [2, 2] = some ([1, 2], [2]) := by decide
example : getitemBy (byMask [2] fun b => [false, true].getD b false) [2, 2] = some ([2, 3], [1, 2]) := by decide
example : ∃ h, Reach lib ⟨False, True⟩ h ∧ IsA h.graph 1 chSelect [nmA] (fun _ => 0) ∧
      Means lib h.graph (.r 0) (.ok ⟨[3], fun k => k.1⟩) ∧ IsLeaf h.graph 0 ∧
      (h.graph 1).terms nmP = some (.nats [2, 2, 0, 0]) ∧ (h.graph 1).terms nmQ = some (.nats [4]) := reordered_reach _ _ (by simp) _ _
end ADDemo
end Chumpy
