import Mathlib.Algebra.Order.Floor.Semiring
import Mathlib.Topology.Algebra.Order.Floor
import Verif.AD.Unary
import Verif.AD.Reduce
import Verif.AD.NdIndex
/-!
# `Interp3D` (extras.py:9-43)
-/
namespace Chumpy
open scoped BigOperators Topology

/-- `np.gradient` along one axis of length `n`, at position `l`: differences at the ends, central differences between. -/
noncomputable def grad1 (n : ℕ) (f : ℕ → ℝ) (l : ℕ) : ℝ :=
  if l = 0 then f 1 - f 0 else if l = n - 1 then f (n - 1) - f (n - 2) else (f (l + 1) - f (l - 1)) / 2

/-- `self.gx`, `self.gy`, `self.gz` (extras.py:15) for `i = 0, 1, 2`, at the position `c`. -/
noncomputable def imageGrad (image : Arr) (i : ℕ) (c : List ℕ) : ℝ :=
  grad1 (image.shape.getD i 0) (fun t => image.at (c.set i t)) (c.getD i 0)

/-- `np.clip(locations[:,i], 0, self.image.shape[i]-1)` (extras.py:20). -/
noncomputable def clipLoc (image : Arr) (i : ℕ) (x : ℝ) : ℝ := clip1 0 ((image.shape.getD i 0 : ℝ) - 1) x

/-- Row `k` of `np.floor(locations).astype(np.uint32)` (extras.py:21). -/
noncomputable def cellOf (image : Arr) (x : ℕ → ℝ) (k : ℕ) : List ℕ :=
  [⌊clipLoc image 0 (x (k * 3))⌋₊, ⌊clipLoc image 1 (x (k * 3 + 1))⌋₊, ⌊clipLoc image 2 (x (k * 3 + 2))⌋₊]

/-- The matrix which `compute_dr_wrt` makes (extras.py:34-42). -/
noncomputable def interpMat (image : Arr) (x : ℕ → ℝ) (i j : ℕ) : ℝ :=
  if j / 3 = i then imageGrad image (j % 3) (cellOf image x i) else 0

/-- `offset.ravel()` (extras.py:23, 24). -/
noncomputable def interpOffset (image : Arr) (x : ℕ → ℝ) (j : ℕ) : ℝ :=
  clipLoc image (j % 3) (x j) - ((cellOf image x (j / 3)).getD (j % 3) 0 : ℕ)

/-- `compute_r` (extras.py:17-25) of `n` locations, entry `k`. -/
noncomputable def interpCode (image : Arr) (x : ℕ → ℝ) (n k : ℕ) : ℝ :=
  image.at (cellOf image x k) + ∑ j ∈ Finset.range (3 * n), interpMat image x k j * interpOffset image x j

/-- The same without the matrix. -/
noncomputable def interpEntry (image : Arr) (x : ℕ → ℝ) (k : ℕ) : ℝ :=
  image.at (cellOf image x k) + ∑ i ∈ Finset.range 3,
    imageGrad image i (cellOf image x k) * (clipLoc image i (x (k * 3 + i)) - ((cellOf image x k).getD i 0 : ℕ))

/-- The number of locations, where numpy does not raise: the image has three axes of length at least 2 (`np.gradient`), the locations are an
array with 3 columns and at least one row (`csc_matrix` cannot infer a shape from no entries). -/
def interpDims (image v : Arr) : Option ℕ :=
  match image.shape, v.shape with
  | [a, b, c], [n, m] => if 2 ≤ a ∧ 2 ≤ b ∧ 2 ≤ c ∧ m = 3 ∧ 1 ≤ n then some n else none
  | _, _ => none

/-- `Interp3D` (extras.py:9-43).  `on_changed` computes the gradients and has run since the last change (C05).  `self.dr_wrt(self.locations)`
in `compute_r` is the matrix of `compute_dr_wrt` (the locations being a term), which the model inserts. -/
noncomputable def chInterp3D : ClassDef where
  r := .child nmA fun v => .term nmP fun
    | some (.arr image) => match interpDims image v with
      | some n => .ret (Arr.of [n] fun k => interpCode image v.vec n k)
      | none => .raise 1
    | _ => .raise 1
  dr := fun _ S => if nmA ∈ S then .child nmA fun v => .term nmP fun
    | some (.arr image) => match interpDims image v with
      | some n => .ret (some (.sparse n (3 * n) (interpMat image v.vec)))
      | none => .raise 1
    | _ => .raise 1
    else .ret none
  dr_none := rfl

section
variable {tm : Name → Option Par} {image v : Arr} {n a b c : ℕ}

theorem interpDims_eq (hi : image.shape = [a, b, c]) (ha : 2 ≤ a) (hb : 2 ≤ b) (hc : 2 ≤ c) (hv : v.shape = [n, 3]) (hn : 1 ≤ n) :
    interpDims image v = some n := by
  simp [interpDims, hi, hv, ha, hb, hc, hn]

/-- The product of the matrix with the offsets. -/
theorem interp_product {x : ℕ → ℝ} {k : ℕ} (hk : k < n) :
    ∑ j ∈ Finset.range (3 * n), interpMat image x k j * interpOffset image x j =
      ∑ i ∈ Finset.range 3, imageGrad image i (cellOf image x k) * (clipLoc image i (x (k * 3 + i)) - ((cellOf image x k).getD i 0 : ℕ)) := by
  have hsub : ((Finset.range 3).image fun i => k * 3 + i) ⊆ Finset.range (3 * n) := by
    intro j hj
    obtain ⟨i, hi, rfl⟩ := Finset.mem_image.1 hj
    rw [Finset.mem_range] at hi ⊢; omega
  rw [← Finset.sum_subset hsub, Finset.sum_image (by intro i _ i' _ e; beta_reduce at e; omega)]
  · refine Finset.sum_congr rfl fun i hi => ?_
    rw [Finset.mem_range] at hi
    have h1 : (k * 3 + i) / 3 = k := by omega
    have h2 : (k * 3 + i) % 3 = i := by omega
    unfold interpMat interpOffset
    rw [h1, h2, if_pos rfl]
  · intro j hj hj'
    rw [Finset.mem_range] at hj
    have : ¬ j / 3 = k := by
      intro e
      refine hj' (Finset.mem_image.2 ⟨j % 3, Finset.mem_range.2 (Nat.mod_lt _ (by decide)), by omega⟩)
    unfold interpMat
    rw [if_neg this, zero_mul]

theorem returns_interp (ht : tm nmP = some (.arr image)) (hd : interpDims image v = some n) :
    Returns lib chInterp3D tm (env1 v) (Arr.of [n] fun k => interpEntry image v.vec k) := by
  refine ⟨0, ?_⟩
  show runBody _ _ _ _ chInterp3D.r = _
  have e : (Arr.of [n] fun k => interpCode image v.vec n k) = Arr.of [n] fun k => interpEntry image v.vec k :=
    Arr.of_congr fun k hk => by rw [interpCode, interp_product (by simpa using hk)]; rfl
  rw [← e]
  simp [chInterp3D, runBody, env1, ht, hd]

theorem interpDims_put (u : Fin v.size → ℝ) : interpDims image (v.put u) = interpDims image v := rfl

/-- The location of row `k` is strictly inside the cell `l`: no coordinate is a whole number and none is clipped. -/
def InCell (image : Arr) (x : ℕ → ℝ) (k : ℕ) (l : ℕ → ℕ) : Prop :=
  ∀ i < 3, (l i : ℝ) < x (k * 3 + i) ∧ x (k * 3 + i) < l i + 1 ∧ l i + 2 ≤ image.shape.getD i 0

theorem InCell.clip {x : ℕ → ℝ} {k : ℕ} {l : ℕ → ℕ} (h : InCell image x k l) {i : ℕ} (hi : i < 3) :
    clipLoc image i (x (k * 3 + i)) = x (k * 3 + i) := by
  obtain ⟨h1, h2, h3⟩ := h i hi
  have h3' : ((l i : ℝ) + 2) ≤ (image.shape.getD i 0 : ℕ) := by exact_mod_cast h3
  have h0 : (0 : ℝ) ≤ l i := Nat.cast_nonneg _
  unfold clipLoc clip1
  rw [max_eq_left (by linarith), min_eq_right (by linarith)]

theorem InCell.cell {x : ℕ → ℝ} {k : ℕ} {l : ℕ → ℕ} (h : InCell image x k l) : cellOf image x k = [l 0, l 1, l 2] := by
  have hf : ∀ i < 3, ⌊clipLoc image i (x (k * 3 + i))⌋₊ = l i := by
    intro i hi
    rw [h.clip hi]
    obtain ⟨h1, h2, _⟩ := h i hi
    have h0 : (0 : ℝ) ≤ l i := Nat.cast_nonneg _
    exact (Nat.floor_eq_iff (by linarith)).2 ⟨h1.le, h2⟩
  have h0 := hf 0 (by decide)
  rw [Nat.add_zero] at h0
  unfold cellOf
  rw [h0, hf 1 (by decide), hf 2 (by decide)]

theorem InCell.entry {x : ℕ → ℝ} {k : ℕ} {l : ℕ → ℕ} (h : InCell image x k l) :
    interpEntry image x k = image.at [l 0, l 1, l 2] + ∑ i ∈ Finset.range 3, imageGrad image i [l 0, l 1, l 2] * (x (k * 3 + i) - l i) := by
  unfold interpEntry
  rw [h.cell]
  congr 1
  refine Finset.sum_congr rfl fun i hi => ?_
  rw [Finset.mem_range] at hi
  rw [h.clip hi]
  congr 2
  have : i = 0 ∨ i = 1 ∨ i = 2 := by omega
  rcases this with rfl | rfl | rfl <;> rfl

/-- `Interp3D` is exact at locations strictly inside cells. -/
theorem exact_interp (ht : tm nmP = some (.arr image)) (hi : image.shape = [a, b, c]) (hv : v.shape = [n, 3]) (hn : 1 ≤ n)
    (ha : 2 ≤ a) (hb : 2 ≤ b) (hc : 2 ≤ c) (l : ℕ → ℕ → ℕ) (hl : ∀ k < n, InCell image v.vec k (l k)) :
    Exact chInterp3D tm [nmA] (fun _ => v) (Arr.of [n] fun k => interpEntry image v.vec k) fun _ => interpMat image v.vec := by
  have hd := interpDims_eq hi ha hb hc hv hn
  have hsz : v.size = 3 * n := by rw [Arr.size, hv]; simp [Nat.mul_comm]
  have hidx : ∀ k < n, ∀ i < 3, k * 3 + i < v.size := by intro k hk i hi; omega
  refine exact_one (returns_interp ht hd) (fun x k => interpEntry image v.vec k +
    Ent.lin [n].prod v.size (interpMat image v.vec) (x - num.fn v.size v) k) ?_ ?_ ?_
  · have hnear : ∀ᶠ u in 𝓝 (num.fn v.size v), ∀ k : Fin n, ∀ i : Fin 3,
        (l k i : ℝ) < (v.put u).vec (k * 3 + i) ∧ (v.put u).vec (k * 3 + i) < l k i + 1 := by
      rw [Filter.eventually_all]; intro k
      rw [Filter.eventually_all]; intro i
      have hp := hidx k k.2 i i.2
      have e : ∀ u : Fin v.size → ℝ, (v.put u).vec (k * 3 + i) = u ⟨k * 3 + i, hp⟩ := fun u => Arr.vec_put v u ⟨k * 3 + i, hp⟩
      simp_rw [e]
      have hc : Filter.Tendsto (fun u : Fin v.size → ℝ => u ⟨k * 3 + i, hp⟩) (𝓝 (num.fn v.size v)) (𝓝 (v.vec (k * 3 + i))) :=
        (continuous_apply _).continuousAt
      have hlk := hl k k.2 i i.2
      exact (hc.eventually (lt_mem_nhds hlk.1)).and (hc.eventually (gt_mem_nhds hlk.2.1))
    filter_upwards [hnear] with u hu
    have h1 := returns_interp (v := v.put u) ht hd
    have e : (Arr.of [n] fun k => interpEntry image (v.put u).vec k) = (Arr.of [n] fun k => interpEntry image v.vec k).put
        fun k => interpEntry image v.vec k + Ent.lin [n].prod v.size (interpMat image v.vec) (u - num.fn v.size v) k := by
      show Arr.mk [n] _ = Arr.mk [n] _
      congr 1
      funext k
      have hk : (k : ℕ) < n := lt_of_lt_of_eq k.2 (by simp)
      have hu' : InCell image (v.put u).vec k (l k) := fun i hi => ⟨(hu ⟨k, hk⟩ ⟨i, hi⟩).1, (hu ⟨k, hk⟩ ⟨i, hi⟩).2, (hl k hk i hi).2.2⟩
      beta_reduce
      rw [hu'.entry, (hl k hk).entry, Ent.lin_apply]
      have hsum : ∑ j : Fin v.size, interpMat image v.vec k j * (u - num.fn v.size v) j =
          ∑ i ∈ Finset.range 3, imageGrad image i [l k 0, l k 1, l k 2] * ((v.put u).vec (k * 3 + i) - v.vec (k * 3 + i)) := by
        have hf : ∀ j : Fin v.size, interpMat image v.vec k j * (u - num.fn v.size v) j =
            interpMat image v.vec k j * ((v.put u).vec j - v.vec j) := by
          intro j; rw [Arr.vec_put]; rfl
        simp_rw [hf]
        rw [Fin.sum_univ_eq_sum_range (fun j => interpMat image v.vec k j * ((v.put u).vec j - v.vec j)), hsz]
        have hsub : ((Finset.range 3).image fun i => (k : ℕ) * 3 + i) ⊆ Finset.range (3 * n) := by
          intro j hj
          obtain ⟨i, hi, rfl⟩ := Finset.mem_image.1 hj
          rw [Finset.mem_range] at hi ⊢; omega
        rw [← Finset.sum_subset hsub, Finset.sum_image (by intro i _ i' _ e; beta_reduce at e; omega)]
        · refine Finset.sum_congr rfl fun i hi => ?_
          rw [Finset.mem_range] at hi
          have h1 : ((k : ℕ) * 3 + i) / 3 = k := by omega
          have h2 : ((k : ℕ) * 3 + i) % 3 = i := by omega
          unfold interpMat
          rw [h1, h2, if_pos rfl, (hl k hk).cell]
        · intro j hj hj'
          have : ¬ j / 3 = k := by
            intro e
            refine hj' (Finset.mem_image.2 ⟨j % 3, Finset.mem_range.2 (Nat.mod_lt _ (by decide)), by omega⟩)
          unfold interpMat
          rw [if_neg this, zero_mul]
      rw [hsum, add_assoc, ← Finset.sum_add_distrib]
      congr 1
      refine Finset.sum_congr rfl fun i _ => ?_
      ring
    rwa [e] at h1
  · have h1 : HasFDerivAt (fun x : Fin v.size → ℝ => Ent.lin [n].prod v.size (interpMat image v.vec) (x - num.fn v.size v))
        (Ent.lin [n].prod v.size (interpMat image v.vec)) (num.fn v.size v) :=
      (Ent.lin [n].prod v.size (interpMat image v.vec)).hasFDerivAt.comp _ ((hasFDerivAt_id _).sub_const _)
    exact h1.const_add (fun k : Fin [n].prod => interpEntry image v.vec k)
  · refine ⟨some (.sparse n (3 * n) (interpMat image v.vec)), ⟨0, ?_⟩, ?_⟩
    · show runBody _ _ _ _ (chInterp3D.dr false [nmA]) = _
      simp [chInterp3D, runBody, env1, ht, hd]
    · exact ⟨by show n = [n].prod; simp, hsz.symm, fun _ _ _ _ => rfl⟩
end
end Chumpy
