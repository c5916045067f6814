import Verif.AD.Interp
import Verif.AD.Wrong
import Verif.AD.Built
import Verif.Properties.Elementwise
/-!
# C66: interpolation in a three-dimensional image
-/
namespace Chumpy
open scoped BigOperators Topology

/-- `g` is the slope of the image along axis `i` at the lattice point `c`: the central difference, one-sided at the two ends. -/
structure Slope (image : Arr) (i : ℕ) (c : List ℕ) (g : ℝ) : Prop where
  first : c.getD i 0 = 0 → g = image.at (c.set i 1) - image.at (c.set i 0)
  last : 0 < c.getD i 0 → c.getD i 0 + 1 = image.shape.getD i 0 →
    g = image.at (c.set i (c.getD i 0)) - image.at (c.set i (c.getD i 0 - 1))
  between : 0 < c.getD i 0 → c.getD i 0 + 1 < image.shape.getD i 0 →
    g = (image.at (c.set i (c.getD i 0 + 1)) - image.at (c.set i (c.getD i 0 - 1))) / 2

theorem slope_imageGrad (image : Arr) (i : ℕ) (c : List ℕ) : Slope image i c (imageGrad image i c) := by
  refine ⟨fun h => ?_, fun h h' => ?_, fun h h' => ?_⟩
  · unfold imageGrad grad1; rw [if_pos h]
  · unfold imageGrad grad1
    rw [if_neg (by omega), if_pos (by omega), show image.shape.getD i 0 - 1 = c.getD i 0 by omega,
      show image.shape.getD i 0 - 2 = c.getD i 0 - 1 by omega]
  · unfold imageGrad grad1
    rw [if_neg (by omega), if_neg (by omega)]

/-- Row `k` of an array with 3 columns. -/
theorem at_row3 {n : ℕ} {v : Arr} (h : v.shape = [n, 3]) (k i : ℕ) : v.at [k, i] = v.vec (k * 3 + i) := by
  unfold Arr.at; rw [h]; simp [ravel]

/-- The value of an object whose only child is a plain `Ch` has a Jacobian if its class computes a differentiable function. -/
theorem hasJacobian_leaf {g : Graph ClassDef Par} {y a : Id} {c : ClassDef} {v out : Arr} {M : Ent} (hy : IsA g y c [nmA] fun _ => a)
    (hya : y ≠ a) (hv : Means lib g (.r a) (.ok v)) (F : (Fin v.size → ℝ) → Fin out.size → ℝ)
    (h0 : Returns lib c (g y).terms (env1 v) out)
    (hF : ∀ᶠ t in 𝓝 v.data, Returns lib c (g y).terms (env1 (v.put t)) (out.put (F t)))
    (hd : HasFDerivAt F (Ent.lin out.size v.size M) v.data) : HasJacobian g y a out v M := by
  refine ⟨means_of_isA hy (v := fun _ => v) (fun _ => hv) (by erw [env_one]; exact h0), hv, F, ?_, hd⟩
  filter_upwards [hF] with t h1
  have hgy : setTo g a (v.put t) y = g y := if_neg hya
  have hy' : IsA (setTo g a (v.put t)) y c [nmA] fun _ => a :=
    ⟨by rw [hgy]; exact hy.cls, by rw [hgy]; exact hy.dnames, hy.nodup, by rw [hgy]; exact hy.kid⟩
  refine means_of_isA hy' (v := fun _ => v.put t) (fun _ => means_setTo _ _ _) ?_
  erw [env_one]
  rw [hgy]; exact h1

section
variable {h : Heap ClassDef Par Arr Jac} {y a : Id} {v image : Arr} {n d₀ d₁ d₂ : ℕ}

/-- The setting of C66: `y` is `Interp3D(locations, image)`, for an image with three axes of length at least 2 and at least one location. -/
structure Interpolates (h : Heap ClassDef Par Arr Jac) (y a : Id) (image v : Arr) (n d₀ d₁ d₂ : ℕ) : Prop where
  cls : IsA h.graph y chInterp3D [nmA] fun _ => a
  term : (h.graph y).terms nmP = Option.some (.arr image)
  value : Means lib h.graph (.r a) (.ok v)
  shape : v.shape = [n, 3]
  some : 1 ≤ n
  dims : image.shape = [d₀, d₁, d₂]
  long : 2 ≤ d₀ ∧ 2 ≤ d₁ ∧ 2 ≤ d₂

theorem Interpolates.dims_eq (hi : Interpolates h y a image v n d₀ d₁ d₂) : interpDims image v = Option.some n :=
  interpDims_eq hi.dims hi.long.1 hi.long.2.1 hi.long.2.2 hi.shape hi.some

/-- C66 in full: wherever the value is differentiable in the locations, the reported derivative is right. -/
def C66_full : Prop :=
  ∀ (h : Heap ClassDef Par Arr Jac) (y a : Id) (image v : Arr) (n d₀ d₁ d₂ : ℕ), Reach lib ⟨False, True⟩ h →
    Interpolates h y a image v n d₀ d₁ d₂ → IsLeaf h.graph a → ∀ out M, HasJacobian h.graph y a out v M → Reports h y a out.size v.size M

/-- C66: at locations strictly inside the cells of the lattice, the value is the image at the lower corner of the cell plus the slopes there
times the distances to it, and the Jacobian is right: the slopes.  Missing: locations outside the image, see `C66_full_refuted`. -/
theorem C66_inside_partial (hr : Reach lib ⟨False, True⟩ h) (hi : Interpolates h y a image v n d₀ d₁ d₂) (l : ℕ → ℕ → ℕ)
    (hl : ∀ k < n, ∀ i < 3, (l k i : ℝ) < v.at [k, i] ∧ v.at [k, i] < l k i + 1 ∧ l k i + 1 < image.shape.getD i 0) :
    ∃ (g : ℕ → ℕ → ℝ) (out : Arr), (∀ k < n, ∀ i < 3, Slope image i [l k 0, l k 1, l k 2] (g k i)) ∧ out.shape = [n] ∧
      (∀ k < n, out.at [k] = image.at [l k 0, l k 1, l k 2] + ∑ i ∈ Finset.range 3, g k i * (v.at [k, i] - l k i)) ∧ Right h y out ∧
      (IsLeaf h.graph a → Reports h y a n v.size fun k j => if j / 3 = k then g k (j % 3) else 0) := by
  have hin : ∀ k < n, InCell image v.vec k (l k) := by
    intro k hk i hi'
    have := hl k hk i hi'
    rw [at_row3 hi.shape] at this
    exact ⟨this.1, this.2.1, this.2.2⟩
  have hex := exact_interp (tm := (h.graph y).terms) hi.term hi.dims hi.shape hi.some hi.long.1 hi.long.2.1 hi.long.2.2 l hin
  refine ⟨fun k i => imageGrad image i [l k 0, l k 1, l k 2], _, fun k _ i _ => slope_imageGrad _ _ _, rfl, fun k hk => ?_,
    right_of_exact hr hi.cls (fun _ => hi.value) hex, fun hlf => ?_⟩
  · show (Arr.of [n] fun k => interpEntry image v.vec k).vec (ravel [n] [k]) = _
    rw [show ravel [n] [k] = k by simp [ravel], Arr.vec_of _ _ (by simpa using hk), (hin k hk).entry]
    simp_rw [at_row3 hi.shape]
  · refine reports_of_rep hr hi.cls (v := fun _ => v) (fun _ => hi.value) (means_of_isA hi.cls (v := fun _ => v) (fun _ => hi.value) hex.val)
      (fun _ => hlf) ⟨(0 : Fin 1), rfl⟩ (d := Option.some (.sparse n (3 * n) (interpMat image v.vec))) ?_ ?_
    · rw [namesOf_one hi.cls]; erw [env_one]
      refine ⟨0, ?_⟩
      show runBody _ _ _ _ (chInterp3D.dr false [nmA]) = _
      simp [chInterp3D, runBody, env1, hi.term, hi.dims_eq]
    · refine ⟨rfl, by show 3 * n = v.shape.prod; rw [hi.shape]; simp [Nat.mul_comm], fun k hk j _ => ?_⟩
      show interpMat image v.vec k j = if j / 3 = k then imageGrad image (j % 3) [l k 0, l k 1, l k 2] else 0
      unfold interpMat
      by_cases e : j / 3 = k
      · rw [if_pos e, if_pos e, (hin k hk).cell]
      · rw [if_neg e, if_neg e]

/-- What reading `Interp3D` gives at any locations. -/
theorem interp_reads (hr : Reach lib ⟨False, True⟩ h) (hi : Interpolates h y a image v n d₀ d₁ d₂) :
    ∃ f₀, ∀ f ≥ f₀, (read lib f (.r y) h).2 = .ok (Arr.of [n] fun k => interpEntry image v.vec k) :=
  read_of_means hr (means_of_isA hi.cls (v := fun _ => v) (fun _ => hi.value) (by
    erw [env_one]; exact returns_interp hi.term hi.dims_eq))

theorem sum3 (f : ℕ → ℝ) : ∑ i ∈ Finset.range 3, f i = f 0 + f 1 + f 2 := by simp [Finset.sum_range_succ]

theorem lt3 {P : ℕ → Prop} (h0 : P 0) (h1 : P 1) (h2 : P 2) : ∀ i < 3, P i := by
  intro i hi
  have : i = 0 ∨ i = 1 ∨ i = 2 := by omega
  rcases this with rfl | rfl | rfl <;> assumption

/-- C66: at lattice points the value is the image. -/
theorem C66_lattice (hr : Reach lib ⟨False, True⟩ h) (hi : Interpolates h y a image v n d₀ d₁ d₂) (l : ℕ → ℕ → ℕ)
    (hl : ∀ k < n, ∀ i < 3, v.at [k, i] = l k i ∧ l k i < image.shape.getD i 0) :
    ∃ out, (∃ f₀, ∀ f ≥ f₀, (read lib f (.r y) h).2 = .ok out) ∧ out.shape = [n] ∧
      ∀ k < n, out.at [k] = image.at [l k 0, l k 1, l k 2] := by
  refine ⟨_, interp_reads hr hi, rfl, fun k hk => ?_⟩
  show (Arr.of [n] fun k => interpEntry image v.vec k).vec (ravel [n] [k]) = _
  rw [show ravel [n] [k] = k by simp [ravel], Arr.vec_of _ _ (by simpa using hk)]
  have hc : ∀ i < 3, clipLoc image i (v.vec (k * 3 + i)) = l k i := by
    intro i hi'
    obtain ⟨e, hlt⟩ := hl k hk i hi'
    rw [at_row3 hi.shape] at e
    have : ((l k i : ℝ) + 1) ≤ (image.shape.getD i 0 : ℕ) := by exact_mod_cast hlt
    rw [e]
    unfold clipLoc clip1
    rw [max_eq_left (Nat.cast_nonneg _), min_eq_right (by linarith)]
  have hcell : cellOf image v.vec k = [l k 0, l k 1, l k 2] := by
    unfold cellOf
    have h0 := hc 0 (by decide)
    rw [Nat.add_zero] at h0
    rw [h0, hc 1 (by decide), hc 2 (by decide), Nat.floor_natCast, Nat.floor_natCast, Nat.floor_natCast]
  unfold interpEntry
  rw [hcell]
  have : ∀ i ∈ Finset.range 3, imageGrad image i [l k 0, l k 1, l k 2] * (clipLoc image i (v.vec (k * 3 + i)) - (([l k 0, l k 1, l k 2].getD i 0 : ℕ) : ℝ)) = 0 := by
    intro i hi'
    rw [Finset.mem_range] at hi'
    rw [hc i hi']
    have : ([l k 0, l k 1, l k 2] : List ℕ).getD i 0 = l k i := lt3 (P := fun i => ([l k 0, l k 1, l k 2] : List ℕ).getD i 0 = l k i) rfl rfl rfl i hi'
    rw [this, sub_self, mul_zero]
  rw [Finset.sum_eq_zero this, add_zero]

theorem grad1_affine {n : ℕ} (hn : 2 ≤ n) {f : ℕ → ℝ} {p q : ℝ} (hf : ∀ t < n, f t = p + q * t) {l : ℕ} (hl : l < n) : grad1 n f l = q := by
  unfold grad1
  split
  · rw [hf 1 (by omega), hf 0 (by omega)]; push_cast; ring
  · split
    · rw [hf (n - 1) (by omega), hf (n - 2) (by omega), Nat.cast_sub (by omega), Nat.cast_sub (by omega)]; push_cast; ring
    · rw [hf (l + 1) (by omega), hf (l - 1) (by omega), Nat.cast_sub (by omega)]; push_cast; ring

/-- C66: an image that is an affine function of the coordinates is reproduced at all locations inside it, and outside it the value at the
nearest point of it. -/
theorem C66_affine (hr : Reach lib ⟨False, True⟩ h) (hi : Interpolates h y a image v n d₀ d₁ d₂) (p q₀ q₁ q₂ : ℝ)
    (hf : ∀ i₀ < d₀, ∀ i₁ < d₁, ∀ i₂ < d₂, image.at [i₀, i₁, i₂] = p + q₀ * i₀ + q₁ * i₁ + q₂ * i₂) :
    ∃ out, (∃ f₀, ∀ f ≥ f₀, (read lib f (.r y) h).2 = .ok out) ∧ out.shape = [n] ∧
      ∀ k < n, out.at [k] = p + q₀ * min ((d₀ : ℝ) - 1) (max (v.at [k, 0]) 0) + q₁ * min ((d₁ : ℝ) - 1) (max (v.at [k, 1]) 0) +
        q₂ * min ((d₂ : ℝ) - 1) (max (v.at [k, 2]) 0) := by
  refine ⟨_, interp_reads hr hi, rfl, fun k hk => ?_⟩
  show (Arr.of [n] fun k => interpEntry image v.vec k).vec (ravel [n] [k]) = _
  rw [show ravel [n] [k] = k by simp [ravel], Arr.vec_of _ _ (by simpa using hk)]
  have hlt : ∀ (d : ℕ), 2 ≤ d → ∀ x : ℝ, ⌊clip1 0 ((d : ℝ) - 1) x⌋₊ < d := by
    intro d hd x
    have h1 : clip1 0 ((d : ℝ) - 1) x ≤ ((d - 1 : ℕ) : ℝ) := by
      rw [Nat.cast_sub (by omega)]; push_cast; exact min_le_left _ _
    have := Nat.floor_le_of_le h1
    omega
  have e0 : clipLoc image 0 (v.vec (k * 3)) = clip1 0 ((d₀ : ℝ) - 1) (v.vec (k * 3)) := by unfold clipLoc; rw [hi.dims]; rfl
  have e1 : clipLoc image 1 (v.vec (k * 3 + 1)) = clip1 0 ((d₁ : ℝ) - 1) (v.vec (k * 3 + 1)) := by unfold clipLoc; rw [hi.dims]; rfl
  have e2 : clipLoc image 2 (v.vec (k * 3 + 2)) = clip1 0 ((d₂ : ℝ) - 1) (v.vec (k * 3 + 2)) := by unfold clipLoc; rw [hi.dims]; rfl
  have l0 := hlt d₀ hi.long.1 (v.vec (k * 3))
  have l1 := hlt d₁ hi.long.2.1 (v.vec (k * 3 + 1))
  have l2 := hlt d₂ hi.long.2.2 (v.vec (k * 3 + 2))
  rw [← e0] at l0
  rw [← e1] at l1
  rw [← e2] at l2
  unfold interpEntry
  rw [sum3]
  unfold cellOf
  simp only [Nat.add_zero]
  have r0 := at_row3 hi.shape k 0
  have r1 := at_row3 hi.shape k 1
  have r2 := at_row3 hi.shape k 2
  rw [Nat.add_zero] at r0
  rw [r0, r1, r2]
  rw [show min ((d₀ : ℝ) - 1) (max (v.vec (k * 3)) 0) = clipLoc image 0 (v.vec (k * 3)) from e0.symm,
    show min ((d₁ : ℝ) - 1) (max (v.vec (k * 3 + 1)) 0) = clipLoc image 1 (v.vec (k * 3 + 1)) from e1.symm,
    show min ((d₂ : ℝ) - 1) (max (v.vec (k * 3 + 2)) 0) = clipLoc image 2 (v.vec (k * 3 + 2)) from e2.symm]
  clear e0 e1 e2
  generalize clipLoc image 0 (v.vec (k * 3)) = c0 at *
  generalize clipLoc image 1 (v.vec (k * 3 + 1)) = c1 at *
  generalize clipLoc image 2 (v.vec (k * 3 + 2)) = c2 at *
  generalize ⌊c0⌋₊ = i0 at *
  generalize ⌊c1⌋₊ = i1 at *
  generalize ⌊c2⌋₊ = i2 at *
  have g0 : imageGrad image 0 [i0, i1, i2] = q₀ := by
    unfold imageGrad
    rw [hi.dims]
    refine grad1_affine (p := p + q₁ * i1 + q₂ * i2) (q := q₀) hi.long.1 (fun t ht => ?_) l0
    show image.at [t, i1, i2] = _
    rw [hf t ht i1 l1 i2 l2]; ring
  have g1 : imageGrad image 1 [i0, i1, i2] = q₁ := by
    unfold imageGrad
    rw [hi.dims]
    refine grad1_affine (p := p + q₀ * i0 + q₂ * i2) (q := q₁) hi.long.2.1 (fun t ht => ?_) l1
    show image.at [i0, t, i2] = _
    rw [hf i0 l0 t ht i2 l2]; ring
  have g2 : imageGrad image 2 [i0, i1, i2] = q₂ := by
    unfold imageGrad
    rw [hi.dims]
    refine grad1_affine (p := p + q₀ * i0 + q₁ * i1) (q := q₂) hi.long.2.2 (fun t ht => ?_) l2
    show image.at [i0, i1, t] = _
    rw [hf i0 l0 i1 l1 t ht]
  rw [g0, g1, g2, hf i0 l0 i1 l1 i2 l2]
  show p + q₀ * i0 + q₁ * i1 + q₂ * i2 + (q₀ * (c0 - (i0 : ℕ)) + q₁ * (c1 - (i1 : ℕ)) + q₂ * (c2 - (i2 : ℕ))) = _
  ring
end

namespace ADDemo
/-- `Interp3D` of one location in the 2 by 2 by 2 image whose entries are the first coordinate. -/
noncomputable def ramp : Arr := Arr.of [2, 2, 2] fun k => (k / 4 : ℕ)
/-- A location. -/
noncomputable def loc (x : ℝ) : Arr := Arr.of [1, 3] fun k => if k = 0 then x else 1 / 2

theorem interp_reach (x : ℝ) : ∃ h, Reach lib ⟨False, True⟩ h ∧ Interpolates h 1 0 ramp (loc x) 1 2 2 2 ∧ IsLeaf h.graph 0 := by
  have hok : FitsFrom 0 [leafO (loc x), unPO chInterp3D (.arr ramp) .none 0] := ⟨leafO_fits _ _, unPO_fits (by decide), trivial⟩
  obtain ⟨h, hr, hg⟩ := hok.reach ⟨False, True⟩
  refine ⟨h, hr, ⟨?_, ?_, ?_, rfl, le_refl _, rfl, by decide⟩, ?_⟩ <;> rw [hg]
  · exact isA_unP rfl
  · rfl
  · exact (leaf_means rfl (by simp [loc, Arr.of])).1
  · exact isLeaf_leafO rfl
end ADDemo

section
open ADDemo

theorem loc_vec (x : ℝ) {k : ℕ} (hk : k < 3) : (loc x).vec k = if k = 0 then x else 1 / 2 := Arr.vec_of [1, 3] _ (by simpa using hk)
theorem ramp_vec {k : ℕ} (hk : k < 8) : ramp.vec k = (k / 4 : ℕ) := Arr.vec_of [2, 2, 2] _ (by simpa using hk)

/-- The hypotheses of `C66_inside_partial` are met at the location (1/2, 1/2, 1/2). -/
example : ∀ k < 1, ∀ i < 3, ((0 : ℕ) : ℝ) < (loc (1 / 2)).at [k, i] ∧ (loc (1 / 2)).at [k, i] < (0 : ℕ) + 1 ∧ 0 + 1 < ramp.shape.getD i 0 := by
  intro k hk
  have : k = 0 := by omega
  subst this
  refine lt3 ?_ ?_ ?_ <;>
  · rw [at_row3 (n := 1) rfl, loc_vec _ (by decide)]
    norm_num [ramp, Arr.of]

/-- The derivative of the value of `Interp3D` at the location (5, 1/2, 1/2), outside the image, in the first coordinate is 0, but 1 is
reported. -/
theorem C66_full_refuted : ¬ C66_full := by
  intro hall
  obtain ⟨h, hr, hi, hl⟩ := interp_reach 5
  have hcell : ∀ u : ℕ → ℝ, 1 ≤ u 0 → 0 ≤ u 1 → u 1 < 1 → 0 ≤ u 2 → u 2 < 1 → cellOf ramp u 0 = [1, 0, 0] ∧ clipLoc ramp 0 (u 0) = 1 := by
    intro u h0 h1 h1' h2 h2'
    have c0 : clipLoc ramp 0 (u 0) = 1 := by
      show min ((2 : ℕ) - 1 : ℝ) (max (u 0) 0) = 1
      rw [max_eq_left (by linarith)]; norm_num; exact h0
    have c1 : clipLoc ramp 1 (u 1) = u 1 := by
      show min ((2 : ℕ) - 1 : ℝ) (max (u 1) 0) = u 1
      rw [max_eq_left h1]; norm_num; exact h1'.le
    have c2 : clipLoc ramp 2 (u 2) = u 2 := by
      show min ((2 : ℕ) - 1 : ℝ) (max (u 2) 0) = u 2
      rw [max_eq_left h2]; norm_num; exact h2'.le
    refine ⟨?_, c0⟩
    unfold cellOf
    simp only [Nat.zero_mul, Nat.zero_add]
    rw [c0, c1, c2, Nat.floor_eq_zero.2 h1', Nat.floor_eq_zero.2 h2', Nat.floor_one]
  have g0 : imageGrad ramp 0 [1, 0, 0] = 1 := by
    unfold imageGrad grad1
    rw [if_neg (by decide), if_pos (by decide)]
    show ramp.vec (ravel [2, 2, 2] [1, 0, 0]) - ramp.vec (ravel [2, 2, 2] [0, 0, 0]) = _
    rw [show ravel [2, 2, 2] [1, 0, 0] = 4 by decide, show ravel [2, 2, 2] [0, 0, 0] = 0 by decide,
      ramp_vec (by decide), ramp_vec (by decide)]
    norm_num
  have g1 : imageGrad ramp 1 [1, 0, 0] = 0 := by
    unfold imageGrad grad1
    rw [if_pos (by decide)]
    show ramp.vec (ravel [2, 2, 2] [1, 1, 0]) - ramp.vec (ravel [2, 2, 2] [1, 0, 0]) = _
    rw [show ravel [2, 2, 2] [1, 1, 0] = 6 by decide, show ravel [2, 2, 2] [1, 0, 0] = 4 by decide,
      ramp_vec (by decide), ramp_vec (by decide)]
    norm_num
  have g2 : imageGrad ramp 2 [1, 0, 0] = 0 := by
    unfold imageGrad grad1
    rw [if_pos (by decide)]
    show ramp.vec (ravel [2, 2, 2] [1, 0, 1]) - ramp.vec (ravel [2, 2, 2] [1, 0, 0]) = _
    rw [show ravel [2, 2, 2] [1, 0, 1] = 5 by decide, show ravel [2, 2, 2] [1, 0, 0] = 4 by decide,
      ramp_vec (by decide), ramp_vec (by decide)]
    norm_num
  have hval : ∀ u : ℕ → ℝ, 1 ≤ u 0 → 0 ≤ u 1 → u 1 < 1 → 0 ≤ u 2 → u 2 < 1 → interpEntry ramp u 0 = 1 := by
    intro u h0 h1 h1' h2 h2'
    obtain ⟨e, c0⟩ := hcell u h0 h1 h1' h2 h2'
    unfold interpEntry
    rw [e, sum3, g0, g1, g2]
    simp only [Nat.zero_mul, Nat.zero_add]
    rw [c0]
    show ramp.vec (ravel [2, 2, 2] [1, 0, 0]) + (1 * (1 - ((1 : ℕ) : ℝ)) + _ + _) = _
    rw [show ravel [2, 2, 2] [1, 0, 0] = 4 by decide, ramp_vec (by decide)]
    norm_num
  have hya : (1 : Id) ≠ 0 := by decide
  have v0 := loc_vec 5 (k := 0) (by decide)
  have v1 := loc_vec 5 (k := 1) (by decide)
  have v2 := loc_vec 5 (k := 2) (by decide)
  rw [if_pos rfl] at v0
  rw [if_neg (by decide)] at v1 v2
  have hJ : HasJacobian h.graph 1 0 (Arr.of [1] fun k => interpEntry ramp (loc 5).vec k) (loc 5) fun _ _ => 0 := by
    refine hasJacobian_leaf hi.cls hya hi.value (fun _ _ => 1) (returns_interp hi.term hi.dims_eq) ?_ ?_
    · have hc : ∀ k : Fin 3, Filter.Tendsto (fun u : Fin (loc 5).size → ℝ => ((loc 5).put u).vec k) (𝓝 (loc 5).data) (𝓝 ((loc 5).vec k)) := by
        intro k
        have hk : (k : ℕ) < (loc 5).size := lt_of_lt_of_eq k.2 (by show 3 = [1, 3].prod; simp)
        have e : ∀ u : Fin (loc 5).size → ℝ, ((loc 5).put u).vec k = u ⟨k, hk⟩ := fun u => Arr.vec_put (loc 5) u ⟨k, hk⟩
        simp_rw [e]
        have : (loc 5).vec k = (loc 5).data ⟨k, hk⟩ := by unfold Arr.vec; rw [dif_pos hk]
        rw [this]
        exact (continuous_apply _).continuousAt
      have c0 := hc 0
      have c1 := hc 1
      have c2 := hc 2
      simp only [Fin.val_zero, Fin.val_one, Fin.val_two] at c0 c1 c2
      rw [v0] at c0
      rw [v1] at c1
      rw [v2] at c2
      filter_upwards [c0.eventually (lt_mem_nhds (show (1 : ℝ) < 5 by norm_num)), c1.eventually (lt_mem_nhds (show (0 : ℝ) < 1 / 2 by norm_num)),
        c1.eventually (gt_mem_nhds (show (1 / 2 : ℝ) < 1 by norm_num)), c2.eventually (lt_mem_nhds (show (0 : ℝ) < 1 / 2 by norm_num)),
        c2.eventually (gt_mem_nhds (show (1 / 2 : ℝ) < 1 by norm_num))] with u k0 k1 k1' k2 k2'
      have h1 := returns_interp (v := (loc 5).put u) hi.term hi.dims_eq
      have e : (Arr.of [1] fun k => interpEntry ramp ((loc 5).put u).vec k) = (Arr.of [1] fun k => interpEntry ramp (loc 5).vec k).put fun _ => 1 := by
        show Arr.mk [1] _ = Arr.mk [1] _
        congr 1
        funext k
        have : (k : ℕ) = 0 := by have := k.2; simp at this; omega
        beta_reduce
        rw [this]
        exact hval _ k0.le k1.le k1' k2.le k2'
      rwa [e] at h1
    · refine (hasFDerivAt_const _ _).congr_fderiv ?_
      ext z k
      rw [Ent.lin_apply]; simp
  have hR := hall h 1 0 ramp (loc 5) 1 2 2 2 hr hi hl _ _ hJ
  obtain ⟨e, c0⟩ := hcell (loc 5).vec (by rw [v0]; norm_num) (by rw [v1]; norm_num) (by rw [v1]; norm_num) (by rw [v2]; norm_num) (by rw [v2]; norm_num)
  have hE : Reports h 1 0 1 3 (interpMat ramp (loc 5).vec) := by
    refine reports_of_rep hr hi.cls (v := fun _ => loc 5) (out := Arr.of [1] fun k => interpEntry ramp (loc 5).vec k) (fun _ => hi.value)
      (means_of_isA hi.cls (v := fun _ => loc 5) (fun _ => hi.value) (by erw [env_one]; exact returns_interp hi.term hi.dims_eq))
      (fun _ => hl) ⟨(0 : Fin 1), rfl⟩ (d := some (.sparse 1 (3 * 1) (interpMat ramp (loc 5).vec))) ?_ (by exact ⟨rfl, rfl, fun _ _ _ _ => rfl⟩)
    rw [namesOf_one hi.cls]; erw [env_one]
    refine ⟨0, ?_⟩
    show runBody _ _ _ _ (chInterp3D.dr false [nmA]) = _
    simp [chInterp3D, runBody, env1, hi.term, hi.dims_eq]
  have hne : interpMat ramp (loc 5).vec 0 0 = 1 := by
    unfold interpMat
    rw [if_pos rfl, e]; exact g0
  obtain ⟨_, _, h3⟩ := reports_unique hR hE ⟨0, by decide, 0, by decide, by rw [hne]; norm_num⟩
  have := h3 0 (by show 0 < [1].prod; simp) 0 (by show 0 < [1, 3].prod; simp)
  rw [hne] at this
  norm_num at this
end
end Chumpy
