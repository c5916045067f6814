import Mathlib.LinearAlgebra.Matrix.Rank
import Verif.AD.Linalg
import Verif.AD.Built
import Verif.Properties.Products
import Verif.Properties.Elementwise
/-!
# C42, C43: inverse, determinant, log-determinant, pseudo-inverse and least squares
-/
namespace Chumpy
open scoped BigOperators Topology Matrix

/-- An array of two axes as a matrix. -/
noncomputable def asMatrix (m n : ℕ) (v : Arr) : Matrix (Fin m) (Fin n) ℝ := Matrix.of fun i j => v.at [i, j]

theorem at_two {m n : ℕ} {v : Arr} (h : v.shape = [m, n]) (i j : ℕ) : v.at [i, j] = v.vec (i * n + j) := by
  unfold Arr.at; rw [h]; simp [ravel]

theorem asMatrix_sq {n : ℕ} {v : Arr} (h : v.shape = [n, n]) : asMatrix n n v = matOf n v.vec := by
  ext i j; exact at_two h i j

section
variable {h : Heap ClassDef Par Arr Jac} {y a : Id} {v : Arr} {n : ℕ}

/-! ## C42 -/

/-- C42 for `Inv`: at every invertible matrix of every size the value is the inverse and the Jacobian is right. -/
theorem C42_inv (hr : Reach lib ⟨False, True⟩ h) (hy : IsA h.graph y chInv [nmA] fun _ => a) (hv : Means lib h.graph (.r a) (.ok v))
    (hsh : v.shape = [n, n]) (hd : (asMatrix n n v).det ≠ 0) :
    ∃ out, out.shape = [n, n] ∧ asMatrix n n out * asMatrix n n v = 1 ∧ asMatrix n n v * asMatrix n n out = 1 ∧ Right h y out := by
  rw [asMatrix_sq hsh] at *
  refine ⟨_, rfl, ?_, ?_, right_of_exact hr hy (fun _ => hv) (exact_inv hsh hd)⟩
  · rw [asMatrix_sq rfl]
    have : matOf n (Arr.of [n, n] (matFlat (matOf n v.vec)⁻¹)).vec = (matOf n v.vec)⁻¹ := by
      rw [← matOf_flat (matOf n v.vec)⁻¹]
      exact matOf_congr fun k hk => by rw [Arr.vec_of _ _ (by rw [prod_sq]; exact hk), matOf_flat]
    rw [this, Matrix.nonsing_inv_mul _ (isUnit_iff_ne_zero.2 hd)]
  · rw [asMatrix_sq rfl]
    have : matOf n (Arr.of [n, n] (matFlat (matOf n v.vec)⁻¹)).vec = (matOf n v.vec)⁻¹ := by
      rw [← matOf_flat (matOf n v.vec)⁻¹]
      exact matOf_congr fun k hk => by rw [Arr.vec_of _ _ (by rw [prod_sq]; exact hk), matOf_flat]
    rw [this, Matrix.mul_nonsing_inv _ (isUnit_iff_ne_zero.2 hd)]

/-- C42 for `Det`. -/
theorem C42_det (hr : Reach lib ⟨False, True⟩ h) (hy : IsA h.graph y chDet [nmA] fun _ => a) (hv : Means lib h.graph (.r a) (.ok v))
    (hsh : v.shape = [n, n]) (hd : (asMatrix n n v).det ≠ 0) : Right h y (Arr.of [1] fun _ => (asMatrix n n v).det) := by
  rw [asMatrix_sq hsh] at *
  exact right_of_exact hr hy (fun _ => hv) (exact_det hsh hd)

/-- C42 for `LogAbsDet`. -/
theorem C42_logAbsDet (hr : Reach lib ⟨False, True⟩ h) (hy : IsA h.graph y chLogAbsDet [nmA] fun _ => a)
    (hv : Means lib h.graph (.r a) (.ok v)) (hsh : v.shape = [n, n]) (hd : (asMatrix n n v).det ≠ 0) :
    Right h y (Arr.of [1] fun _ => Real.log |(asMatrix n n v).det|) := by
  rw [asMatrix_sq hsh] at *
  exact right_of_exact hr hy (fun _ => hv) (exact_logAbsDet hsh hd)
end

/-- The hypotheses of C42 are met by the matrix with rows (1, 2) and (3, 4). -/
noncomputable def m1234 : Arr := Arr.of [2, 2] fun k => k + 1
example : ∃ h, Reach lib ⟨False, True⟩ h ∧ IsA h.graph 1 chInv [nmA] (fun _ => 0) ∧ Means lib h.graph (.r 0) (.ok m1234) ∧ IsLeaf h.graph 0 :=
  ADDemo.unary_reach rfl _ (by simp [m1234, Arr.of])
theorem m1234_mat : asMatrix 2 2 m1234 = !![1, 2; 3, 4] := by
  ext i j
  have : ∀ k < 4, m1234.vec k = k + 1 := fun k hk => Arr.vec_of [2, 2] _ (by simpa using hk)
  fin_cases i <;> fin_cases j <;> simp [asMatrix, at_two (m := 2) (n := 2) (v := m1234) rfl] <;> rw [this _ (by norm_num)] <;> norm_num
theorem m1234_det : (asMatrix 2 2 m1234).det ≠ 0 := by rw [m1234_mat, Matrix.det_fin_two_of]; norm_num


/-! ## C43 -/

/-- The four Moore-Penrose conditions: `P` is the pseudo-inverse of `A`. -/
structure MoorePenrose {m n : ℕ} (A : Matrix (Fin m) (Fin n) ℝ) (P : Matrix (Fin n) (Fin m) ℝ) : Prop where
  apa : A * P * A = A
  pap : P * A * P = P
  ap : (A * P)ᵀ = A * P
  pa : (P * A)ᵀ = P * A

theorem det_ne_of_rank {k : ℕ} {B : Matrix (Fin k) (Fin k) ℝ} (h : B.rank = k) : B.det ≠ 0 := by
  intro h0
  obtain ⟨x, hx, hB⟩ := Matrix.exists_mulVec_eq_zero_iff.2 h0
  have h1 := LinearMap.finrank_range_add_finrank_ker B.mulVecLin
  rw [show Module.finrank ℝ (LinearMap.range B.mulVecLin) = k from h, Module.finrank_fin_fun] at h1
  have h2 : Module.finrank ℝ (LinearMap.ker B.mulVecLin) = 0 := by omega
  have h3 := Submodule.finrank_eq_zero.1 h2
  have : x ∈ LinearMap.ker B.mulVecLin := by rw [LinearMap.mem_ker]; exact hB
  rw [h3] at this
  exact hx ((Submodule.mem_bot ℝ).1 this)

theorem moorePenrose_tall {m n : ℕ} (A : Matrix (Fin m) (Fin n) ℝ) (hd : (Aᵀ * A).det ≠ 0) : MoorePenrose A ((Aᵀ * A)⁻¹ * Aᵀ) := by
  have hu : IsUnit (Aᵀ * A).det := isUnit_iff_ne_zero.2 hd
  have h1 : (Aᵀ * A)⁻¹ * Aᵀ * A = 1 := by rw [Matrix.mul_assoc, Matrix.nonsing_inv_mul _ hu]
  have hT : ((Aᵀ * A)⁻¹)ᵀ = (Aᵀ * A)⁻¹ := by
    rw [Matrix.transpose_nonsing_inv, Matrix.transpose_mul, Matrix.transpose_transpose]
  refine ⟨?_, ?_, ?_, ?_⟩
  · rw [Matrix.mul_assoc, h1, Matrix.mul_one]
  · rw [h1, Matrix.one_mul]
  · rw [Matrix.transpose_mul, Matrix.transpose_mul, hT, Matrix.transpose_transpose, Matrix.mul_assoc]
  · rw [h1, Matrix.transpose_one]

theorem moorePenrose_wide {m n : ℕ} (A : Matrix (Fin m) (Fin n) ℝ) (hd : (A * Aᵀ).det ≠ 0) : MoorePenrose A (Aᵀ * (A * Aᵀ)⁻¹) := by
  have hu : IsUnit (A * Aᵀ).det := isUnit_iff_ne_zero.2 hd
  have h1 : A * (Aᵀ * (A * Aᵀ)⁻¹) = 1 := by rw [← Matrix.mul_assoc, Matrix.mul_nonsing_inv _ hu]
  have hT : ((A * Aᵀ)⁻¹)ᵀ = (A * Aᵀ)⁻¹ := by
    rw [Matrix.transpose_nonsing_inv, Matrix.transpose_mul, Matrix.transpose_transpose]
  refine ⟨?_, ?_, ?_, ?_⟩
  · rw [h1, Matrix.one_mul]
  · rw [Matrix.mul_assoc, h1, Matrix.mul_one]
  · rw [h1, Matrix.transpose_one]
  · rw [Matrix.transpose_mul, Matrix.transpose_mul, hT, Matrix.transpose_transpose, Matrix.mul_assoc]

/-- With the pseudo-inverse `P` of `A`, `P b` is a least-squares solution. -/
theorem moorePenrose_least {m n : ℕ} {A : Matrix (Fin m) (Fin n) ℝ} {P : Matrix (Fin n) (Fin m) ℝ} (hP : MoorePenrose A P)
    (b : Fin m → ℝ) (z : Fin n → ℝ) : ∑ i, ((A *ᵥ (P *ᵥ b)) i - b i) ^ 2 ≤ ∑ i, ((A *ᵥ z) i - b i) ^ 2 := by
  -- the residual is orthogonal to the columns
  have horth : Aᵀ *ᵥ (A *ᵥ (P *ᵥ b) - b) = 0 := by
    rw [Matrix.mulVec_sub, Matrix.mulVec_mulVec, Matrix.mulVec_mulVec]
    have : Aᵀ * A * P = Aᵀ := by
      rw [Matrix.mul_assoc, ← hP.ap, ← Matrix.transpose_mul, hP.apa]
    rw [this, sub_self]
  have key : ∀ i, (A *ᵥ z) i - b i = ((A *ᵥ (P *ᵥ b)) i - b i) + (A *ᵥ (z - P *ᵥ b)) i := by
    intro i; rw [Matrix.mulVec_sub]; simp
  have hdot : ∑ i, ((A *ᵥ (P *ᵥ b)) i - b i) * (A *ᵥ (z - P *ᵥ b)) i = 0 := by
    show (A *ᵥ (P *ᵥ b) - b) ⬝ᵥ (A *ᵥ (z - P *ᵥ b)) = 0
    rw [Matrix.dotProduct_mulVec, ← Matrix.mulVec_transpose, horth, zero_dotProduct]
  have : ∑ i, ((A *ᵥ z) i - b i) ^ 2 = ∑ i, ((A *ᵥ (P *ᵥ b)) i - b i) ^ 2 + ∑ i, ((A *ᵥ (z - P *ᵥ b)) i) ^ 2 := by
    have e : ∀ i, ((A *ᵥ z) i - b i) ^ 2 =
        ((A *ᵥ (P *ᵥ b)) i - b i) ^ 2 + ((A *ᵥ (z - P *ᵥ b)) i) ^ 2 + 2 * (((A *ᵥ (P *ᵥ b)) i - b i) * (A *ᵥ (z - P *ᵥ b)) i) := by
      intro i; rw [key i]; ring
    simp_rw [e]
    rw [Finset.sum_add_distrib, Finset.sum_add_distrib, ← Finset.mul_sum, hdot]; ring
  rw [this]
  have : 0 ≤ ∑ i, ((A *ᵥ (z - P *ᵥ b)) i) ^ 2 := Finset.sum_nonneg fun i _ => sq_nonneg _
  linarith

/-! ### The objects -/

section
variable {g : Graph ClassDef Par} {y a b : Id} {u v : Arr} {m n k : ℕ}

theorem inB_two {m n i j : ℕ} (hi : i < m) (hj : j < n) : InB [m, n] [i, j] := .cons hi (.cons hj .nil)

theorem means_T (hy : IsA g y chTranspose [nmA] fun _ => a) (hp : (g y).terms nmP = none ∨ (g y).terms nmP = some .none)
    (hv : Means lib g (.r a) (.ok v)) (hsh : v.shape = [m, n]) :
    ∃ out, Means lib g (.r y) (.ok out) ∧ out.shape = [n, m] ∧ asMatrix n m out = (asMatrix m n v)ᵀ := by
  obtain ⟨L, h1, h2, h3, h4⟩ := transposeL_ok (sh := v.shape) (List.reverse_perm _)
  have hL : transposeρ ((g y).terms nmP) ((g y).terms nmQ) v = some L := by
    rcases hp with hp | hp <;> (simp only [transposeρ, hp]; exact h1)
  obtain ⟨k1, k2, k3⟩ := h4 v rfl
  have hax : (List.range v.shape.length).reverse = [1, 0] := by rw [hsh]; rfl
  rw [hax] at k2 k3
  have hsL : (L.apply v).shape = [n, m] := by
    have l2 : (L.apply v).shape.length = 2 := by rw [k1, hsh]; rfl
    match hsh' : (L.apply v).shape, l2 with
    | [p, q], _ =>
      have e0 := k2 0 (by rw [hsh]; simp)
      have e1 := k2 1 (by rw [hsh]; simp)
      rw [hsh', hsh] at e0 e1
      simp at e0 e1
      rw [e0, e1]
  refine ⟨(L.apply v).atleast1, ?_, ?_, ?_⟩
  · refine means_of_isA hy (v := fun _ => v) (fun _ => hv) ?_
    erw [env_one]
    refine ⟨0, ?_⟩
    show runBody _ _ _ _ (chReorder transposeρ).r = _
    simp [chReorder, runBody, env1, hL]
  · rw [atleast1_of_ne (by rw [hsL]; simp)]; exact hsL
  · rw [atleast1_of_ne (by rw [hsL]; simp)]
    ext i j
    refine k3 [j, i] [i, j] (by rw [hsh]; exact inB_two j.2 i.2) (by rw [hsL]; exact inB_two i.2 j.2) fun t ht => ?_
    rw [hsh] at ht
    have : t = 0 ∨ t = 1 := by simp at ht; omega
    rcases this with rfl | rfl <;> rfl

theorem means_dot (hy : IsA g y chDot [nmA, nmB] ![a, b]) (hu : Means lib g (.r a) (.ok u)) (hv : Means lib g (.r b) (.ok v))
    (hsu : u.shape = [m, n]) (hsv : v.shape = [n, k]) :
    ∃ out, Means lib g (.r y) (.ok out) ∧ out.shape = [m, k] ∧ asMatrix m k out = asMatrix m n u * asMatrix n k v := by
  have hx := dotVal_eq (s := [m]) (n := n) (C := k) (u := u) (v := v) hsu (Or.inr ⟨hsv, rfl⟩)
  obtain ⟨d1, d2, d3, d4⟩ := dotMatrix_of (s := [m]) (t := []) hsu hsv hx
  refine ⟨_, ?_, d3, ?_⟩
  · refine means_of_isA hy (v := ![u, v]) (kids2 hu hv) ?_
    erw [env_two]
    refine ⟨0, ?_⟩
    show runBody _ _ _ _ chDot.r = _
    simp only [chDot, runBody, env2]
    simp only [if_true, show (nmB : Name) ≠ nmA by decide, if_false]
    rw [hx]; rfl
  · ext i j
    rw [Matrix.mul_apply]
    have := d4 [i] [] j (.cons i.2 .nil) .nil j.2
    exact this.trans (Fin.sum_univ_eq_sum_range (fun t => u.at [(i : ℕ), t] * v.at [t, (j : ℕ)]) n).symm

theorem means_dotVec (hy : IsA g y chDot [nmA, nmB] ![a, b]) (hu : Means lib g (.r a) (.ok u)) (hv : Means lib g (.r b) (.ok v))
    (hsu : u.shape = [m, n]) (hsv : v.shape = [n]) :
    ∃ out, Means lib g (.r y) (.ok out) ∧ out.shape = [m] ∧
      (fun i : Fin m => out.at [(i : ℕ)]) = asMatrix m n u *ᵥ fun i : Fin n => v.at [(i : ℕ)] := by
  have hx := dotVal_eq (s := [m]) (n := n) (C := 1) (u := u) (v := v) hsu (Or.inl ⟨hsv, rfl, rfl⟩)
  obtain ⟨d1, d2, d3, d4⟩ := dotVector_of (s := [m]) hsu hsv hx
  refine ⟨_, ?_, d3, ?_⟩
  · refine means_of_isA hy (v := ![u, v]) (kids2 hu hv) ?_
    erw [env_two]
    refine ⟨0, ?_⟩
    show runBody _ _ _ _ chDot.r = _
    simp only [chDot, runBody, env2]
    simp only [if_true, show (nmB : Name) ≠ nmA by decide, if_false]
    rw [hx]; rfl
  · funext i
    have := d4 [i] (.cons i.2 .nil)
    refine Eq.trans ?_ (this.trans (Fin.sum_univ_eq_sum_range (fun t => u.at [(i : ℕ), t] * v.at [t]) n).symm)
    unfold Arr.at
    rw [d3]; rfl

theorem means_inv (hy : IsA g y chInv [nmA] fun _ => a) (hv : Means lib g (.r a) (.ok v)) (hsh : v.shape = [n, n])
    (hd : (asMatrix n n v).det ≠ 0) :
    ∃ out, Means lib g (.r y) (.ok out) ∧ out.shape = [n, n] ∧ asMatrix n n out = (asMatrix n n v)⁻¹ := by
  rw [asMatrix_sq hsh] at *
  refine ⟨Arr.of [n, n] (matFlat (matOf n v.vec)⁻¹), ?_, rfl, ?_⟩
  · refine means_of_isA hy (v := fun _ => v) (fun _ => hv) ?_
    erw [env_one]
    exact returns_inv hsh hd
  · rw [asMatrix_sq rfl]
    rw [← matOf_flat (matOf n v.vec)⁻¹]
    exact matOf_congr fun k hk => by rw [Arr.vec_of _ _ (by rw [prod_sq]; exact hk), matOf_flat]
end

/-- The objects `Pinv(a).on_changed` makes (linalg.py:85-91) for an `m` by `n` matrix `a`: `t` is `a.T`, and `p` is `t.dot(Inv(a.dot(t)))` if
`n > m` and `Inv(t.dot(a)).dot(t)` otherwise.  `Pinv(a).r` is `p.r`. -/
structure PinvGraph (g : Graph ClassDef Par) (m n : ℕ) (a t s i p : Id) : Prop where
  transpose : IsA g t chTranspose [nmA] fun _ => a
  axes : (g t).terms nmP = none ∨ (g t).terms nmP = some .none
  square : IsA g s chDot [nmA, nmB] (if n > m then ![a, t] else ![t, a])
  inverse : IsA g i chInv [nmA] fun _ => s
  product : IsA g p chDot [nmA, nmB] (if n > m then ![t, i] else ![i, t])

section
variable {h : Heap ClassDef Par Arr Jac} {a t s i p x b : Id} {v w : Arr} {m n k : ℕ}

theorem means_pinv {g : Graph ClassDef Par} (hg : PinvGraph g m n a t s i p) (hv : Means lib g (.r a) (.ok v)) (hsh : v.shape = [m, n])
    (hrank : (asMatrix m n v).rank = min m n) :
    ∃ out, Means lib g (.r p) (.ok out) ∧ out.shape = [n, m] ∧ MoorePenrose (asMatrix m n v) (asMatrix n m out) := by
  obtain ⟨vt, t1, t2, t3⟩ := means_T hg.transpose hg.axes hv hsh
  have hsq := hg.square
  have hpr := hg.product
  by_cases hmn : n > m
  · rw [if_pos hmn] at hsq hpr
    obtain ⟨vs, s1, s2, s3⟩ := means_dot hsq hv t1 hsh t2
    rw [t3] at s3
    have hd : (asMatrix m m vs).det ≠ 0 := by
      refine det_ne_of_rank ?_
      rw [s3, Matrix.rank_self_mul_transpose, hrank, min_eq_left (by omega)]
    obtain ⟨vi, i1, i2, i3⟩ := means_inv hg.inverse s1 s2 hd
    obtain ⟨vp, p1, p2, p3⟩ := means_dot hpr t1 i1 t2 i2
    refine ⟨vp, p1, p2, ?_⟩
    rw [p3, t3, i3, s3]
    exact moorePenrose_wide _ (by rw [← s3]; exact hd)
  · rw [if_neg hmn] at hsq hpr
    obtain ⟨vs, s1, s2, s3⟩ := means_dot hsq t1 hv t2 hsh
    rw [t3] at s3
    have hd : (asMatrix n n vs).det ≠ 0 := by
      refine det_ne_of_rank ?_
      rw [s3, Matrix.rank_transpose_mul_self, hrank, min_eq_right (by omega)]
    obtain ⟨vi, i1, i2, i3⟩ := means_inv hg.inverse s1 s2 hd
    obtain ⟨vp, p1, p2, p3⟩ := means_dot hpr i1 t1 i2 t2
    refine ⟨vp, p1, p2, ?_⟩
    rw [p3, t3, i3, s3]
    exact moorePenrose_tall _ (by rw [← s3]; exact hd)

/-- With enough stack depth, `y.r` is `out`. -/
def ReadsTo (h : Heap ClassDef Par Arr Jac) (y : Id) (out : Arr) : Prop := ∃ f₀, ∀ f ≥ f₀, (read lib f (.r y) h).2 = .ok out

/-- C43, pseudo-inverse: for every full-rank matrix of every shape, reading `Pinv(a)` gives the matrix that satisfies the four
Moore-Penrose conditions, in every reachable state. -/
theorem C43_pinv (hr : Reach lib ⟨False, True⟩ h) (hg : PinvGraph h.graph m n a t s i p) (hv : Means lib h.graph (.r a) (.ok v))
    (hsh : v.shape = [m, n]) (hrank : (asMatrix m n v).rank = min m n) :
    ∃ out, ReadsTo h p out ∧ out.shape = [n, m] ∧ MoorePenrose (asMatrix m n v) (asMatrix n m out) := by
  obtain ⟨out, h1, h2, h3⟩ := means_pinv hg hv hsh hrank
  exact ⟨out, read_of_means hr h1, h2, h3⟩

/-- C43, least squares with a vector `b`: `x = pinv(a).dot(b)` (linalg.py:51) minimises the sum of the squares of the entries of `a x - b`. -/
theorem C43_lstsq_vector (hr : Reach lib ⟨False, True⟩ h) (hg : PinvGraph h.graph m n a t s i p)
    (hx : IsA h.graph x chDot [nmA, nmB] ![p, b]) (hv : Means lib h.graph (.r a) (.ok v)) (hsh : v.shape = [m, n])
    (hrank : (asMatrix m n v).rank = min m n) (hw : Means lib h.graph (.r b) (.ok w)) (hb : w.shape = [m]) :
    ∃ out, ReadsTo h x out ∧ out.shape = [n] ∧ ∀ z : Fin n → ℝ,
      ∑ r : Fin m, (∑ c : Fin n, v.at [(r : ℕ), (c : ℕ)] * out.at [(c : ℕ)] - w.at [(r : ℕ)]) ^ 2 ≤
      ∑ r : Fin m, (∑ c : Fin n, v.at [(r : ℕ), (c : ℕ)] * z c - w.at [(r : ℕ)]) ^ 2 := by
  obtain ⟨P, h1, h2, h3⟩ := means_pinv hg hv hsh hrank
  obtain ⟨out, o1, o2, o3⟩ := means_dotVec hx h1 hw h2 hb
  refine ⟨out, read_of_means hr o1, o2, fun z => ?_⟩
  have := moorePenrose_least h3 (fun r => w.at [(r : ℕ)]) z
  rw [← o3] at this
  exact this

/-- C43, least squares with a matrix `b`: every column is a least-squares solution. -/
theorem C43_lstsq_matrix (hr : Reach lib ⟨False, True⟩ h) (hg : PinvGraph h.graph m n a t s i p)
    (hx : IsA h.graph x chDot [nmA, nmB] ![p, b]) (hv : Means lib h.graph (.r a) (.ok v)) (hsh : v.shape = [m, n])
    (hrank : (asMatrix m n v).rank = min m n) (hw : Means lib h.graph (.r b) (.ok w)) (hb : w.shape = [m, k]) :
    ∃ out, ReadsTo h x out ∧ out.shape = [n, k] ∧ ∀ (e : Fin k) (z : Fin n → ℝ),
      ∑ r : Fin m, (∑ c : Fin n, v.at [(r : ℕ), (c : ℕ)] * out.at [(c : ℕ), (e : ℕ)] - w.at [(r : ℕ), (e : ℕ)]) ^ 2 ≤
      ∑ r : Fin m, (∑ c : Fin n, v.at [(r : ℕ), (c : ℕ)] * z c - w.at [(r : ℕ), (e : ℕ)]) ^ 2 := by
  obtain ⟨P, h1, h2, h3⟩ := means_pinv hg hv hsh hrank
  obtain ⟨out, o1, o2, o3⟩ := means_dot hx h1 hw h2 hb
  refine ⟨out, read_of_means hr o1, o2, fun e z => ?_⟩
  have := moorePenrose_least h3 (fun r => w.at [(r : ℕ), (e : ℕ)]) z
  have e' : (asMatrix n m P *ᵥ fun r => w.at [(r : ℕ), (e : ℕ)]) = fun c : Fin n => out.at [(c : ℕ), (e : ℕ)] := by
    funext c
    have := congrFun (congrFun o3 c) e
    rw [Matrix.mul_apply] at this
    exact this.symm
  rw [e'] at this
  exact this
end

namespace ADDemo
/-- `Pinv` and `lstsq` of the matrix with rows (1, 2) and (3, 4) and the vector (1, 2). -/
noncomputable def pinved : List (ObjSpec ClassDef Par) :=
  [leafO m1234, unO chTranspose 0, binO chDot 1 0, unO chInv 2, binO chDot 3 1, leafO (Arr.of [2] fun k => k + 1), binO chDot 4 5]
theorem pinved_reach : ∃ h, Reach lib ⟨False, True⟩ h ∧ PinvGraph h.graph 2 2 0 1 2 3 4 ∧ IsA h.graph 6 chDot [nmA, nmB] ![4, 5] ∧
    Means lib h.graph (.r 0) (.ok m1234) ∧ Means lib h.graph (.r 5) (.ok (Arr.of [2] fun k => k + 1)) := by
  have hok : FitsFrom 0 pinved := ⟨leafO_fits _ _, unO_fits (by decide), binO_fits (by decide) (by decide) rfl, unO_fits (by decide),
    binO_fits (by decide) (by decide) rfl, leafO_fits _ _, binO_fits (by decide) (by decide) rfl, trivial⟩
  obtain ⟨h, hr, hg⟩ := hok.reach ⟨False, True⟩
  refine ⟨h, hr, ⟨?_, ?_, ?_, ?_, ?_⟩, ?_, ?_, ?_⟩ <;> rw [hg]
  · exact isA_un rfl
  · exact Or.inl rfl
  · exact isA_bin rfl
  · exact isA_un rfl
  · exact isA_bin rfl
  · exact isA_bin rfl
  · exact (leaf_means rfl (by simp [m1234, Arr.of])).1
  · exact (leaf_means rfl (by simp [Arr.of])).1
end ADDemo
/-- The hypotheses of C43 are met. -/
example : m1234.shape = [2, 2] := rfl
example : (asMatrix 2 2 m1234).rank = min 2 2 := by
  rw [Matrix.rank_of_det_ne_zero m1234_det]; simp
end Chumpy
