import Verif.AD.Straight
import Verif.Properties.Linalg
import Mathlib.Topology.Instances.Matrix
import Mathlib.Analysis.Calculus.Deriv.Mul
import Mathlib.Analysis.Calculus.Deriv.Add
import Mathlib.Analysis.Calculus.Deriv.Comp
/-!
# C68: the derivative of the pseudo-inverse
-/
namespace Chumpy
open scoped BigOperators Topology
open Matrix

/-! ## Derivatives of products of matrices, entry by entry -/

/-- Each entry of `X` has at 0 the derivative in `X'`. -/
def EntDeriv {m n : ℕ} (X : ℝ → Matrix (Fin m) (Fin n) ℝ) (X' : Matrix (Fin m) (Fin n) ℝ) : Prop :=
  ∀ i j, HasDerivAt (fun τ => X τ i j) (X' i j) 0

theorem EntDeriv.mul {m n k : ℕ} {X : ℝ → Matrix (Fin m) (Fin n) ℝ} {X' : Matrix (Fin m) (Fin n) ℝ} {Y : ℝ → Matrix (Fin n) (Fin k) ℝ}
    {Y' : Matrix (Fin n) (Fin k) ℝ} (hX : EntDeriv X X') (hY : EntDeriv Y Y') : EntDeriv (fun τ => X τ * Y τ) (X' * Y 0 + X 0 * Y') := by
  intro i j
  simp only [Matrix.mul_apply, Matrix.add_apply, ← Finset.sum_add_distrib]
  exact HasDerivAt.fun_sum fun l _ => (hX i l).mul (hY l j)

theorem EntDeriv.transpose {m n : ℕ} {X : ℝ → Matrix (Fin m) (Fin n) ℝ} {X' : Matrix (Fin m) (Fin n) ℝ} (hX : EntDeriv X X') :
    EntDeriv (fun τ => (X τ)ᵀ) X'ᵀ := fun i j => hX j i

theorem EntDeriv.line {m n : ℕ} (A H : Matrix (Fin m) (Fin n) ℝ) : EntDeriv (fun τ => A + τ • H) H := by
  intro i j
  have := ((hasDerivAt_id (0 : ℝ)).mul_const (H i j)).const_add (A i j)
  simpa using this

theorem EntDeriv.unique {m n : ℕ} {X Y : ℝ → Matrix (Fin m) (Fin n) ℝ} {X' Y' : Matrix (Fin m) (Fin n) ℝ} (hX : EntDeriv X X')
    (hY : EntDeriv Y Y') (h : ∀ᶠ τ in 𝓝 0, X τ = Y τ) : X' = Y' := by
  ext i j
  refine (hX i j).unique ((hY i j).congr_of_eventuallyEq ?_)
  filter_upwards [h] with τ hτ
  rw [hτ]

/-! ## The objects are exact -/

section
variable {g : Graph ClassDef Par} {S : Id → Prop} {y a b : Id} {u v : Arr} {m n k : ℕ}

theorem made_T (hy : IsA g y chTranspose [nmA] fun _ => a) (hp : (g y).terms nmP = none ∨ (g y).terms nmP = some .none)
    (hS : S a) (lt : (a : ℕ) < y) (hv : Means lib g (.r a) (.ok v)) : MadeOf g S y := by
  obtain ⟨L, h1, h2, h3, h4⟩ := transposeL_ok (sh := v.shape) (List.reverse_perm _)
  have hL : ∀ u : Arr, u.shape = v.shape → transposeρ ((g y).terms nmP) ((g y).terms nmQ) u = some L := by
    intro u hu
    rcases hp with hp | hp <;> (simp only [transposeρ, hp, hu]; exact h1)
  refine .one hy hS lt hv (exact_reorder hL h2) fun _ => ?_
  refine ⟨.sparse (L.apply v).atleast1.size v.size (coo L.shape.prod id (fun k => (L.src k).getD 0) fun _ => 1), 0, ?_⟩
  simp [lib, chTranspose, chReorder, runBody, env1, hL (arange v.shape) rfl]

theorem made_dot (hy : IsA g y chDot [nmA, nmB] ![a, b]) (hSa : S a) (hSb : S b) (ne : a ≠ b) (lt : (a : ℕ) < y) (lt' : (b : ℕ) < y)
    (hu : Means lib g (.r a) (.ok u)) (hv : Means lib g (.r b) (.ok v)) (hn : 0 < n)
    (hsu : u.shape = [m, n]) (hsv : v.shape = [n, k]) : MadeOf g S y := by
  have hN' : n ≠ 0 := by omega
  obtain ⟨d1, e1⟩ : ∃ d, dotD1 u v = some d := by simp [dotD1, dotRows, dotCols, hsu, hsv, hN']
  obtain ⟨d2, e2⟩ : ∃ d, dotD2 u v = some d := by simp [dotD2, dotRows, dotCols, hsu, hsv, hN']
  obtain ⟨P, Q, hE⟩ := exact_dot (s := [m]) (n := n) (C := k) (tm := (g y).terms) (u := u) (v := v) (osh := [m, k]) hsu hn (Or.inr ⟨hsv, rfl⟩)
  exact .two hy hSa hSb ne lt lt' hu hv hE (fun _ => ⟨d1, 0, by simp [lib, chDot, runBody, env2, e1, retOr, nmA, nmB]⟩)
    fun _ => ⟨d2, 0, by simp [lib, chDot, runBody, env2, e2, retOr, nmA, nmB]⟩

theorem made_inv (hy : IsA g y chInv [nmA] fun _ => a) (hS : S a) (lt : (a : ℕ) < y) (hv : Means lib g (.r a) (.ok v)) (hsh : v.shape = [n, n])
    (hd : (asMatrix n n v).det ≠ 0) : MadeOf g S y := by
  rw [asMatrix_sq hsh] at hd
  refine .one hy hS lt hv (exact_inv hsh hd) fun _ => ?_
  refine ⟨?_, 0, ?_⟩
  rotate_left
  · simp only [lib, chInv, List.mem_singleton, if_true, runBody]
    exact rfl
end

theorem asMatrix_inj {m n : ℕ} {u v : Arr} (hu : u.shape = [m, n]) (hv : v.shape = [m, n]) (h : asMatrix m n u = asMatrix m n v) : u = v := by
  refine Arr.ext_vec (hu.trans hv.symm) fun k hk => ?_
  have hk' : k < m * n := by rw [Arr.size, hu] at hk; simpa using hk
  have hn : 0 < n := Nat.pos_of_ne_zero fun e => by rw [e, Nat.mul_zero] at hk'; omega
  have h1 := congrFun (congrFun h ⟨k / n, Nat.div_lt_of_lt_mul (by rw [Nat.mul_comm]; exact hk')⟩) ⟨k % n, Nat.mod_lt _ hn⟩
  have h2 : u.at [k / n, k % n] = v.at [k / n, k % n] := h1
  rw [at_two hu, at_two hv, Nat.mul_comm, Nat.div_add_mod] at h2
  exact h2

/-! ## The value, by a formula -/

section
variable {g : Graph ClassDef Par} {a t s i p : Id} {v : Arr} {m n : ℕ}

theorem means_pinv_tall (hg : PinvGraph g m n a t s i p) (hmn : ¬ n > m) (hv : Means lib g (.r a) (.ok v)) (hsh : v.shape = [m, n])
    (hd : ((asMatrix m n v)ᵀ * asMatrix m n v).det ≠ 0) :
    ∃ vt vs vi vp, Means lib g (.r t) (.ok vt) ∧ vt.shape = [n, m] ∧ Means lib g (.r s) (.ok vs) ∧ vs.shape = [n, n] ∧ (asMatrix n n vs).det ≠ 0 ∧
      Means lib g (.r i) (.ok vi) ∧ vi.shape = [n, n] ∧ Means lib g (.r p) (.ok vp) ∧ vp.shape = [n, m] ∧
      asMatrix n m vp = ((asMatrix m n v)ᵀ * asMatrix m n v)⁻¹ * (asMatrix m n v)ᵀ := by
  obtain ⟨vt, t1, t2, t3⟩ := means_T hg.transpose hg.axes hv hsh
  have hsq := hg.square
  have hpr := hg.product
  rw [if_neg hmn] at hsq hpr
  obtain ⟨vs, s1, s2, s3⟩ := means_dot hsq t1 hv t2 hsh
  rw [t3] at s3
  obtain ⟨vi, i1, i2, i3⟩ := means_inv hg.inverse s1 s2 (by rw [s3]; exact hd)
  obtain ⟨vp, p1, p2, p3⟩ := means_dot hpr i1 t1 i2 t2
  exact ⟨vt, vs, vi, vp, t1, t2, s1, s2, by rw [s3]; exact hd, i1, i2, p1, p2, by rw [p3, t3, i3, s3]⟩

theorem means_pinv_wide (hg : PinvGraph g m n a t s i p) (hmn : n > m) (hv : Means lib g (.r a) (.ok v)) (hsh : v.shape = [m, n])
    (hd : (asMatrix m n v * (asMatrix m n v)ᵀ).det ≠ 0) :
    ∃ vt vs vi vp, Means lib g (.r t) (.ok vt) ∧ vt.shape = [n, m] ∧ Means lib g (.r s) (.ok vs) ∧ vs.shape = [m, m] ∧ (asMatrix m m vs).det ≠ 0 ∧
      Means lib g (.r i) (.ok vi) ∧ vi.shape = [m, m] ∧ Means lib g (.r p) (.ok vp) ∧ vp.shape = [n, m] ∧
      asMatrix n m vp = (asMatrix m n v)ᵀ * (asMatrix m n v * (asMatrix m n v)ᵀ)⁻¹ := by
  obtain ⟨vt, t1, t2, t3⟩ := means_T hg.transpose hg.axes hv hsh
  have hsq := hg.square
  have hpr := hg.product
  rw [if_pos hmn] at hsq hpr
  obtain ⟨vs, s1, s2, s3⟩ := means_dot hsq hv t1 hsh t2
  rw [t3] at s3
  obtain ⟨vi, i1, i2, i3⟩ := means_inv hg.inverse s1 s2 (by rw [s3]; exact hd)
  obtain ⟨vp, p1, p2, p3⟩ := means_dot hpr t1 i1 t2 i2
  exact ⟨vt, vs, vi, vp, t1, t2, s1, s2, by rw [s3]; exact hd, i1, i2, p1, p2, by rw [p3, t3, i3, s3]⟩

theorem PinvGraph.setTo (hg : PinvGraph g m n a t s i p) {x : Arr} (ht : t ≠ a) (hs : s ≠ a) (hi : i ≠ a) (hp : p ≠ a) :
    PinvGraph (setTo g a x) m n a t s i p := by
  have e : ∀ {j : Id}, j ≠ a → Chumpy.setTo g a x j = g j := fun hj => if_neg hj
  have mv : ∀ {j : Id} {c : ClassDef} {ns : List Name} {kids : Fin ns.length → Id}, j ≠ a → IsA g j c ns kids → IsA (Chumpy.setTo g a x) j c ns kids :=
    fun hj h => ⟨by rw [e hj]; exact h.cls, by rw [e hj]; exact h.dnames, h.nodup, by rw [e hj]; exact h.kid⟩
  exact ⟨mv ht hg.transpose, by rw [e ht]; exact hg.axes, mv hs hg.square, mv hi hg.inverse, mv hp hg.product⟩
end

theorem det_ne_of_full {m n : ℕ} {A : Matrix (Fin m) (Fin n) ℝ} (hA : A.rank = min m n) :
    (n > m → (A * Aᵀ).det ≠ 0) ∧ (¬ n > m → (Aᵀ * A).det ≠ 0) := by
  refine ⟨fun h => det_ne_of_rank ?_, fun h => det_ne_of_rank ?_⟩
  · rw [Matrix.rank_self_mul_transpose, hA, min_eq_left (by omega)]
  · rw [Matrix.rank_transpose_mul_self, hA, min_eq_right (by omega)]

/-- The derivative in direction `H` of the pseudo-inverse at matrices of full rank (Golub and Pereyra). -/
def PinvDeriv {m n : ℕ} (A : Matrix (Fin m) (Fin n) ℝ) (P : Matrix (Fin n) (Fin m) ℝ) (H : Matrix (Fin m) (Fin n) ℝ) : Matrix (Fin n) (Fin m) ℝ :=
  -(P * H * P) + P * Pᵀ * Hᵀ * (1 - A * P) + (1 - P * A) * Hᵀ * (Pᵀ * P)

theorem pinvDeriv_tall {m n : ℕ} {A H : Matrix (Fin m) (Fin n) ℝ} {φ : ℝ → Matrix (Fin n) (Fin m) ℝ} {D : Matrix (Fin n) (Fin m) ℝ}
    (hd : (Aᵀ * A).det ≠ 0) (h0 : φ 0 = (Aᵀ * A)⁻¹ * Aᵀ) (hφ : EntDeriv φ D)
    (hev : ∀ᶠ τ in 𝓝 0, ((A + τ • H)ᵀ * (A + τ • H)) * φ τ = (A + τ • H)ᵀ) : D = PinvDeriv A (φ 0) H := by
  have hu : IsUnit (Aᵀ * A).det := isUnit_iff_ne_zero.2 hd
  have hl := EntDeriv.line A H
  have h1 := ((hl.transpose.mul hl).mul hφ).unique hl.transpose hev
  simp only [zero_smul, add_zero] at h1
  have hmp := moorePenrose_tall A hd
  rw [← h0] at hmp
  have hPA : φ 0 * A = 1 := by rw [h0, Matrix.mul_assoc, Matrix.nonsing_inv_mul _ hu]
  have hN : (Aᵀ * A)⁻¹ = φ 0 * (φ 0)ᵀ := by
    have hT : ((Aᵀ * A)⁻¹)ᵀ = (Aᵀ * A)⁻¹ := by
      rw [Matrix.transpose_nonsing_inv, Matrix.transpose_mul, Matrix.transpose_transpose]
    rw [h0, Matrix.transpose_mul, Matrix.transpose_transpose, hT, ← Matrix.mul_assoc, Matrix.mul_assoc _ Aᵀ A, Matrix.nonsing_inv_mul _ hu,
      Matrix.one_mul]
  have h2 : D = (Aᵀ * A)⁻¹ * (Hᵀ - (Hᵀ * A + Aᵀ * H) * φ 0) := by
    rw [← eq_sub_of_add_eq' h1, ← Matrix.mul_assoc, Matrix.nonsing_inv_mul _ hu, Matrix.one_mul]
  have h3 : (Aᵀ * A)⁻¹ * (Aᵀ * H * φ 0) = φ 0 * H * φ 0 := by
    rw [← Matrix.mul_assoc, ← Matrix.mul_assoc]
    rw [← h0]
  rw [h2, Matrix.mul_sub, Matrix.add_mul, Matrix.mul_add, h3, PinvDeriv, hPA, sub_self, Matrix.zero_mul, Matrix.zero_mul, add_zero, ← hN,
    Matrix.mul_sub, Matrix.mul_one, Matrix.mul_assoc Hᵀ A, Matrix.mul_assoc _ Hᵀ (A * _)]
  abel

theorem pinvDeriv_wide {m n : ℕ} {A H : Matrix (Fin m) (Fin n) ℝ} {φ : ℝ → Matrix (Fin n) (Fin m) ℝ} {D : Matrix (Fin n) (Fin m) ℝ}
    (hd : (A * Aᵀ).det ≠ 0) (h0 : φ 0 = Aᵀ * (A * Aᵀ)⁻¹) (hφ : EntDeriv φ D)
    (hev : ∀ᶠ τ in 𝓝 0, φ τ * ((A + τ • H) * (A + τ • H)ᵀ) = (A + τ • H)ᵀ) : D = PinvDeriv A (φ 0) H := by
  have hu : IsUnit (A * Aᵀ).det := isUnit_iff_ne_zero.2 hd
  have hl := EntDeriv.line A H
  have h1 := (hφ.mul (hl.mul hl.transpose)).unique hl.transpose hev
  simp only [zero_smul, add_zero] at h1
  have hAP : A * φ 0 = 1 := by rw [h0, ← Matrix.mul_assoc, Matrix.mul_nonsing_inv _ hu]
  have hN : (A * Aᵀ)⁻¹ = (φ 0)ᵀ * φ 0 := by
    have hT : ((A * Aᵀ)⁻¹)ᵀ = (A * Aᵀ)⁻¹ := by
      rw [Matrix.transpose_nonsing_inv, Matrix.transpose_mul, Matrix.transpose_transpose]
    rw [h0, Matrix.transpose_mul, Matrix.transpose_transpose, hT, ← Matrix.mul_assoc, Matrix.mul_assoc _ A Aᵀ, Matrix.nonsing_inv_mul _ hu,
      Matrix.one_mul]
  have h2 : D = (Hᵀ - φ 0 * (H * Aᵀ + A * Hᵀ)) * (A * Aᵀ)⁻¹ := by
    rw [← eq_sub_of_add_eq h1, Matrix.mul_assoc, Matrix.mul_nonsing_inv _ hu, Matrix.mul_one]
  have h3 : φ 0 * (H * Aᵀ) * (A * Aᵀ)⁻¹ = φ 0 * H * φ 0 := by
    rw [Matrix.mul_assoc, Matrix.mul_assoc H, ← h0, Matrix.mul_assoc]
  rw [h2, Matrix.sub_mul, Matrix.mul_add, Matrix.add_mul, h3, PinvDeriv, hAP, sub_self, Matrix.mul_zero, add_zero, ← hN,
    Matrix.sub_mul, Matrix.one_mul, Matrix.sub_mul, ← Matrix.mul_assoc (φ 0) A]
  abel

section
variable {h : Heap ClassDef Par Arr Jac} {a t s i p : Id} {v : Arr} {m n : ℕ}

/-- The objects of `Pinv` are made of each other. -/
theorem pinv_made (hg : PinvGraph h.graph m n a t s i p) (hord : (a : ℕ) < t ∧ (t : ℕ) < s ∧ (s : ℕ) < i ∧ (i : ℕ) < p) (hl : IsLeaf h.graph a)
    (hv : Means lib h.graph (.r a) (.ok v)) (hsh : v.shape = [m, n]) (hm : 0 < m) (hn : 0 < n) (hrank : (asMatrix m n v).rank = min m n) :
    ∀ j, (j = a ∨ j = t ∨ j = s ∨ j = i ∨ j = p) → MadeOf h.graph (fun j => j = a ∨ j = t ∨ j = s ∨ j = i ∨ j = p) j := by
  obtain ⟨o1, o2, o3, o4⟩ := hord
  have hat : a ≠ t := Nat.ne_of_lt o1
  have hti : t ≠ i := Nat.ne_of_lt (Nat.lt_trans o2 o3)
  have o5 : (a : ℕ) < s := Nat.lt_trans o1 o2
  have o6 : (t : ℕ) < p := Nat.lt_trans o2 (Nat.lt_trans o3 o4)
  have hsq := hg.square
  have hpr := hg.product
  by_cases hmn : n > m
  · rw [if_pos hmn] at hsq hpr
    obtain ⟨vt, vs, vi, vp, t1, t2, s1, s2, s3, i1, i2, p1, p2, _⟩ := means_pinv_wide hg hmn hv hsh ((det_ne_of_full hrank).1 hmn)
    rintro j (rfl | rfl | rfl | rfl | rfl)
    · exact .leaf hl hv
    · exact made_T hg.transpose hg.axes (Or.inl rfl) o1 hv
    · exact made_dot hsq (Or.inl rfl) (Or.inr (Or.inl rfl)) hat o5 o2 hv t1 hn hsh t2
    · exact made_inv hg.inverse (Or.inr (Or.inr (Or.inl rfl))) o3 s1 s2 s3
    · exact made_dot hpr (Or.inr (Or.inl rfl)) (Or.inr (Or.inr (Or.inr (Or.inl rfl)))) hti o6 o4 t1 i1 hm t2 i2
  · rw [if_neg hmn] at hsq hpr
    obtain ⟨vt, vs, vi, vp, t1, t2, s1, s2, s3, i1, i2, p1, p2, _⟩ := means_pinv_tall hg hmn hv hsh ((det_ne_of_full hrank).2 hmn)
    rintro j (rfl | rfl | rfl | rfl | rfl)
    · exact .leaf hl hv
    · exact made_T hg.transpose hg.axes (Or.inl rfl) o1 hv
    · exact made_dot hsq (Or.inr (Or.inl rfl)) (Or.inl rfl) hat.symm o2 o5 t1 hv hm t2 hsh
    · exact made_inv hg.inverse (Or.inr (Or.inr (Or.inl rfl))) o3 s1 s2 s3
    · exact made_dot hpr (Or.inr (Or.inr (Or.inr (Or.inl rfl)))) (Or.inr (Or.inl rfl)) hti.symm o4 o6 i1 t1 hn i2 t2

/-- C68: at every matrix of full rank, `Pinv(a).dr_wrt(a)` returns the derivative of the pseudo-inverse: entry (i, j) of the pseudo-inverse
`P` of `A` has, with respect to entry (r, c) of `A`, the derivative given by the formula of Golub and Pereyra.  Matrices of one row and one
column are left out, see C18. -/
theorem C68_pinv_derivative (hr : Reach lib ⟨False, True⟩ h) (hg : PinvGraph h.graph m n a t s i p)
    (hord : (a : ℕ) < t ∧ (t : ℕ) < s ∧ (s : ℕ) < i ∧ (i : ℕ) < p) (hl : IsLeaf h.graph a) (hv : Means lib h.graph (.r a) (.ok v))
    (hsh : v.shape = [m, n]) (hm : 0 < m) (hn : 0 < n) (h1 : m * n ≠ 1) (hrank : (asMatrix m n v).rank = min m n) :
    ∃ out E, ReadsTo h p out ∧ out.shape = [n, m] ∧ MoorePenrose (asMatrix m n v) (asMatrix n m out) ∧ Reports h p a (n * m) (m * n) E ∧
      ∀ (k : Fin n) (l : Fin m) (r : Fin m) (c : Fin n), E (k * m + l) (r * n + c) =
        -(asMatrix n m out k r * asMatrix n m out c l) +
        (asMatrix n m out * (asMatrix n m out)ᵀ) k c * (1 - asMatrix m n v * asMatrix n m out : Matrix (Fin m) (Fin m) ℝ) r l +
        (1 - asMatrix n m out * asMatrix m n v : Matrix (Fin n) (Fin n) ℝ) k c * ((asMatrix n m out)ᵀ * asMatrix n m out) r l := by
  obtain ⟨out, o1, o2, o3⟩ := means_pinv hg hv hsh hrank
  have hvs : v.size = m * n := by rw [Arr.size, hsh]; simp
  have hos : out.size = n * m := by rw [Arr.size, o2]; simp
  obtain ⟨q1, q2, q3, q4⟩ := hord
  have hta : t ≠ a := Nat.ne_of_gt q1
  have hsa : s ≠ a := Nat.ne_of_gt (Nat.lt_trans q1 q2)
  have hia : i ≠ a := Nat.ne_of_gt (Nat.lt_trans (Nat.lt_trans q1 q2) q3)
  have hpa : p ≠ a := Nat.ne_of_gt (Nat.lt_trans (Nat.lt_trans (Nat.lt_trans q1 q2) q3) q4)
  obtain ⟨vy, M, hJ, hR⟩ := straight_reports hr (pinv_made hg ⟨q1, q2, q3, q4⟩ hl hv hsh hm hn hrank) (y := p) (by simp) hl hv
    (by rw [hvs]; exact h1) hpa
  have hvy : vy = out := by
    have := hJ.valY.unique o1
    injection this
  subst hvy
  rw [hos, hvs] at hR
  refine ⟨vy, M, read_of_means hr o1, o2, o3, hR, fun k l r c => ?_⟩
  obtain ⟨F, hF1, hF2⟩ := hJ.deriv
  -- the line through the matrix in the direction of entry (r, c)
  have hrc : (r : ℕ) * n + c < v.size := by
    rw [hvs]
    calc (r : ℕ) * n + c < r * n + n := by have := c.2; omega
      _ = (r + 1) * n := by ring
      _ ≤ m * n := Nat.mul_le_mul_right _ r.2
  have hpos : ∀ (k : Fin n) (l : Fin m), (k : ℕ) * m + l < vy.size := by
    intro k l
    rw [hos]
    calc (k : ℕ) * m + l < k * m + m := by have := l.2; omega
      _ = (k + 1) * m := by ring
      _ ≤ n * m := Nat.mul_le_mul_right _ k.2
  let z : Fin v.size → ℝ := Pi.single ⟨r * n + c, hrc⟩ 1
  let φ : ℝ → Matrix (Fin n) (Fin m) ℝ := fun τ => Matrix.of fun k l => F (v.data + τ • z) ⟨k * m + l, hpos k l⟩
  let D : Matrix (Fin n) (Fin m) ℝ := Matrix.of fun k l => M (k * m + l) (r * n + c)
  have hφD : EntDeriv φ D := by
    intro k l
    have hline : HasDerivAt (fun τ : ℝ => v.data + τ • z) z 0 := by
      have := ((hasDerivAt_id (0 : ℝ)).smul_const z).const_add v.data
      simpa using this
    have e0 : v.data + (0 : ℝ) • z = v.data := by simp
    have hc := (show HasFDerivAt F (Ent.lin vy.size v.size M) (v.data + (0 : ℝ) • z) by rw [e0]; exact hF2).comp_hasDerivAt (0 : ℝ) hline
    have hk := (hasDerivAt_pi.1 hc) ⟨k * m + l, hpos k l⟩
    have e1 : Ent.lin vy.size v.size M z ⟨k * m + l, hpos k l⟩ = M (k * m + l) (r * n + c) := by
      rw [Ent.lin_apply, Finset.sum_eq_single ⟨r * n + c, hrc⟩]
      · simp [z]
      · intro b _ hb
        simp [z, hb]
      · simp
    rw [e1] at hk
    exact hk
  have hA : ∀ τ : ℝ, asMatrix m n (v.put (v.data + τ • z)) = asMatrix m n v + τ • Matrix.single r c 1 := by
    intro τ
    ext r' c'
    have hlt : (r' : ℕ) * n + c' < v.size := by
      rw [hvs]
      calc (r' : ℕ) * n + c' < r' * n + n := by have := c'.2; omega
        _ = (r' + 1) * n := by ring
        _ ≤ m * n := Nat.mul_le_mul_right _ r'.2
    have e1 : asMatrix m n (v.put (v.data + τ • z)) r' c' = (v.data + τ • z) ⟨r' * n + c', hlt⟩ := by
      show (v.put (v.data + τ • z)).at [(r' : ℕ), (c' : ℕ)] = _
      rw [at_two (m := m) (n := n) (show (v.put (v.data + τ • z)).shape = [m, n] from hsh)]
      exact Arr.vec_put v _ ⟨r' * n + c', hlt⟩
    have e2 : asMatrix m n v r' c' = v.data ⟨r' * n + c', hlt⟩ := by
      show v.at [(r' : ℕ), (c' : ℕ)] = _
      rw [at_two hsh]
      unfold Arr.vec
      rw [dif_pos hlt]
    rw [e1, Matrix.add_apply, e2, Pi.add_apply, Pi.smul_apply, Matrix.smul_apply]
    congr 2
    show Pi.single (M := fun _ => ℝ) (⟨r * n + c, hrc⟩ : Fin v.size) (1 : ℝ) ⟨r' * n + c', hlt⟩ = _
    rw [Pi.single_apply, Matrix.single_apply]
    refine if_congr ?_ rfl rfl
    rw [Fin.mk.injEq]
    constructor
    · intro e
      have e3 : (r' : ℕ) = r := by
        have h1 : ((r' : ℕ) * n + c') / n = r' := by rw [Nat.mul_comm, Nat.mul_add_div hn, Nat.div_eq_of_lt c'.2, Nat.add_zero]
        have h2 : ((r : ℕ) * n + c) / n = r := by rw [Nat.mul_comm, Nat.mul_add_div hn, Nat.div_eq_of_lt c.2, Nat.add_zero]
        rw [← h1, e, h2]
      rw [e3] at e
      exact ⟨Fin.ext e3.symm, Fin.ext (Nat.add_left_cancel e).symm⟩
    · rintro ⟨rfl, rfl⟩; rfl
  have hcont : Continuous fun τ : ℝ => asMatrix m n v + τ • Matrix.single r c (1 : ℝ) :=
    continuous_const.add (continuous_id.smul continuous_const)
  have htend : Filter.Tendsto (fun τ : ℝ => v.data + τ • z) (𝓝 0) (𝓝 v.data) := by
    have : Continuous fun τ : ℝ => v.data + τ • z := continuous_const.add (continuous_id.smul continuous_const)
    have h := this.tendsto 0
    simpa using h
  have hmeans := htend.eventually hF1
  have hφ0 : φ 0 = asMatrix n m vy := by
    have h2 := hmeans.self_of_nhds
    have h3 : Means lib (setTo h.graph a v) (.r p) (.ok (vy.put (F v.data))) := by
      have e0 : v.data + (0 : ℝ) • z = v.data := by simp
      rw [e0] at h2
      exact h2
    have h4 : Means lib (setTo h.graph a v) (.r p) (.ok vy) := by
      have hg' := hg.setTo (x := v) hta hsa hia hpa
      by_cases hmn : n > m
      · obtain ⟨_, _, _, w, _, _, _, _, _, _, _, w1, w2, w3⟩ := means_pinv_wide hg' hmn (means_setTo _ _ _) hsh ((det_ne_of_full hrank).1 hmn)
        obtain ⟨_, _, _, w', _, _, _, _, _, _, _, w1', w2', w3'⟩ := means_pinv_wide hg hmn hv hsh ((det_ne_of_full hrank).1 hmn)
        have e1 := w1'.unique o1
        injection e1 with e1
        have e2 : w = w' := asMatrix_inj w2 w2' (by rw [w3, w3'])
        rw [← e1, ← e2]; exact w1
      · obtain ⟨_, _, _, w, _, _, _, _, _, _, _, w1, w2, w3⟩ := means_pinv_tall hg' hmn (means_setTo _ _ _) hsh ((det_ne_of_full hrank).2 hmn)
        obtain ⟨_, _, _, w', _, _, _, _, _, _, _, w1', w2', w3'⟩ := means_pinv_tall hg hmn hv hsh ((det_ne_of_full hrank).2 hmn)
        have e1 := w1'.unique o1
        injection e1 with e1
        have e2 : w = w' := asMatrix_inj w2 w2' (by rw [w3, w3'])
        rw [← e1, ← e2]; exact w1
    have h5 := h3.unique h4
    injection h5 with h5
    ext k l
    show F (v.data + (0 : ℝ) • z) ⟨k * m + l, hpos k l⟩ = vy.at [(k : ℕ), (l : ℕ)]
    have e0 : v.data + (0 : ℝ) • z = v.data := by simp
    rw [e0, at_two o2]
    exact (Arr.vec_put vy (F v.data) ⟨k * m + l, hpos k l⟩).symm.trans (congrArg (fun w => Arr.vec w (k * m + l)) h5)
  have hφm : ∀ τ, φ τ = asMatrix n m (vy.put (F (v.data + τ • z))) := by
    intro τ
    ext k l
    show _ = (vy.put (F (v.data + τ • z))).at [(k : ℕ), (l : ℕ)]
    rw [at_two (m := n) (n := m) (show (vy.put (F (v.data + τ • z))).shape = [n, m] from o2)]
    exact (Arr.vec_put vy _ ⟨k * m + l, hpos k l⟩).symm
  have hfin : D = PinvDeriv (asMatrix m n v) (φ 0) (Matrix.single r c 1) := by
    by_cases hmn : n > m
    · have hd := (det_ne_of_full hrank).1 hmn
      obtain ⟨_, _, _, w, _, _, _, _, _, _, _, w1, w2, w3⟩ := means_pinv_wide hg hmn hv hsh hd
      have e1 := w1.unique o1
      injection e1 with e1
      subst e1
      refine pinvDeriv_wide hd (by rw [hφ0]; exact w3) hφD ?_
      have hdc : ∀ᶠ τ in 𝓝 (0 : ℝ), ((asMatrix m n v + τ • Matrix.single r c 1) * (asMatrix m n v + τ • Matrix.single r c 1)ᵀ).det ≠ 0 := by
        have hc : Continuous fun τ : ℝ => ((asMatrix m n v + τ • Matrix.single r c (1 : ℝ)) * (asMatrix m n v + τ • Matrix.single r c 1)ᵀ).det :=
          (hcont.matrix_mul hcont.matrix_transpose).matrix_det
        exact (hc.continuousAt (x := 0)).eventually_ne (by simpa using hd)
      filter_upwards [hmeans, hdc] with τ h2 h3
      obtain ⟨_, _, _, x, _, _, _, _, _, _, _, x1, x2, x3⟩ := means_pinv_wide (hg.setTo (x := v.put (v.data + τ • z)) hta hsa hia hpa) hmn
        (means_setTo _ _ _) (show (v.put _).shape = [m, n] from hsh) (by rw [hA]; exact h3)
      have e2 := x1.unique h2
      injection e2 with e2
      rw [hφm, ← e2, x3, hA, Matrix.mul_assoc, Matrix.nonsing_inv_mul _ (isUnit_iff_ne_zero.2 h3), Matrix.mul_one]
    · have hd := (det_ne_of_full hrank).2 hmn
      obtain ⟨_, _, _, w, _, _, _, _, _, _, _, w1, w2, w3⟩ := means_pinv_tall hg hmn hv hsh hd
      have e1 := w1.unique o1
      injection e1 with e1
      subst e1
      refine pinvDeriv_tall hd (by rw [hφ0]; exact w3) hφD ?_
      have hdc : ∀ᶠ τ in 𝓝 (0 : ℝ), ((asMatrix m n v + τ • Matrix.single r c 1)ᵀ * (asMatrix m n v + τ • Matrix.single r c 1)).det ≠ 0 := by
        have hc : Continuous fun τ : ℝ => ((asMatrix m n v + τ • Matrix.single r c (1 : ℝ))ᵀ * (asMatrix m n v + τ • Matrix.single r c 1)).det :=
          (hcont.matrix_transpose.matrix_mul hcont).matrix_det
        exact (hc.continuousAt (x := 0)).eventually_ne (by simpa using hd)
      filter_upwards [hmeans, hdc] with τ h2 h3
      obtain ⟨_, _, _, x, _, _, _, _, _, _, _, x1, x2, x3⟩ := means_pinv_tall (hg.setTo (x := v.put (v.data + τ • z)) hta hsa hia hpa) hmn
        (means_setTo _ _ _) (show (v.put _).shape = [m, n] from hsh) (by rw [hA]; exact h3)
      have e2 := x1.unique h2
      injection e2 with e2
      rw [hφm, ← e2, x3, hA, ← Matrix.mul_assoc, Matrix.mul_nonsing_inv _ (isUnit_iff_ne_zero.2 h3), Matrix.one_mul]
  have := congrFun (congrFun hfin k) l
  rw [hφ0] at this
  refine (show M (k * m + l) (r * n + c) = D k l from rfl).trans (this.trans ?_)
  unfold PinvDeriv
  rw [Matrix.transpose_single]
  simp only [Matrix.add_apply, Matrix.neg_apply]
  have sand : ∀ {α β γ δ : ℕ} (X : Matrix (Fin α) (Fin β) ℝ) (Y : Matrix (Fin γ) (Fin δ) ℝ) (b' : Fin β) (g' : Fin γ) (x : Fin α) (w : Fin δ),
      (X * Matrix.single b' g' (1 : ℝ) * Y) x w = X x b' * Y g' w := by
    intro α β γ δ X Y b' g' x w
    rw [Matrix.mul_assoc, Matrix.mul_apply, Finset.sum_eq_single b']
    · rw [Matrix.single_mul_apply_same, one_mul]
    · intro j _ hj
      rw [Matrix.single_mul_apply_of_ne _ _ _ _ _ hj, mul_zero]
    · simp
  rw [sand, sand, sand]

/-- C68, least squares: `dr_wrt` of `x = pinv(a).dot(b)` (linalg.py:51) with respect to `a`, to `b` or to any other plain array returns the
Jacobian of the least-squares solution.  (`HasJacobian` says that `M` is the Jacobian at the current point of the map from the entries of `w` to
the value of `x`.) -/
theorem C68_lstsq_derivative {x b w : Id} {vb vw : Arr} (hr : Reach lib ⟨False, True⟩ h) (hg : PinvGraph h.graph m n a t s i p)
    (hord : (a : ℕ) < t ∧ (t : ℕ) < s ∧ (s : ℕ) < i ∧ (i : ℕ) < p ∧ (p : ℕ) < x ∧ (b : ℕ) < x) (hx : IsA h.graph x chDot [nmA, nmB] ![p, b])
    (hl : IsLeaf h.graph a) (hlb : IsLeaf h.graph b) (hv : Means lib h.graph (.r a) (.ok v)) (hsh : v.shape = [m, n])
    (hm : 0 < m) (hn : 0 < n) (hrank : (asMatrix m n v).rank = min m n) (hb : Means lib h.graph (.r b) (.ok vb)) (hbs : vb.shape = [m] ∨ ∃ k, vb.shape = [m, k])
    (hlw : IsLeaf h.graph w) (hw : Means lib h.graph (.r w) (.ok vw)) (h1 : vw.size ≠ 1) :
    ∃ out M, ReadsTo h x out ∧ HasJacobian h.graph x w out vw M ∧ Reports h x w out.size vw.size M := by
  obtain ⟨q1, q2, q3, q4, q5, q6⟩ := hord
  have hmade := pinv_made hg ⟨q1, q2, q3, q4⟩ hl hv hsh hm hn hrank
  obtain ⟨P, p1, p2, _⟩ := means_pinv hg hv hsh hrank
  have hne : p ≠ b := fun e => by
    have h2 := hg.product.cls
    rw [e, hlb.1] at h2
    exact absurd (congrArg ClassDef.isBase h2) (by simp [chLeaf, chDot])
  have hxw : x ≠ w := fun e => by
    have h2 := hx.cls
    rw [e, hlw.1] at h2
    exact absurd (congrArg ClassDef.isBase h2) (by simp [chLeaf, chDot])
  have hxm : MadeOf h.graph (fun j => j = b ∨ j = x ∨ j = a ∨ j = t ∨ j = s ∨ j = i ∨ j = p) x := by
    rcases hbs with hbs | ⟨k, hbs⟩
    · obtain ⟨d1, e1⟩ : ∃ d, dotD1 P vb = some d := by simp [dotD1, dotRows, dotCols, p2, hbs, Nat.ne_of_gt hm]
      obtain ⟨d2, e2⟩ : ∃ d, dotD2 P vb = some d := by simp [dotD2, dotRows, dotCols, p2, hbs, Nat.ne_of_gt hm]
      obtain ⟨_, _, hE⟩ := exact_dot (s := [n]) (n := m) (C := 1) (tm := (h.graph x).terms) (u := P) (v := vb) (osh := [n]) p2 hm
        (Or.inl ⟨hbs, rfl, rfl⟩)
      exact .two hx (by simp) (by simp) hne q5 q6 p1 hb hE (fun _ => ⟨d1, 0, by simp [lib, chDot, runBody, env2, e1, retOr, nmA, nmB]⟩)
        fun _ => ⟨d2, 0, by simp [lib, chDot, runBody, env2, e2, retOr, nmA, nmB]⟩
    · exact made_dot hx (by simp) (by simp) hne q5 q6 p1 hb hm p2 hbs
  obtain ⟨out, M, hJ, hR⟩ := straight_reports hr (S := fun j => j = b ∨ j = x ∨ j = a ∨ j = t ∨ j = s ∨ j = i ∨ j = p) (y := x) (w := w) (by
    rintro j (rfl | rfl | hj)
    · exact .leaf hlb hb
    · exact hxm
    · exact (hmade j hj).mono fun _ h => Or.inr (Or.inr h)) (by simp) hlw hw h1 hxw
  exact ⟨out, M, read_of_means hr hJ.valY, hJ, hR⟩
end

namespace ADDemo
/-- The objects of the least-squares problem with rows (1, 2) and (3, 4) and the vector (1, 2): the hypotheses of C68 are met, and at this
invertible matrix the reported derivative is that of the inverse. -/
theorem pinved_leaf : ∃ h, Reach lib ⟨False, True⟩ h ∧ PinvGraph h.graph 2 2 0 1 2 3 4 ∧ IsA h.graph 6 chDot [nmA, nmB] ![4, 5] ∧
    IsLeaf h.graph 0 ∧ IsLeaf h.graph 5 ∧
    Means lib h.graph (.r 0) (.ok m1234) ∧ Means lib h.graph (.r 5) (.ok (Arr.of [2] fun k => k + 1)) := by
  have hok : FitsFrom 0 pinved := ⟨leafO_fits _ _, unO_fits (by decide), binO_fits (by decide) (by decide) rfl, unO_fits (by decide),
    binO_fits (by decide) (by decide) rfl, leafO_fits _ _, binO_fits (by decide) (by decide) rfl, trivial⟩
  obtain ⟨h, hr, hg⟩ := hok.reach ⟨False, True⟩
  refine ⟨h, hr, ⟨?_, ?_, ?_, ?_, ?_⟩, ?_, ?_, ?_, ?_, ?_⟩ <;> rw [hg]
  · exact isA_un rfl
  · exact Or.inl rfl
  · exact isA_bin rfl
  · exact isA_un rfl
  · exact isA_bin rfl
  · exact isA_bin rfl
  · exact isLeaf_leafO rfl
  · exact isLeaf_leafO rfl
  · exact (leaf_means rfl (by simp [m1234, Arr.of])).1
  · exact (leaf_means rfl (by simp [Arr.of])).1

/-- C68 applied: `Pinv` of the matrix with rows (1, 2) and (3, 4). -/
example : ∃ h out E, Reach lib ⟨False, True⟩ h ∧ ReadsTo h 4 out ∧ MoorePenrose (asMatrix 2 2 m1234) (asMatrix 2 2 out) ∧ Reports h 4 0 4 4 E := by
  obtain ⟨h, hr, hg, _, hl, _, hv, _⟩ := pinved_leaf
  obtain ⟨out, E, h1, _, h2, h3, _⟩ := C68_pinv_derivative hr hg ⟨by decide, by decide, by decide, by decide⟩ hl hv rfl (by decide) (by decide) (by decide)
    (by rw [Matrix.rank_of_det_ne_zero m1234_det]; simp)
  exact ⟨h, out, E, hr, h1, h2, h3⟩

/-- C68 applied: the least-squares solution, with respect to the right-hand side. -/
example : ∃ h out M, Reach lib ⟨False, True⟩ h ∧ ReadsTo h 6 out ∧ HasJacobian h.graph 6 5 out (Arr.of [2] fun k => k + 1) M ∧ Reports h 6 5 out.size 2 M := by
  obtain ⟨h, hr, hg, hx, hl, hlb, hv, hb⟩ := pinved_leaf
  obtain ⟨out, M, h1, h2, h3⟩ := C68_lstsq_derivative hr hg ⟨by decide, by decide, by decide, by decide, by decide, by decide⟩ hx hl hlb hv rfl (by decide) (by decide)
    (by rw [Matrix.rank_of_det_ne_zero m1234_det]; simp) hb (Or.inl rfl) hlb hb (by decide)
  exact ⟨h, out, M, hr, h1, h2, h3⟩
end ADDemo
end Chumpy
