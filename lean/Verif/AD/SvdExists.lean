import Mathlib.Analysis.Matrix.Spectrum
import Mathlib.Analysis.Matrix.PosDef
import Mathlib.Analysis.InnerProductSpace.PiL2
import Mathlib.Algebra.Order.Star.Real
import Mathlib.Data.Fin.Tuple.Sort
import Verif.AD.SvdMath
/-!
# Every matrix with at least as many rows as columns has a singular value decomposition

This shows that the assumption of C59 about the routine can be met.
-/
namespace Chumpy
open scoped BigOperators Topology Matrix

variable {m n : ℕ}

theorem eigen_sorted (B : Matrix (Fin n) (Fin n) ℝ) (hB : B.PosSemidef) :
    ∃ (V : Matrix (Fin n) (Fin n) ℝ) (e : Fin n → ℝ), Vᵀ * V = 1 ∧ B * V = V * Matrix.diagonal e ∧ (∀ k, 0 ≤ e k) ∧ Antitone e := by
  have hH := hB.1
  obtain ⟨Q, hQ1, hQ2⟩ : ∃ Q : Matrix (Fin n) (Fin n) ℝ, Qᵀ * Q = 1 ∧ B * Q = Q * Matrix.diagonal hH.eigenvalues := by
    refine ⟨hH.eigenvectorUnitary, ?_, ?_⟩
    · have := Unitary.coe_star_mul_self hH.eigenvectorUnitary
      rwa [Matrix.star_eq_conjTranspose, Matrix.conjTranspose_eq_transpose_of_trivial] at this
    · have h1 := hH.spectral_theorem
      rw [Unitary.conjStarAlgAut_apply] at h1
      have h2 : B * (hH.eigenvectorUnitary : Matrix (Fin n) (Fin n) ℝ) =
          (hH.eigenvectorUnitary : Matrix (Fin n) (Fin n) ℝ) * Matrix.diagonal (RCLike.ofReal ∘ hH.eigenvalues) := by
        refine (congrArg (· * (hH.eigenvectorUnitary : Matrix (Fin n) (Fin n) ℝ)) h1).trans ?_
        rw [Matrix.mul_assoc, Unitary.coe_star_mul_self, Matrix.mul_one]
      exact h2
  have hpos : ∀ k, 0 ≤ hH.eigenvalues k := fun k => hB.eigenvalues_nonneg k
  generalize hH.eigenvalues = e at *
  let σ := Tuple.sort (fun k => -e k)
  have hσ : Monotone ((fun k => -e k) ∘ σ) := Tuple.monotone_sort _
  refine ⟨Q.submatrix id σ, e ∘ σ, ?_, ?_, fun k => hpos _, fun a b hab => ?_⟩
  · rw [Matrix.transpose_submatrix]
    have : Qᵀ.submatrix σ id * Q.submatrix id σ = (Qᵀ * Q).submatrix σ σ := (Matrix.submatrix_mul_equiv Qᵀ Q σ (Equiv.refl _) σ)
    rw [this, hQ1]
    exact Matrix.submatrix_one_equiv σ
  · ext i k
    rw [Matrix.mul_diagonal]
    have := congrFun (congrFun hQ2 i) (σ k)
    rw [Matrix.mul_diagonal] at this
    exact this
  · have := hσ hab
    simp only [Function.comp] at this
    simpa using this

theorem svd_exists (h : n ≤ m) (A : Matrix (Fin m) (Fin n) ℝ) : ∃ U d V, IsSvd A U d V := by
  have hps : (Aᵀ * A).PosSemidef := by
    have := Matrix.posSemidef_conjTranspose_mul_self A
    rwa [Matrix.conjTranspose_eq_transpose_of_trivial] at this
  obtain ⟨V, e, hV, hBV, he, hanti⟩ := eigen_sorted _ hps
  have hgram : (A * V)ᵀ * (A * V) = Matrix.diagonal e := by
    rw [Matrix.transpose_mul, Matrix.mul_assoc, ← Matrix.mul_assoc Aᵀ, hBV, ← Matrix.mul_assoc, hV, Matrix.one_mul]
  have hg : ∀ k l, ∑ i, (A * V) i k * (A * V) i l = if k = l then e k else 0 := by
    intro k l
    have := congrFun (congrFun hgram k) l
    rw [Matrix.mul_apply, Matrix.diagonal_apply] at this
    exact this
  let d : Fin n → ℝ := fun k => Real.sqrt (e k)
  have hdd : ∀ k, d k * d k = e k := fun k => Real.mul_self_sqrt (he k)
  let v : Fin m → EuclideanSpace ℝ (Fin m) := fun i => if hi : (i : ℕ) < n then WithLp.toLp 2 fun r => (A * V) r ⟨i, hi⟩ / d ⟨i, hi⟩ else 0
  let s : Set (Fin m) := {i | ∃ hi : (i : ℕ) < n, d ⟨i, hi⟩ ≠ 0}
  have hv : Orthonormal ℝ (s.domRestrict v) := by
    rw [orthonormal_iff_ite]
    rintro ⟨i, hi, hdi⟩ ⟨j, hj, hdj⟩
    show inner ℝ (v i) (v j) = _
    have hvi : ∀ (i : Fin m) (hi : (i : ℕ) < n), v i = WithLp.toLp 2 fun r => (A * V) r ⟨i, hi⟩ / d ⟨i, hi⟩ := fun i hi => dif_pos hi
    rw [hvi i hi, hvi j hj, PiLp.inner_apply]
    show ∑ r, inner ℝ ((A * V) r ⟨i, hi⟩ / d ⟨i, hi⟩) ((A * V) r ⟨j, hj⟩ / d ⟨j, hj⟩) = _
    have e1 : ∑ r, (A * V) r ⟨i, hi⟩ / d ⟨i, hi⟩ * ((A * V) r ⟨j, hj⟩ / d ⟨j, hj⟩) =
        (∑ r, (A * V) r ⟨i, hi⟩ * (A * V) r ⟨j, hj⟩) / (d ⟨i, hi⟩ * d ⟨j, hj⟩) := by
      rw [Finset.sum_div]
      refine Finset.sum_congr rfl fun r _ => ?_
      field_simp
    have e2 : ∑ r, inner ℝ ((A * V) r ⟨i, hi⟩ / d ⟨i, hi⟩) ((A * V) r ⟨j, hj⟩ / d ⟨j, hj⟩) =
        ∑ r, (A * V) r ⟨i, hi⟩ / d ⟨i, hi⟩ * ((A * V) r ⟨j, hj⟩ / d ⟨j, hj⟩) :=
      Finset.sum_congr rfl fun r _ => by simp [mul_comm]
    rw [e2, e1, hg]
    by_cases hij : i = j
    · subst hij
      rw [if_pos rfl, if_pos rfl, hdd, div_self]
      rw [← hdd]; exact mul_ne_zero hdi hdi
    · rw [if_neg (fun h' => hij (Fin.ext (by simpa using h'))), if_neg (fun h' => hij (by simpa using h')), zero_div]
  obtain ⟨b, hb⟩ := hv.exists_orthonormalBasis_extension_of_card_eq (by simp)
  let U : Matrix (Fin m) (Fin n) ℝ := Matrix.of fun r k => b (Fin.castLE h k) r
  have hUU : Uᵀ * U = 1 := by
    ext k l
    have := (orthonormal_iff_ite.1 b.orthonormal) (Fin.castLE h k) (Fin.castLE h l)
    rw [PiLp.inner_apply] at this
    rw [Matrix.mul_apply, Matrix.one_apply]
    simp only [Fin.castLE_inj] at this
    rw [← this]
    refine Finset.sum_congr rfl fun r _ => ?_
    simp [U, mul_comm]
  have hAV : A * V = U * Matrix.diagonal d := by
    ext r k
    rw [Matrix.mul_diagonal]
    by_cases hk : d k = 0
    · have h1 := hg k k
      rw [if_pos rfl, ← hdd, hk, mul_zero] at h1
      have h2 := (Finset.sum_eq_zero_iff_of_nonneg fun i _ => mul_self_nonneg _).1 h1 r (Finset.mem_univ r)
      rw [hk, mul_zero]
      exact mul_self_eq_zero.1 h2
    · have h1 := hb (Fin.castLE h k) ⟨k.2, hk⟩
      show _ = b (Fin.castLE h k) r * d k
      rw [h1]
      simp only [v]
      have hkn : ((Fin.castLE h k : Fin m) : ℕ) < n := k.2
      rw [dif_pos hkn]
      show _ = (A * V) r k / d k * d k
      rw [div_mul_cancel₀ _ hk]
  refine ⟨U, d, V, ?_, hUU, hV, fun k => Real.sqrt_nonneg _, fun a b hab => Real.sqrt_le_sqrt (hanti hab)⟩
  rw [← hAV, Matrix.mul_assoc, mul_eq_one_comm.1 hV, Matrix.mul_one]
end Chumpy
