import Mathlib.Analysis.InnerProductSpace.Adjoint
import Mathlib.Analysis.InnerProductSpace.PiL2
import Verif.Opt.Control
/-!
# The dogleg method in exact real arithmetic

`realOps` is the arithmetic of `Verif/Opt/Dogleg.lean` on real numbers and Euclidean vectors.  Division by zero, which Python
answers with an infinity or NaN, gives 0 here; the theorems below say where it cannot happen.
-/
namespace Chumpy

/-- Vectors with their Euclidean norm. -/
abbrev RVec (n : ℕ) := EuclideanSpace ℝ (Fin n)

open Classical in
/-- The operations in exact arithmetic, with any solver, objective, Jacobian and copying. -/
noncomputable def realOps {n m : ℕ} {W : Type} (solve : (RVec n →L[ℝ] RVec n) → RVec n → RVec n) (resid : W → RVec m)
    (jac : W → RVec n →L[ℝ] RVec m) (put : RVec n → W → W) (get : W → RVec n) :
    Ops ℝ (RVec n) (RVec m) (RVec n →L[ℝ] RVec m) (RVec n →L[ℝ] RVec n) W where
  lt a b := decide (a < b)
  le a b := decide (a ≤ b)
  zero := 0
  two := 2
  quarter := 1 / 4
  twoHalf := 5 / 2
  lb := 1 / 20
  ub := 9 / 10
  add := (· + ·)
  sub := (· - ·)
  mul := (· * ·)
  div := (· / ·)
  max := max
  sqrt := Real.sqrt
  vadd := (· + ·)
  vsub := (· - ·)
  smul := (· • ·)
  dot u v := inner ℝ u v
  norm v := ‖v‖
  normInf v := ‖(WithLp.ofLp v : Fin n → ℝ)‖
  rnorm r := ‖r‖
  jmul J v := J v
  jtneg J r := J.adjoint (-r)
  gram J := J.adjoint ∘L J
  amul A v := A v
  solve := solve
  resid := resid
  jac := jac
  put := put
  get := get

namespace Dog
section
variable {n : ℕ}

/-- The parameter of `beta_multiplier`, in exact arithmetic. -/
noncomputable def rbeta (d : ℝ) (gn sd : RVec n) : ℝ :=
  (d * d - ‖sd‖ * ‖sd‖) /
    (inner ℝ (gn - sd) sd + Real.sqrt (inner ℝ (gn - sd) (gn - sd) * (d * d) + inner ℝ gn sd * inner ℝ gn sd - ‖gn‖ * ‖gn‖ * (‖sd‖ * ‖sd‖)))

/-- Between the Cauchy point and the Gauss-Newton step: the parameter lies in `(0, 1)` and the step has length `d`. -/
theorem rbeta_spec {d : ℝ} {gn sd : RVec n} (h1 : ‖sd‖ < d) (h2 : d < ‖gn‖) :
    0 < rbeta d gn sd ∧ rbeta d gn sd < 1 ∧ ‖sd + rbeta d gn sd • (gn - sd)‖ = d := by
  have hd : 0 < d := lt_of_le_of_lt (norm_nonneg _) h1
  obtain ⟨v, hv⟩ : ∃ v, v = gn - sd := ⟨_, rfl⟩
  have hgn : gn = sd + v := by rw [hv]; abel
  have hgn2 : ‖gn‖ * ‖gn‖ = ‖sd‖ * ‖sd‖ + 2 * inner ℝ v sd + ‖v‖ * ‖v‖ := by
    rw [hgn, ← real_inner_self_eq_norm_mul_norm, inner_add_left, inner_add_right, inner_add_right, real_inner_comm v sd,
      real_inner_self_eq_norm_mul_norm, real_inner_self_eq_norm_mul_norm]
    ring
  have hgs : inner ℝ gn sd = ‖sd‖ * ‖sd‖ + inner ℝ v sd := by
    rw [hgn, inner_add_left, real_inner_self_eq_norm_mul_norm]
  have hv0 : v ≠ 0 := by
    rintro rfl
    rw [add_zero] at hgn
    rw [hgn] at h2
    linarith
  have hvpos : 0 < ‖v‖ * ‖v‖ := mul_pos (norm_pos_iff.2 hv0) (norm_pos_iff.2 hv0)
  obtain ⟨c, hc⟩ : ∃ c, c = d * d - ‖sd‖ * ‖sd‖ := ⟨_, rfl⟩
  have hcpos : 0 < c := by
    rw [hc]
    have := norm_nonneg sd
    nlinarith
  obtain ⟨b, hb⟩ : ∃ b : ℝ, b = inner ℝ v sd := ⟨_, rfl⟩
  obtain ⟨D, hD⟩ : ∃ D, D = ‖v‖ * ‖v‖ := ⟨_, rfl⟩
  have hpnow : (inner ℝ v v * (d * d) + inner ℝ gn sd * inner ℝ gn sd - ‖gn‖ * ‖gn‖ * (‖sd‖ * ‖sd‖) : ℝ) = b * b + D * c := by
    rw [hgn2, hgs, real_inner_self_eq_norm_mul_norm, hc, hb, hD]
    ring
  have hbeta : rbeta d gn sd = c / (b + Real.sqrt (b * b + D * c)) := by
    unfold rbeta
    rw [← hv, hpnow, ← hc, ← hb]
  have hDc : 0 < D * c := mul_pos (hD ▸ hvpos) hcpos
  obtain ⟨q, hq⟩ : ∃ q, q = Real.sqrt (b * b + D * c) := ⟨_, rfl⟩
  have hq0 : 0 ≤ q := hq ▸ Real.sqrt_nonneg _
  have hqq : q * q = b * b + D * c := by
    rw [hq]; exact Real.mul_self_sqrt (by nlinarith [mul_self_nonneg b])
  have hden : 0 < b + q := by
    have : |b| < q := abs_lt_of_sq_lt_sq (by nlinarith) hq0
    have := neg_abs_le b
    linarith
  obtain ⟨β, hβ⟩ : ∃ β, β = rbeta d gn sd := ⟨_, rfl⟩
  have hβe : β * (b + q) = c := by
    rw [hβ, hbeta, ← hq]; field_simp
  have hβpos : 0 < β := by
    rw [hβ, hbeta, ← hq]; exact div_pos hcpos hden
  have hquad : D * (β * β) + 2 * b * β = c := by
    have e : β * q = c - β * b := by linarith
    have e2 : (β * q) * (β * q) = β * β * (b * b + D * c) := by rw [← hqq]; ring
    rw [e] at e2
    have e3 : c * (D * (β * β) + 2 * b * β - c) = 0 := by linarith
    rcases mul_eq_zero.1 e3 with h | h
    · linarith
    · linarith
  have hDpos : 0 < D := hD ▸ hvpos
  rw [← hβ, ← hv]
  refine ⟨hβpos, ?_, ?_⟩
  · by_contra hcon
    have hge : 1 ≤ β := not_lt.1 hcon
    have hgap : c < D + 2 * b := by
      have : d * d < ‖gn‖ * ‖gn‖ := by nlinarith
      rw [hgn2, ← hb, ← hD] at this
      rw [hc]; linarith
    nlinarith [mul_pos hDpos hβpos]
  · have hsq : ‖sd + β • v‖ * ‖sd + β • v‖ = d * d := by
      rw [← real_inner_self_eq_norm_mul_norm, inner_add_left, inner_add_right, inner_add_right, inner_smul_left, inner_smul_right,
        inner_smul_left, inner_smul_right, real_inner_comm v sd, real_inner_self_eq_norm_mul_norm, real_inner_self_eq_norm_mul_norm,
        ← hb, ← hD]
      simp only [conj_trivial]
      have : ‖sd‖ * ‖sd‖ = d * d - c := by rw [hc]; ring
      rw [this]
      linarith
    exact (mul_self_inj (norm_nonneg _) hd.le).1 hsq

end

section
variable {n m : ℕ} (J : RVec n →L[ℝ] RVec m) (r : RVec m)

/-- The improvement predicted for a step. -/
noncomputable def model (d : RVec n) : ℝ := 2 * inner ℝ (J.adjoint (-r)) d - inner ℝ d ((J.adjoint ∘L J) d)

theorem model_eq (d : RVec n) : model J r d = 2 * inner ℝ (J.adjoint (-r)) d - ‖J d‖ * ‖J d‖ := by
  unfold model
  rw [ContinuousLinearMap.comp_apply, ContinuousLinearMap.adjoint_inner_right, real_inner_self_eq_norm_mul_norm]

theorem grad_inner (d : RVec n) : (inner ℝ (J.adjoint (-r)) d : ℝ) = - inner ℝ r (J d) := by
  rw [ContinuousLinearMap.adjoint_inner_left, inner_neg_left]

/-- A nonzero gradient is not in the kernel of the Jacobian. -/
theorem jac_grad_ne {g : RVec n} (hg : g = J.adjoint (-r)) (h0 : g ≠ 0) : J g ≠ 0 := by
  intro h
  have h1 : (inner ℝ g g : ℝ) = - inner ℝ r (J g) := by
    conv_lhs => rw [hg]
    rw [grad_inner, ← hg]
  rw [h, inner_zero_right, neg_zero] at h1
  exact h0 (inner_self_eq_zero.1 h1)

/-- Along the gradient, up to the Cauchy point. -/
theorem model_cauchy {g : RVec n} (hg : g = J.adjoint (-r)) (h0 : g ≠ 0) {t : ℝ} (ht : 0 < t)
    (ht' : t ≤ (‖g‖ * ‖g‖) / (‖J g‖ * ‖J g‖)) : 0 < model J r (t • g) := by
  have hJ := jac_grad_ne J r hg h0
  have hJpos : 0 < ‖J g‖ * ‖J g‖ := mul_pos (norm_pos_iff.2 hJ) (norm_pos_iff.2 hJ)
  have hgpos : 0 < ‖g‖ * ‖g‖ := mul_pos (norm_pos_iff.2 h0) (norm_pos_iff.2 h0)
  rw [model_eq, ← hg, inner_smul_right, real_inner_self_eq_norm_mul_norm, map_smul, norm_smul, Real.norm_of_nonneg ht.le]
  have h1 : t * (‖J g‖ * ‖J g‖) ≤ ‖g‖ * ‖g‖ := by
    rwa [le_div_iff₀ hJpos] at ht'
  nlinarith

/-- The improvement predicted for a step, from the exact Gauss-Newton step. -/
theorem model_gn {gn : RVec n} (hgn : (J.adjoint ∘L J) gn = J.adjoint (-r)) (d : RVec n) :
    model J r d = ‖J gn‖ * ‖J gn‖ - ‖J (gn - d)‖ * ‖J (gn - d)‖ := by
  rw [model_eq, ← hgn, ContinuousLinearMap.comp_apply, ContinuousLinearMap.adjoint_inner_left, map_sub,
    ← real_inner_self_eq_norm_mul_norm (J gn - J d), inner_sub_left, inner_sub_right, inner_sub_right,
    real_inner_self_eq_norm_mul_norm, real_inner_self_eq_norm_mul_norm, real_inner_comm (J gn) (J d)]
  ring

/-- Between the Cauchy point and the Gauss-Newton step. -/
theorem model_between {gn sd : RVec n} (hgn : (J.adjoint ∘L J) gn = J.adjoint (-r)) (h0 : J gn ≠ 0) (hsd : 0 < model J r sd)
    {β : ℝ} (h1 : 0 < β) (h2 : β ≤ 1) : 0 < model J r (sd + β • (gn - sd)) := by
  have e : gn - (sd + β • (gn - sd)) = (1 - β) • (gn - sd) := by
    rw [sub_smul, one_smul]; abel
  rw [model_gn J r hgn] at hsd ⊢
  rw [e, map_smul, norm_smul, Real.norm_of_nonneg (by linarith : (0:ℝ) ≤ 1 - β)]
  have hp : 0 < ‖J gn‖ * ‖J gn‖ := mul_pos (norm_pos_iff.2 h0) (norm_pos_iff.2 h0)
  have hq : 0 ≤ ‖J (gn - sd)‖ * ‖J (gn - sd)‖ := mul_self_nonneg _
  have hb : (1 - β) * (1 - β) ≤ 1 := by nlinarith
  nlinarith

end
end Dog
end Chumpy
