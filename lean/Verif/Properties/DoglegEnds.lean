import Verif.Properties.DoglegReal
import Verif.Opt.Nan
/-!
# The dogleg method ends, in exact arithmetic; it need not with NaN (C50)
-/
namespace Chumpy
open Dog Filter Topology

section
variable {n m : ℕ} {W : Type} (solve : (RVec n →L[ℝ] RVec n) → RVec n → RVec n) (resid : W → RVec m)
  (jac : W → RVec n →L[ℝ] RVec m) (put : RVec n → W → W) (get : W → RVec n)

/-- A rejected trial divides the radius by four. -/
theorem radius_shrinks (opt : DogOpts ℝ) {s : RState n m W} (h : (innerBody (realOps solve resid jac put get) opt s).2 = false)
    (hl : (innerBody (realOps solve resid jac put get) opt s).1.done = false) {d : ℝ}
    (hd : (updateStep (realOps solve resid jac put get) s).delta = some d) :
    (innerBody (realOps solve resid jac put get) opt s).1.delta = some (d * (1 / 4)) := by
  obtain ⟨-, h2⟩ := innerBody_rejected' (realOps solve resid jac put get) opt h
  obtain ⟨r', him, -, hdel, -⟩ := h2.resolve_left (by rw [hl]; simp)
  rw [hdel]
  obtain ⟨x, hx⟩ : ∃ x, x = rho (realOps solve resid jac put get) (updateStep (realOps solve resid jac put get) s) r' := ⟨_, rfl⟩
  have hx0 : ¬ (0 : ℝ) < x := by
    rw [hx]; exact of_decide_eq_false him
  rw [← hx]
  unfold updateRadius
  rw [hd]
  dsimp only
  rw [if_neg, if_pos]
  · rfl
  · exact decide_eq_true (by show x < 1 / 20; linarith)
  · intro hc
    have : (9 / 10 : ℝ) < x := of_decide_eq_true hc
    linarith

/-- The inner loop, started with a radius, ends, if every state of it with a small enough radius leaves it. -/
theorem inner_ends (opt : DogOpts ℝ) {w0 : W} (hput : ∀ u v w, put u (put v w) = put u w) (D : ℝ) (j : ℕ) :
    ∀ (s : RState n m W) (d : ℝ), DogInv (realOps solve resid jac put get) opt w0 (.inner, s) → s.delta = some d →
      d ≤ D * 4 ^ j →
      (∀ t : RState n m W, Same s t → DogInv (realOps solve resid jac put get) opt w0 (.inner, t) → ∀ e, t.delta = some e → e ≤ D →
        (dogStep (realOps solve resid jac put get) opt (.inner, t)).1 = .outer) →
      ∃ k, ((dogStep (realOps solve resid jac put get) opt)^[k] (.inner, s)).1 = .outer ∧
        ((dogStep (realOps solve resid jac put get) opt)^[k] (.inner, s)).2.iteration = s.iteration := by
  have hstep : ∀ s : RState n m W, DogInv (realOps solve resid jac put get) opt w0 (.inner, s) →
      (dogStep (realOps solve resid jac put get) opt (.inner, s)).2.iteration = s.iteration ∧
      ((dogStep (realOps solve resid jac put get) opt (.inner, s)).1 = .outer ∨
        ∃ t, dogStep (realOps solve resid jac put get) opt (.inner, s) = (.inner, t) ∧ Same s t ∧
          (∀ d, s.delta = some d → t.delta = some (d * (1 / 4)))) := by
    intro s hi
    have e2 : dogStep (realOps solve resid jac put get) opt (.inner, s) =
        if ((innerBody (realOps solve resid jac put get) opt s).1.done || (innerBody (realOps solve resid jac put get) opt s).2 ||
          spent opt (innerBody (realOps solve resid jac put get) opt s).1) = true then
        (PC.outer, afterInner opt (innerBody (realOps solve resid jac put get) opt s).1)
        else (PC.inner, (innerBody (realOps solve resid jac put get) opt s).1) := rfl
    have hit : (innerBody (realOps solve resid jac put get) opt s).1.iteration = s.iteration := by
      by_cases hx : (innerBody (realOps solve resid jac put get) opt s).2 = true
      · exact (innerBody_accepted _ opt hx).2.2.2.2.1
      · exact (innerBody_rejected _ opt hput hi.world (by simpa using hx)).iteration
    rw [e2]
    split
    · refine ⟨?_, .inl rfl⟩
      rcases afterInner_eq opt (innerBody (realOps solve resid jac put get) opt s).1 with h | h <;> rw [h] <;> exact hit
    · rename_i hgo
      have hrej : (innerBody (realOps solve resid jac put get) opt s).2 = false := by
        cases hb : (innerBody (realOps solve resid jac put get) opt s).2
        · rfl
        · exact absurd (by rw [hb]; simp) hgo
      have hdf : (innerBody (realOps solve resid jac put get) opt s).1.done = false := by
        cases hc : (innerBody (realOps solve resid jac put get) opt s).1.done
        · rfl
        · exact absurd (by rw [hc]; simp) hgo
      refine ⟨hit, .inr ⟨_, rfl, innerBody_rejected _ opt hput hi.world hrej, ?_⟩⟩
      intro d hd
      apply radius_shrinks solve resid jac put get opt hrej hdf
      by_cases h1 : d ≤ ‖s.dsd‖
      · rw [step_stunted solve resid jac put get hd h1]; exact hd
      · have h1' := not_le.1 h1
        by_cases h2 : ‖s.dgn.getD (solve s.A s.g)‖ ≤ d
        · rw [step_gn solve resid jac put get hd h1' h2]; exact hd
        · rw [step_between solve resid jac put get hd h1' (not_le.1 h2)]; exact hd
  induction j with
  | zero =>
    intro s d hi hd hle hex
    have h1 := hex s ⟨rfl, rfl, rfl, rfl, rfl, rfl, rfl, rfl, rfl⟩ hi d hd (by simpa using hle)
    exact ⟨1, h1, (hstep s hi).1⟩
  | succ j ih =>
    intro s d hi hd hle hex
    obtain ⟨hit, hout | ⟨t, ht, hsame, hdt⟩⟩ := hstep s hi
    · exact ⟨1, hout, hit⟩
    · have hit' : DogInv (realOps solve resid jac put get) opt w0 (.inner, t) := by
        rw [← ht]; exact dogInv_step _ opt hput hi
      obtain ⟨k, hk⟩ := ih t _ hit' (hdt d hd) (by rw [pow_succ] at hle; linarith) (by
        intro u hu
        apply hex u
        exact ⟨hu.1.trans hsame.1, hu.2.trans hsame.2, hu.3.trans hsame.3, hu.4.trans hsame.4, hu.5.trans hsame.5, hu.6.trans hsame.6,
          hu.7.trans hsame.7, hu.8.trans hsame.8, hu.9.trans hsame.9⟩)
      refine ⟨k + 1, ?_⟩
      rw [Function.iterate_succ_apply, ht]
      exact ⟨hk.1, hk.2.trans hsame.iteration⟩

/-- A turn which ends the run or accepts a trial leaves the inner loop. -/
theorem leaves_inner (opt : DogOpts ℝ) {t : RState n m W}
    (h : (innerBody (realOps solve resid jac put get) opt t).1.done = true ∨ (innerBody (realOps solve resid jac put get) opt t).2 = true) :
    (dogStep (realOps solve resid jac put get) opt (.inner, t)).1 = .outer := by
  have e2 : dogStep (realOps solve resid jac put get) opt (.inner, t) =
      if ((innerBody (realOps solve resid jac put get) opt t).1.done || (innerBody (realOps solve resid jac put get) opt t).2 ||
        spent opt (innerBody (realOps solve resid jac put get) opt t).1) = true then
      (PC.outer, afterInner opt (innerBody (realOps solve resid jac put get) opt t).1)
      else (PC.inner, (innerBody (realOps solve resid jac put get) opt t).1) := rfl
  rw [e2, if_pos]
  rcases h with h | h <;> rw [h] <;> simp

/-- Along the negative gradient of the sum of squares, a differentiable objective decreases at first. -/
theorem descent {f : RVec n → RVec m} {J : RVec n →L[ℝ] RVec m} {p g : RVec n} (hf : HasFDerivAt f J p) (hg : g = J.adjoint (-f p))
    (h0 : g ≠ 0) : ∃ τ₀ : ℝ, 0 < τ₀ ∧ ∀ τ, 0 < τ → τ < τ₀ → ‖f (p + τ • g)‖ * ‖f (p + τ • g)‖ < ‖f p‖ * ‖f p‖ := by
  have hline : HasDerivAt (fun τ : ℝ => p + τ • g) g 0 := by
    simpa using ((hasDerivAt_id (0 : ℝ)).smul_const g).const_add p
  have hf' : HasFDerivAt f J (p + (0 : ℝ) • g) := by simpa using hf
  have hc : HasDerivAt (fun τ : ℝ => f (p + τ • g)) (J g) 0 := hf'.comp_hasDerivAt 0 hline
  have hφ := hc.inner ℝ hc
  have hneg : (inner ℝ (f (p + (0 : ℝ) • g)) (J g) + inner ℝ (J g) (f (p + (0 : ℝ) • g)) : ℝ) < 0 := by
    have h1 : (inner ℝ g g : ℝ) = - inner ℝ (f p) (J g) := by
      conv_lhs => rw [hg]
      rw [grad_inner, ← hg]
    have h2 : (0 : ℝ) < inner ℝ g g := real_inner_self_pos.2 h0
    rw [zero_smul, add_zero, real_inner_comm (f p) (J g)]
    rw [real_inner_comm (J g) (f p)]
    rw [real_inner_comm (J g) (f p)] at h1
    linarith
  have hs := hφ.tendsto_slope
  have hev := hs.eventually (gt_mem_nhds hneg)
  rw [eventually_nhdsWithin_iff, Metric.eventually_nhds_iff] at hev
  obtain ⟨ε, hε, hev⟩ := hev
  refine ⟨ε, hε, fun τ h1 h2 => ?_⟩
  have hτ := hev (by rw [Real.dist_eq, sub_zero, abs_of_pos h1]; exact h2) (by simpa using h1.ne')
  rw [slope_def_field] at hτ
  simp only [zero_smul, add_zero, sub_zero, real_inner_self_eq_norm_mul_norm] at hτ
  have := (div_neg_iff.1 hτ).resolve_left (by rintro ⟨_, h⟩; linarith)
  linarith [this.1]

/-- A state of the inner loop with a small radius accepts its trial (or ends the run), if the Jacobian is the derivative. -/
theorem accepts_small (opt : DogOpts ℝ) (he1 : 0 < opt.e1) (he2 : 0 ≤ opt.e2) (f : RVec n → RVec m) (hres : ∀ w, resid w = f (get w))
    (hjac : ∀ w, HasFDerivAt f (jac w) (get w)) (hgp : ∀ v w, get (put v w) = v)
    (hput : ∀ u v w, put u (put v w) = put u w) {w0 : W} {s : RState n m W}
    (hi : DogInv (realOps solve resid jac put get) opt w0 (.inner, s)) :
    ∃ D, 0 < D ∧ ∀ t : RState n m W, Same s t → DogInv (realOps solve resid jac put get) opt w0 (.inner, t) →
      ∀ e, t.delta = some e → e ≤ D → (dogStep (realOps solve resid jac put get) opt (.inner, t)).1 = .outer := by
  obtain ⟨hr, hJ, hA, hg, hg0, hsd, hsd0⟩ := inner_facts solve resid jac put get opt he1 hi
  have hw : s.world = put s.p w0 := hi.world
  have hgw : get s.world = s.p := by rw [hw, hgp]
  have hr' : s.r = f s.p := by rw [hr, hres, hgw]
  have hfd : HasFDerivAt f s.J s.p := by
    have := hjac s.world
    rwa [← hJ, hgw] at this
  obtain ⟨τ₀, hτ₀, hdec⟩ := descent hfd (by rw [hg, hr']) hg0
  have hgpos := norm_pos_iff.2 hg0
  refine ⟨min ‖s.dsd‖ (τ₀ / 2 * ‖s.g‖), lt_min (norm_pos_iff.2 hsd0) (by positivity), ?_⟩
  intro t hst hit e he hle
  apply leaves_inner
  by_cases hpos : 0 < e
  swap
  · -- a radius which is not positive ends the run
    by_contra hcon
    obtain ⟨h1, h2⟩ := not_or.1 hcon
    have h1' : (innerBody (realOps solve resid jac put get) opt t).1.done = false := by simpa using h1
    have h2' : (innerBody (realOps solve resid jac put get) opt t).2 = false := by simpa using h2
    have hsh : (innerBody (realOps solve resid jac put get) opt t).1.delta = some (e * (1 / 4)) := by
      apply radius_shrinks solve resid jac put get opt h2' h1'
      rw [step_stunted solve resid jac put get he (le_trans (not_lt.1 hpos) (norm_nonneg _))]
      exact he
    have hb := innerBody_radius (realOps solve resid jac put get) opt h1' _ hsh
    have hb' : ¬ e * (1 / 4) ≤ opt.e2 * ‖(innerBody (realOps solve resid jac put get) opt t).1.p‖ := of_decide_eq_false hb
    have := mul_nonneg he2 (norm_nonneg (innerBody (realOps solve resid jac put get) opt t).1.p)
    linarith [not_lt.1 hpos, not_le.1 hb']
  have hle1 : e ≤ ‖t.dsd‖ := by rw [hst.dsd]; exact hle.trans (min_le_left _ _)
  have hstep := step_stunted solve resid jac put get he hle1
  have hddl : (updateStep (realOps solve resid jac put get) t).ddl = (e / ‖s.g‖) • s.g := by
    rw [hstep]
    show (e / ‖t.dsd‖) • t.dsd = _
    rw [hst.dsd]
    exact (stunted_eq hg0 (jac_grad_ne s.J s.r hg hg0) hpos hsd (hle.trans (min_le_left _ _))).1
  have hτle := (stunted_eq hg0 (jac_grad_ne s.J s.r hg hg0) hpos hsd (hle.trans (min_le_left _ _))).2
  have hτpos : 0 < e / ‖s.g‖ := div_pos hpos hgpos
  have hτlt : e / ‖s.g‖ < τ₀ := by
    have : e / ‖s.g‖ ≤ τ₀ / 2 := by
      rw [div_le_iff₀ hgpos]; exact hle.trans (min_le_right _ _)
    linarith
  have hss := updateStep_same (realOps solve resid jac put get) t
  have hpred : predicted (realOps solve resid jac put get) (updateStep (realOps solve resid jac put get) t) =
      model s.J s.r ((e / ‖s.g‖) • s.g) := by
    unfold predicted
    rw [hss.g, hss.A, hst.g, hst.A, hA, hddl]
    conv_lhs => rw [hg]
    conv_rhs => rw [hg]
    rfl
  have hpredpos : 0 < predicted (realOps solve resid jac put get) (updateStep (realOps solve resid jac put get) t) := by
    rw [hpred]
    exact model_cauchy s.J s.r hg hg0 hτpos hτle
  by_cases hsmall : (realOps solve resid jac put get).le
      ((realOps solve resid jac put get).norm (updateStep (realOps solve resid jac put get) t).ddl)
      ((realOps solve resid jac put get).mul opt.e2 ((realOps solve resid jac put get).norm (updateStep (realOps solve resid jac put get) t).p)) = true
  · left
    unfold innerBody
    dsimp only
    rw [if_pos hsmall]
  · right
    unfold innerBody
    dsimp only
    rw [if_neg hsmall]
    unfold trial
    dsimp only
    have hw' : (realOps solve resid jac put get).put ((realOps solve resid jac put get).vadd
        (updateStep (realOps solve resid jac put get) t).p (updateStep (realOps solve resid jac put get) t).ddl)
        (updateStep (realOps solve resid jac put get) t).world = put (s.p + (e / ‖s.g‖) • s.g) w0 := by
      rw [hss.p, hss.world, hst.p, hst.world, hddl, hw]
      exact hput _ _ _
    rw [hw']
    have hr2 : (realOps solve resid jac put get).resid (put (s.p + (e / ‖s.g‖) • s.g) w0) = f (s.p + (e / ‖s.g‖) • s.g) := by
      show resid _ = _
      rw [hres, hgp]
    rw [hr2]
    have hrr : (updateStep (realOps solve resid jac put get) t).r = f s.p := by rw [hss.r, hst.r, hr']
    have hlt := hdec _ hτpos hτlt
    unfold isImprovement rho
    dsimp only
    rw [hrr]
    have hx : (realOps solve resid jac put get).lt (realOps solve resid jac put get).zero
      ((realOps solve resid jac put get).sub (sq (realOps solve resid jac put get) ((realOps solve resid jac put get).rnorm (f s.p)))
        (sq (realOps solve resid jac put get) ((realOps solve resid jac put get).rnorm (f (s.p + (e / ‖s.g‖) • s.g))))) = true := by
      apply decide_eq_true
      show (0 : ℝ) < ‖f s.p‖ * ‖f s.p‖ - ‖f (s.p + (e / ‖s.g‖) • s.g)‖ * ‖f (s.p + (e / ‖s.g‖) • s.g)‖
      linarith
    rw [if_pos hx]
    apply decide_eq_true
    show (0 : ℝ) < (‖f s.p‖ * ‖f s.p‖ - ‖f (s.p + (e / ‖s.g‖) • s.g)‖ * ‖f (s.p + (e / ‖s.g‖) • s.g)‖) / _
    exact div_pos (by linarith) hpredpos

/-- A state of the inner loop with a small radius ends the run, when the parameters are not zero and `e_2` is positive. -/
theorem stops_small (opt : DogOpts ℝ) (he2 : 0 < opt.e2) (hput : ∀ u v w, put u (put v w) = put u w) {w0 : W} {s : RState n m W}
    (hp : s.p ≠ 0) :
    ∃ D, 0 < D ∧ ∀ t : RState n m W, Same s t → DogInv (realOps solve resid jac put get) opt w0 (.inner, t) →
      ∀ e, t.delta = some e → e ≤ D → (dogStep (realOps solve resid jac put get) opt (.inner, t)).1 = .outer := by
  refine ⟨opt.e2 * ‖s.p‖, mul_pos he2 (norm_pos_iff.2 hp), ?_⟩
  intro t hst hit e he hle
  apply leaves_inner
  by_contra hcon
  obtain ⟨h1, h2⟩ := not_or.1 hcon
  have h1' : (innerBody (realOps solve resid jac put get) opt t).1.done = false := by simpa using h1
  have h2' : (innerBody (realOps solve resid jac put get) opt t).2 = false := by simpa using h2
  have hud : (updateStep (realOps solve resid jac put get) t).delta = some e := by
    by_cases h1 : e ≤ ‖t.dsd‖
    · rw [step_stunted solve resid jac put get he h1]; exact he
    · have h1' := not_le.1 h1
      by_cases h2 : ‖t.dgn.getD (solve t.A t.g)‖ ≤ e
      · rw [step_gn solve resid jac put get he h1' h2]; exact he
      · rw [step_between solve resid jac put get he h1' (not_le.1 h2)]; exact he
  have hsh := radius_shrinks solve resid jac put get opt h2' h1' hud
  have hb := innerBody_radius (realOps solve resid jac put get) opt h1' _ hsh
  have hb' : ¬ e * (1 / 4) ≤ opt.e2 * ‖(innerBody (realOps solve resid jac put get) opt t).1.p‖ := of_decide_eq_false hb
  rw [(innerBody_rejected _ opt hput hit.world h2').p, hst.p] at hb'
  have hpos := mul_pos he2 (norm_pos_iff.2 hp)
  linarith [not_le.1 hb']

/-- From the head of the inner loop the run gets to the test of the outer loop, if small radii leave the inner loop. -/
theorem inner_to_outer (opt : DogOpts ℝ) {w0 : W} (hput : ∀ u v w, put u (put v w) = put u w) {s : RState n m W}
    (hi : DogInv (realOps solve resid jac put get) opt w0 (.inner, s))
    (hsm : ∃ D, 0 < D ∧ ∀ t : RState n m W, Same s t → DogInv (realOps solve resid jac put get) opt w0 (.inner, t) →
      ∀ e, t.delta = some e → e ≤ D → (dogStep (realOps solve resid jac put get) opt (.inner, t)).1 = .outer) :
    ∃ k, ((dogStep (realOps solve resid jac put get) opt)^[k] (.inner, s)).1 = .outer ∧
      ((dogStep (realOps solve resid jac put get) opt)^[k] (.inner, s)).2.iteration = s.iteration := by
  obtain ⟨D, hD, hex⟩ := hsm
  have hpow : ∀ d : ℝ, ∃ j : ℕ, d ≤ D * 4 ^ j := by
    intro d
    obtain ⟨j, hj⟩ := pow_unbounded_of_one_lt (d / D) (by norm_num : (1 : ℝ) < 4)
    exact ⟨j, by rw [div_lt_iff₀ hD] at hj; linarith⟩
  cases hd : s.delta with
  | some d =>
    obtain ⟨j, hj⟩ := hpow d
    exact inner_ends solve resid jac put get opt hput D j s d hi hd hj hex
  | none =>
    -- the first turn sets the radius
    by_cases hout : (dogStep (realOps solve resid jac put get) opt (.inner, s)).1 = .outer
    · refine ⟨1, hout, ?_⟩
      have hit : (innerBody (realOps solve resid jac put get) opt s).1.iteration = s.iteration := by
        by_cases hx : (innerBody (realOps solve resid jac put get) opt s).2 = true
        · exact (innerBody_accepted _ opt hx).2.2.2.2.1
        · exact (innerBody_rejected _ opt hput hi.world (by simpa using hx)).iteration
      show (if ((innerBody (realOps solve resid jac put get) opt s).1.done || (innerBody (realOps solve resid jac put get) opt s).2 ||
        spent opt (innerBody (realOps solve resid jac put get) opt s).1) = true then
      (PC.outer, afterInner opt (innerBody (realOps solve resid jac put get) opt s).1)
      else (PC.inner, (innerBody (realOps solve resid jac put get) opt s).1) : PC × RState n m W).2.iteration = _
      split
      · rcases afterInner_eq opt (innerBody (realOps solve resid jac put get) opt s).1 with h | h <;> rw [h] <;> exact hit
      · exact hit
    · have e2 : dogStep (realOps solve resid jac put get) opt (.inner, s) =
          if ((innerBody (realOps solve resid jac put get) opt s).1.done || (innerBody (realOps solve resid jac put get) opt s).2 ||
            spent opt (innerBody (realOps solve resid jac put get) opt s).1) = true then
          (PC.outer, afterInner opt (innerBody (realOps solve resid jac put get) opt s).1)
          else (PC.inner, (innerBody (realOps solve resid jac put get) opt s).1) := rfl
      have hgo : ¬ ((innerBody (realOps solve resid jac put get) opt s).1.done || (innerBody (realOps solve resid jac put get) opt s).2 ||
            spent opt (innerBody (realOps solve resid jac put get) opt s).1) = true := by
        intro hc
        rw [e2, if_pos hc] at hout
        exact hout rfl
      rw [if_neg hgo] at e2
      have hrej : (innerBody (realOps solve resid jac put get) opt s).2 = false := by
        cases hb : (innerBody (realOps solve resid jac put get) opt s).2
        · rfl
        · exact absurd (by rw [hb]; simp) hgo
      have hdf : (innerBody (realOps solve resid jac put get) opt s).1.done = false := by
        cases hc : (innerBody (realOps solve resid jac put get) opt s).1.done
        · rfl
        · exact absurd (by rw [hc]; simp) hgo
      have hsame := innerBody_rejected _ opt hput hi.world hrej
      have hdel := radius_shrinks solve resid jac put get opt hrej hdf
        (by rw [step_first solve resid jac put get hd] : (updateStep (realOps solve resid jac put get) s).delta = some ‖s.dgn.getD (solve s.A s.g)‖)
      have hit' : DogInv (realOps solve resid jac put get) opt w0 (.inner, (innerBody (realOps solve resid jac put get) opt s).1) := by
        rw [← e2]; exact dogInv_step _ opt hput hi
      obtain ⟨j, hj⟩ := hpow (‖s.dgn.getD (solve s.A s.g)‖ * (1 / 4))
      obtain ⟨k, hk⟩ := inner_ends solve resid jac put get opt hput D j _ _ hit' hdel hj (by
        intro u hu
        apply hex u
        exact ⟨hu.1.trans hsame.1, hu.2.trans hsame.2, hu.3.trans hsame.3, hu.4.trans hsame.4, hu.5.trans hsame.5, hu.6.trans hsame.6,
          hu.7.trans hsame.7, hu.8.trans hsame.8, hu.9.trans hsame.9⟩)
      refine ⟨k + 1, ?_⟩
      rw [Function.iterate_succ_apply, e2]
      exact ⟨hk.1, hk.2.trans hsame.iteration⟩

theorem run_iterate (o : Ops ℝ (RVec n) (RVec m) (RVec n →L[ℝ] RVec m) (RVec n →L[ℝ] RVec n) W) (opt : DogOpts ℝ) (w0 : W) (i k : ℕ) :
    run o opt w0 (i + k) = (dogStep o opt)^[k] (run o opt w0 i) := by
  induction k with
  | zero => rfl
  | succ k ih => rw [Function.iterate_succ_apply', ← ih]; rfl

/-- **C50** (exact arithmetic): if the Jacobian of the objective is its derivative, `e_1` is positive and `e_2` is not
negative, then the method returns: for every solver, every initial radius, and with no limit on the number of evaluations. -/
theorem C50_terminates_partial (f : RVec n → RVec m) (hres : ∀ w, resid w = f (get w))
    (hjac : ∀ w, HasFDerivAt f (jac w) (get w)) (hgp : ∀ v w, get (put v w) = v)
    (hput : ∀ u v w, put u (put v w) = put u w) (opt : DogOpts ℝ) (he1 : 0 < opt.e1) (he2 : 0 ≤ opt.e2) (w0 : W) :
    ∃ k, (run (realOps solve resid jac put get) opt w0 k).1 = .halt := by
  -- by induction on the number of iterations that are left
  have main : ∀ (b i : ℕ), (run (realOps solve resid jac put get) opt w0 i).1 = .outer →
      max 1 opt.maxiter ≤ (run (realOps solve resid jac put get) opt w0 i).2.iteration + b →
      ∃ k, (run (realOps solve resid jac put get) opt w0 k).1 = .halt := by
    intro b
    induction b with
    | zero =>
      intro i hout hb
      have hi := dogInv_run (realOps solve resid jac put get) opt w0 hput i
      refine ⟨i + 1, ?_⟩
      have hd : (run (realOps solve resid jac put get) opt w0 i).2.done = true := by
        by_contra hc
        have := hi.below (by simpa using hc) hout
        omega
      show (dogStep (realOps solve resid jac put get) opt (run (realOps solve resid jac put get) opt w0 i)).1 = _
      generalize run (realOps solve resid jac put get) opt w0 i = c at hout hd
      obtain ⟨pc, s⟩ := c
      cases hout
      show (if s.done = true then _ else _ : PC × RState n m W).1 = _
      rw [if_pos hd]
    | succ b ih =>
      intro i hout hb
      have hi := dogInv_run (realOps solve resid jac put get) opt w0 hput (i + 1)
      have e1 : run (realOps solve resid jac put get) opt w0 (i + 1) =
        dogStep (realOps solve resid jac put get) opt (run (realOps solve resid jac put get) opt w0 i) := rfl
      have hit := run_iterate (realOps solve resid jac put get) opt w0 (i + 1)
      generalize run (realOps solve resid jac put get) opt w0 i = c at hout hb e1
      obtain ⟨pc, s⟩ := c
      cases hout
      have e2 : dogStep (realOps solve resid jac put get) opt (.outer, s) =
        if s.done = true then (PC.halt, s) else (PC.inner, startIteration (realOps solve resid jac put get) s) := rfl
      by_cases hd : s.done = true
      · refine ⟨i + 1, ?_⟩
        rw [e1, e2, if_pos hd]
      · rw [if_neg hd] at e2
        rw [e2] at e1
        rw [e1] at hi hit
        obtain ⟨k, hk1, hk2⟩ := inner_to_outer solve resid jac put get opt hput hi
          (accepts_small solve resid jac put get opt he1 he2 f hres hjac hgp hput hi)
        apply ih (i + 1 + k)
        · rw [hit k]; exact hk1
        · rw [hit k, hk2]
          show _ ≤ s.iteration + 1 + b
          have hb' : max 1 opt.maxiter ≤ s.iteration + (b + 1) := hb
          omega
  exact main (max 1 opt.maxiter) 0 rfl (by omega)

/-- **C50** (inner loop, exact arithmetic, any objective): when the parameters are not all zero and `e_2` is positive, the
inner loop ends after finitely many turns, whatever the objective, the Jacobian and the solver are. -/
theorem C50_inner_loop_ends_partial (hput : ∀ u v w, put u (put v w) = put u w) (opt : DogOpts ℝ) (he2 : 0 < opt.e2) (w0 : W) (i : ℕ)
    (s : RState n m W) (h : run (realOps solve resid jac put get) opt w0 i = (.inner, s)) (hp : s.p ≠ 0) :
    ∃ k, (run (realOps solve resid jac put get) opt w0 (i + k)).1 = .outer := by
  have hi := dogInv_run (realOps solve resid jac put get) opt w0 hput i
  rw [h] at hi
  obtain ⟨k, hk, -⟩ := inner_to_outer solve resid jac put get opt hput hi (stops_small solve resid jac put get opt he2 hput hp)
  exact ⟨k, by rw [run_iterate, h]; exact hk⟩

end

/-! ### The hypotheses are met -/

/-- There is an exact solver: the normal equations always have a solution. -/
theorem exact_solver (n m : ℕ) : ∃ solve : (RVec n →L[ℝ] RVec n) → RVec n → RVec n, ∀ (J : RVec n →L[ℝ] RVec m) (r : RVec m),
    (J.adjoint ∘L J) (solve (J.adjoint ∘L J) (J.adjoint (-r))) = J.adjoint (-r) := by
  classical
  refine ⟨fun A g => if h : ∃ x, A x = g then h.choose else 0, fun J r => ?_⟩
  have h : ∃ x, (J.adjoint ∘L J) x = J.adjoint (-r) := by
    obtain ⟨y, hy, z, hz, e⟩ := (LinearMap.range J.toLinearMap).exists_add_mem_mem_orthogonal (-r)
    obtain ⟨x, rfl⟩ := hy
    refine ⟨x, ?_⟩
    rw [e, map_add]
    have : J.adjoint z = 0 := by
      rw [← inner_self_eq_zero (𝕜 := ℝ), ContinuousLinearMap.adjoint_inner_left]
      rw [real_inner_comm]
      exact hz _ ⟨_, rfl⟩
    rw [this, add_zero]
    rfl
  simp only [dif_pos h]
  exact h.choose_spec

/-- Minimising any differentiable objective of a single free variable, in exact arithmetic, with an exact solver and the
default options: the improvements predicted are positive and the method returns. -/
example {n m : ℕ} (f : RVec n → RVec m) (f' : RVec n → RVec n →L[ℝ] RVec m) (hf : ∀ x, HasFDerivAt f (f' x) x) (x0 : RVec n) :
    ∃ solve, (∃ k, (Dog.run (realOps solve f f' (fun v _ => v) id) ⟨200, none, 1 / 10 ^ 15, 1 / 10 ^ 15, 0, none⟩ x0 k).1 = .halt) ∧
      ∀ k s, Dog.run (realOps solve f f' (fun v _ => v) id) ⟨200, none, 1 / 10 ^ 15, 1 / 10 ^ 15, 0, none⟩ x0 k = (.inner, s) →
        0 < predicted (realOps solve f f' (fun v _ => v) id) (updateStep (realOps solve f f' (fun v _ => v) id) s) := by
  obtain ⟨solve, hs⟩ := exact_solver n m
  refine ⟨solve, ?_, ?_⟩
  · exact C50_terminates_partial solve f f' (fun v _ => v) id f (fun _ => rfl) hf (fun _ _ => rfl) (fun _ _ _ => rfl) _
      (by norm_num) (by norm_num) x0
  · intro k s h
    exact C49_predicted_improvement_positive solve f f' (fun v _ => v) id (fun _ _ _ => rfl) hs _ (by norm_num) (by norm_num)
      (by intro d hd; cases hd) x0 k s h

/-- Minimising `x - 1` from `x = 0` is an accepted step: the run is not trivial.  Its first turn enters the inner loop. -/
example : ∃ s, Dog.run (realOps (n := 1) (m := 1) (fun _ g => g) (fun x => x - EuclideanSpace.single 0 1) (fun _ => ContinuousLinearMap.id ℝ _)
    (fun v _ => v) id) ⟨200, none, 1 / 10 ^ 15, 1 / 10 ^ 15, 0, none⟩ 0 1 = (.inner, s) := by
  generalize ho : realOps (n := 1) (m := 1) (fun _ g => g) (fun x => x - EuclideanSpace.single 0 1) (fun _ => ContinuousLinearMap.id ℝ _)
    (fun v _ => v) id = o
  generalize hopt : (⟨200, none, 1 / 10 ^ 15, 1 / 10 ^ 15, 0, none⟩ : DogOpts ℝ) = opt
  refine ⟨startIteration o (init o opt 0), ?_⟩
  show (if (init o opt 0).done = true then _ else _) = _
  rw [if_neg]
  unfold init checkGradient
  dsimp only
  rw [if_neg]
  · simp
  · intro hc
    rw [← ho, ← hopt] at hc
    have hc' := of_decide_eq_true hc
    simp [realOps, ContinuousLinearMap.adjoint_id] at hc'
    have hn := norm_le_pi_norm (Pi.single 0 1 : Fin 1 → ℝ) 0
    rw [Pi.single_eq_same, norm_one] at hn
    norm_num at hc'
    linarith

/-- A radius between the lengths of the Cauchy step (1) and of the Gauss-Newton step (3). -/
example (s : RState 1 1 Unit) (h1 : s.dsd = EuclideanSpace.single 0 1) (h2 : s.dgn = some (EuclideanSpace.single 0 3))
    (h3 : s.delta = some 2) : ‖(updateStep (realOps (fun _ g => g) (fun _ => 0) (fun _ => 0) (fun _ w => w) (fun _ => 0)) s).ddl‖ = 2 := by
  refine (C48_interpolated_step_on_boundary _ _ _ _ _ s 2 h3 ?_ ?_).1
  · rw [h1]; simp
  · rw [h2]; simp; norm_num

/-! ### NaN -/

/-- The arithmetic with infinities and NaN satisfies what C46 and C47 need. -/
theorem xfOps_laws (resid jac : XF → XF) : DogLaws (xfOps resid jac) where
  pos a b h := by
    cases a <;> cases b <;> simp_all [xfOps, XF.lt, XF.sub, XF.add, XF.neg]
  trans a b c h1 h2 := by
    cases a <;> cases b <;> cases c <;> simp_all [xfOps, XF.lt]
    exact lt_trans h1 h2
  put _ _ _ := rfl

/-- C50 in full, for floating-point objectives, in the simplest case: one free variable with one entry, an objective with one
entry, positive thresholds, no limit on the number of evaluations, the default radius. -/
def C50_full : Prop := ∀ (resid jac : XF → XF) (e1 e2 : ℝ), 0 < e1 → e1 < 1 → 0 < e2 → e2 < 1 → ∀ w0 : XF,
  ∃ k, (Dog.run (xfOps resid jac) ⟨200, none, .fin e1, .fin e2, .fin 0, none⟩ w0 k).1 = .halt

/-- `ch.sqrt(2 * x - 1)`. -/
noncomputable def rootObj (x : XF) : XF := XF.sqrt (XF.sub (XF.mul (.fin 2) x) (.fin 1))
/-- Its derivative, `1 / sqrt(2 * x - 1)`. -/
noncomputable def rootJac (x : XF) : XF := XF.div (.fin 1) (rootObj x)

/-- What the inner loop repeats: at `x = 1` the step is -1, and `sqrt(-1)` is NaN. -/
structure Stuck (s : DogState XF XF XF XF XF XF) : Prop where
  A : s.A = .fin 1
  g : s.g = .fin (-1)
  p : s.p = .fin 1
  r : s.r = .fin 1
  dsd : s.dsd = .fin (-1)
  delta : s.delta = none ∨ s.delta = some (.fin 1)
  dgn : s.dgn = none ∨ s.dgn = some (.fin (-1))
  done : s.done = false

theorem stuck_step (e1 e2 : ℝ) (h2 : e2 < 1) {s : DogState XF XF XF XF XF XF} (hs : Stuck s) :
    ∃ t, Dog.dogStep (xfOps rootObj rootJac) ⟨200, none, .fin e1, .fin e2, .fin 0, none⟩ (.inner, s) = (.inner, t) ∧ Stuck t := by
  have hg : s.dgn.getD (XF.div s.g s.A) = .fin (-1) := by
    rcases hs.dgn with h | h
    · rw [h, hs.g, hs.A]; simp [XF.div]
    · rw [h]; rfl
  -- the step
  have hu : ∃ u, updateStep (xfOps rootObj rootJac) s = u ∧ u.ddl = .fin (-1) ∧ u.delta = some (.fin 1) ∧
      (u.dgn = none ∨ u.dgn = some (.fin (-1))) ∧ Same s u ∧ u.done = false := by
    refine ⟨_, rfl, ?_, ?_, ?_, updateStep_same _ s, by rw [(updateStep_done _ s).1]; exact hs.done⟩ <;>
    · unfold updateStep
      rcases hs.delta with h | h
      · rw [h]
        simp only [updateStepGN, h]
        simp [xfOps, hg, XF.abs]
      · rw [h]
        simp [xfOps, hs.dsd, XF.abs, XF.le, XF.div, XF.mul, hs.dgn]
  obtain ⟨u, hu, hddl, hdel, hdgn, hsame, hdone⟩ := hu
  have hup : u.p = .fin 1 := hsame.p.trans hs.p
  have hur : u.r = .fin 1 := hsame.r.trans hs.r
  -- the trial
  have hres : rootObj (XF.add u.p u.ddl) = .nan := by
    rw [hup, hddl]
    simp [rootObj, XF.add, XF.mul, XF.sub, XF.neg, XF.sqrt]
  have hrho : rho (xfOps rootObj rootJac) u .nan = .nan := by
    unfold rho
    rw [hur]
    simp [xfOps, Dog.sq, XF.abs, XF.mul, XF.sub, XF.neg, XF.add, XF.lt]
  have him : isImprovement (xfOps rootObj rootJac) u .nan = false := by
    unfold isImprovement
    rw [hrho]
    simp [xfOps, XF.lt]
  have hbody : innerBody (xfOps rootObj rootJac) ⟨200, none, .fin e1, .fin e2, .fin 0, none⟩ s =
      ({ u with fevals := u.fevals + 1, world := .fin 1 }, false) := by
    unfold innerBody
    rw [hu]
    have hsmall : ¬ (xfOps rootObj rootJac).le ((xfOps rootObj rootJac).norm u.ddl)
        ((xfOps rootObj rootJac).mul (.fin e2) ((xfOps rootObj rootJac).norm u.p)) = true := by
      rw [hddl, hup]
      simpa [xfOps, XF.abs, XF.mul, XF.le] using h2
    dsimp only
    rw [if_neg hsmall]
    unfold trial
    have hres' : (xfOps rootObj rootJac).resid ((xfOps rootObj rootJac).put ((xfOps rootObj rootJac).vadd u.p u.ddl) u.world) = .nan := hres
    dsimp only
    rw [hres', him, hrho]
    have hrad : ∀ v : DogState XF XF XF XF XF XF, updateRadius (xfOps rootObj rootJac) .nan v = v := by
      intro v
      unfold updateRadius
      split
      · rfl
      · simp [xfOps, XF.lt]
    rw [hrad]
    have hrej : (if false = true then accept (xfOps rootObj rootJac) ⟨200, none, .fin e1, .fin e2, .fin 0, none⟩
          ((xfOps rootObj rootJac).put ((xfOps rootObj rootJac).vadd u.p u.ddl) u.world) .nan { u with fevals := u.fevals + 1 }
        else reject (xfOps rootObj rootJac) ((xfOps rootObj rootJac).put ((xfOps rootObj rootJac).vadd u.p u.ddl) u.world)
          { u with fevals := u.fevals + 1 }) = { u with fevals := u.fevals + 1, world := .fin 1 } := by
      rw [if_neg (by simp)]
      unfold reject
      simp [xfOps, hup]
    rw [hrej]
    unfold checkRadius
    dsimp only
    rw [hdel]
    dsimp only
    rw [if_neg]
    rw [hup]
    simpa [xfOps, XF.abs, XF.mul, XF.le] using h2
  refine ⟨{ u with fevals := u.fevals + 1, world := .fin 1 }, ?_, ?_⟩
  · unfold dogStep
    dsimp only
    rw [hbody]
    dsimp only
    rw [if_neg]
    simp [hdone, spent]
  · exact ⟨hsame.A.trans hs.A, hsame.g.trans hs.g, hup, hur, hsame.dsd.trans hs.dsd, .inr hdel, hdgn, hdone⟩

/-- **C50 does not hold** for objectives which return NaN: minimising `ch.sqrt(2*x - 1)` from `x = 1` with the default options
never returns.  The Gauss-Newton step leads to `x = 0`, where the objective is NaN; the trial is not an improvement, and
since a comparison with NaN is false, `updateRadius` leaves the radius as it is. -/
theorem C50_full_refuted : ¬ C50_full := by
  intro hfull
  obtain ⟨k, hk⟩ := hfull rootObj rootJac (1 / 2) (1 / 2) (by norm_num) (by norm_num) (by norm_num) (by norm_num) (.fin 1)
  have hr1 : rootObj (.fin 1) = .fin 1 := by
    have : ¬ (2 * 1 + -1 : ℝ) < 0 := by norm_num
    simp only [rootObj, XF.mul, XF.sub, XF.neg, XF.add, XF.sqrt]
    rw [if_neg this]
    norm_num
  have hj1 : rootJac (.fin 1) = .fin 1 := by
    unfold rootJac
    rw [hr1]
    simp [XF.div]
  have hinit : init (xfOps rootObj rootJac) ⟨200, none, .fin (1 / 2), .fin (1 / 2), .fin 0, none⟩ (.fin 1) =
      { iteration := 0, dgn := none, dsd := .fin 1, ddl := .fin 1, J := .fin 1, A := .fin 1, g := .fin (-1), p := .fin 1, delta := none,
        r := .fin 1, done := false, fevals := 1, world := .fin 1, calls := [.fin 1] } := by
    unfold init checkGradient
    have e : (2 : ℝ)⁻¹ < 1 := by norm_num
    simp [xfOps, hr1, hj1, XF.mul, XF.neg, XF.abs, XF.lt]
    norm_num
  have hall : ∀ i, ∃ t, Dog.run (xfOps rootObj rootJac) ⟨200, none, .fin (1 / 2), .fin (1 / 2), .fin 0, none⟩ (.fin 1) (i + 1) = (.inner, t) ∧
      Stuck t := by
    intro i
    induction i with
    | zero =>
      refine ⟨_, by
        show dogStep _ _ (PC.outer, init _ _ _) = (PC.inner, _)
        rw [hinit]
        rfl, ?_⟩
      refine ⟨rfl, rfl, rfl, rfl, ?_, .inl rfl, .inl rfl, rfl⟩
      simp [startIteration, xfOps, Dog.sq, XF.abs, XF.mul, XF.div]
    | succ i ih =>
      obtain ⟨t, ht, hst⟩ := ih
      obtain ⟨t', ht', hst'⟩ := stuck_step (1 / 2) (1 / 2) (by norm_num) hst
      refine ⟨t', ?_, hst'⟩
      show dogStep _ _ (Dog.run _ _ _ (i + 1)) = _
      rw [ht, ht']
  obtain ⟨t, ht, -⟩ := hall k
  have : (Dog.run (xfOps rootObj rootJac) ⟨200, none, .fin (1 / 2), .fin (1 / 2), .fin 0, none⟩ (.fin 1) (k + 1)).1 = .halt := by
    rw [run_halt _ _ hk 1]; exact hk
  rw [ht] at this
  cases this

end Chumpy
