import Mathlib.Analysis.InnerProductSpace.Calculus
import Mathlib.Analysis.Calculus.Deriv.Slope
import Mathlib.Analysis.SpecificLimits.Basic
import Verif.Opt.Real
import Verif.Properties.Dogleg
/-!
# The dogleg method in exact arithmetic (C46, C48, C49, C50)
-/
namespace Chumpy
open Dog

section
variable {n m : ℕ} {W : Type} (solve : (RVec n →L[ℝ] RVec n) → RVec n → RVec n) (resid : W → RVec m)
  (jac : W → RVec n →L[ℝ] RVec m) (put : RVec n → W → W) (get : W → RVec n)

/-- The states of a run in exact arithmetic. -/
abbrev RState (n m : ℕ) (W : Type) := DogState ℝ (RVec n) (RVec m) (RVec n →L[ℝ] RVec m) (RVec n →L[ℝ] RVec n) W

theorem realOps_laws (hput : ∀ u v w, put u (put v w) = put u w) : DogLaws (realOps solve resid jac put get) where
  pos a b h := by
    have h' : (0 : ℝ) < a - b := of_decide_eq_true h
    exact decide_eq_true (by linarith : b < a)
  trans a b c h1 h2 := decide_eq_true (lt_trans (of_decide_eq_true h1) (of_decide_eq_true h2))
  put := hput

/-- **C46** in exact arithmetic: the sums of squares seen by the callback decrease, and at any time, in particular when the
method returns, the sum of squares at the free variables is at most what it was when it was called. -/
theorem C46_dogleg_accepts_improvements_real (hput : ∀ u v w, put u (put v w) = put u w) (hget : ∀ w, put (get w) w = w)
    (opt : DogOpts ℝ) (w0 : W) (k : ℕ) :
    (run (realOps solve resid jac put get) opt w0 k).2.calls.Pairwise (fun new old => ‖resid new‖ ^ 2 < ‖resid old‖ ^ 2) ∧
    ‖resid (run (realOps solve resid jac put get) opt w0 k).2.world‖ ^ 2 ≤ ‖resid w0‖ ^ 2 := by
  obtain ⟨h1, h2⟩ := C46_dogleg_accepts_improvements _ (realOps_laws solve resid jac put get hput) opt w0 k
  refine ⟨h1.imp ?_, ?_⟩
  · intro a b h
    have : ‖resid a‖ * ‖resid a‖ < ‖resid b‖ * ‖resid b‖ := of_decide_eq_true h
    rw [pow_two, pow_two]; exact this
  · rcases h2 with h2 | h2
    · rw [h2]
      show ‖resid (put (get w0) w0)‖ ^ 2 ≤ _
      rw [hget]
    · have : ‖resid (run (realOps solve resid jac put get) opt w0 k).2.world‖ *
          ‖resid (run (realOps solve resid jac put get) opt w0 k).2.world‖ <
          ‖resid (put (get w0) w0)‖ * ‖resid (put (get w0) w0)‖ := of_decide_eq_true h2
      rw [hget] at this
      rw [pow_two, pow_two]; exact this.le

/-! ### C48: the steps -/

/-- The step proposed, in exact arithmetic: case by case. -/
theorem step_stunted {s : RState n m W} {d : ℝ} (hs : s.delta = some d) (h : d ≤ ‖s.dsd‖) :
    updateStep (realOps solve resid jac put get) s = { s with ddl := (d / ‖s.dsd‖) • s.dsd } := by
  have h' : (realOps solve resid jac put get).le d ((realOps solve resid jac put get).norm s.dsd) = true := decide_eq_true h
  unfold updateStep
  rw [hs]
  dsimp only
  rw [if_pos h']
  rw [← hs]
  rfl

theorem step_gn {s : RState n m W} {d : ℝ} (hs : s.delta = some d) (h : ‖s.dsd‖ < d) (hg : ‖s.dgn.getD (solve s.A s.g)‖ ≤ d) :
    updateStep (realOps solve resid jac put get) s =
      { s with dgn := some (s.dgn.getD (solve s.A s.g)), ddl := s.dgn.getD (solve s.A s.g) } := by
  have h' : ¬ (realOps solve resid jac put get).le d ((realOps solve resid jac put get).norm s.dsd) = true :=
    fun hc => absurd (of_decide_eq_true hc : d ≤ ‖s.dsd‖) (not_le.2 h)
  have h2 : (realOps solve resid jac put get).le
      ((realOps solve resid jac put get).norm (s.dgn.getD ((realOps solve resid jac put get).solve s.A s.g))) d = true := decide_eq_true hg
  unfold updateStep
  rw [hs]
  dsimp only
  rw [if_neg h']
  unfold updateStepGN
  rw [hs]
  dsimp only
  rw [if_pos h2]
  rw [← hs]
  rfl

theorem step_between {s : RState n m W} {d : ℝ} (hs : s.delta = some d) (h : ‖s.dsd‖ < d) (hg : d < ‖s.dgn.getD (solve s.A s.g)‖) :
    updateStep (realOps solve resid jac put get) s =
      { s with dgn := some (s.dgn.getD (solve s.A s.g)),
               ddl := s.dsd + rbeta d (s.dgn.getD (solve s.A s.g)) s.dsd • (s.dgn.getD (solve s.A s.g) - s.dsd) } := by
  have h' : ¬ (realOps solve resid jac put get).le d ((realOps solve resid jac put get).norm s.dsd) = true :=
    fun hc => absurd (of_decide_eq_true hc : d ≤ ‖s.dsd‖) (not_le.2 h)
  have h2 : ¬ (realOps solve resid jac put get).le
      ((realOps solve resid jac put get).norm (s.dgn.getD ((realOps solve resid jac put get).solve s.A s.g))) d = true :=
    fun hc => absurd (of_decide_eq_true hc : ‖s.dgn.getD (solve s.A s.g)‖ ≤ d) (not_le.2 hg)
  unfold updateStep
  rw [hs]
  dsimp only
  rw [if_neg h']
  unfold updateStepGN
  rw [hs]
  dsimp only
  rw [if_neg h2]
  rw [← hs]
  rfl

theorem step_first {s : RState n m W} (hs : s.delta = none) :
    updateStep (realOps solve resid jac put get) s =
      { s with dgn := some (s.dgn.getD (solve s.A s.g)), ddl := s.dgn.getD (solve s.A s.g),
               delta := some ‖s.dgn.getD (solve s.A s.g)‖ } := by
  unfold updateStep
  rw [hs]
  dsimp only
  unfold updateStepGN
  rw [hs]
  rfl

/-- **C48**: whatever the Cauchy step, the Gauss-Newton step and the radius (not negative, or not yet set, in which case the
step sets it), the step proposed is at most as long as the radius. -/
theorem C48_step_within_radius (s : RState n m W) (hd : ∀ d, s.delta = some d → 0 ≤ d) :
    ∃ d, (updateStep (realOps solve resid jac put get) s).delta = some d ∧
      (∀ e, s.delta = some e → e = d) ∧ ‖(updateStep (realOps solve resid jac put get) s).ddl‖ ≤ d := by
  cases hs : s.delta with
  | none =>
    rw [step_first solve resid jac put get hs]
    exact ⟨_, rfl, (by intro e he; cases he), le_rfl⟩
  | some d =>
    have hd0 := hd d hs
    by_cases h1 : d ≤ ‖s.dsd‖
    · rw [step_stunted solve resid jac put get hs h1]
      refine ⟨d, hs, (by intro e he; cases he; rfl), ?_⟩
      show ‖(d / ‖s.dsd‖) • s.dsd‖ ≤ d
      rw [norm_smul, Real.norm_of_nonneg (div_nonneg hd0 (norm_nonneg _))]
      rcases eq_or_ne ‖s.dsd‖ 0 with h0 | h0
      · rw [h0, mul_zero]; exact hd0
      · rw [div_mul_cancel₀ _ h0]
    · have h1' := not_le.1 h1
      by_cases h2 : ‖s.dgn.getD (solve s.A s.g)‖ ≤ d
      · rw [step_gn solve resid jac put get hs h1' h2]
        exact ⟨d, hs, (by intro e he; cases he; rfl), h2⟩
      · rw [step_between solve resid jac put get hs h1' (not_le.1 h2)]
        exact ⟨d, hs, (by intro e he; cases he; rfl), (rbeta_spec h1' (not_le.1 h2)).2.2.le⟩

/-- **C48**: when the radius lies between the lengths of the Cauchy step and of the Gauss-Newton step, the step proposed is on
the segment from the one to the other, and exactly as long as the radius. -/
theorem C48_interpolated_step_on_boundary (s : RState n m W) (d : ℝ) (hd : s.delta = some d) (h1 : ‖s.dsd‖ < d)
    (h2 : d < ‖s.dgn.getD (solve s.A s.g)‖) :
    ‖(updateStep (realOps solve resid jac put get) s).ddl‖ = d ∧
    ∃ t : ℝ, 0 < t ∧ t < 1 ∧
      (updateStep (realOps solve resid jac put get) s).ddl = s.dsd + t • (s.dgn.getD (solve s.A s.g) - s.dsd) := by
  rw [step_between solve resid jac put get hd h1 h2]
  have h := rbeta_spec h1 h2
  exact ⟨h.2.2, rbeta d (s.dgn.getD (solve s.A s.g)) s.dsd, h.1, h.2.1, rfl⟩

/-! ### C49: the predicted improvement -/

/-- While the method runs the radius, once set, is positive. -/
theorem radius_pos (opt : DogOpts ℝ) (he2 : 0 ≤ opt.e2)
    (hd0 : ∀ d, opt.delta0 = some d → 0 < d) (w0 : W) (k : ℕ)
    (hl : (run (realOps solve resid jac put get) opt w0 k).2.done = false) (d : ℝ)
    (hd : (run (realOps solve resid jac put get) opt w0 k).2.delta = some d) : 0 < d := by
  induction k generalizing d with
  | zero =>
    apply hd0
    rw [← hd]
    show _ = (init (realOps solve resid jac put get) opt w0).delta
    unfold init checkGradient
    dsimp only
    split <;> rfl
  | succ k ih =>
    have e : run (realOps solve resid jac put get) opt w0 (k + 1) =
      dogStep (realOps solve resid jac put get) opt (run (realOps solve resid jac put get) opt w0 k) := rfl
    rw [e] at hl hd
    generalize run (realOps solve resid jac put get) opt w0 k = c at hl hd ih
    obtain ⟨pc, s⟩ := c
    cases pc with
    | halt => exact ih hl d hd
    | outer =>
      have e2 : dogStep (realOps solve resid jac put get) opt (.outer, s) =
        if s.done = true then (PC.halt, s) else (PC.inner, startIteration (realOps solve resid jac put get) s) := rfl
      rw [e2] at hl hd
      split at hl
      · rename_i h; rw [if_pos h] at hd; exact ih hl d hd
      · rename_i h; rw [if_neg h] at hd; exact ih hl d hd
    | inner =>
      have key : ∀ t, t = (innerBody (realOps solve resid jac put get) opt s).1 → t.done = false → t.delta = some d → 0 < d := by
        intro t ht h1 h2
        subst ht
        have := innerBody_radius (realOps solve resid jac put get) opt h1 d h2
        have h3 : ¬ d ≤ opt.e2 * ‖(innerBody (realOps solve resid jac put get) opt s).1.p‖ := of_decide_eq_false this
        have := mul_nonneg he2 (norm_nonneg (innerBody (realOps solve resid jac put get) opt s).1.p)
        linarith [not_le.1 h3]
      have e2 : dogStep (realOps solve resid jac put get) opt (.inner, s) =
        if ((innerBody (realOps solve resid jac put get) opt s).1.done || (innerBody (realOps solve resid jac put get) opt s).2 ||
          spent opt (innerBody (realOps solve resid jac put get) opt s).1) = true then
        (PC.outer, afterInner opt (innerBody (realOps solve resid jac put get) opt s).1)
        else (PC.inner, (innerBody (realOps solve resid jac put get) opt s).1) := rfl
      rw [e2] at hl hd
      split at hl
      · rename_i h
        rw [if_pos h] at hd
        rcases afterInner_eq opt (innerBody (realOps solve resid jac put get) opt s).1 with h' | h'
        · rw [h'] at hl hd; exact key _ rfl hl hd
        · rw [h'] at hl; cases hl
      · rename_i h
        rw [if_neg h] at hd
        exact key _ rfl hl hd

/-- What holds at the head of the inner loop, in exact arithmetic. -/
theorem inner_facts (opt : DogOpts ℝ) (he1 : 0 < opt.e1) {w0 : W} {s : RState n m W}
    (hi : DogInv (realOps solve resid jac put get) opt w0 (.inner, s)) :
    s.r = resid s.world ∧ s.J = jac s.world ∧ s.A = s.J.adjoint ∘L s.J ∧ s.g = s.J.adjoint (-s.r) ∧ s.g ≠ 0 ∧
    s.dsd = ((‖s.g‖ * ‖s.g‖) / (‖s.J s.g‖ * ‖s.J s.g‖)) • s.g ∧ s.dsd ≠ 0 := by
  have hd := hi.live rfl
  have hg : s.g = s.J.adjoint (-s.r) := hi.grad hd
  have hg0 : s.g ≠ 0 := by
    intro h
    have h1 := hi.steep hd
    have h2 : ¬ ‖(WithLp.ofLp s.g : Fin n → ℝ)‖ < opt.e1 := of_decide_eq_false h1
    rw [h] at h2
    apply h2
    simpa using he1
  have hsd : s.dsd = ((‖s.g‖ * ‖s.g‖) / (‖s.J s.g‖ * ‖s.J s.g‖)) • s.g := hi.cauchy rfl
  refine ⟨hi.resid hd, hi.jac hd, hi.gram hd, hg, hg0, hsd, ?_⟩
  rw [hsd]
  have hJ := jac_grad_ne s.J s.r hg hg0
  refine smul_ne_zero (ne_of_gt (div_pos (mul_pos (norm_pos_iff.2 hg0) (norm_pos_iff.2 hg0))
    (mul_pos (norm_pos_iff.2 hJ) (norm_pos_iff.2 hJ)))) hg0

/-- A step to the edge of the trust region along the Cauchy step. -/
theorem stunted_eq {n m : ℕ} {g dsd : RVec n} {J : RVec n →L[ℝ] RVec m} {d : ℝ} (hg : g ≠ 0) (hJ : J g ≠ 0) (hd : 0 < d)
    (hsd : dsd = ((‖g‖ * ‖g‖) / (‖J g‖ * ‖J g‖)) • g) (hle : d ≤ ‖dsd‖) :
    (d / ‖dsd‖) • dsd = (d / ‖g‖) • g ∧ d / ‖g‖ ≤ (‖g‖ * ‖g‖) / (‖J g‖ * ‖J g‖) := by
  have hgp := norm_pos_iff.2 hg
  have hJp := norm_pos_iff.2 hJ
  have hα : 0 < (‖g‖ * ‖g‖) / (‖J g‖ * ‖J g‖) := div_pos (mul_pos hgp hgp) (mul_pos hJp hJp)
  have hn : ‖dsd‖ = (‖g‖ * ‖g‖) / (‖J g‖ * ‖J g‖) * ‖g‖ := by
    rw [hsd, norm_smul, Real.norm_of_nonneg hα.le]
  constructor
  · rw [hn]
    conv_lhs => rw [hsd]
    rw [smul_smul]
    congr 1
    field_simp
  · rw [div_le_iff₀ hgp, ← hn]
    exact hle

/-- **C49**: with an exact solver and a positive threshold on the gradient, the improvement predicted for the step is positive,
at every turn of the inner loop of every run. -/
theorem C49_predicted_improvement_positive (hput : ∀ u v w, put u (put v w) = put u w)
    (hsolve : ∀ (J : RVec n →L[ℝ] RVec m) (r : RVec m),
      (J.adjoint ∘L J) (solve (J.adjoint ∘L J) (J.adjoint (-r))) = J.adjoint (-r))
    (opt : DogOpts ℝ) (he1 : 0 < opt.e1) (he2 : 0 ≤ opt.e2) (hd0 : ∀ d, opt.delta0 = some d → 0 < d) (w0 : W) (k : ℕ)
    (s : RState n m W) (h : run (realOps solve resid jac put get) opt w0 k = (.inner, s)) :
    0 < predicted (realOps solve resid jac put get) (updateStep (realOps solve resid jac put get) s) := by
  have hi := dogInv_run (realOps solve resid jac put get) opt w0 hput k
  have hdg := dgn_run (realOps solve resid jac put get) opt w0 hput k s h
  rw [h] at hi
  obtain ⟨-, -, hA, hg, hg0, hsd, hsd0⟩ := inner_facts solve resid jac put get opt he1 hi
  have hss := updateStep_same (realOps solve resid jac put get) s
  have hpred : predicted (realOps solve resid jac put get) (updateStep (realOps solve resid jac put get) s) =
      model s.J s.r (updateStep (realOps solve resid jac put get) s).ddl := by
    unfold predicted
    rw [hss.g, hss.A, hA, hg]
    rfl
  rw [hpred]
  have hgn : s.dgn.getD (solve s.A s.g) = solve s.A s.g := by
    cases hc : s.dgn with
    | none => rfl
    | some v => exact hdg v hc
  obtain ⟨gn, hgndef⟩ : ∃ gn, gn = solve s.A s.g := ⟨_, rfl⟩
  have hex : (s.J.adjoint ∘L s.J) gn = s.J.adjoint (-s.r) := by
    rw [hgndef, hA, hg]; exact hsolve _ _
  have hJgn : s.J gn ≠ 0 := by
    intro hc
    rw [ContinuousLinearMap.comp_apply, hc, map_zero] at hex
    exact hg0 (by rw [hg, ← hex])
  have hJg := jac_grad_ne s.J s.r hg hg0
  have hmgn : 0 < model s.J s.r gn := by
    rw [model_gn s.J s.r hex, sub_self, map_zero, norm_zero]
    have := mul_pos (norm_pos_iff.2 hJgn) (norm_pos_iff.2 hJgn)
    linarith
  cases hs : s.delta with
  | none =>
    rw [step_first solve resid jac put get hs]
    show 0 < model s.J s.r (s.dgn.getD (solve s.A s.g))
    rw [hgn, ← hgndef]
    exact hmgn
  | some d =>
    have hdpos : 0 < d := by
      apply radius_pos solve resid jac put get opt he2 hd0 w0 k
      · rw [h]; exact hi.live rfl
      · rw [h]; exact hs
    by_cases h1 : d ≤ ‖s.dsd‖
    · rw [step_stunted solve resid jac put get hs h1]
      show 0 < model s.J s.r ((d / ‖s.dsd‖) • s.dsd)
      obtain ⟨e1, e2⟩ := stunted_eq hg0 hJg hdpos hsd h1
      rw [e1]
      exact model_cauchy s.J s.r hg hg0 (div_pos hdpos (norm_pos_iff.2 hg0)) e2
    · have h1' := not_le.1 h1
      by_cases h2 : ‖s.dgn.getD (solve s.A s.g)‖ ≤ d
      · rw [step_gn solve resid jac put get hs h1' h2]
        show 0 < model s.J s.r (s.dgn.getD (solve s.A s.g))
        rw [hgn, ← hgndef]
        exact hmgn
      · rw [step_between solve resid jac put get hs h1' (not_le.1 h2)]
        have hb := rbeta_spec h1' (not_le.1 h2)
        show 0 < model s.J s.r (s.dsd + rbeta d (s.dgn.getD (solve s.A s.g)) s.dsd • (s.dgn.getD (solve s.A s.g) - s.dsd))
        rw [hgn, ← hgndef] at hb ⊢
        refine model_between s.J s.r hex hJgn ?_ hb.1 hb.2.1.le
        rw [hsd]
        exact model_cauchy s.J s.r hg hg0 (div_pos (mul_pos (norm_pos_iff.2 hg0) (norm_pos_iff.2 hg0))
          (mul_pos (norm_pos_iff.2 hJg) (norm_pos_iff.2 hJg))) le_rfl

/-- With an exact solver, a trial is accepted exactly when it makes the sum of squares smaller. -/
theorem C49_accepts_exactly_the_decreases (hput : ∀ u v w, put u (put v w) = put u w)
    (hsolve : ∀ (J : RVec n →L[ℝ] RVec m) (r : RVec m),
      (J.adjoint ∘L J) (solve (J.adjoint ∘L J) (J.adjoint (-r))) = J.adjoint (-r))
    (opt : DogOpts ℝ) (he1 : 0 < opt.e1) (he2 : 0 ≤ opt.e2) (hd0 : ∀ d, opt.delta0 = some d → 0 < d) (w0 : W) (k : ℕ)
    (s : RState n m W) (h : run (realOps solve resid jac put get) opt w0 k = (.inner, s)) (r' : RVec m) :
    isImprovement (realOps solve resid jac put get) (updateStep (realOps solve resid jac put get) s) r' = true ↔
      ‖r'‖ ^ 2 < ‖resid s.world‖ ^ 2 := by
  have hp := C49_predicted_improvement_positive solve resid jac put get hput hsolve opt he1 he2 hd0 w0 k s h
  have hi := dogInv_run (realOps solve resid jac put get) opt w0 hput k
  rw [h] at hi
  have hr : (updateStep (realOps solve resid jac put get) s).r = resid s.world := by
    rw [(updateStep_same (realOps solve resid jac put get) s).r]; exact hi.resid (hi.live rfl)
  have hx : rho (realOps solve resid jac put get) (updateStep (realOps solve resid jac put get) s) r' =
      if 0 < ‖resid s.world‖ * ‖resid s.world‖ - ‖r'‖ * ‖r'‖ then
        (‖resid s.world‖ * ‖resid s.world‖ - ‖r'‖ * ‖r'‖) /
          predicted (realOps solve resid jac put get) (updateStep (realOps solve resid jac put get) s)
      else ‖resid s.world‖ * ‖resid s.world‖ - ‖r'‖ * ‖r'‖ := by
    unfold rho
    rw [hr]
    exact if_congr decide_eq_true_iff rfl rfl
  unfold isImprovement
  rw [hx, pow_two, pow_two]
  by_cases hlt : 0 < ‖resid s.world‖ * ‖resid s.world‖ - ‖r'‖ * ‖r'‖
  · rw [if_pos hlt]
    refine ⟨fun _ => by linarith, fun _ => decide_eq_true ?_⟩
    exact div_pos hlt hp
  · rw [if_neg hlt]
    refine ⟨fun hc => absurd (of_decide_eq_true hc) hlt, fun hc => absurd (by linarith) hlt⟩

end
end Chumpy
