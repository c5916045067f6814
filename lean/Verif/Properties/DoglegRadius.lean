import Verif.Properties.DoglegEnds
/-!
# How the trust region of the dogleg method follows the trials (C60)

The radius decides how far the next trial may go (C48).  Here: what it is after a trial, in terms of the objective alone.
-/
namespace Chumpy
open Dog

section
variable {n m : ℕ} {W : Type} (solve : (RVec n →L[ℝ] RVec n) → RVec n → RVec n) (resid : W → RVec m)
  (jac : W → RVec n →L[ℝ] RVec m) (put : RVec n → W → W) (get : W → RVec n)

/-- By how much the sum of squares falls when the free variables go from `w` to `w'`. -/
noncomputable def actualGain (resid : W → RVec m) (w w' : W) : ℝ := ‖resid w‖ ^ 2 - ‖resid w'‖ ^ 2

/-- By how much it would fall under a step `d` from `w` if the objective were its linearisation there. -/
noncomputable def linearGain (resid : W → RVec m) (jac : W → RVec n →L[ℝ] RVec m) (w : W) (d : RVec n) : ℝ :=
  ‖resid w‖ ^ 2 - ‖resid w + jac w d‖ ^ 2

theorem model_linear (J : RVec n →L[ℝ] RVec m) (r : RVec m) (d : RVec n) : model J r d = ‖r‖ ^ 2 - ‖r + J d‖ ^ 2 := by
  unfold model
  rw [ContinuousLinearMap.comp_apply, ContinuousLinearMap.adjoint_inner_left, ContinuousLinearMap.adjoint_inner_right,
    ← real_inner_self_eq_norm_sq, ← real_inner_self_eq_norm_sq, inner_add_left, inner_add_right, inner_add_right, inner_neg_left,
    real_inner_comm r (J d)]
  ring

/-- A trial leaves the step as it is, and sets the radius. -/
theorem trial_radius (o : Ops ℝ (RVec n) (RVec m) (RVec n →L[ℝ] RVec m) (RVec n →L[ℝ] RVec n) W) (opt : DogOpts ℝ) (u : RState n m W) :
    (trial o opt u).1.ddl = u.ddl ∧
    (trial o opt u).1.delta = (updateRadius o (rho o u (o.resid (o.put (o.vadd u.p u.ddl) u.world))) u).delta := by
  have key : ∀ (x : ℝ) (t : RState n m W), t.ddl = u.ddl → t.delta = u.delta →
      (checkRadius o opt (updateRadius o x t)).ddl = u.ddl ∧
      (checkRadius o opt (updateRadius o x t)).delta = (updateRadius o x u).delta := by
    intro x t h1 h2
    have e := updateRadius_delta o x h2 h1
    obtain ⟨d, hd⟩ := updateRadius_eq o x t
    have e2 : (updateRadius o x t).ddl = u.ddl := by rw [hd]; exact h1
    rcases checkRadius_eq o opt (updateRadius o x t) with h | h <;> rw [h] <;> exact ⟨e2, e⟩
  unfold trial
  dsimp only
  split
  · apply key
    · unfold accept
      dsimp only
      split
      · rfl
      · unfold checkGradient; split <;> rfl
    · unfold accept
      dsimp only
      split
      · rfl
      · unfold checkGradient; split <;> rfl
  · exact key _ _ rfl rfl

theorem afterInner_keeps (opt : DogOpts ℝ) (t : RState n m W) :
    (afterInner opt t).ddl = t.ddl ∧ (afterInner opt t).delta = t.delta ∧ (afterInner opt t).fevals = t.fevals := by
  rcases afterInner_eq opt t with h | h <;> rw [h] <;> exact ⟨rfl, rfl, rfl⟩

/-- **C60**: take any turn of the inner loop in which a trial is made, that is the objective is evaluated.  Let `step` be the
step tried, and `d` the radius it was tried with (the length of the step itself, if no radius had been set).  With
`gain` the fall of the sum of squares and `ratio` its quotient by the fall which the linearisation predicts:
a good trial (`gain > 0` and `ratio > 9/10`) makes the radius the larger of `d` and `5/2` of the step;
a bad one (`gain ≤ 0` or `ratio < 1/20`) makes it a quarter of `d`; any other leaves it `d`. -/
theorem C60_radius_follows_the_gain (hput : ∀ u v w, put u (put v w) = put u w) (opt : DogOpts ℝ) (w0 : W) (k : ℕ) (s : RState n m W)
    (h : run (realOps solve resid jac put get) opt w0 k = (.inner, s))
    (ht : (run (realOps solve resid jac put get) opt w0 (k + 1)).2.fevals = s.fevals + 1)
    (step : RVec n) (hstep : step = (run (realOps solve resid jac put get) opt w0 (k + 1)).2.ddl)
    (d : ℝ) (hd : d = s.delta.getD ‖step‖)
    (gain ratio : ℝ) (hgain : gain = actualGain resid s.world (put (s.p + step) s.world))
    (hratio : ratio = gain / linearGain resid jac s.world step) :
    (0 < gain → 9 / 10 < ratio → (run (realOps solve resid jac put get) opt w0 (k + 1)).2.delta = some (max d (5 / 2 * ‖step‖))) ∧
    (gain ≤ 0 ∨ ratio < 1 / 20 → (run (realOps solve resid jac put get) opt w0 (k + 1)).2.delta = some (d / 4)) ∧
    (0 < gain → 1 / 20 ≤ ratio → ratio ≤ 9 / 10 → (run (realOps solve resid jac put get) opt w0 (k + 1)).2.delta = some d) := by
  have hi := dogInv_run (realOps solve resid jac put get) opt w0 hput k
  rw [h] at hi
  have hdone := hi.live rfl
  have hr : s.r = resid s.world := hi.resid hdone
  have hJ : s.J = jac s.world := hi.jac hdone
  have hA : s.A = s.J.adjoint ∘L s.J := hi.gram hdone
  have hg : s.g = s.J.adjoint (-s.r) := hi.grad hdone
  obtain ⟨u, hu⟩ : ∃ u, u = updateStep (realOps solve resid jac put get) s := ⟨_, rfl⟩
  have hss := updateStep_same (realOps solve resid jac put get) s
  rw [← hu] at hss
  -- the state after the turn
  have hrun : ∃ t : RState n m W, t = (innerBody (realOps solve resid jac put get) opt s).1 ∧
      (run (realOps solve resid jac put get) opt w0 (k + 1)).2.ddl = t.ddl ∧
      (run (realOps solve resid jac put get) opt w0 (k + 1)).2.delta = t.delta ∧
      (run (realOps solve resid jac put get) opt w0 (k + 1)).2.fevals = t.fevals := by
    refine ⟨_, rfl, ?_⟩
    have e : run (realOps solve resid jac put get) opt w0 (k + 1) = dogStep (realOps solve resid jac put get) opt (.inner, s) := by
      rw [← h]; rfl
    rw [e]
    have e2 : dogStep (realOps solve resid jac put get) opt (.inner, s) =
        if ((innerBody (realOps solve resid jac put get) opt s).1.done || (innerBody (realOps solve resid jac put get) opt s).2 ||
          spent opt (innerBody (realOps solve resid jac put get) opt s).1) = true then
        (PC.outer, afterInner opt (innerBody (realOps solve resid jac put get) opt s).1)
        else (PC.inner, (innerBody (realOps solve resid jac put get) opt s).1) := rfl
    rw [e2]
    split
    · exact afterInner_keeps opt _
    · exact ⟨rfl, rfl, rfl⟩
  obtain ⟨t, htd, t1, t2, t3⟩ := hrun
  rw [t1] at hstep
  rw [t2]
  rw [t3] at ht
  -- a trial was made
  have htr : t = (trial (realOps solve resid jac put get) opt u).1 := by
    rw [htd] at ht ⊢
    unfold innerBody at ht ⊢
    dsimp only at ht ⊢
    rw [← hu] at ht ⊢
    split at ht
    · have := (updateStep_done (realOps solve resid jac put get) s).2
      rw [← hu] at this
      change u.fevals = s.fevals + 1 at ht
      omega
    · rename_i hc
      rw [if_neg hc]
  obtain ⟨q1, q2⟩ := trial_radius (realOps solve resid jac put get) opt u
  rw [← htr] at q1 q2
  have hsu : step = u.ddl := hstep.trans q1
  -- the radius in use
  have hdu : u.delta = some d := by
    cases hs : s.delta with
    | none =>
      have := step_first solve resid jac put get hs
      rw [← hu] at this
      rw [hd, hs, hsu, this]
      rfl
    | some e =>
      have hsame : u.delta = s.delta := by
        rw [hu]
        unfold updateStep
        rw [hs]
        dsimp only
        split
        · rfl
        · unfold updateStepGN
          dsimp only
          rw [hs]
          dsimp only
          split <;> rfl
      rw [hsame, hs, hd, hs]
      rfl
  have hw : (realOps solve resid jac put get).put ((realOps solve resid jac put get).vadd u.p u.ddl) u.world = put (s.p + step) s.world := by
    rw [hss.p, hss.world, hsu]; rfl
  have hpred : predicted (realOps solve resid jac put get) u = linearGain resid jac s.world step := by
    have : predicted (realOps solve resid jac put get) u = model s.J s.r u.ddl := by
      unfold predicted
      rw [hss.g, hss.A, hA, hg]
      rfl
    rw [this, model_linear, hsu, hr, hJ]
    rfl
  have hrho : rho (realOps solve resid jac put get) u (resid (put (s.p + step) s.world)) = if 0 < gain then ratio else gain := by
    unfold rho
    rw [hpred, hratio, hgain]
    unfold actualGain
    rw [hss.r, hr, pow_two, pow_two]
    exact if_congr decide_eq_true_iff rfl rfl
  rw [hw] at q2
  change t.delta = (updateRadius _ (rho _ u (resid (put (s.p + step) s.world))) u).delta at q2
  rw [hrho] at q2
  rw [q2]
  have hupd : ∀ x : ℝ, (updateRadius (realOps solve resid jac put get) x u).delta =
      if 9 / 10 < x then some (max d (5 / 2 * ‖step‖)) else if x < 1 / 20 then some (d / 4) else some d := by
    intro x
    unfold updateRadius
    rw [hdu]
    dsimp only
    by_cases h1 : 9 / 10 < x
    · rw [if_pos (show (realOps solve resid jac put get).lt (realOps solve resid jac put get).ub x = true from decide_eq_true h1), if_pos h1,
        hsu]
      rfl
    · rw [if_neg (show ¬ (realOps solve resid jac put get).lt (realOps solve resid jac put get).ub x = true from
        fun hc => h1 (of_decide_eq_true hc)), if_neg h1]
      by_cases h2 : x < 1 / 20
      · rw [if_pos (show (realOps solve resid jac put get).lt x (realOps solve resid jac put get).lb = true from decide_eq_true h2), if_pos h2]
        show some (d * (1 / 4)) = _
        rw [mul_one_div]
      · rw [if_neg (show ¬ (realOps solve resid jac put get).lt x (realOps solve resid jac put get).lb = true from
          fun hc => h2 (of_decide_eq_true hc)), if_neg h2]
        exact hdu
  rw [hupd]
  refine ⟨?_, ?_, ?_⟩
  · intro a b
    rw [if_pos a, if_pos b]
  · rintro (a | a)
    · rw [if_neg (not_lt.2 a), if_neg (by linarith), if_pos (by linarith)]
    · by_cases b : 0 < gain
      · rw [if_pos b, if_neg (by linarith), if_pos a]
      · rw [if_neg b, if_neg (by linarith [not_lt.1 b]), if_pos (by linarith [not_lt.1 b])]
  · intro a b c
    rw [if_pos a, if_neg (not_lt.2 c), if_neg (not_lt.2 b)]

/-- **C60**, for what the next trial may do: the step tried next in the same iteration, after a trial which was turned down, is
at most a quarter of the radius of that trial long. -/
theorem C60_rejection_shortens_the_next_step (hput : ∀ u v w, put u (put v w) = put u w) (opt : DogOpts ℝ) (he2 : 0 ≤ opt.e2)
    (hd0 : ∀ d, opt.delta0 = some d → 0 < d) (w0 : W) (k : ℕ) (s t : RState n m W)
    (h : run (realOps solve resid jac put get) opt w0 k = (.inner, s))
    (h' : run (realOps solve resid jac put get) opt w0 (k + 1) = (.inner, t)) :
    ∃ d, 0 < d ∧ (∀ e, s.delta = some e → e = d) ∧ ‖(updateStep (realOps solve resid jac put get) s).ddl‖ ≤ d ∧
      ‖(updateStep (realOps solve resid jac put get) t).ddl‖ ≤ d / 4 := by
  have hpos : ∀ d, s.delta = some d → 0 < d := by
    intro d hd
    have hi := dogInv_run (realOps solve resid jac put get) opt w0 hput k
    rw [h] at hi
    exact radius_pos solve resid jac put get opt he2 hd0 w0 k (by rw [h]; exact hi.live rfl) d (by rw [h]; exact hd)
  obtain ⟨d, hd, hsame, hle⟩ := C48_step_within_radius solve resid jac put get s (fun d hd => (hpos d hd).le)
  have ht : t = (innerBody (realOps solve resid jac put get) opt s).1 ∧
      (innerBody (realOps solve resid jac put get) opt s).2 = false ∧ (innerBody (realOps solve resid jac put get) opt s).1.done = false := by
    have e : run (realOps solve resid jac put get) opt w0 (k + 1) = dogStep (realOps solve resid jac put get) opt (.inner, s) := by
      rw [← h]; rfl
    rw [e] at h'
    have e2 : dogStep (realOps solve resid jac put get) opt (.inner, s) =
        if ((innerBody (realOps solve resid jac put get) opt s).1.done || (innerBody (realOps solve resid jac put get) opt s).2 ||
          spent opt (innerBody (realOps solve resid jac put get) opt s).1) = true then
        (PC.outer, afterInner opt (innerBody (realOps solve resid jac put get) opt s).1)
        else (PC.inner, (innerBody (realOps solve resid jac put get) opt s).1) := rfl
    rw [e2] at h'
    split at h'
    · cases h'
    · rename_i hc
      simp only [Bool.or_eq_true, not_or, Bool.not_eq_true] at hc
      injection h' with _ h'
      exact ⟨h'.symm, hc.1.2, hc.1.1⟩
  have hdt : t.delta = some (d * (1 / 4)) := by
    rw [ht.1]; exact radius_shrinks solve resid jac put get opt ht.2.1 ht.2.2 hd
  have hpt : 0 < d * (1 / 4) := by
    have hi := dogInv_run (realOps solve resid jac put get) opt w0 hput (k + 1)
    rw [h'] at hi
    exact radius_pos solve resid jac put get opt he2 hd0 w0 (k + 1) (by rw [h']; exact hi.live rfl) _ (by rw [h']; exact hdt)
  obtain ⟨e, he, hse, hle'⟩ := C48_step_within_radius solve resid jac put get t
    (fun e he => by rw [hdt] at he; cases he; exact hpt.le)
  refine ⟨d, by linarith, hsame, hle, ?_⟩
  rw [← hse _ hdt] at hle'
  linarith

end

/-- Minimising `x - 1` from `x = 0`: the first trial is made, is perfect, and leaves the radius at `5/2`. -/
example : (run (realOps (n := 1) (m := 1) (fun _ g => g) (fun x => x - EuclideanSpace.single 0 1) (fun _ => ContinuousLinearMap.id ℝ _)
    (fun v _ => v) id) ⟨200, none, 1 / 10 ^ 15, 1 / 10 ^ 15, 0, none⟩ 0 2).2.delta = some (5 / 2) := by
  obtain ⟨e, he⟩ : ∃ e : RVec 1, e = EuclideanSpace.single 0 1 := ⟨_, rfl⟩
  have hn : ‖e‖ = 1 := by rw [he]; simp
  rw [← he]
  obtain ⟨opt, hopt⟩ : ∃ opt : DogOpts ℝ, opt = ⟨200, none, 1 / 10 ^ 15, 1 / 10 ^ 15, 0, none⟩ := ⟨_, rfl⟩
  rw [← hopt]
  obtain ⟨o, ho⟩ : ∃ o, o = realOps (n := 1) (m := 1) (fun _ g => g) (fun x => x - e) (fun _ => ContinuousLinearMap.id ℝ _) (fun v _ => v) id :=
    ⟨_, rfl⟩
  have hg : (init o opt 0).g = e := by
    unfold init checkGradient
    dsimp only
    split <;> (rw [ho]; show (ContinuousLinearMap.id ℝ (RVec 1)).adjoint (-(0 - e)) = e; simp [ContinuousLinearMap.adjoint_id])
  have hdone : (init o opt 0).done = false := by
    unfold init checkGradient
    dsimp only
    rw [if_neg]
    intro hc
    rw [ho, hopt] at hc
    have hc' := of_decide_eq_true hc
    simp [realOps, ContinuousLinearMap.adjoint_id] at hc'
    have h1 := norm_le_pi_norm (WithLp.ofLp e) 0
    have h2 : (WithLp.ofLp e) 0 = 1 := by rw [he]; simp
    rw [h2, norm_one] at h1
    norm_num at hc'
    linarith
  have hini : (init o opt 0).delta = none ∧ (init o opt 0).fevals = 1 ∧ (init o opt 0).p = 0 ∧ (init o opt 0).world = 0 := by
    unfold init checkGradient
    dsimp only
    rw [ho, hopt]
    split <;> exact ⟨rfl, rfl, rfl, rfl⟩
  have h1 : run o opt 0 1 = (.inner, startIteration o (init o opt 0)) := by
    show (if (init o opt 0).done = true then _ else _) = _
    rw [if_neg (by rw [hdone]; simp)]
  obtain ⟨s, hs⟩ : ∃ s, s = startIteration o (init o opt 0) := ⟨_, rfl⟩
  rw [← hs] at h1
  have s1 : s.delta = none := by rw [hs]; exact hini.1
  have s2 : s.p = 0 := by rw [hs]; exact hini.2.2.1
  have s3 : s.world = 0 := by rw [hs]; exact hini.2.2.2
  have s4 : s.dgn = none := by rw [hs]; rfl
  have s5 : s.g = e := by rw [hs]; exact hg
  have hu : (updateStep o s).ddl = e ∧ (updateStep o s).p = 0 := by
    rw [ho, step_first _ _ _ _ _ s1]
    refine ⟨?_, s2⟩
    show s.dgn.getD s.g = e
    rw [s4, ← s5]
    rfl
  have hib : (innerBody o opt s).1 = (trial o opt (updateStep o s)).1 := by
    unfold innerBody
    dsimp only
    rw [if_neg]
    rw [hu.1, hu.2, ho]
    intro hc
    have : ‖e‖ ≤ opt.e2 * ‖(0 : RVec 1)‖ := of_decide_eq_true hc
    rw [norm_zero, mul_zero, hn] at this
    linarith
  have h2 : (run o opt 0 2).2.ddl = e ∧ (run o opt 0 2).2.fevals = s.fevals + 1 := by
    have e2 : run o opt 0 2 = dogStep o opt (.inner, s) := by rw [← h1]; rfl
    have e3 : dogStep o opt (.inner, s) =
        if ((innerBody o opt s).1.done || (innerBody o opt s).2 || spent opt (innerBody o opt s).1) = true then
        (PC.outer, afterInner opt (innerBody o opt s).1) else (PC.inner, (innerBody o opt s).1) := rfl
    have e4 : (innerBody o opt s).1.ddl = e ∧ (innerBody o opt s).1.fevals = s.fevals + 1 := by
      rw [hib]
      exact ⟨(trial_radius o opt _).1.trans hu.1, by rw [trial_fevals, (updateStep_done o s).2]⟩
    rw [e2, e3]
    split
    · have := afterInner_keeps opt (innerBody o opt s).1
      exact ⟨this.1.trans e4.1, this.2.2.trans e4.2⟩
    · exact e4
  have key := (C60_radius_follows_the_gain (fun _ g => g) (fun x => x - e) (fun _ => ContinuousLinearMap.id ℝ _) (fun v _ => v) id
    (fun _ _ _ => rfl) opt (0 : RVec 1) 1 s (by rw [← ho]; exact h1) (by rw [← ho]; exact h2.2) e (by rw [← ho]; exact h2.1.symm)
    1 (by rw [s1, Option.getD_none, hn]) 1 1 (by simp [actualGain, s2, s3, hn]) (by simp [linearGain, s3, hn])).1
    (by norm_num) (by norm_num)
  rw [← ho] at key
  rw [← ho, key, hn]
  norm_num

end Chumpy
