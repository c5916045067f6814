import Verif.Opt.Dogleg
/-!
# What the control flow of the dogleg method guarantees by itself
-/
namespace Chumpy
namespace Dog
variable {F V R M A W : Type} (o : Ops F V R M A W) (opt : DogOpts F)

/-- Everything a turn may change when no trial is accepted: the steps, the radius, the counter of evaluations and `done`. -/
structure Same (s t : DogState F V R M A W) : Prop where
  iteration : t.iteration = s.iteration
  J : t.J = s.J
  A : t.A = s.A
  g : t.g = s.g
  p : t.p = s.p
  r : t.r = s.r
  dsd : t.dsd = s.dsd
  world : t.world = s.world
  calls : t.calls = s.calls

theorem updateStepGN_same (s : DogState F V R M A W) : Same s (updateStepGN o s) := by
  unfold updateStepGN
  split
  · exact ⟨rfl, rfl, rfl, rfl, rfl, rfl, rfl, rfl, rfl⟩
  · dsimp only; split <;> exact ⟨rfl, rfl, rfl, rfl, rfl, rfl, rfl, rfl, rfl⟩

theorem updateStep_same (s : DogState F V R M A W) : Same s (updateStep o s) := by
  unfold updateStep
  split
  · split
    · exact ⟨rfl, rfl, rfl, rfl, rfl, rfl, rfl, rfl, rfl⟩
    · exact updateStepGN_same o s
  · exact updateStepGN_same o s

theorem updateStepGN_done (s : DogState F V R M A W) : (updateStepGN o s).done = s.done ∧ (updateStepGN o s).fevals = s.fevals := by
  unfold updateStepGN
  split
  · exact ⟨rfl, rfl⟩
  · dsimp only; split <;> exact ⟨rfl, rfl⟩

theorem updateStep_done (s : DogState F V R M A W) : (updateStep o s).done = s.done ∧ (updateStep o s).fevals = s.fevals := by
  unfold updateStep
  split
  · split
    · exact ⟨rfl, rfl⟩
    · exact updateStepGN_done o s
  · exact updateStepGN_done o s

/-- Only the radius differs. -/
theorem updateRadius_eq (x : F) (s : DogState F V R M A W) : ∃ d, updateRadius o x s = { s with delta := d } := by
  unfold updateRadius
  split
  · exact ⟨_, rfl⟩
  · split
    · exact ⟨_, rfl⟩
    · split <;> exact ⟨_, rfl⟩

/-- Only `done` may differ, and it is not reset. -/
theorem checkRadius_eq (s : DogState F V R M A W) :
    checkRadius o opt s = s ∨ checkRadius o opt s = { s with done := true } := by
  unfold checkRadius
  split
  · exact .inl rfl
  · split
    · exact .inr rfl
    · exact .inl rfl

theorem checkGradient_eq (s : DogState F V R M A W) :
    checkGradient o opt s = s ∨ checkGradient o opt s = { s with done := true } := by
  unfold checkGradient
  split
  · exact .inr rfl
  · exact .inl rfl

theorem afterInner_eq (s : DogState F V R M A W) :
    afterInner opt s = s ∨ afterInner opt s = { s with done := true } := by
  unfold afterInner
  split
  · exact .inr rfl
  · split
    · exact .inr rfl
    · exact .inl rfl

theorem updateRadius_delta (x : F) {s t : DogState F V R M A W} (hd : t.delta = s.delta) (hl : t.ddl = s.ddl) :
    (updateRadius o x t).delta = (updateRadius o x s).delta := by
  obtain ⟨_, _, _, _, _, _, _, _, d, _, _, _, _, _⟩ := s
  obtain ⟨_, _, _, _, _, _, _, _, d', _, _, _, _, _⟩ := t
  dsimp only at hd hl
  subst hd hl
  unfold updateRadius
  cases d' with
  | none => rfl
  | some d =>
    dsimp only
    split
    · rfl
    · split <;> rfl

theorem checkRadius_big {u : DogState F V R M A W} (h : (checkRadius o opt u).done = false) (d : F)
    (hd : (checkRadius o opt u).delta = some d) : o.le d (o.mul opt.e2 (o.norm (checkRadius o opt u).p)) = false := by
  obtain ⟨_, _, _, _, _, _, _, p, e, _, _, _, _, _⟩ := u
  cases e with
  | none => cases hd
  | some e =>
    unfold checkRadius at h hd ⊢
    dsimp only at h hd ⊢
    by_cases hle : o.le e (o.mul opt.e2 (o.norm p)) = true
    · rw [if_pos hle] at h; cases h
    · rw [if_neg hle] at hd ⊢
      cases hd
      simpa using hle

/-- The state after radius and `done` have been brought up to date. -/
theorem finish_eq (x : F) (s : DogState F V R M A W) :
    ∃ d b, checkRadius o opt (updateRadius o x s) = { s with delta := d, done := s.done || b } := by
  obtain ⟨d, hd⟩ := updateRadius_eq o x s
  rw [hd]
  rcases checkRadius_eq o opt { s with delta := d } with h | h <;> rw [h]
  · exact ⟨d, false, by simp⟩
  · exact ⟨d, true, by simp⟩

/-- A turn of the inner loop which accepts nothing leaves parameters, free variables, Jacobian and residual as they were. -/
theorem innerBody_rejected (hput : ∀ u v w, o.put u (o.put v w) = o.put u w) {s : DogState F V R M A W} {w0 : W}
    (hw : s.world = o.put s.p w0) (h : (innerBody o opt s).2 = false) : Same s (innerBody o opt s).1 := by
  have hs := updateStep_same o s
  unfold innerBody at h ⊢
  dsimp only at h ⊢
  split
  · exact ⟨hs.iteration, hs.J, hs.A, hs.g, hs.p, hs.r, hs.dsd, hs.world, hs.calls⟩
  · rename_i hsmall
    rw [if_neg hsmall] at h
    unfold trial at h ⊢
    dsimp only at h ⊢
    rw [if_neg (by rw [h]; simp)]
    obtain ⟨d, b, hd⟩ := finish_eq o opt
      (rho o (updateStep o s) (o.resid (o.put (o.vadd (updateStep o s).p (updateStep o s).ddl) (updateStep o s).world)))
      (reject o (o.put (o.vadd (updateStep o s).p (updateStep o s).ddl) (updateStep o s).world)
        { updateStep o s with fevals := (updateStep o s).fevals + 1 })
    rw [hd]
    refine ⟨hs.iteration, hs.J, hs.A, hs.g, hs.p, hs.r, hs.dsd, ?_, hs.calls⟩
    show o.put (updateStep o s).p _ = _
    rw [hs.world, hs.p, hw, hput, hput]

/-- A trial which is accepted. -/
theorem trial_accepted {u : DogState F V R M A W} (h : (trial o opt u).2 = true) :
    isImprovement o u (o.resid (o.put (o.vadd u.p u.ddl) u.world)) = true ∧
    (trial o opt u).1.p = o.vadd u.p u.ddl ∧
    (trial o opt u).1.world = o.put (o.vadd u.p u.ddl) u.world ∧
    (trial o opt u).1.calls = (trial o opt u).1.world :: u.calls ∧
    (trial o opt u).1.iteration = u.iteration ∧
    ((trial o opt u).1.done = false →
      (trial o opt u).1.r = o.resid (trial o opt u).1.world ∧
      (trial o opt u).1.J = o.jac (trial o opt u).1.world ∧
      (trial o opt u).1.A = o.gram (trial o opt u).1.J ∧
      (trial o opt u).1.g = o.jtneg (trial o opt u).1.J (trial o opt u).1.r ∧
      o.lt (o.normInf (trial o opt u).1.g) opt.e1 = false) := by
  unfold trial at h ⊢
  dsimp only at h ⊢
  refine ⟨h, ?_⟩
  rw [if_pos h]
  generalize o.put (o.vadd u.p u.ddl) u.world = w
  obtain ⟨d, b, hd⟩ := finish_eq o opt (rho o u (o.resid w)) (accept o opt w (o.resid w) { u with fevals := u.fevals + 1 })
  rw [hd]
  dsimp only
  unfold accept
  dsimp only
  split
  · refine ⟨rfl, rfl, rfl, rfl, ?_⟩
    intro hc
    simp at hc
  · unfold checkGradient
    split
    · refine ⟨rfl, rfl, rfl, rfl, ?_⟩
      intro hc
      simp at hc
    · rename_i hg
      exact ⟨rfl, rfl, rfl, rfl, fun _ => ⟨rfl, rfl, rfl, rfl, by simpa using hg⟩⟩

/-- An accepted turn is an accepted trial. -/
theorem innerBody_trial {s : DogState F V R M A W} (h : (innerBody o opt s).2 = true) :
    innerBody o opt s = trial o opt (updateStep o s) := by
  unfold innerBody at h ⊢
  dsimp only at h ⊢
  split
  · rename_i hsmall
    rw [if_pos hsmall] at h
    exact absurd h (by simp)
  · rfl

/-- A turn which accepts a trial. -/
theorem innerBody_accepted {s : DogState F V R M A W} (h : (innerBody o opt s).2 = true) :
    isImprovement o (updateStep o s) (o.resid (o.put (o.vadd s.p (updateStep o s).ddl) s.world)) = true ∧
    (innerBody o opt s).1.p = o.vadd s.p (updateStep o s).ddl ∧
    (innerBody o opt s).1.world = o.put (o.vadd s.p (updateStep o s).ddl) s.world ∧
    (innerBody o opt s).1.calls = (innerBody o opt s).1.world :: s.calls ∧
    (innerBody o opt s).1.iteration = s.iteration ∧
    ((innerBody o opt s).1.done = false →
      (innerBody o opt s).1.r = o.resid (innerBody o opt s).1.world ∧
      (innerBody o opt s).1.J = o.jac (innerBody o opt s).1.world ∧
      (innerBody o opt s).1.A = o.gram (innerBody o opt s).1.J ∧
      (innerBody o opt s).1.g = o.jtneg (innerBody o opt s).1.J (innerBody o opt s).1.r ∧
      o.lt (o.normInf (innerBody o opt s).1.g) opt.e1 = false) := by
  have hs := updateStep_same o s
  have ht := innerBody_trial o opt h
  rw [ht] at h
  have := trial_accepted o opt h
  rw [hs.p, hs.world, hs.calls, hs.iteration, ← ht] at this
  exact this

theorem trial_fevals {u : DogState F V R M A W} : (trial o opt u).1.fevals = u.fevals + 1 := by
  unfold trial
  dsimp only
  generalize o.put (o.vadd u.p u.ddl) u.world = w
  split
  · obtain ⟨d, b, hd⟩ := finish_eq o opt (rho o u (o.resid w)) (accept o opt w (o.resid w) { u with fevals := u.fevals + 1 })
    rw [hd]
    dsimp only
    unfold accept
    dsimp only
    split
    · rfl
    · unfold checkGradient
      split <;> rfl
  · obtain ⟨d, b, hd⟩ := finish_eq o opt (rho o u (o.resid w)) (reject o w { u with fevals := u.fevals + 1 })
    rw [hd]
    rfl

/-- `done` and the counter of evaluations after a turn of the inner loop. -/
theorem innerBody_fevals {s : DogState F V R M A W} :
    (innerBody o opt s).1.done = true ∨ (innerBody o opt s).1.fevals = s.fevals + 1 := by
  unfold innerBody
  dsimp only
  split
  · exact .inl rfl
  · right
    rw [trial_fevals, (updateStep_done o s).2]

/-- What holds at every loop head.  `w0`: what the free variables held at the start. -/
structure DogInv (w0 : W) (c : PC × DogState F V R M A W) : Prop where
  world : c.2.world = o.put c.2.p w0
  calls : ∃ l, c.2.calls = c.2.world :: l
  first : c.2.calls.getLast? = some (o.put (o.get w0) w0)
  live : c.1 = .inner → c.2.done = false
  resid : c.2.done = false → c.2.r = o.resid c.2.world
  jac : c.2.done = false → c.2.J = o.jac c.2.world
  gram : c.2.done = false → c.2.A = o.gram c.2.J
  grad : c.2.done = false → c.2.g = o.jtneg c.2.J c.2.r
  steep : c.2.done = false → o.lt (o.normInf c.2.g) opt.e1 = false
  cauchy : c.1 = .inner →
    c.2.dsd = o.smul (o.div (sq o (o.norm c.2.g)) (sq o (o.rnorm (o.jmul c.2.J c.2.g)))) c.2.g
  halted : c.1 = .halt → c.2.done = true
  count : c.2.iteration ≤ max 1 opt.maxiter
  below : c.2.done = false → c.1 = .outer → c.2.iteration < opt.maxiter ∨ c.2.iteration = 0

theorem dogInv_init (w0 : W) : DogInv o opt w0 (.outer, init o opt w0) := by
  unfold init checkGradient
  dsimp only
  split
  · exact ⟨rfl, ⟨[], rfl⟩, rfl, (by intro h; cases h), (by intro h; cases h), (by intro h; cases h), (by intro h; cases h), (by intro h; cases h),
      (by intro h; cases h), (by intro h; cases h), (by intro h; cases h), Nat.zero_le _, fun _ _ => .inr rfl⟩
  · rename_i hg
    exact ⟨rfl, ⟨[], rfl⟩, rfl, (by intro h; cases h), fun _ => rfl, fun _ => rfl, fun _ => rfl, fun _ => rfl,
      fun _ => by simpa using hg, (by intro h; cases h), (by intro h; cases h), Nat.zero_le _, fun _ _ => .inr rfl⟩

theorem dogInv_start {w0 : W} {s : DogState F V R M A W} (h : DogInv o opt w0 (.outer, s)) (hd : s.done = false) :
    DogInv o opt w0 (.inner, startIteration o s) := by
  refine ⟨h.world, h.calls, h.first, fun _ => hd, h.resid, h.jac, h.gram, h.grad, h.steep, fun _ => rfl, (by intro h; cases h), ?_,
    (by intro _ h; cases h)⟩
  show s.iteration + 1 ≤ _
  have := h.below hd rfl
  dsimp only at this
  omega

/-- The invariant after the body of the inner loop, before anything is decided. -/
structure BodyInv (w0 : W) (s : DogState F V R M A W) : Prop where
  world : s.world = o.put s.p w0
  calls : ∃ l, s.calls = s.world :: l
  first : s.calls.getLast? = some (o.put (o.get w0) w0)
  resid : s.done = false → s.r = o.resid s.world
  jac : s.done = false → s.J = o.jac s.world
  gram : s.done = false → s.A = o.gram s.J
  grad : s.done = false → s.g = o.jtneg s.J s.r
  steep : s.done = false → o.lt (o.normInf s.g) opt.e1 = false
  count : s.iteration ≤ max 1 opt.maxiter

theorem bodyInv {w0 : W} (hput : ∀ u v w, o.put u (o.put v w) = o.put u w) {s : DogState F V R M A W}
    (h : DogInv o opt w0 (.inner, s)) : BodyInv o opt w0 (innerBody o opt s).1 := by
  have hd : s.done = false := h.live rfl
  by_cases hx : (innerBody o opt s).2 = true
  · obtain ⟨_, hp, hw, hc, hi, hr⟩ := innerBody_accepted o opt hx
    refine ⟨?_, ⟨_, hc⟩, ?_, fun a => (hr a).1, fun a => (hr a).2.1, fun a => (hr a).2.2.1, fun a => (hr a).2.2.2.1,
      fun a => (hr a).2.2.2.2, by rw [hi]; exact h.count⟩
    · rw [hw, hp, show s.world = _ from h.world, hput]
    · rw [hc]
      have := h.first
      dsimp only at this
      obtain ⟨l, hl⟩ := h.calls
      dsimp only at hl
      rw [hl] at this ⊢
      rw [List.getLast?_cons_cons]
      exact this
  · have hs := innerBody_rejected o opt hput h.world (by simpa using hx)
    refine ⟨by rw [hs.world, hs.p]; exact h.world, by rw [hs.calls, hs.world]; exact h.calls, by rw [hs.calls]; exact h.first,
      fun _ => by rw [hs.r, hs.world]; exact h.resid hd, fun _ => by rw [hs.J, hs.world]; exact h.jac hd,
      fun _ => by rw [hs.A, hs.J]; exact h.gram hd, fun _ => by rw [hs.g, hs.J, hs.r]; exact h.grad hd,
      fun _ => by rw [hs.g]; exact h.steep hd, by rw [hs.iteration]; exact h.count⟩

theorem dogInv_step {w0 : W} (hput : ∀ u v w, o.put u (o.put v w) = o.put u w) {c : PC × DogState F V R M A W}
    (h : DogInv o opt w0 c) : DogInv o opt w0 (dogStep o opt c) := by
  obtain ⟨pc, s⟩ := c
  cases pc with
  | halt => exact h
  | outer =>
    show DogInv o opt w0 (if s.done = true then _ else _)
    by_cases hd : s.done = true
    · rw [if_pos hd]
      exact ⟨h.world, h.calls, h.first, (by intro h; cases h), h.resid, h.jac, h.gram, h.grad, h.steep, (by intro h; cases h),
        fun _ => hd, h.count, (by intro _ h; cases h)⟩
    · rw [if_neg hd]
      exact dogInv_start o opt h (by simpa using hd)
  | inner =>
    have hb := bodyInv o opt hput h
    show DogInv o opt w0 (if ((innerBody o opt s).1.done || (innerBody o opt s).2 || spent opt (innerBody o opt s).1) = true then _ else _)
    split
    · unfold afterInner
      split
      · exact ⟨hb.world, hb.calls, hb.first, (by intro h; cases h), (by intro h; cases h), (by intro h; cases h), (by intro h; cases h),
          (by intro h; cases h), (by intro h; cases h), (by intro h; cases h), (by intro h; cases h), hb.count, (by intro h; cases h)⟩
      · rename_i hlt
        split
        · exact ⟨hb.world, hb.calls, hb.first, (by intro h; cases h), (by intro h; cases h), (by intro h; cases h), (by intro h; cases h),
            (by intro h; cases h), (by intro h; cases h), (by intro h; cases h), (by intro h; cases h), hb.count, (by intro h; cases h)⟩
        · exact ⟨hb.world, hb.calls, hb.first, (by intro h; cases h), hb.resid, hb.jac, hb.gram, hb.grad, hb.steep,
            (by intro h; cases h), (by intro h; cases h), hb.count, fun _ _ => .inl (Nat.lt_of_not_le hlt)⟩
    · rename_i hgo
      have hdf : (innerBody o opt s).1.done = false := by
        cases hc : (innerBody o opt s).1.done
        · rfl
        · exact absurd (by rw [hc]; simp) hgo
      have hi : (innerBody o opt s).2 = false := by
        cases hc : (innerBody o opt s).2
        · rfl
        · exact absurd (by rw [hc]; simp) hgo
      have hs := innerBody_rejected o opt hput h.world hi
      refine ⟨hb.world, hb.calls, hb.first, fun _ => hdf, hb.resid, hb.jac, hb.gram, hb.grad, hb.steep, fun _ => ?_,
        (by intro h; cases h), hb.count, (by intro _ h; cases h)⟩
      rw [hs.dsd, hs.g, hs.J]
      exact h.cauchy rfl

/-- The invariant holds throughout every run. -/
theorem dogInv_run (w0 : W) (hput : ∀ u v w, o.put u (o.put v w) = o.put u w) (n : Nat) : DogInv o opt w0 (run o opt w0 n) := by
  induction n with
  | zero => exact dogInv_init o opt w0
  | succ n ih => exact dogInv_step o opt hput ih

/-- The Gauss-Newton step kept from an earlier turn of the inner loop is the one for the current matrices. -/
theorem updateStep_dgn {s : DogState F V R M A W} (h : ∀ v, s.dgn = some v → v = o.solve s.A s.g) :
    ∀ v, (updateStep o s).dgn = some v → v = o.solve s.A s.g := by
  have hg : s.dgn.getD (o.solve s.A s.g) = o.solve s.A s.g := by
    cases hd : s.dgn with
    | none => rfl
    | some v => exact h v hd
  have hG : ∀ v, (updateStepGN o s).dgn = some v → v = o.solve s.A s.g := by
    intro v hv
    unfold updateStepGN at hv
    dsimp only at hv
    split at hv
    · exact (Option.some.inj hv).symm.trans hg
    · split at hv
      · exact (Option.some.inj hv).symm.trans hg
      · exact (Option.some.inj hv).symm.trans hg
  intro v hv
  unfold updateStep at hv
  split at hv
  · split at hv
    · exact h v hv
    · exact hG v hv
  · exact hG v hv

/-- The rest of the state after a turn which accepts nothing. -/
theorem innerBody_rejected' {s : DogState F V R M A W} (h : (innerBody o opt s).2 = false) :
    (innerBody o opt s).1.dgn = (updateStep o s).dgn ∧
    ((innerBody o opt s).1.done = true ∨
      ∃ r', isImprovement o (updateStep o s) r' = false ∧
        r' = o.resid (o.put (o.vadd s.p (updateStep o s).ddl) s.world) ∧
        (innerBody o opt s).1.delta = (updateRadius o (rho o (updateStep o s) r') (updateStep o s)).delta ∧
        ∀ d, (innerBody o opt s).1.delta = some d → o.le d (o.mul opt.e2 (o.norm s.p)) = false) := by
  have hs := updateStep_same o s
  unfold innerBody at h ⊢
  dsimp only at h ⊢
  split
  · exact ⟨rfl, .inl rfl⟩
  · rename_i hsmall
    rw [if_neg hsmall] at h
    unfold trial at h ⊢
    dsimp only at h ⊢
    rw [if_neg (by rw [h]; simp)]
    have hw : o.put (o.vadd (updateStep o s).p (updateStep o s).ddl) (updateStep o s).world =
        o.put (o.vadd s.p (updateStep o s).ddl) s.world := by rw [hs.p, hs.world]
    rw [hw] at h ⊢
    generalize hx : rho o (updateStep o s) (o.resid (o.put (o.vadd s.p (updateStep o s).ddl) s.world)) = x
    generalize hu : reject o (o.put (o.vadd s.p (updateStep o s).ddl) s.world)
      { updateStep o s with fevals := (updateStep o s).fevals + 1 } = u
    have hup : u.p = s.p := by rw [← hu]; exact hs.p
    have hur : (updateRadius o x u).delta = (updateRadius o x (updateStep o s)).delta ∧ (updateRadius o x u).p = s.p ∧
        (updateRadius o x u).dgn = (updateStep o s).dgn := by
      refine ⟨?_, ?_, ?_⟩
      · apply updateRadius_delta
        · rw [← hu]; rfl
        · rw [← hu]; rfl
      · obtain ⟨d, hd⟩ := updateRadius_eq o x u
        rw [hd]; exact hup
      · obtain ⟨d, hd⟩ := updateRadius_eq o x u
        rw [hd, ← hu]; rfl
    unfold checkRadius
    cases hdl : (updateRadius o x u).delta with
    | none =>
      dsimp only
      refine ⟨hur.2.2, .inr ⟨_, h, rfl, ?_, ?_⟩⟩
      · rw [hx]; exact hur.1
      · intro d hd
        rw [hdl] at hd
        cases hd
    | some d =>
      dsimp only
      split
      · exact ⟨hur.2.2, .inl rfl⟩
      · rename_i hle
        refine ⟨hur.2.2, .inr ⟨_, h, rfl, ?_, ?_⟩⟩
        · rw [hx]; exact hur.1
        · intro e he
          rw [hdl] at he
          cases he
          rw [hur.2.1] at hle
          simpa using hle

/-- The radius after an accepted turn which does not end the run. -/
theorem innerBody_radius {s : DogState F V R M A W} (h : (innerBody o opt s).1.done = false) (d : F)
    (hd : (innerBody o opt s).1.delta = some d) : o.le d (o.mul opt.e2 (o.norm (innerBody o opt s).1.p)) = false := by
  unfold innerBody at h hd ⊢
  dsimp only at h hd ⊢
  split at h
  · cases h
  · rename_i hsmall
    rw [if_neg hsmall] at hd ⊢
    unfold trial at h hd ⊢
    dsimp only at h hd ⊢
    exact checkRadius_big o opt h d hd

/-- At the head of the inner loop a stored Gauss-Newton step belongs to the current matrices. -/
theorem dgn_run (w0 : W) (hput : ∀ u v w, o.put u (o.put v w) = o.put u w) (n : Nat) (s : DogState F V R M A W)
    (h : run o opt w0 n = (.inner, s)) : ∀ v, s.dgn = some v → v = o.solve s.A s.g := by
  induction n generalizing s with
  | zero => cases congrArg Prod.fst h
  | succ n ih =>
    have hi := dogInv_run o opt w0 hput n
    have e : run o opt w0 (n + 1) = dogStep o opt (run o opt w0 n) := rfl
    rw [e] at h
    generalize hc : run o opt w0 n = c at h ih hi
    obtain ⟨pc, t⟩ := c
    cases pc with
    | halt => cases congrArg Prod.fst h
    | outer =>
      have h' : (if t.done = true then (PC.halt, t) else (PC.inner, startIteration o t)) = (PC.inner, s) := h
      split at h'
      · cases congrArg Prod.fst h'
      · cases h'
        intro v hv
        cases hv
    | inner =>
      have h' : (if ((innerBody o opt t).1.done || (innerBody o opt t).2 || spent opt (innerBody o opt t).1) = true then
        (PC.outer, afterInner opt (innerBody o opt t).1) else (PC.inner, (innerBody o opt t).1)) = (PC.inner, s) := h
      split at h'
      · cases congrArg Prod.fst h'
      · rename_i hgo
        have hrej : (innerBody o opt t).2 = false := by
          cases hb : (innerBody o opt t).2
          · rfl
          · exact absurd (by rw [hb]; simp) hgo
        have hs := innerBody_rejected o opt hput hi.world hrej
        have hdg := (innerBody_rejected' o opt hrej).1
        have : (innerBody o opt t).1 = s := congrArg Prod.snd h'
        rw [this] at hs hdg
        rw [hs.A, hs.g, hdg]
        exact updateStep_dgn o (ih t rfl)

end Dog
end Chumpy
