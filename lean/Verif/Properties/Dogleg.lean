import Verif.Opt.Control
/-!
# The dogleg method: what is accepted, what is returned, how long it takes (C46, C47, C50)

These theorems hold for every implementation of the arithmetic, every objective and every answer of the linear solver; the
only laws used are that a positive difference `a - b` means `b < a`, that `<` is transitive (both true of reals and of
floating point, with NaN and infinities), and that copying a vector to the free variables overwrites the one copied before.
-/
namespace Chumpy
variable {F V R M A W : Type}

/-- What C46 and C47 need of the arithmetic and of the copying. -/
structure DogLaws (o : Ops F V R M A W) : Prop where
  pos : ∀ a b, o.lt o.zero (o.sub a b) = true → o.lt b a = true
  trans : ∀ a b c, o.lt a b = true → o.lt b c = true → o.lt a c = true
  put : ∀ u v w, o.put u (o.put v w) = o.put u w

/-- The sum of squares of the objective when the free variables hold `w`. -/
def sse (o : Ops F V R M A W) (w : W) : F := o.mul (o.rnorm (o.resid w)) (o.rnorm (o.resid w))

namespace Dog
variable (o : Ops F V R M A W) (opt : DogOpts F)

/-- An accepted trial has a smaller sum of squares. -/
theorem improves (hl : DogLaws o) {s : DogState F V R M A W} {w : W} (hr : s.r = o.resid w) {w' : W}
    (h : isImprovement o s (o.resid w') = true) : o.lt (sse o w') (sse o w) = true := by
  apply hl.pos
  unfold isImprovement rho at h
  dsimp only at h
  rw [hr] at h
  by_cases hx : o.lt o.zero (o.sub (sq o (o.rnorm (o.resid w))) (sq o (o.rnorm (o.resid w')))) = true
  · exact hx
  · rw [if_neg hx] at h
    exact absurd h hx

/-- The sums of squares seen by the callback, newest first, decrease. -/
def Descends (l : List W) : Prop := l.Pairwise fun new old => o.lt (sse o new) (sse o old) = true

theorem descends_cons (hl : DogLaws o) {w w' : W} {l : List W} (h : Descends o (w :: l)) (hlt : o.lt (sse o w') (sse o w) = true) :
    Descends o (w' :: w :: l) := by
  unfold Descends at h ⊢
  rw [List.pairwise_cons]
  refine ⟨?_, h⟩
  intro x hx
  rcases List.mem_cons.1 hx with rfl | hx
  · exact hlt
  · exact hl.trans _ _ _ hlt ((List.pairwise_cons.1 h).1 x hx)

theorem descends_run (hl : DogLaws o) (w0 : W) (n : Nat) : Descends o (run o opt w0 n).2.calls := by
  induction n with
  | zero =>
    show Descends o (init o opt w0).calls
    have hc : (init o opt w0).calls = [o.put (o.get w0) w0] := by
      unfold init checkGradient
      dsimp only
      split <;> rfl
    rw [hc]
    exact List.pairwise_singleton _ _
  | succ n ih =>
    have hi := dogInv_run o opt w0 hl.put n
    show Descends o (dogStep o opt (run o opt w0 n)).2.calls
    generalize run o opt w0 n = c at ih hi
    obtain ⟨pc, s⟩ := c
    cases pc with
    | halt => exact ih
    | outer =>
      show Descends o (if s.done = true then _ else _ : PC × DogState F V R M A W).2.calls
      split <;> exact ih
    | inner =>
      have key : Descends o (innerBody o opt s).1.calls := by
        by_cases hx : (innerBody o opt s).2 = true
        · obtain ⟨himp, _, hw, hc, _⟩ := innerBody_accepted o opt hx
          obtain ⟨l, hcl⟩ := hi.calls
          dsimp only at hcl
          rw [hc, hcl]
          refine descends_cons o hl (by rw [← hcl]; exact ih) ?_
          have hr : (updateStep o s).r = o.resid s.world := by
            rw [(updateStep_same o s).r]; exact hi.resid (hi.live rfl)
          rw [hw]
          exact improves o hl hr himp
        · rw [(innerBody_rejected o opt hl.put hi.world (by simpa using hx)).calls]
          exact ih
      show Descends o (if ((innerBody o opt s).1.done || (innerBody o opt s).2 || spent opt (innerBody o opt s).1) = true
        then _ else _ : PC × DogState F V R M A W).2.calls
      split
      · rcases afterInner_eq opt (innerBody o opt s).1 with h | h <;> rw [h] <;> exact key
      · exact key

end Dog

open Dog

/-- **C46**: whatever the objective, the solver and the options, and after any number of turns: every callback but the first
saw a strictly smaller sum of squares than each earlier one; and the free variables now give a sum of squares which is
smaller than that of the start, unless they still hold the start. -/
theorem C46_dogleg_accepts_improvements (o : Ops F V R M A W) (hl : DogLaws o) (opt : DogOpts F) (w0 : W) (n : Nat) :
    (run o opt w0 n).2.calls.Pairwise (fun new old => o.lt (sse o new) (sse o old) = true) ∧
    ((run o opt w0 n).2.world = o.put (o.get w0) w0 ∨
      o.lt (sse o (run o opt w0 n).2.world) (sse o (o.put (o.get w0) w0)) = true) := by
  have hd := descends_run o opt hl w0 n
  have hi := dogInv_run o opt w0 hl.put n
  refine ⟨hd, ?_⟩
  obtain ⟨l, hc⟩ := hi.calls
  have hf := hi.first
  rw [hc] at hf hd
  cases l with
  | nil =>
    left
    simpa using hf
  | cons a l =>
    right
    rw [List.getLast?_cons_cons] at hf
    exact (List.pairwise_cons.1 hd).1 _ (List.mem_of_getLast? hf)

/-- **C47**: at the head of either loop, and when the method returns, the free variables hold what they held at the latest
callback, that is at the latest accepted point (the callback is called at the start and when a trial is accepted): they are
as if the vector `p` of that point had been copied to them at the start, with no other copy ever made. -/
theorem C47_dogleg_returns_last_accepted (o : Ops F V R M A W) (hput : ∀ u v w, o.put u (o.put v w) = o.put u w)
    (opt : DogOpts F) (w0 : W) (n : Nat) :
    (run o opt w0 n).2.calls.head? = some (run o opt w0 n).2.world ∧
    (run o opt w0 n).2.world = o.put (run o opt w0 n).2.p w0 := by
  have hi := dogInv_run o opt w0 hput n
  obtain ⟨l, hc⟩ := hi.calls
  exact ⟨by rw [hc]; rfl, hi.world⟩

/-- **C47**: a turn of the inner loop whose trial is rejected leaves no trace: parameters, free variables, residual,
Jacobian, gradient and the list of callbacks are what they were. -/
theorem C47_rejected_trial_leaves_no_trace (o : Ops F V R M A W) (hput : ∀ u v w, o.put u (o.put v w) = o.put u w)
    (opt : DogOpts F) (w0 : W) (n : Nat) (s : DogState F V R M A W) (h : run o opt w0 n = (.inner, s))
    (hrej : (innerBody o opt s).2 = false) :
    (innerBody o opt s).1.world = s.world ∧ (innerBody o opt s).1.p = s.p ∧ (innerBody o opt s).1.r = s.r ∧
    (innerBody o opt s).1.J = s.J ∧ (innerBody o opt s).1.g = s.g ∧ (innerBody o opt s).1.calls = s.calls := by
  have hi := dogInv_run o opt w0 hput n
  rw [h] at hi
  have := innerBody_rejected o opt hput hi.world hrej
  exact ⟨this.world, this.p, this.r, this.J, this.g, this.calls⟩

/-- While it runs, the residual, the Jacobian, the approximate Hessian and the gradient belong to the accepted point. -/
theorem C47_state_belongs_to_accepted_point (o : Ops F V R M A W) (hput : ∀ u v w, o.put u (o.put v w) = o.put u w)
    (opt : DogOpts F) (w0 : W) (n : Nat) (h : (run o opt w0 n).2.done = false) :
    (run o opt w0 n).2.r = o.resid (run o opt w0 n).2.world ∧ (run o opt w0 n).2.J = o.jac (run o opt w0 n).2.world ∧
    (run o opt w0 n).2.A = o.gram (o.jac (run o opt w0 n).2.world) ∧
    (run o opt w0 n).2.g = o.jtneg (o.jac (run o opt w0 n).2.world) (o.resid (run o opt w0 n).2.world) := by
  have hi := dogInv_run o opt w0 hput n
  exact ⟨hi.resid h, hi.jac h, by rw [hi.gram h, hi.jac h], by rw [hi.grad h, hi.jac h, hi.resid h]⟩

/-- **C50** (outer loop): there are never more than `max(1, maxiter)` iterations. -/
theorem C50_iterations_bounded (o : Ops F V R M A W) (hput : ∀ u v w, o.put u (o.put v w) = o.put u w)
    (opt : DogOpts F) (w0 : W) (n : Nat) : (run o opt w0 n).2.iteration ≤ max 1 opt.maxiter :=
  (dogInv_run o opt w0 hput n).count

namespace Dog
variable (o : Ops F V R M A W) (opt : DogOpts F)

/-- Evaluations counted twice, and one more inside the inner loop. -/
def clock (c : PC × DogState F V R M A W) : Nat := 2 * c.2.fevals + (if c.1 = .inner then 1 else 0)

theorem run_halt {w0 : W} {n : Nat} (h : (run o opt w0 n).1 = .halt) (k : Nat) : run o opt w0 (n + k) = run o opt w0 n := by
  induction k with
  | zero => rfl
  | succ k ih =>
    show dogStep o opt (run o opt w0 (n + k)) = _
    rw [ih]
    generalize run o opt w0 n = c at h
    obtain ⟨pc, s⟩ := c
    cases h
    rfl

theorem init_fevals (w0 : W) : (init o opt w0).fevals = 1 := by
  unfold init checkGradient
  dsimp only
  split <;> rfl

/-- As long as the method runs the clock advances, and it is bounded. -/
theorem clock_run {k : Nat} (hk : opt.maxFevals = some k) (w0 : W) (n : Nat) :
    (run o opt w0 n).1 = .halt ∨ ((run o opt w0 n).1 = .outer ∧ (run o opt w0 n).2.done = true) ∨
    (n + 2 ≤ clock (run o opt w0 n) ∧ ((run o opt w0 n).2.fevals < k ∨ (run o opt w0 n).2.fevals = 1)) := by
  induction n with
  | zero =>
    right; right
    refine ⟨?_, .inr (init_fevals o opt w0)⟩
    show 2 ≤ 2 * (init o opt w0).fevals + 0
    rw [init_fevals]
    exact Nat.le_refl _
  | succ n ih =>
    show (dogStep o opt (run o opt w0 n)).1 = .halt ∨ _
    have e : run o opt w0 (n + 1) = dogStep o opt (run o opt w0 n) := rfl
    rw [e]
    generalize run o opt w0 n = c at ih
    obtain ⟨pc, s⟩ := c
    cases pc with
    | halt => exact .inl rfl
    | outer =>
      by_cases hd : s.done = true
      · left
        show (if s.done = true then _ else _ : PC × DogState F V R M A W).1 = _
        rw [if_pos hd]
      · right; right
        have hst : dogStep o opt (.outer, s) = (.inner, startIteration o s) := by
          show (if s.done = true then _ else _) = _
          rw [if_neg hd]
        rw [hst]
        rcases ih with ih | ih | ih
        · cases ih
        · exact absurd ih.2 hd
        · refine ⟨?_, ih.2⟩
          have h1 := ih.1
          simp [clock] at h1
          show n + 1 + 2 ≤ 2 * s.fevals + 1
          omega
    | inner =>
      right
      rcases ih with ih | ih | ih
      · cases ih
      · cases ih.1
      · have h1 : n + 2 ≤ 2 * s.fevals + 1 := ih.1
        have hst : dogStep o opt (.inner, s) = if ((innerBody o opt s).1.done || (innerBody o opt s).2 ||
            spent opt (innerBody o opt s).1) = true then (.outer, afterInner opt (innerBody o opt s).1)
            else (.inner, (innerBody o opt s).1) := rfl
        rw [hst]
        by_cases hd : (innerBody o opt s).1.done = true
        · left
          rw [if_pos (by rw [hd]; rfl)]
          refine ⟨rfl, ?_⟩
          rcases afterInner_eq opt (innerBody o opt s).1 with h | h <;> rw [h]
          exact hd
        · have hf : (innerBody o opt s).1.fevals = s.fevals + 1 := (innerBody_fevals o opt).resolve_left hd
          by_cases hsp : k ≤ (innerBody o opt s).1.fevals
          · have hs : spent opt (innerBody o opt s).1 = true := by unfold spent; rw [hk]; simpa using hsp
            left
            rw [if_pos (by rw [hs]; simp)]
            refine ⟨rfl, ?_⟩
            show (afterInner opt (innerBody o opt s).1).done = true
            unfold afterInner
            split
            · rfl
            · rfl
          · right
            split
            · have hfe : (afterInner opt (innerBody o opt s).1).fevals = s.fevals + 1 := by
                rcases afterInner_eq opt (innerBody o opt s).1 with h | h <;> rw [h] <;> exact hf
              refine ⟨?_, .inl (by show (afterInner opt (innerBody o opt s).1).fevals < k; rw [hfe]; omega)⟩
              show n + 1 + 2 ≤ 2 * (afterInner opt (innerBody o opt s).1).fevals + 0
              rw [hfe]; omega
            · refine ⟨?_, .inl (by show (innerBody o opt s).1.fevals < k; omega)⟩
              show n + 1 + 2 ≤ 2 * (innerBody o opt s).1.fevals + 1
              rw [hf]; omega
end Dog

/-- **C50** (finite `max_fevals`): the method returns, within `2·max(1, max_fevals) + 2` turns, for every objective, solver
and arithmetic, NaN included. -/
theorem C50_terminates_with_max_fevals (o : Ops F V R M A W) (opt : DogOpts F) (k : Nat) (hk : opt.maxFevals = some k) (w0 : W) :
    (run o opt w0 (2 * max 1 k + 2)).1 = .halt := by
  have h := clock_run o opt hk w0 (2 * max 1 k)
  have hc : ∀ c : PC × DogState F V R M A W, clock c ≤ 2 * c.2.fevals + 1 := by
    intro c; unfold clock; split <;> omega
  have hstep : ∀ m, ((run o opt w0 m).1 = .outer ∧ (run o opt w0 m).2.done = true) → (run o opt w0 (m + 1)).1 = .halt := by
    intro m hm
    show (dogStep o opt (run o opt w0 m)).1 = _
    generalize run o opt w0 m = c at hm
    obtain ⟨pc, s⟩ := c
    obtain ⟨h1, h2⟩ := hm
    cases h1
    show (if s.done = true then _ else _ : PC × DogState F V R M A W).1 = _
    rw [if_pos h2]
  rcases h with h | h | ⟨h, h'⟩
  · rw [run_halt o opt h 2]; exact h
  · have := hstep _ h
    rw [show 2 * max 1 k + 2 = (2 * max 1 k + 1) + 1 from rfl, run_halt o opt this 1]; exact this
  · have := hc (run o opt w0 (2 * max 1 k))
    omega

end Chumpy
