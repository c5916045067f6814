import Verif.Opt.Dogleg
import Verif.Core.Heap
import Mathlib.Data.List.Forall2
/-!
# The dogleg method running on the object graph

`Verif/Opt/Dogleg.lean` models `minimize_dogleg` over an abstract objective: a function of the contents of the free variables.  In the
program the objective is an object graph with caches, and the loop assigns `obj.x`, reads `obj.r` and `obj.J` and calls `on_changed`, each of
which changes the graph and can raise.  Here the loop is modelled once more, with these actions in the order in which the program performs
them.  The arithmetic is that of `Ops`; its fields `resid`, `jac`, `put` and `get` are not used.
-/
namespace Chumpy

/-- What the loop does with the stacked objective, in a state `H`. -/
structure DogActs (V R M H : Type) where
  /-- `obj.x = p; obj.r` (optimization_internal.py:426-427). -/
  tryAt : V → H → H × Except Err R
  /-- `obj.x = ch.Ch(p); obj.on_changed('x')` (optimization_internal.py:443-444). -/
  putBack : V → H → H × Except Err Unit
  /-- `callback()` (optimization_internal.py:413, 434). -/
  callback : H → H × Except Err Unit
  /-- `obj.J` (optimization_internal.py:232-234). -/
  jac : H → H × Except Err M
  /-- `obj.r` (optimization_internal.py:415). -/
  resid : H → H × Except Err R
  /-- `obj.x.r` (optimization_internal.py:406). -/
  start : H → H × Except Err V

namespace Dog
variable {F V R M A H : Type} (o : Ops F V R M A H) (opt : DogOpts F) (act : DogActs V R M H)

/-- Lines 433-441 of optimization_internal.py. -/
def acceptM (w : H) (r' : R) (s : DogState F V R M A H) : Except Err (DogState F V R M A H) :=
  match act.callback w with
  | (_, .error e) => .error e
  | (w1, .ok _) =>
    let s1 := { s with p := o.vadd s.p s.ddl, world := w1, calls := w :: s.calls }
    if o.lt o.zero opt.e3 && o.lt (improvement o s r') opt.e3 then .ok { s1 with done := true }
    else match act.jac w1 with
      | (_, .error e) => .error e
      | (w2, .ok J) => .ok (checkGradient o opt (setR o r' { s1 with J := J, world := w2 }))

/-- Lines 442-444. -/
def rejectM (w : H) (s : DogState F V R M A H) : Except Err (DogState F V R M A H) :=
  match act.putBack s.p w with
  | (_, .error e) => .error e
  | (w1, .ok _) => .ok { s with world := w1 }

/-- Lines 426-448. -/
def trialM (s : DogState F V R M A H) : Except Err (DogState F V R M A H × Bool) :=
  match act.tryAt (o.vadd s.p s.ddl) s.world with
  | (_, .error e) => .error e
  | (w, .ok r') =>
    let s1 := { s with fevals := s.fevals + 1 }
    let good := isImprovement o s r'
    match (if good then acceptM o opt act w r' s1 else rejectM act w s1) with
    | .error e => .error e
    | .ok s2 => .ok (checkRadius o opt (updateRadius o (rho o s r') s2), good)

/-- Lines 421-448. -/
def innerBodyM (s : DogState F V R M A H) : Except Err (DogState F V R M A H × Bool) :=
  let s := updateStep o s
  if o.le (o.norm s.ddl) (o.mul opt.e2 (o.norm s.p)) then .ok ({ s with done := true }, false) else trialM o opt act s

/-- One turn of the inner loop, or of the test of the outer one (lines 418-454). -/
def dogStepM : PC × DogState F V R M A H → Except Err (PC × DogState F V R M A H)
  | (.outer, s) => if s.done then .ok (.halt, s) else .ok (.inner, startIteration o s)
  | (.inner, s) =>
    match innerBodyM o opt act s with
    | .error e => .error e
    | .ok x => .ok (if x.1.done || x.2 || spent opt x.1 then (.outer, afterInner opt x.1) else (.inner, x.1))
  | (.halt, s) => .ok (.halt, s)

/-- Lines 405-417, in the state `w` that `setup_objective` leaves. -/
def initM (w : H) : Except Err (DogState F V R M A H) :=
  match act.start w with
  | (_, .error e) => .error e
  | (w0, .ok x) =>
    match act.callback w0 with
    | (_, .error e) => .error e
    | (w1, .ok _) =>
      match act.jac w1 with
      | (_, .error e) => .error e
      | (w2, .ok J) =>
        match act.resid w2 with
        | (_, .error e) => .error e
        | (w3, .ok r) => .ok (checkGradient o opt
            { iteration := 0, dgn := none, dsd := x, ddl := x, J := J, A := o.gram J, g := o.jtneg J r, p := x, delta := opt.delta0, r := r,
              done := false, fevals := 1, world := w3, calls := [w0] })

/-- The state after `n` turns, or the exception. -/
def runM (w : H) : Nat → Except Err (PC × DogState F V R M A H)
  | 0 => match initM o opt act w with
    | .error e => .error e
    | .ok s => .ok (.outer, s)
  | n + 1 => match runM w n with
    | .error e => .error e
    | .ok x => dogStepM o opt act x

/-! ## Refinement -/

/-- The arithmetic of `o` with another world. -/
def _root_.Chumpy.Ops.over {W : Type} (o : Ops F V R M A H) (resid : W → R) (jac : W → M) (put : V → W → W) (get : W → V) : Ops F V R M A W where
  lt := o.lt
  le := o.le
  zero := o.zero
  two := o.two
  quarter := o.quarter
  twoHalf := o.twoHalf
  lb := o.lb
  ub := o.ub
  add := o.add
  sub := o.sub
  mul := o.mul
  div := o.div
  max := o.max
  sqrt := o.sqrt
  vadd := o.vadd
  vsub := o.vsub
  smul := o.smul
  dot := o.dot
  norm := o.norm
  normInf := o.normInf
  rnorm := o.rnorm
  jmul := o.jmul
  jtneg := o.jtneg
  gram := o.gram
  amul := o.amul
  solve := o.solve
  resid := resid
  jac := jac
  put := put
  get := get

/-- The actions do to the state what `resid` and `jac` say, `Rel v h` meaning that the state `h` holds the vector `v`. -/
structure Faithful (act : DogActs V R M H) (Rel : V → H → Prop) (resid : V → R) (jac : V → M) : Prop where
  tryAt : ∀ v p h, Rel v h → ∃ h', act.tryAt p h = (h', .ok (resid p)) ∧ Rel p h'
  putBack : ∀ v p h, Rel v h → ∃ h', act.putBack p h = (h', .ok ()) ∧ Rel p h'
  callback : ∀ v h, Rel v h → ∃ h', act.callback h = (h', .ok ()) ∧ Rel v h'
  jac : ∀ v h, Rel v h → ∃ h', act.jac h = (h', .ok (jac v)) ∧ Rel v h'
  resid : ∀ v h, Rel v h → ∃ h', act.resid h = (h', .ok (resid v)) ∧ Rel v h'
  start : ∀ v h, Rel v h → ∃ h', act.start h = (h', .ok v) ∧ Rel v h'

/-- The state with another world. -/
def _root_.Chumpy.DogState.re {W : Type} (s : DogState F V R M A H) (w : W) (c : List W) : DogState F V R M A W where
  iteration := s.iteration
  dgn := s.dgn
  dsd := s.dsd
  ddl := s.ddl
  J := s.J
  A := s.A
  g := s.g
  p := s.p
  delta := s.delta
  r := s.r
  done := s.done
  fevals := s.fevals
  world := w
  calls := c

/-- `s` is the state `a` of the abstract loop: the same numbers, and the states hold the vectors, now and at each call of the callback. -/
structure Sim (Rel : V → H → Prop) (a : DogState F V R M A V) (s : DogState F V R M A H) : Prop where
  same : a = s.re a.world a.calls
  world : Rel a.world s.world
  calls : List.Forall₂ Rel a.calls s.calls

variable {o opt act} {Rel : V → H → Prop} {resid : V → R} {jac : V → M}

/-- The loop over vectors. -/
abbrev vops (o : Ops F V R M A H) (resid : V → R) (jac : V → M) : Ops F V R M A V := o.over resid jac (fun v _ => v) id

theorem startIteration_re (s : DogState F V R M A H) (w : V) (c : List V) :
    startIteration (vops o resid jac) (s.re w c) = (startIteration o s).re w c := rfl

/-- `X` is `x` over vectors, and `x` has the world and the calls of `s`. -/
abbrev Re (s : DogState F V R M A H) (w : V) (c : List V) (X : DogState F V R M A V) (x : DogState F V R M A H) : Prop :=
  X = x.re w c ∧ x.world = s.world ∧ x.calls = s.calls

theorem ite_re {s : DogState F V R M A H} {w : V} {c : List V} {q : Prop} [Decidable q] {X Y : DogState F V R M A V} {x y : DogState F V R M A H}
    (hx : Re s w c X x) (hy : Re s w c Y y) : Re s w c (if q then X else Y) (if q then x else y) := by
  by_cases hq : q
  · rw [if_pos hq, if_pos hq]; exact hx
  · rw [if_neg hq, if_neg hq]; exact hy

theorem updateStep_re (s : DogState F V R M A H) (w : V) (c : List V) :
    Re s w c (updateStep (vops o resid jac) (s.re w c)) (updateStep o s) := by
  obtain ⟨it, dgn, dsd, ddl, J, A, g, p, delta, r, done, fe, wo, ca⟩ := s
  cases delta with
  | none => exact ⟨rfl, rfl, rfl⟩
  | some d => exact ite_re ⟨rfl, rfl, rfl⟩ (ite_re ⟨rfl, rfl, rfl⟩ ⟨rfl, rfl, rfl⟩)

theorem updateRadius_re (x : F) (s : DogState F V R M A H) (w : V) (c : List V) :
    Re s w c (updateRadius (vops o resid jac) x (s.re w c)) (updateRadius o x s) := by
  obtain ⟨it, dgn, dsd, ddl, J, A, g, p, delta, r, done, fe, wo, ca⟩ := s
  cases delta with
  | none => exact ⟨rfl, rfl, rfl⟩
  | some d => exact ite_re ⟨rfl, rfl, rfl⟩ (ite_re ⟨rfl, rfl, rfl⟩ ⟨rfl, rfl, rfl⟩)

theorem checkRadius_re (s : DogState F V R M A H) (w : V) (c : List V) :
    Re s w c (checkRadius (vops o resid jac) opt (s.re w c)) (checkRadius o opt s) := by
  obtain ⟨it, dgn, dsd, ddl, J, A, g, p, delta, r, done, fe, wo, ca⟩ := s
  cases delta with
  | none => exact ⟨rfl, rfl, rfl⟩
  | some d => exact ite_re ⟨rfl, rfl, rfl⟩ ⟨rfl, rfl, rfl⟩

theorem checkGradient_re (s : DogState F V R M A H) (w : V) (c : List V) :
    Re s w c (checkGradient (vops o resid jac) opt (s.re w c)) (checkGradient o opt s) :=
  ite_re ⟨rfl, rfl, rfl⟩ ⟨rfl, rfl, rfl⟩

theorem afterInner_re (s : DogState F V R M A H) (w : V) (c : List V) : Re s w c (afterInner opt (s.re w c)) (afterInner opt s) :=
  ite_re ⟨rfl, rfl, rfl⟩ (ite_re ⟨rfl, rfl, rfl⟩ ⟨rfl, rfl, rfl⟩)

/-- A function that changes neither world nor calls. -/
theorem Sim.of_re {f : DogState F V R M A V → DogState F V R M A V} {g : DogState F V R M A H → DogState F V R M A H}
    {a : DogState F V R M A V} {s : DogState F V R M A H} (hs : Sim Rel a s)
    (hfg : ∀ w c, Re s w c (f (s.re w c)) (g s)) : Sim Rel (f a) (g s) := by
  obtain ⟨h1, h2, h3⟩ := hs
  have e : f a = (g s).re a.world a.calls := by rw [h1]; exact (hfg _ _).1
  refine ⟨?_, ?_, ?_⟩
  · rw [e]; rfl
  · rw [e, (hfg a.world a.calls).2.1]; exact h2
  · rw [e, (hfg a.world a.calls).2.2]; exact h3

theorem sim_accept (hf : Faithful act Rel resid jac) {a : DogState F V R M A V} {s : DogState F V R M A H} (hs : Sim Rel a s) {v : V} {w : H}
    (hw : Rel v w) (r' : R) : ∃ s', acceptM o opt act w r' s = .ok s' ∧ Sim Rel (accept (vops o resid jac) opt v r' a) s' := by
  obtain ⟨w1, e1, k1⟩ := hf.callback v w hw
  obtain ⟨w2, e2, k2⟩ := hf.jac v w1 k1
  obtain ⟨h1, h2, h3⟩ := hs
  have hi : improvement (vops o resid jac) a r' = improvement o s r' := by rw [h1]; rfl
  have hp : (vops o resid jac).vadd a.p a.ddl = o.vadd s.p s.ddl := by rw [h1]; rfl
  unfold acceptM accept
  rw [e1]
  dsimp only
  rw [hi, hp]
  by_cases hc : (o.lt o.zero opt.e3 && o.lt (improvement o s r') opt.e3) = true
  · rw [if_pos hc, if_pos (show ((vops o resid jac).lt (vops o resid jac).zero opt.e3 && (vops o resid jac).lt (improvement o s r') opt.e3) = true from hc)]
    refine ⟨_, rfl, ⟨?_, k1, .cons hw h3⟩⟩
    rw [h1]; rfl
  · rw [if_neg hc, if_neg (show ¬ ((vops o resid jac).lt (vops o resid jac).zero opt.e3 && (vops o resid jac).lt (improvement o s r') opt.e3) = true from hc)]
    rw [e2]
    refine ⟨_, rfl, ?_⟩
    refine Sim.of_re ?_ fun w c => checkGradient_re _ w c
    refine ⟨?_, k2, .cons hw h3⟩
    rw [h1]; rfl

theorem sim_reject (hf : Faithful act Rel resid jac) {a : DogState F V R M A V} {s : DogState F V R M A H} (hs : Sim Rel a s) {v : V} {w : H}
    (hw : Rel v w) : ∃ s', rejectM act w s = .ok s' ∧ Sim Rel (reject (vops o resid jac) v a) s' := by
  obtain ⟨h1, h2, h3⟩ := hs
  have hp : a.p = s.p := by rw [h1]; rfl
  obtain ⟨w1, e1, k1⟩ := hf.putBack v s.p w hw
  unfold rejectM reject
  rw [e1]
  refine ⟨_, rfl, ⟨?_, ?_, h3⟩⟩
  · rw [h1]; rfl
  · show Rel a.p w1
    rw [hp]; exact k1

theorem sim_trial (hf : Faithful act Rel resid jac) {a : DogState F V R M A V} {s : DogState F V R M A H} (hs : Sim Rel a s) :
    ∃ s', trialM o opt act s = .ok (s', (trial (vops o resid jac) opt a).2) ∧ Sim Rel (trial (vops o resid jac) opt a).1 s' := by
  obtain ⟨h1, h2, h3⟩ := id hs
  obtain ⟨w, e, k⟩ := hf.tryAt a.world (o.vadd s.p s.ddl) s.world h2
  have hp : (vops o resid jac).put ((vops o resid jac).vadd a.p a.ddl) a.world = o.vadd s.p s.ddl := by rw [h1]; rfl
  have hi : ∀ r', isImprovement (vops o resid jac) a r' = isImprovement o s r' := fun r' => by rw [h1]; rfl
  have hr : ∀ r', rho (vops o resid jac) a r' = rho o s r' := fun r' => by rw [h1]; rfl
  have hs1 : Sim Rel { a with fevals := a.fevals + 1 } { s with fevals := s.fevals + 1 } := by
    refine ⟨?_, h2, h3⟩
    rw [h1]; rfl
  unfold trialM trial
  rw [e]
  dsimp only
  rw [hp]
  have hre : (vops o resid jac).resid (o.vadd s.p s.ddl) = resid (o.vadd s.p s.ddl) := rfl
  rw [hre, hi, hr]
  have fin : ∀ {a2 : DogState F V R M A V} {s2 : DogState F V R M A H}, Sim Rel a2 s2 →
      Sim Rel (checkRadius (vops o resid jac) opt (updateRadius (vops o resid jac) (rho o s (resid (o.vadd s.p s.ddl))) a2))
        (checkRadius o opt (updateRadius o (rho o s (resid (o.vadd s.p s.ddl))) s2)) := fun h =>
    (h.of_re fun w c => updateRadius_re _ _ w c).of_re fun w c => checkRadius_re _ w c
  by_cases hg : isImprovement o s (resid (o.vadd s.p s.ddl)) = true
  · rw [if_pos hg, if_pos hg]
    obtain ⟨s2, e2, k2⟩ := sim_accept (o := o) (opt := opt) hf hs1 k (resid (o.vadd s.p s.ddl))
    rw [e2]
    exact ⟨_, rfl, fin k2⟩
  · rw [if_neg hg, if_neg hg]
    obtain ⟨s2, e2, k2⟩ := sim_reject (o := o) hf hs1 k
    rw [e2]
    exact ⟨_, rfl, fin k2⟩

theorem sim_innerBody (hf : Faithful act Rel resid jac) {a : DogState F V R M A V} {s : DogState F V R M A H} (hs : Sim Rel a s) :
    ∃ s', innerBodyM o opt act s = .ok (s', (innerBody (vops o resid jac) opt a).2) ∧ Sim Rel (innerBody (vops o resid jac) opt a).1 s' := by
  have h1 : Sim Rel (updateStep (vops o resid jac) a) (updateStep o s) := hs.of_re fun w c => updateStep_re s w c
  unfold innerBodyM innerBody
  dsimp only
  have hc : (vops o resid jac).le ((vops o resid jac).norm (updateStep (vops o resid jac) a).ddl)
      ((vops o resid jac).mul opt.e2 ((vops o resid jac).norm (updateStep (vops o resid jac) a).p)) =
      o.le (o.norm (updateStep o s).ddl) (o.mul opt.e2 (o.norm (updateStep o s).p)) := by
    rw [h1.same]; rfl
  rw [hc]
  split
  · refine ⟨_, rfl, ⟨?_, h1.world, h1.calls⟩⟩
    dsimp only
    conv_lhs => rw [h1.same]
    rfl
  · exact sim_trial hf h1

theorem sim_dogStep (hf : Faithful act Rel resid jac) {pc : PC} {a : DogState F V R M A V} {s : DogState F V R M A H} (hs : Sim Rel a s) :
    ∃ s', dogStepM o opt act (pc, s) = .ok ((dogStep (vops o resid jac) opt (pc, a)).1, s') ∧ Sim Rel (dogStep (vops o resid jac) opt (pc, a)).2 s' := by
  cases pc with
  | halt => exact ⟨s, rfl, hs⟩
  | outer =>
    have hd : a.done = s.done := by rw [hs.same]; rfl
    simp only [dogStepM, dogStep, hd]
    split
    · exact ⟨s, rfl, hs⟩
    · exact ⟨_, rfl, hs.of_re fun w c => ⟨startIteration_re s w c, rfl, rfl⟩⟩
  | inner =>
    obtain ⟨s', e, k⟩ := sim_innerBody (o := o) (opt := opt) hf hs
    simp only [dogStepM, dogStep]
    rw [e]
    dsimp only
    generalize hx : innerBody (vops o resid jac) opt a = x at k ⊢
    have hc : (x.1.done || x.2 || spent opt x.1) = (s'.done || x.2 || spent opt s') := by
      have h1 : x.1.done = s'.done := by rw [k.same]; rfl
      have h2 : spent opt x.1 = spent opt s' := by rw [k.same]; rfl
      rw [h1, h2]
    rw [hc]
    split
    · exact ⟨_, rfl, k.of_re fun w c => afterInner_re s' w c⟩
    · exact ⟨s', rfl, k⟩

theorem sim_init (hf : Faithful act Rel resid jac) {v : V} {w : H} (hw : Rel v w) :
    ∃ s', initM o opt act w = .ok s' ∧ Sim Rel (init (vops o resid jac) opt v) s' := by
  obtain ⟨w0, e0, k0⟩ := hf.start v w hw
  obtain ⟨w1, e1, k1⟩ := hf.callback v w0 k0
  obtain ⟨w2, e2, k2⟩ := hf.jac v w1 k1
  obtain ⟨w3, e3, k3⟩ := hf.resid v w2 k2
  unfold initM
  rw [e0]; dsimp only
  rw [e1]; dsimp only
  rw [e2]; dsimp only
  rw [e3]
  refine ⟨_, rfl, ?_⟩
  unfold init
  exact Sim.of_re ⟨rfl, k3, .cons k0 .nil⟩ fun w c => checkGradient_re _ w c

/-- If the actions do what they should, the loop raises nothing and goes through the states of the loop over vectors. -/
theorem sim_run (hf : Faithful act Rel resid jac) {v : V} {w : H} (hw : Rel v w) : ∀ n,
    ∃ s', runM o opt act w n = .ok ((run (vops o resid jac) opt v n).1, s') ∧ Sim Rel (run (vops o resid jac) opt v n).2 s'
  | 0 => by
    obtain ⟨s', e, k⟩ := sim_init (o := o) (opt := opt) hf hw
    simp only [runM, e]
    exact ⟨s', rfl, k⟩
  | n + 1 => by
    obtain ⟨s', e, k⟩ := sim_run hf hw n
    simp only [runM, e, run]
    exact sim_dogStep hf k

end Dog
end Chumpy
