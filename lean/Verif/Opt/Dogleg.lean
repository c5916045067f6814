/-!
# Powell's dogleg method (optimization_internal.py:158-455)

The control flow and the arithmetic of `minimize_dogleg` and `DoglegState`, line by line, over an arbitrary implementation of
the operations they call: `Ops` collects the floating-point operations, the vector and matrix operations of numpy and scipy,
the linear solver, and the objective.  Nothing is assumed of them here, so theorems about `Dog.run` that make no further
assumption hold for every rounding, for NaN and infinities, for every solver and every objective.
-/
namespace Chumpy

/-- What the optimiser calls.  `F`: numbers; `V`: vectors of parameters; `R`: vectors of residuals; `M`: Jacobians;
`A`: approximate Hessians; `W`: contents of the free variables. -/
structure Ops (F V R M A W : Type) where
  /-- Comparison of floats, `a < b` and `a <= b`. -/
  lt : F → F → Bool
  le : F → F → Bool
  /-- The constants 0., 2., .25, 2.5, .05, .9. -/
  zero : F
  two : F
  quarter : F
  twoHalf : F
  lb : F
  ub : F
  add : F → F → F
  sub : F → F → F
  mul : F → F → F
  div : F → F → F
  max : F → F → F
  sqrt : F → F
  vadd : V → V → V
  vsub : V → V → V
  smul : F → V → V
  /-- `u.T.dot(v)`. -/
  dot : V → V → F
  /-- `np.linalg.norm(v)` and `np.linalg.norm(v, np.inf)`. -/
  norm : V → F
  normInf : V → F
  /-- `np.linalg.norm` of a residual. -/
  rnorm : R → F
  /-- `J.dot(v)`. -/
  jmul : M → V → R
  /-- `J.T.dot(-r)`. -/
  jtneg : M → R → V
  /-- `J.T.dot(J)`. -/
  gram : M → A
  /-- `A.dot(v)`. -/
  amul : A → V → V
  /-- The answer of `updateGN` (lines 278-299): of whichever solver is used. -/
  solve : A → V → V
  /-- `obj.r` and `obj.J`, for given contents of the free variables. -/
  resid : W → R
  jac : W → M
  /-- Assigning `obj.x`: `ChInputsStacked.on_changed` (lines 73-98) copies the vector to the free variables. -/
  put : V → W → W
  /-- `np.concatenate([freevar.r.ravel() for freevar in free_variables])` (line 143). -/
  get : W → V

/-- `DoglegState` (lines 158-181), with the contents of the free variables, the number of evaluations of the objective, and
the contents of the free variables at each call of the callback, newest first.  `_d_sd` and `_d_dl`, initially `None`, are not
read before they are set. -/
structure DogState (F V R M A W : Type) where
  iteration : Nat
  dgn : Option V
  dsd : V
  ddl : V
  J : M
  A : A
  g : V
  p : V
  delta : Option F
  r : R
  done : Bool
  fevals : Nat
  world : W
  calls : List W

/-- The stopping conditions (lines 359-360); `maxFevals = none` is `np.inf`. -/
structure DogOpts (F : Type) where
  maxiter : Nat
  maxFevals : Option Nat
  e1 : F
  e2 : F
  e3 : F
  delta0 : Option F

namespace Dog
variable {F V R M A W : Type} (o : Ops F V R M A W) (opt : DogOpts F)

/-- `x**2`. -/
def sq (x : F) : F := o.mul x x

/-- `start_iteration` (lines 226-230). -/
def startIteration (s : DogState F V R M A W) : DogState F V R M A W :=
  { s with iteration := s.iteration + 1, dsd := o.smul (o.div (sq o (o.norm s.g)) (sq o (o.rnorm (o.jmul s.J s.g)))) s.g, dgn := none }

/-- `beta_multiplier` (lines 270-276). -/
def beta (delta : F) (gn sd : V) : F :=
  let diff := o.vsub gn sd
  let pnow := o.sub (o.add (o.mul (o.dot diff diff) (sq o delta)) (sq o (o.dot gn sd))) (o.mul (sq o (o.norm gn)) (sq o (o.norm sd)))
  o.div (o.sub (sq o delta) (sq o (o.norm sd))) (o.add (o.dot diff sd) (o.sqrt pnow))

/-- `update_step` from line 256 on: the Cauchy point is inside the trust region. -/
def updateStepGN (s : DogState F V R M A W) : DogState F V R M A W :=
  let gn := s.dgn.getD (o.solve s.A s.g)
  match s.delta with
  | none => { s with dgn := some gn, ddl := gn, delta := some (o.norm gn) }
  | some d =>
    if o.le (o.norm gn) d then { s with dgn := some gn, ddl := gn }
    else { s with dgn := some gn, ddl := o.vadd s.dsd (o.smul (beta o d gn s.dsd) (o.vsub gn s.dsd)) }

/-- `update_step` (lines 249-268). -/
def updateStep (s : DogState F V R M A W) : DogState F V R M A W :=
  match s.delta with
  | some d => if o.le d (o.norm s.dsd) then { s with ddl := o.smul (o.div d (o.norm s.dsd)) s.dsd } else updateStepGN o s
  | none => updateStepGN o s

/-- The predicted improvement (line 337). -/
def predicted (s : DogState F V R M A W) : F :=
  o.sub (o.mul o.two (o.dot s.g s.ddl)) (o.dot s.ddl (o.amul s.A s.ddl))

/-- `Trial.rho` (lines 333-338). -/
def rho (s : DogState F V R M A W) (r' : R) : F :=
  let x := o.sub (sq o (o.rnorm s.r)) (sq o (o.rnorm r'))
  if o.lt o.zero x then o.div x (predicted o s) else x

/-- `Trial.is_improvement` (lines 340-342). -/
def isImprovement (s : DogState F V R M A W) (r' : R) : Bool := o.lt o.zero (rho o s r')

/-- `Trial.improvement` (lines 344-346). -/
def improvement (s : DogState F V R M A W) (r' : R) : F :=
  o.div (o.sub (sq o (o.rnorm s.r)) (sq o (o.rnorm r'))) (sq o (o.rnorm s.r))

/-- `updateRadius` (lines 351-355). -/
def updateRadius (rho : F) (s : DogState F V R M A W) : DogState F V R M A W :=
  match s.delta with
  | none => s
  | some d =>
    if o.lt o.ub rho then { s with delta := some (o.max d (o.mul o.twoHalf (o.norm s.ddl))) }
    else if o.lt rho o.lb then { s with delta := some (o.mul d o.quarter) }
    else s

/-- The setter of `r`, which updates `A` and `g` (lines 236-246). -/
def setR (r : R) (s : DogState F V R M A W) : DogState F V R M A W :=
  { s with r := r, A := o.gram s.J, g := o.jtneg s.J r }

/-- `if np.linalg.norm(state.g, np.inf) < e_1: stop(...)` (lines 416-417, 440-441). -/
def checkGradient (s : DogState F V R M A W) : DogState F V R M A W :=
  if o.lt (o.normInf s.g) opt.e1 then { s with done := true } else s

/-- Lines 433-441: the trial is accepted.  `w` is what the free variables hold, the new parameters. -/
def accept (w : W) (r' : R) (s : DogState F V R M A W) : DogState F V R M A W :=
  let s1 := { s with p := o.vadd s.p s.ddl, world := w, calls := w :: s.calls }
  if o.lt o.zero opt.e3 && o.lt (improvement o s r') opt.e3 then { s1 with done := true }
  else checkGradient o opt (setR o r' { s1 with J := o.jac w })

/-- Lines 443-444: the old parameters are put back. -/
def reject (w : W) (s : DogState F V R M A W) : DogState F V R M A W := { s with world := o.put s.p w }

/-- Lines 447-448. -/
def checkRadius (s : DogState F V R M A W) : DogState F V R M A W :=
  match s.delta with
  | none => s
  | some d => if o.le d (o.mul opt.e2 (o.norm s.p)) then { s with done := true } else s

/-- Lines 426-448, after the step has been computed and found not to be small. -/
def trial (s : DogState F V R M A W) : DogState F V R M A W × Bool :=
  let w := o.put (o.vadd s.p s.ddl) s.world
  let r' := o.resid w
  let s1 := { s with fevals := s.fevals + 1 }
  let good := isImprovement o s r'
  let s2 := if good then accept o opt w r' s1 else reject o w s1
  (checkRadius o opt (updateRadius o (rho o s r') s2), good)

/-- The body of the inner loop (lines 421-448) and whether the trial was an improvement. -/
def innerBody (s : DogState F V R M A W) : DogState F V R M A W × Bool :=
  let s := updateStep o s
  if o.le (o.norm s.ddl) (o.mul opt.e2 (o.norm s.p)) then ({ s with done := true }, false) else trial o opt s

/-- `obj.fevals >= max_fevals`. -/
def spent (s : DogState F V R M A W) : Bool :=
  match opt.maxFevals with
  | none => false
  | some k => k ≤ s.fevals

/-- Lines 451-454. -/
def afterInner (s : DogState F V R M A W) : DogState F V R M A W :=
  if opt.maxiter ≤ s.iteration then { s with done := true } else if spent opt s then { s with done := true } else s

/-- Where the program is: before the test of line 418, before line 421, or past line 455. -/
inductive PC where
  | outer
  | inner
  | halt
  deriving DecidableEq

/-- One turn of the inner loop, or of the test of the outer one. -/
def dogStep : PC × DogState F V R M A W → PC × DogState F V R M A W
  | (.outer, s) => if s.done then (.halt, s) else (.inner, startIteration o s)
  | (.inner, s) =>
    let x := innerBody o opt s
    if x.1.done || x.2 || spent opt x.1 then (.outer, afterInner opt x.1) else (.inner, x.1)
  | (.halt, s) => (.halt, s)

/-- Lines 395-417, started with the free variables holding `w`: `setup_objective` writes the vector it has read from them,
the callback is called, the Jacobian and the residual are computed. -/
def init (w : W) : DogState F V R M A W :=
  let x := o.get w
  let w' := o.put x w
  let J := o.jac w'
  let r := o.resid w'
  checkGradient o opt
    { iteration := 0, dgn := none, dsd := x, ddl := x, J := J, A := o.gram J, g := o.jtneg J r, p := x, delta := opt.delta0, r := r,
      done := false, fevals := 1, world := w', calls := [w'] }

/-- The state after `n` turns. -/
def run (w : W) : Nat → PC × DogState F V R M A W
  | 0 => (.outer, init o opt w)
  | n + 1 => dogStep o opt (run w n)

end Dog
end Chumpy
