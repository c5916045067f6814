import Verif.AD.Methods
import Verif.Core.Off
/-!
# Random numbers (ch_random.py)
-/
namespace Chumpy

/-- numpy's global generator, which is not part of the repository: `S` are the states that `get_state` returns, `A` are calls of a function of `numpy.random` with
its arguments.  A call returns a sample or raises, and leaves another state. -/
structure Rng (S A : Type) where
  draw : A → S → S × Except Err Arr
  seed : ℕ → S

/-- What a program does: call one of the wrapped functions (ch_random.py:12-22), call `seed` or `set_state`, which are numpy's own (ch_random.py:24), or anything
else.  `get_state` returns the state; that a program may use it anywhere is expressed by letting `set_state` have any argument. -/
inductive RandOp (S A : Type) where
  | call (a : A)
  | seed (n : ℕ)
  | setState (t : S)
  | op (o : Op ClassDef Par Jac)

variable {S A : Type}

/-- One step.  `def f(*args, **kwargs): return Ch(numpy.random.f(*args, **kwargs))` (ch_random.py:26-27): the sample is drawn, and becomes the argument of the
constructor of a `Ch`; if numpy raises, no `Ch` is made.  `seed` and `set_state` are numpy's (ch_random.py:29-30).  Everything else leaves the generator alone. -/
noncomputable def stepRand (G : Rng S A) : RandOp S A → Heap ClassDef Par Arr Jac × S → (Heap ClassDef Par Arr Jac × S) × Except Err (Option Id)
  | .call a, (h, t) =>
    match G.draw a t with
    | (t', .error e) => ((h, t'), .error e)
    | (t', .ok v) => (((makeSpec (leafO v) h).1, t'), (makeSpec (leafO v) h).2.map some)
  | .seed n, (h, _) => ((h, G.seed n), .ok none)
  | .setState t, (h, _) => ((h, t), .ok none)
  | .op o, (h, t) => (((step lib o h).1, t), (step lib o h).2.map fun _ => none)

/-- A program. -/
noncomputable def runRand (G : Rng S A) (p : List (RandOp S A)) (w : Heap ClassDef Par Arr Jac × S) : Heap ClassDef Par Arr Jac × S :=
  p.foldl (fun w o => (stepRand G o w).1) w
end Chumpy
