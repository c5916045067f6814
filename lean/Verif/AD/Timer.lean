import Mathlib.Data.Real.Basic
/-!
# The stopwatch of utils.py
-/
namespace Chumpy

/-- The attributes `_elapsed` and `_start` of a `timer` (utils.py:16-35); `none` is `None`.  Times are exact reals. -/
structure Stopwatch where
  elapsed : ℝ
  start : Option ℝ

/-- What is done with a stopwatch; every call reads the clock (utils.py:17-19), which shows `t`. -/
inductive WatchOp where
  | call | pause | resume
  deriving DecidableEq

namespace Stopwatch
/-- `__init__` (utils.py:20-22). -/
def new (t : ℝ) : Stopwatch := ⟨0, some t⟩

/-- `__call__` (utils.py:23-27). -/
def read (w : Stopwatch) (t : ℝ) : ℝ :=
  match w.start with
  | some s => w.elapsed + t - s
  | none => w.elapsed

/-- `pause` (utils.py:28-31); `none` is the `AssertionError`. -/
def pause (w : Stopwatch) (t : ℝ) : Option Stopwatch :=
  match w.start with
  | some s => some ⟨w.elapsed + (t - s), none⟩
  | none => none

/-- `resume` (utils.py:32-34); `none` is the `AssertionError`. -/
def resume (w : Stopwatch) (t : ℝ) : Option Stopwatch :=
  match w.start with
  | some _ => none
  | none => some ⟨w.elapsed, some t⟩

/-- One call: the stopwatch after it and whether it returned.  A call that raises changes nothing, the assertions come first. -/
def step (w : Stopwatch) (e : ℝ × WatchOp) : Stopwatch × Bool :=
  match e.2 with
  | .call => (w, true)
  | .pause => match w.pause e.1 with | some w' => (w', true) | none => (w, false)
  | .resume => match w.resume e.1 with | some w' => (w', true) | none => (w, false)

/-- The stopwatch made at `t₀`, after the calls `es`. -/
def after (t₀ : ℝ) (es : List (ℝ × WatchOp)) : Stopwatch := es.foldl (fun w e => (w.step e).1) (new t₀)
end Stopwatch
end Chumpy
