import Mathlib.MeasureTheory.Integral.IntervalIntegral.Basic
import Verif.AD.Timer
/-!
# C78: the stopwatch counts the time during which it is not paused
-/
namespace Chumpy
open MeasureTheory

/-! ## Specification -/

/-- The calls are made in the order of the clock, from `t₀` to `T`. -/
def InOrder (t₀ T : ℝ) (es : List (ℝ × WatchOp)) : Prop :=
  (es.map Prod.fst).Pairwise (· ≤ ·) ∧ (∀ e ∈ es, t₀ ≤ e.1 ∧ e.1 ≤ T) ∧ t₀ ≤ T

/-- Whether the user wants the stopwatch to run at the time `s`: the last `pause` or `resume` before `s`, if there is one, is a `resume`. -/
def WantedAt (es : List (ℝ × WatchOp)) (s : ℝ) : Prop :=
  ∀ o, ((es.filter fun e => e.1 < s ∧ e.2 ≠ .call).getLast?).map Prod.snd = some o → o = .resume

/-- The same after all calls. -/
def WantedNow (es : List (ℝ × WatchOp)) : Prop := ∀ o, ((es.filter fun e => e.2 ≠ .call).getLast?).map Prod.snd = some o → o = .resume

open Classical in
/-- The time between `t₀` and `T` during which the stopwatch is wanted to run. -/
noncomputable def wantedTime (es : List (ℝ × WatchOp)) (t₀ T : ℝ) : ℝ := ∫ s in t₀..T, if WantedAt es s then (1 : ℝ) else 0

/-! ## Proof -/

namespace Stopwatch
theorem after_snoc (t₀ : ℝ) (es : List (ℝ × WatchOp)) (e : ℝ × WatchOp) : after t₀ (es ++ [e]) = ((after t₀ es).step e).1 := by
  simp [after]
end Stopwatch

theorem InOrder.init {t₀ T : ℝ} {es : List (ℝ × WatchOp)} {e : ℝ × WatchOp} (h : InOrder t₀ T (es ++ [e])) : InOrder t₀ e.1 es := by
  obtain ⟨h1, h2, h3⟩ := h
  rw [List.map_append, List.pairwise_append] at h1
  refine ⟨h1.1, fun a ha => ⟨(h2 a (by simp [ha])).1, h1.2.2 a.1 (List.mem_map_of_mem ha) e.1 (by simp)⟩, (h2 e (by simp)).1⟩

theorem InOrder.le {t₀ T : ℝ} {es : List (ℝ × WatchOp)} {e : ℝ × WatchOp} (h : InOrder t₀ T (es ++ [e])) : e.1 ≤ T := (h.2.1 e (by simp)).2

theorem wantedNow_snoc {es : List (ℝ × WatchOp)} {e : ℝ × WatchOp} :
    WantedNow (es ++ [e]) ↔ (match e.2 with | .call => WantedNow es | .pause => False | .resume => True) := by
  unfold WantedNow
  obtain ⟨t, o⟩ := e
  cases o <;> simp [List.filter_append]

theorem wantedAt_before {es : List (ℝ × WatchOp)} {e : ℝ × WatchOp} {s : ℝ} (h : s ≤ e.1) : WantedAt (es ++ [e]) s ↔ WantedAt es s := by
  unfold WantedAt
  rw [List.filter_append]
  simp [not_lt.2 h]

theorem wantedAt_after {es : List (ℝ × WatchOp)} {s : ℝ} (h : ∀ e ∈ es, e.1 < s) : WantedAt es s ↔ WantedNow es := by
  unfold WantedAt WantedNow
  rw [List.filter_congr (q := fun e => decide (e.2 ≠ .call))]
  intro e he
  simp [h e he]

open Classical in
theorem stopwatch_spec {t₀ : ℝ} (es : List (ℝ × WatchOp)) : ∀ {T : ℝ}, InOrder t₀ T es →
    IntervalIntegrable (fun s => if WantedAt es s then (1 : ℝ) else 0) volume t₀ T ∧
      (Stopwatch.after t₀ es).read T = wantedTime es t₀ T ∧ ((Stopwatch.after t₀ es).start.isSome ↔ WantedNow es) := by
  induction es using List.reverseRecOn with
  | nil =>
    intro T h
    have : ∀ s, WantedAt [] s := fun s o h => by simp at h
    simp only [this, if_true, wantedTime]
    refine ⟨intervalIntegrable_const, ?_, ?_⟩
    · simp [Stopwatch.after, Stopwatch.new, Stopwatch.read]
    · simp [Stopwatch.after, Stopwatch.new, WantedNow]
  | append_singleton es e ih =>
    intro T h
    obtain ⟨hi, hv, hs⟩ := ih h.init
    have hle := h.le
    have c1 : ∀ s ∈ Set.uIoc t₀ e.1, (if WantedAt (es ++ [e]) s then (1 : ℝ) else 0) = if WantedAt es s then (1 : ℝ) else 0 := by
      intro s hs
      rw [Set.uIoc_of_le h.init.2.2] at hs
      simp only [wantedAt_before hs.2]
    have c2 : ∀ s ∈ Set.uIoc e.1 T, (if WantedAt (es ++ [e]) s then (1 : ℝ) else 0) = if WantedNow (es ++ [e]) then (1 : ℝ) else 0 := by
      intro s hs
      rw [Set.uIoc_of_le hle] at hs
      have : ∀ a ∈ es ++ [e], a.1 < s := by
        intro a ha
        rcases List.mem_append.1 ha with ha | ha
        · exact lt_of_le_of_lt (h.init.2.1 a ha).2 hs.1
        · rw [List.mem_singleton] at ha; subst ha; exact hs.1
      simp only [wantedAt_after this]
    have i1 : IntervalIntegrable (fun s => if WantedAt (es ++ [e]) s then (1 : ℝ) else 0) volume t₀ e.1 :=
      hi.congr (fun s hs => (c1 s hs).symm)
    have i2 : IntervalIntegrable (fun s => if WantedAt (es ++ [e]) s then (1 : ℝ) else 0) volume e.1 T :=
      (intervalIntegrable_const (c := if WantedNow (es ++ [e]) then (1 : ℝ) else 0)).congr (fun s hs => (c2 s hs).symm)
    have hw : wantedTime (es ++ [e]) t₀ T = wantedTime es t₀ e.1 + (T - e.1) * if WantedNow (es ++ [e]) then (1 : ℝ) else 0 := by
      unfold wantedTime
      rw [← intervalIntegral.integral_add_adjacent_intervals i1 i2, intervalIntegral.integral_congr_ae (Filter.Eventually.of_forall c1),
        intervalIntegral.integral_congr_ae (Filter.Eventually.of_forall c2), intervalIntegral.integral_const, smul_eq_mul]
    refine ⟨i1.trans i2, ?_, ?_⟩
    · rw [hw, ← hv, Stopwatch.after_snoc, wantedNow_snoc]
      rcases hst : Stopwatch.after t₀ es with ⟨el, _ | st⟩ <;> obtain ⟨t, _ | _ | _⟩ := e <;> rw [hst] at hs <;>
        simp [Stopwatch.step, Stopwatch.pause, Stopwatch.resume, Stopwatch.read] at hs ⊢
      all_goals (try simp [hs]) <;> try ring
    · rw [Stopwatch.after_snoc, wantedNow_snoc]
      rcases hst : Stopwatch.after t₀ es with ⟨el, _ | st⟩ <;> obtain ⟨t, _ | _ | _⟩ := e <;> rw [hst] at hs <;>
        simp [Stopwatch.step, Stopwatch.pause, Stopwatch.resume] at hs ⊢ <;> exact hs

/-! ## Theorems -/

/-- C78: after any sequence of calls, at whatever times, a stopwatch shows the time since its construction during which it was wanted to
run, that is, during which the last `pause` or `resume` was not a `pause`; also if some of the calls raised. -/
theorem C78_stopwatch_shows_running_time {t₀ T : ℝ} {es : List (ℝ × WatchOp)} (h : InOrder t₀ T es) :
    (Stopwatch.after t₀ es).read T = wantedTime es t₀ T := (stopwatch_spec es h).2.1

/-- C78: `pause` raises exactly on a paused stopwatch and `resume` exactly on a running one, and a call that raises changes nothing. -/
theorem C78_stopwatch_raises {t₀ T : ℝ} {es : List (ℝ × WatchOp)} (h : InOrder t₀ T es) :
    (((Stopwatch.after t₀ es).step (T, .pause)).2 = true ↔ WantedNow es) ∧
      (((Stopwatch.after t₀ es).step (T, .resume)).2 = true ↔ ¬ WantedNow es) ∧
      ∀ o, ((Stopwatch.after t₀ es).step (T, o)).2 = false → ((Stopwatch.after t₀ es).step (T, o)).1 = Stopwatch.after t₀ es := by
  have := (stopwatch_spec es h).2.2
  rw [← this]
  rcases Stopwatch.after t₀ es with ⟨el, _ | st⟩ <;>
    refine ⟨by simp [Stopwatch.step, Stopwatch.pause], by simp [Stopwatch.step, Stopwatch.resume], fun o => ?_⟩ <;>
    cases o <;> simp [Stopwatch.step, Stopwatch.pause, Stopwatch.resume]

/-- Made at 0, paused at 2, paused again at 3 (which raises), resumed at 5 and read at 6: three seconds. -/
example : InOrder 0 6 [(2, .pause), (3, .pause), (5, .resume)] ∧
    (Stopwatch.after 0 [(2, .pause), (3, .pause), (5, .resume)]).read 6 = 3 := by
  refine ⟨⟨by norm_num, by norm_num, by norm_num⟩, ?_⟩
  norm_num [Stopwatch.after, Stopwatch.new, Stopwatch.step, Stopwatch.pause, Stopwatch.resume, Stopwatch.read]
end Chumpy
