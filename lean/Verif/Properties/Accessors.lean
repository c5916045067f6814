import Verif.AD.Accessors
import Verif.Properties.Extrema
import Verif.Properties.Fresh
/-!
# C77: questions answered from the value
-/
namespace Chumpy
open scoped BigOperators

/-- `k` is the first position of an entry of `v` that is best in the order `le`. -/
def FirstBest (le : ℝ → ℝ → Prop) (v : Arr) (k : ℕ) : Prop :=
  k < v.size ∧ (∀ t < v.size, le (v.vec t) (v.vec k)) ∧ ∀ t < k, v.vec t ≠ v.vec k

/-- `l` lists the coordinates of the nonzero entries of `v`, in row-major order, each once. -/
def NonzeroAt (v : Arr) (l : List (List ℕ)) : Prop :=
  (∀ c, c ∈ l ↔ InB v.shape c ∧ v.at c ≠ 0) ∧ (l.map (ravel v.shape)).Pairwise (· < ·)

/-- The answer `a` to the question is right for an object of value `v`. -/
def Tells (v : Arr) : Ask → Ans → Prop
  | .shape, a => a = .nats v.shape
  | .size, a => a = .nat v.size
  | .ndim, a => a = .nat v.shape.length
  | .len, a => ∃ n l, v.shape = n :: l ∧ a = .nat n
  | .float, a => v.size = 1 ∧ a = .real (v.vec 0)
  | .int, a => v.size = 1 ∧ ∃ z : ℤ, a = .int z ∧ |(z : ℝ)| ≤ |v.vec 0| ∧ |v.vec 0| < |(z : ℝ)| + 1 ∧ 0 ≤ z * v.vec 0
  | .array, a => a = .arr v
  | .argmax, a => ∃ k, a = .nat k ∧ FirstBest (· ≤ ·) v k
  | .argmin, a => ∃ k, a = .nat k ∧ FirstBest (· ≥ ·) v k
  | .flatnonzero, a => ∃ l, a = .nats l ∧ l.Pairwise (· < ·) ∧ ∀ k, k ∈ l ↔ k < v.size ∧ v.vec k ≠ 0
  | .argwhere, a => ∃ l, a = .natss l ∧ NonzeroAt v l
  | .nonzero, a => ∃ l l', a = .natss l' ∧ NonzeroAt v l ∧ l'.length = v.shape.length ∧
      ∀ d < v.shape.length, l'.getD d [] = l.map fun c => c.getD d 0

/-- The questions with no answer: `len()` of an array without axes, `float()` and `int()` of one not of a single entry, `argmax()`
and `argmin()` of one without entries. -/
def NoAnswer (v : Arr) : Ask → Prop
  | .len => v.shape = []
  | .float | .int => v.size ≠ 1
  | .argmax | .argmin => v.size = 0
  | _ => False

theorem argF_first {f : ℝ → ℝ → ℝ} (hf : Extr f) : ∀ {n : ℕ} (g : ℕ → ℝ), ∀ t < argF f n g, g t ≠ pickF f n g
  | 0, _, t, h => absurd h (Nat.not_lt_zero _)
  | 1, _, t, h => absurd h (Nat.not_lt_zero _)
  | n + 2, g, t, h => by
    unfold argF at h
    unfold pickF
    split at h
    · next e => rw [e]; exact argF_first hf g t h
    · next e =>
      intro he
      have h1 := pickF_bound (g := g) hf (n := n + 1) h
      rw [he] at h1
      rcases hf.choice (pickF f (n + 1) g) (g (n + 1)) with h2 | h2
      · exact e h2
      · rw [h2] at h1; exact e h1

theorem nonzeroAt_unravel (v : Arr) : NonzeroAt v ((flatNonzero v).map (unravel v.shape)) := by
  have hm : ∀ k, k ∈ flatNonzero v ↔ k < v.size ∧ v.vec k ≠ 0 := fun k => by simp [flatNonzero]
  refine ⟨fun c => ?_, ?_⟩
  · rw [List.mem_map]
    constructor
    · rintro ⟨k, hk, rfl⟩
      obtain ⟨h1, h2⟩ := (hm k).1 hk
      exact ⟨unravel_inB h1, by unfold Arr.at; rwa [ravel_unravel h1]⟩
    · rintro ⟨h1, h2⟩
      exact ⟨_, (hm _).2 ⟨ravel_lt h1, h2⟩, unravel_ravel h1⟩
  · rw [List.map_map]
    have : (flatNonzero v).map (ravel v.shape ∘ unravel v.shape) = flatNonzero v := by
      conv_rhs => rw [← List.map_id (flatNonzero v)]
      exact List.map_congr_left fun k hk => ravel_unravel ((hm k).1 hk).1
    rw [this]
    exact List.pairwise_lt_range.filter _

theorem trunc_spec (x : ℝ) : |(truncZ x : ℝ)| ≤ |x| ∧ |x| < |(truncZ x : ℝ)| + 1 ∧ 0 ≤ (truncZ x : ℝ) * x := by
  unfold truncZ
  split
  · next h =>
    have h0 : (0 : ℝ) ≤ ⌊x⌋ := by exact_mod_cast Int.floor_nonneg.2 h
    rw [abs_of_nonneg h, abs_of_nonneg h0]
    exact ⟨Int.floor_le x, Int.lt_floor_add_one x, mul_nonneg h0 h⟩
  · next h =>
    have h := (not_le.1 h).le
    have h0 : (⌈x⌉ : ℝ) ≤ 0 := by exact_mod_cast Int.ceil_le.2 (by simpa using h)
    rw [abs_of_nonpos h, abs_of_nonpos h0]
    exact ⟨by linarith [Int.le_ceil x], by linarith [Int.ceil_lt_add_one x], mul_nonneg_of_nonpos_of_nonpos h0 h⟩

theorem answer_spec (v : Arr) (q : Ask) :
    (∃ a, answer v q = .ok a ∧ Tells v q a ∧ ¬ NoAnswer v q) ∨ ((∃ e, answer v q = .error (.user e)) ∧ NoAnswer v q) := by
  have best : ∀ {f le}, Extr f → OrderOf f le → v.size ≠ 0 → FirstBest le v (argF f v.size v.vec) := fun hf ho h0 => by
    have hN := Nat.pos_of_ne_zero h0
    have e := argF_pick (g := v.vec) hf hN
    refine ⟨argF_lt hN, fun t ht => ?_, fun t ht => ?_⟩
    · rw [e]; exact (best_pick hf ho hN v.vec).2 t ht
    · rw [e]; exact argF_first hf v.vec t ht
  cases q with
  | shape => exact .inl ⟨_, rfl, rfl, id⟩
  | size => exact .inl ⟨_, rfl, rfl, id⟩
  | ndim => exact .inl ⟨_, rfl, rfl, id⟩
  | array => exact .inl ⟨_, rfl, rfl, id⟩
  | len =>
    rcases hs : v.shape with _ | ⟨n, l⟩
    · exact .inr ⟨⟨1, by simp [answer, hs]⟩, hs⟩
    · exact .inl ⟨.nat n, by simp [answer, hs], ⟨n, l, hs, rfl⟩, by simp [NoAnswer, hs]⟩
  | float =>
    by_cases h : v.size = 1
    · exact .inl ⟨_, if_pos h, ⟨h, rfl⟩, not_not.2 h⟩
    · exact .inr ⟨⟨1, if_neg h⟩, h⟩
  | int =>
    by_cases h : v.size = 1
    · exact .inl ⟨_, if_pos h, ⟨h, _, rfl, trunc_spec _⟩, not_not.2 h⟩
    · exact .inr ⟨⟨1, if_neg h⟩, h⟩
  | argmax =>
    by_cases h : v.size = 0
    · exact .inr ⟨⟨1, if_pos h⟩, h⟩
    · exact .inl ⟨_, if_neg h, ⟨_, rfl, best extr_max order_max h⟩, h⟩
  | argmin =>
    by_cases h : v.size = 0
    · exact .inr ⟨⟨1, if_pos h⟩, h⟩
    · exact .inl ⟨_, if_neg h, ⟨_, rfl, best extr_min order_min h⟩, h⟩
  | flatnonzero =>
    exact .inl ⟨_, rfl, ⟨_, rfl, List.pairwise_lt_range.filter _, fun k => by simp [flatNonzero]⟩, id⟩
  | argwhere => exact .inl ⟨_, rfl, ⟨_, rfl, nonzeroAt_unravel v⟩, id⟩
  | nonzero =>
    refine .inl ⟨_, rfl, ⟨_, _, rfl, nonzeroAt_unravel v, by simp, fun d hd => ?_⟩, id⟩
    rw [List.getD_eq_getElem _ _ (by simpa using hd)]
    simp [List.map_map, Function.comp_def]

theorem read_of_means_any {h : Heap ClassDef Par Arr Jac} {m : Mode} (hr : Reach lib m h) {q : Req} {r : Except Err Arr}
    (hv : Means lib h.graph q r) : ∃ f₀, ∀ f ≥ f₀, (read lib f q h).2 = r := by
  obtain ⟨hne, f₀, hf₀⟩ := hv
  refine ⟨f₀, fun f hf => ?_⟩
  have e := evalReq_mono lib h.graph hf q
  rw [Le, hf₀] at e
  have hs := (read_sim (P := True) f q h (reach_inv lib_propsOk (fun _ => lib_localDr) hr).coh rfl).2.2 trivial
  have := (readFresh_of_agree hs).2.2
  rw [e hne] at this
  exact this hne

section
variable {h : Heap ClassDef Par Arr Jac} {m : Mode} {i : Id}

theorem ask_state (f : ℕ) (q : Ask) (i : Id) (h : Heap ClassDef Par Arr Jac) : (ask f q i h).1 = (read lib f (.r i) h).1 := by
  unfold ask; rcases read lib f (.r i) h with ⟨h', _ | _⟩ <;> rfl

theorem ask_state' (f : ℕ) (q : Ask) (i : Id) (h : Heap ClassDef Par Arr Jac) (hi : (h.node i).alive = true) :
    (ask f q i h).1 = (step lib (.readR f i) h).1 := by
  rw [ask_state]
  simp only [step, ifAlive, M.map', hi, if_true]

/-- C77: in every reachable state, asking an object whose value, computed from scratch on the current graph, is `v` gives the
answer that is right for `v`, and raises exactly if there is none. -/
theorem C77_answers (hr : Reach lib m h) {v : Arr} (hv : Means lib h.graph (.r i) (.ok v)) (q : Ask) :
    ∃ f₀, ∀ f ≥ f₀, (∃ a, (ask f q i h).2 = .ok a ∧ Tells v q a ∧ ¬ NoAnswer v q) ∨
      ((∃ e, (ask f q i h).2 = .error (.user e)) ∧ NoAnswer v q) := by
  obtain ⟨f₀, hf₀⟩ := read_of_means hr hv
  refine ⟨f₀, fun f hf => ?_⟩
  have : (ask f q i h).2 = answer v q := by
    have e := hf₀ f hf
    unfold ask
    rcases hh : read lib f (.r i) h with ⟨h', x⟩
    rw [hh] at e
    cases e
    rfl
  rw [this]; exact answer_spec v q

/-- If computing the value raises, so does every question, with the same exception. -/
theorem C77_raises (hr : Reach lib m h) {e : Err} (hv : Means lib h.graph (.r i) (.error e)) (q : Ask) :
    ∃ f₀, ∀ f ≥ f₀, (ask f q i h).2 = .error e := by
  obtain ⟨f₀, hf₀⟩ := read_of_means_any hr hv
  refine ⟨f₀, fun f hf => ?_⟩
  have e' := hf₀ f hf
  unfold ask
  rcases hh : read lib f (.r i) h with ⟨h', x⟩
  rw [hh] at e'
  cases e'
  rfl

/-- Asking is one of the operations the histories consist of: it changes no link and no value, and leads to a reachable state. -/
theorem C77_asking_changes_nothing (hr : Reach lib m h) (hi : (h.node i).alive = true) (f : ℕ) (q : Ask) :
    Reach lib m (ask f q i h).1 ∧ (ask f q i h).1.graph = h.graph := by
  rw [ask_state' f q i h hi]
  exact ⟨.step (.readR f i) hr trivial,
    (C09_reads_change_no_link (s := lib) [.readR f i] (by intro op hop; rw [List.mem_singleton.1 hop]; exact .r ..) h).1⟩
end

namespace ADDemo
/-- Questions with and without answers. -/
example : ∃ h, Reach lib ⟨False, True⟩ h ∧ Means lib h.graph (.r 0) (.ok ⟨[2, 3], fun k => k.1⟩) ∧
    ¬ NoAnswer ⟨[2, 3], fun k => k.1⟩ .argmax ∧ NoAnswer ⟨[2, 3], fun k => k.1⟩ .float ∧
    FirstBest (· ≤ ·) ⟨[2, 3], fun k => k.1⟩ 5 := by
  obtain ⟨h, h1, _, h3, _⟩ := reordered_reach chAmax ⟨[2, 3], fun k => k.1⟩ (by simp) (.int (-1)) .none
  have e1 : ∀ k < 6, (⟨[2, 3], fun k => k.1⟩ : Arr).vec k = k := fun k hk => dif_pos (by simpa using hk)
  have e0 : (⟨[2, 3], fun k => k.1⟩ : Arr).size = 6 := rfl
  refine ⟨h, h1, h3, by simp [NoAnswer, e0], by simp [NoAnswer, e0], by rw [e0]; omega, fun t ht => ?_, fun t ht => ?_⟩
  · rw [e0] at ht
    show (_ : ℝ) ≤ _
    rw [e1 _ ht, e1 _ (by omega)]; exact_mod_cast Nat.le_of_lt_succ ht
  · rw [e1 _ (by omega), e1 _ (by omega)]; exact_mod_cast ht.ne
end ADDemo
end Chumpy
