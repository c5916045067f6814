import Verif.Properties.Depth
import Verif.Properties.DoglegChain
/-!
# C87 for `minimize`

The objective is read again and again while the free variable changes.  The references do not change, so one stack depth, given by the height of the
graph before the call, suffices for the whole run.
-/
namespace Chumpy
open scoped BigOperators
open Dog

section
variable {N m : ℕ} {o l : Id} {x0 : Arr} {g : Graph ClassDef Par}

theorem withArr_kind (x : Arr) (i : Id) : (withArr g l x i).dterms = (g i).dterms ∧ (withArr g l x i).cls = (g i).cls := by
  unfold withArr; split <;> simp_all

theorem refChain_withArr {x : Arr} {k : ℕ} {a b : Id} (h : RefChain (withArr g l x) k a b) : RefChain g k a b := by
  induction h with
  | nil a => exact .nil a
  | cons h _ ih => rw [(withArr_kind x _).1] at h; exact .cons h ih

/-- Whatever array `x` of its shape the `Ch` `l` holds: the objective has a value of `m` entries, `dr_wrt` is not `None`, and the objects between
return their true partial Jacobians.  No stack depth is mentioned. -/
structure Smooth (m : ℕ) (o l : Id) (x0 : Arr) (g : Graph ClassDef Par) : Prop where
  value : ∀ x : Arr, x.shape = x0.shape → ∃ a, Means lib (withArr g l x) (.r o) (.ok a) ∧ a.size = m
  dr : ∀ x : Arr, x.shape = x0.shape → ∃ d, MeansDr lib (withArr g l x) o l (.ok (some d))
  chain : ∀ x : Arr, x.shape = x0.shape → ChainOk lib (withArr g l x) o l
  correct : ∀ x : Arr, x.shape = x0.shape → ∀ i, Reaches (withArr g l x) o i → i ≠ l → Correct (withArr g l x) l i

theorem Smooth.smoothIn (hs : Smooth m o l x0 g) (ho : HeightLe g N o) (hl : HeightLe g N l) (po : PlainBelow lib g o) (pl : PlainBelow lib g l) :
    SmoothIn (2 * N + 3) m o l x0 g := by
  have hH : ∀ x : Arr, Heights lib (withArr g l x) (fun i => (∃ k, RefChain (withArr g l x) k o i) ∨ ∃ k, RefChain (withArr g l x) k l i)
      (heightOf (withArr g l x)) ∧ heightOf (withArr g l x) o ≤ N ∧ heightOf (withArr g l x) l ≤ N := by
    intro x
    have h1 : HeightLe (withArr g l x) N o := fun k b h => ho k b (refChain_withArr h)
    have h2 : HeightLe (withArr g l x) N l := fun k b h => hl k b (refChain_withArr h)
    refine ⟨heights h1 h2 (fun k b h => ?_) (fun k b h => ?_), heightOf_le h1, heightOf_le h2⟩
    · rw [(withArr_kind x b).2]; exact po k b (refChain_withArr h)
    · rw [(withArr_kind x b).2]; exact pl k b (refChain_withArr h)
  refine ⟨fun x hx => ?_, fun x hx => ?_, hs.chain, hs.correct⟩
  · obtain ⟨a, ⟨_, f, e⟩, hm⟩ := hs.value x hx
    obtain ⟨hh, b1, b2⟩ := hH x
    have e0 := hh.value _ o (Or.inl ⟨0, .nil o⟩) (Nat.le_refl _) (2 * N + 3) (by omega)
    refine ⟨a, ?_, hm⟩
    have c1 := evalReq_mono lib (withArr g l x) (Nat.le_max_left (2 * N + 3) f) (.r o) e0
    have c2 := evalReq_mono lib (withArr g l x) (Nat.le_max_right (2 * N + 3) f) (.r o) (by rw [e]; simp)
    exact c1.symm.trans (c2.trans e)
  · obtain ⟨d, _, f, e⟩ := hs.dr x hx
    obtain ⟨hh, b1, b2⟩ := hH x
    have e0 := hh.dr lib_shallow (w := l) (Or.inr ⟨0, .nil l⟩) _ o (Or.inl ⟨0, .nil o⟩) (Nat.le_refl _) (2 * N + 3) (by omega)
    refine ⟨d, ?_⟩
    have c1 := evalDr_mono lib (withArr g l x) (Nat.le_max_left (2 * N + 3) f) o l e0
    have c2 := evalDr_mono lib (withArr g l x) (Nat.le_max_right (2 * N + 3) f) o l (by rw [e]; simp)
    exact c1.symm.trans (c2.trans e)
end

/-- C87, for a whole call: `minimize` of `o` over one `Ch` ends without exhausting a stack deeper than twice the height of the graph plus 3 (and than the number of
objects, which the search for the free variables may visit), and does not make the sum of squares larger. -/
theorem C87_minimize_depth {N fm n m : ℕ} {o l : Id} {x0 : Arr} {h : Heap ClassDef Par Arr Jac} (hc : Called o [wholeCh l x0.atleast1.shape] h)
    (hx : (h.graph l).terms nmX = some (.arr x0)) (hn : x0.size = n) (hol : o ≠ l) (hs : Smooth m o l x0 h.graph) (ho : HeightLe h.graph N o)
    (po : PlainBelow lib h.graph o) (hd1 : 5 ≤ fm) (hd2 : 2 * N + 3 < fm)
    (hd3 : h.next < fm) (flip disp md ms : Bool) (solve : (RVec n →L[ℝ] RVec n) → RVec n → RVec n) (opt : DogOpts ℝ) (he1 : 0 < opt.e1) (he2 : 0 ≤ opt.e2) :
    ∃ (k : ℕ) (s : DogState ℝ (RVec n) (RVec m) (RVec n →L[ℝ] RVec m) (RVec n →L[ℝ] RVec n) (Heap ClassDef Par Arr Jac)) (before after : Arr),
      minimizeDogleg n m fm flip disp md ms o [l] solve opt h k = .ok (h.next, .halt, s) ∧
      Means lib h.graph (.r o) (.ok before) ∧ Means lib s.world.graph (.r o) (.ok after) ∧
      ∑ i ∈ Finset.range m, after.vec i ^ 2 ≤ ∑ i ∈ Finset.range m, before.vec i ^ 2 := by
  obtain ⟨lc, ld, _⟩ := (hc.free (wholeCh l x0.atleast1.shape) (by simp)).1.leaf
  have hl : HeightLe h.graph N l := by
    intro k b hb
    cases hb with
    | nil => exact Nat.zero_le _
    | cons hk _ => exact absurd hk (by rw [show (h.graph l).dterms _ = none from ld _]; simp)
  have pl : PlainBelow lib h.graph l := by
    intro k b hb
    cases hb with
    | nil => rw [show (h.graph l).cls = chLeaf from lc]; exact ⟨fun _ => rfl, fun t => by dsimp only; split <;> trivial⟩
    | cons hk _ => exact absurd hk (by rw [show (h.graph l).dterms _ = none from ld _]; simp)
  obtain ⟨k, s, b, a, e1, _, e2, e3, _, _, e4, _⟩ :=
    C86_chain_rule_ends hc hx hn hol (hs.smoothIn ho hl po pl) hd1 hd2 hd3 flip disp md ms solve opt he1 he2
  exact ⟨k, s, b, a, e1, e2, e3, e4⟩

namespace ADDemo
/-- The hypotheses on the graph are met by `SumOfSquares(a)`, with `N = 1`; `Called` is met as in the example of C86. -/
theorem sq_heights : Smooth 1 1 0 ⟨[2], ![1, 2]⟩ (buildGraph lib (sqOf ⟨[2], ![1, 2]⟩)) ∧ HeightLe (buildGraph lib (sqOf ⟨[2], ![1, 2]⟩)) 1 1 ∧
    ∀ a, PlainBelow lib (buildGraph lib (sqOf ⟨[2], ![1, 2]⟩)) a := by
  have hr : ∀ {k : ℕ} {a b : Id}, RefChain (buildGraph lib (sqOf ⟨[2], ![1, 2]⟩)) k a b → k ≤ a := by
    intro k a b h
    induction h with
    | nil a => exact Nat.zero_le _
    | cons h _ ih => exact Nat.lt_of_le_of_lt ih ((sqOf_ok _).link h).choose_spec.2.2.2
  refine ⟨⟨fun x hx => ?_, fun x hx => ?_, sq_smooth.chain, sq_smooth.correct⟩, fun k b h => hr h, ?_⟩
  · obtain ⟨a, e, hm⟩ := sq_smooth.value x hx
    exact ⟨a, ⟨by simp, 5, e⟩, hm⟩
  · obtain ⟨d, e⟩ := sq_smooth.dr x hx
    exact ⟨d, ⟨by simp, 5, e⟩⟩
  · intro a k b _
    rcases b with _ | _ | b
    · exact ⟨fun _ => rfl, fun t => by dsimp only; split <;> trivial⟩
    · exact ⟨fun _ => rfl, fun t => by trivial⟩
    · exact ⟨fun _ => rfl, fun t => by dsimp only; split <;> trivial⟩
end ADDemo
end Chumpy
