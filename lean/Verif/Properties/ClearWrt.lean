import Verif.Core.ClearWrt
import Verif.Properties.Fresh
/-! C15: `clear_cache_wrt`. -/
namespace Chumpy
variable {C T V D : Type} {s : Sig C T V D}

/-- C15 in full: after `x.clear_cache_wrt(w)` in any state reached by a history, `y.dr_wrt(w)` is what the
uncached chain rule gives. -/
def C15_full (s : Sig C T V D) : Prop :=
  ∀ (h : Heap C T V D), Reach s ⟨False, True⟩ h → ∀ (f : Nat) (x y w : Id),
    s.isPermute (h.graph w).cls = false →
    let h' := (clearWrt s w none (f + 1) x h).1
    DrFresh s h' f y w (drWrt s f y w h').2

/-- C15, the part that holds.  In any state reached by a history, `x.clear_cache_wrt(w)` leaves the graph
alone, and afterwards every `y.r` and every `y.dr_wrt(u)` is what an evaluation from scratch gives, for
`u` other than `w`, and for `w` too if neither `x` nor a parent of `x` held a derivative with respect
to `w`.  Missing: the case in which one did (then the property is false, see the next theorem). -/
theorem C15_clear_cache_wrt_partial (hp : s.PropsOk) (ho : s.PlainForm) {h : Heap C T V D}
    (hr : Reach s ⟨False, True⟩ h) (f n : Nat) (x w : Id) :
    let h' := (clearWrt s w none (n + 1) x h).1
    h'.graph = h.graph ∧
    (∀ y, ReadFresh s h' f (.r y) (read s f (.r y) h').2) ∧
    (∀ y u, s.isPermute (h.graph u).cls = false →
      (u = w → (h.node x).drs w = none ∧ ∀ q ∈ (h.node x).parents, (h.node q.1).drs w = none) →
      DrFresh s h' f y u (drWrt s f y u h').2) := by
  have hi := reach_inv hp (fun h => False.elim h) hr
  have hd := clearWrt_dropped (s := s) (w := w) none (n + 1) x h
  have hc := hd.coh hi.coh
  refine ⟨hd.graph, fun y => ?_, fun y u hu hq => ?_⟩
  · exact readFresh_of_agree ((read_sim (P := True) f (.r y) _ hc rfl).2.2 trivial)
  · refine drFresh_of_agree ((drWrt_sim f y u _ hc rfl).2.2 ⟨⟨ho, fun j => ?_⟩, ⟨trivial, Or.inr ?_⟩, fun e => ?_⟩)
    · rw [hd.graph]; exact hi.flags trivial j
    · rw [hd.graph]; exact hu
    · intro j
      subst e
      exact clearWrt_none none n x h (hq rfl).1 (hq rfl).2 j

/-- The defect: whenever `x` holds a derivative with respect to `w`, `clear_cache_wrt(w)` makes the next
`x.dr_wrt(w)` return `None`, whatever the derivative is. -/
theorem C15_cached_derivative_lost (h : Heap C T V D) (x w : Id) (n f : Nat)
    (hc : ((h.node x).drs w).isSome) :
    (drWrt s (f + 1) x w (clearWrt s w none (n + 1) x h).1).2 = .ok none := by
  have h1 := clearWrt_self (s := s) (w := w) none n x h hc
  generalize (clearWrt s w none (n + 1) x h).1 = h' at h1
  simp only [drWrt, M.bind, callOnChanged]
  by_cases he : (h'.node x).dirty.isEmpty
  · simp only [he]; simp [h1]
  · simp only [he]
    simp [Heap.modify, h1]

namespace Demo
/-- y = a + b, y's derivative with respect to a is read. -/
def ex15 : List (Op Cls Arr Jac) := [leaf [3], leaf [4], bin .add 0 1, .readDr 9 2 0]

theorem ex15_reach : Reach sig ⟨False, True⟩ (hist ex15) := by
  refine reach_run ex15 .init ⟨⟨fun h => False.elim h, fun _ => ⟨rfl, rfl⟩⟩, ⟨fun h => False.elim h, fun _ => ⟨rfl, rfl⟩⟩, ⟨fun h => False.elim h, fun _ => ⟨rfl, rfl⟩⟩, trivial, trivial⟩

/-- The derivative with respect to `a` is held by `y` and lost; the one with respect to `b` is computed
correctly afterwards, and nothing held one with respect to `b` (the hypotheses of the partial theorem). -/
example : ((hist ex15).node 2).drs 0 = some (some ([[1]], true)) := by decide +kernel
example : (drWrt sig 9 2 0 (clearWrt sig 0 none 9 2 (hist ex15)).1).2 = .ok none := by decide +kernel
example : (drWrt sig 9 2 1 (clearWrt sig 0 none 9 2 (hist ex15)).1).2 = .ok (some ([[1]], true)) := by decide +kernel
example : ((hist ex15).node 1).drs 1 = none ∧ ((hist ex15).node 1).parents = [(2, [b])] ∧
    ((hist ex15).node 2).drs 1 = none := by decide +kernel
end Demo

/-- The full claim is false of the code. -/
theorem C15_full_refuted : ¬ C15_full Demo.sig := by
  intro h
  have h1 := (h (Demo.hist Demo.ex15) Demo.ex15_reach 9 2 2 0 (by decide +kernel)).2.2
  have h2 : evalDr Demo.sig (clearWrt Demo.sig 0 none 10 2 (Demo.hist Demo.ex15)).1.graph 9 2 0
      = .ok (some ([[1]], true)) := by decide +kernel
  have h3 : (drWrt Demo.sig 9 2 0 (clearWrt Demo.sig 0 none 10 2 (Demo.hist Demo.ex15)).1).2 = .ok none := by
    decide +kernel
  rw [h2, h3] at h1
  have := h1 (by simp)
  injection this with this
  cases this
end Chumpy
