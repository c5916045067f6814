import Verif.Properties.Tower
/-!
# C87: the depth is needed for derivatives too
-/
namespace Chumpy
variable {C T V D : Type} {s : Sig C T V D}

/-- `n` references lead from `a` to `b`; none of the objects of the chain before `b` is `w` or has `w` as an operand, and the next one is the first operand of each. -/
inductive StepChain (s : Sig C T V D) (g : Graph C T) (w : Id) : ℕ → Id → Id → Prop
  | nil (a : Id) : StepChain s g w 0 a a
  | cons {n : ℕ} {a b c : Id} {k : Name} {ks : List Name} : a ≠ w → (g a).dnames = k :: ks → (g a).dterms k = some c → c ≠ w → (g a).namesOf w = [] →
    s.computeDr (g a).cls false [] = .ret none → StepChain s g w n c b → StepChain s g w (n + 1) a b

theorem StepChain.anc {g : Graph C T} {w : Id} {n : ℕ} {a b : Id} (h : StepChain s g w n a b) : Anc g b a := by
  induction h with
  | nil a => exact .refl
  | cons _ _ hk _ _ _ _ ih => exact .step _ hk ih

/-- Without cached derivatives along the chain, `dr_wrt` recurses along all of it. -/
theorem drWrt_overflows {w : Id} : ∀ (f n : ℕ) {a b : Id} {h : Heap C T V D}, StepChain s h.graph w n a b → s.isPermute (h.graph w).cls = false →
    (∀ j, Anc h.graph b j → (h.node j).drs w = none) → f ≤ n → (drWrt s f a w h).2 = .error .fuel
  | 0, _, _, _, _, _, _, _, _ => rfl
  | f + 1, 0, _, _, _, _, _, _, hf => absurd hf (by omega)
  | f + 1, n + 1, a, b, h, hc, hw, hn, hf => by
    have ha := hc.anc
    cases hc with
    | @cons _ _ _ c k ks haw hdn hk hcw hnm hret hrest =>
    have key : ∀ h : Heap C T V D, ∃ h1, callOnChanged a h = (h1, .ok ()) ∧ h1.graph = h.graph ∧ ∀ j, (h1.node j).drs = (h.node j).drs := by
      intro h
      unfold callOnChanged
      split
      · exact ⟨h, rfl, rfl, fun _ => rfl⟩
      · refine ⟨_, rfl, ?_, fun j => ?_⟩
        · funext j
          by_cases hj : j = a <;> simp [Heap.graph, Heap.modify, hj]
        · by_cases hj : j = a <;> simp [Heap.modify, hj]
    obtain ⟨h1, e1, g1, c1⟩ := key h
    obtain ⟨h2, e2, g2, c2⟩ := key h1
    simp only [drWrt, M.bind, e1]
    rw [c1 a, hn a ha]
    dsimp only
    generalize hh3 : ({ h2 with log := h2.log ++ [Event.ranDr a w] } : Heap C T V D) = h3
    have g3 : h3.graph = h.graph := by rw [← hh3]; exact g2.trans g1
    have c3 : ∀ j, (h3.node j).drs = (h.node j).drs := fun j => by rw [← hh3]; exact (c2 j).trans (c1 j)
    have hcomp : runCompDr s f a w h2 = (h3, .ok none) := by
      simp only [runCompDr, M.bind, emit]
      rw [hh3]
      have e4 : (h2.node a).cls = (h.graph a).cls := by rw [← g1, ← g2]; rfl
      have e5 : (h2.node a).toGNode.namesOf w = [] := by
        have : (h2.graph a).namesOf w = [] := by rw [g2, g1]; exact hnm
        exact this
      rw [e4, e5, beq_eq_false_iff_ne.2 haw, hret]
      rfl
    cases f with
    | zero =>
      have : drSliced s 0 a w h1 = (h3, .error .fuel) := by
        simp only [drSliced, M.bind, e2, hcomp]
        rfl
      rw [this]
    | succ f =>
      have e6 : (h3.node w).cls = (h.graph w).cls := by rw [← g3]; rfl
      have : drSliced s (f + 1) a w h1 = (h3, .ok none) := by
        simp only [drSliced, M.bind, e2, hcomp, sliceLoop]
        rw [e6, hw]
        rfl
      rw [this]
      dsimp only
      have hrec := drWrt_overflows (w := w) (f + 1) n (a := c) (b := b) (h := h3) (by rw [g3]; exact hrest) (by rw [g3]; exact hw)
        (fun j hj => by rw [c3]; rw [g3] at hj; exact hn j hj) (by omega)
      have e7 : (h3.node a).dnames = k :: ks := by
        have : (h3.graph a).dnames = k :: ks := by rw [g3]; exact hdn
        exact this
      have e8 : (h3.node a).dterms k = some c := by
        have : (h3.graph a).dterms k = some c := by rw [g3]; exact hk
        exact this
      rw [e7]
      simp only [drTerms, e8]
      rw [if_neg hcw]
      simp only [M.bind]
      rcases hq : drWrt s (f + 1) c w h3 with ⟨h4, r⟩
      rw [hq] at hrec
      obtain rfl : r = .error .fuel := hrec
      rfl

/-- C87, lower bound for derivatives: after any history, and then `x.clear_cache()`, `y.dr_wrt(w)` overflows every stack not deeper than the number of
references between `y` and `x`, if `w` is no slice and not an operand of any of the objects between. -/
theorem C87_derivative_depth_needed (ops : List (Op C T D)) {x y w : Id} {n : ℕ} (hx : ((run s ops (Heap.empty s)).node x).alive = true)
    (hw : s.isPermute ((run s ops (Heap.empty s)).graph w).cls = false) (hc : StepChain s (run s ops (Heap.empty s)).graph w n y x) (f : ℕ) (hf : f ≤ n) :
    (drWrt s f y w (step s (.clear x) (run s ops (Heap.empty s))).1).2 = .error .fuel := by
  have e : (step s (.clear x) (run s ops (Heap.empty s))).1 = (clearCacheFull s x none (run s ops (Heap.empty s))).1 := by
    simp only [step, ifAlive]; rw [if_pos hx]; rfl
  have hg : (step s (.clear x) (run s ops (Heap.empty s))).1.graph = (run s ops (Heap.empty s)).graph := by
    funext j
    rw [e]
    exact ((C04_clear_cache (s := s) _ (fun n hn => (run_str ops).par0 n hn) x).2.2.2.1 j).1
  refine drWrt_overflows f n (b := x) (by rw [hg]; exact hc) (by rw [hg]; exact hw) (fun j hj => ?_) hf
  rw [hg] at hj
  exact ((C04_reachable ops x hx j).1 hj).2 w

namespace ADDemo
/-- The tower of `n + 1` squares over `x`: the chain from its top to the first square, for derivatives with respect to `x`. -/
theorem squares_steps (v : Arr) (n : ℕ) : ∀ i ≤ n, StepChain lib (buildGraph lib (squares v (n + 1))) 0 i (i + 1) 1 := by
  intro i
  induction i with
  | zero => exact fun _ => .nil 1
  | succ i ih =>
    intro hi
    have e := squares_at v (n + 1) (i + 1) (by omega)
    have hd : (buildGraph lib (squares v (n + 1)) (i + 1 + 1)).dterms nmA = some (i + 1) := by rw [e]; rfl
    refine .cons (k := nmA) (ks := []) (c := i + 1) (Nat.succ_ne_zero _) (by rw [e]; rfl) hd (Nat.succ_ne_zero _) ?_ ?_ (ih (by omega))
    · unfold GNode.namesOf
      rw [List.filter_eq_nil_iff]
      intro k hk
      have hk' : k = nmA := by
        rw [e] at hk
        have hk : k ∈ [nmA] := hk
        simpa using hk
      subst hk'
      rw [hd]
      simp
    · rw [e]
      show chSquare.dr false [] = .ret none
      simp [chSquare, chUnary]
end ADDemo

/-- C87: for derivatives too, depth that grows with the height is needed.  For every `n` there is a graph, reachable by making objects only, whose last object
overflows every stack of depth `n` or less when `dr_wrt` is called after `clear_cache()`. -/
theorem C87_derivative_linear_depth (n : ℕ) : ∃ (ops : List (Op ClassDef Par Jac)) (x y w : Id),
    let h := (step lib (.clear x) (run lib ops (Heap.empty lib))).1
    HeightLe h.graph (n + 1) y ∧ (∀ f ≥ 2 * n + 5, (drWrt lib f y w h).2 ≠ .error .fuel) ∧ ∀ f ≤ n, (drWrt lib f y w h).2 = .error .fuel := by
  open ADDemo in
  have hok := squares_ok ⟨[1], fun _ => 1⟩ (n + 1)
  refine ⟨buildOps (squares ⟨[1], fun _ => 1⟩ (n + 1)), 1, n + 1, 0, ?_⟩
  intro h
  have hg0 : (run lib (buildOps (squares ⟨[1], fun _ => 1⟩ (n + 1))) (Heap.empty lib)).graph = buildGraph lib (squares ⟨[1], fun _ => 1⟩ (n + 1)) := build_graph _ hok.earlier
  have hal : ((run lib (buildOps (squares ⟨[1], fun _ => 1⟩ (n + 1))) (Heap.empty lib)).node 1).alive = true := by
    rw [(build_alive (s := lib) _ hok.earlier).2]; simp [squares]
  have hg : h.graph = buildGraph lib (squares ⟨[1], fun _ => 1⟩ (n + 1)) := by
    rw [← hg0]
    funext j
    have e : h = (clearCacheFull lib 1 none (run lib (buildOps (squares ⟨[1], fun _ => 1⟩ (n + 1))) (Heap.empty lib))).1 := by
      show (step lib (.clear 1) _).1 = _
      simp only [step, ifAlive]; rw [if_pos hal]; rfl
    rw [e]
    exact ((C04_clear_cache (s := lib) _ (fun n hn => (run_str _).par0 n hn) 1).2.2.2.1 j).1
  have hr : Reach lib ⟨False, True⟩ h := .step _ (build_reach ⟨False, True⟩ _ (fun o ho hp => by rw [hok.plain o ho] at hp; cases hp)) trivial
  have hle : ∀ {k : ℕ} {a b : Id}, RefChain (buildGraph lib (squares ⟨[1], fun _ => 1⟩ (n + 1))) k a b → k ≤ a := by
    intro k a b hc
    induction hc with
    | nil a => exact Nat.zero_le _
    | cons hk _ ih => exact Nat.lt_of_le_of_lt ih (hok.link hk).choose_spec.2.2.2
  have hcls : ∀ b, (buildGraph lib (squares ⟨[1], fun _ => 1⟩ (n + 1)) b).cls = chLeaf ∨ (buildGraph lib (squares ⟨[1], fun _ => 1⟩ (n + 1)) b).cls = chSquare := by
    intro b
    rcases b with _ | b
    · exact Or.inl rfl
    · by_cases hb : b < n + 1
      · exact Or.inr (by rw [squares_at _ (n + 1) b hb]; rfl)
      · refine Or.inl ?_
        have : (squares ⟨[1], fun _ => 1⟩ (n + 1))[b + 1]? = none := by simp [squares]; omega
        unfold buildGraph
        rw [this]
  have hp : ∀ a, PlainBelow lib h.graph a := by
    intro a k b _
    rw [hg]
    rcases hcls b with e | e
    · rw [e]; exact ⟨fun _ => rfl, fun t => by dsimp only; split <;> trivial⟩
    · rw [e]; exact ⟨fun _ => rfl, fun t => trivial⟩
  have hh : HeightLe h.graph (n + 1) (n + 1) := by rw [hg]; exact fun k b hc => hle hc
  have h0 : HeightLe h.graph 0 0 := by rw [hg]; exact fun k b hc => hle hc
  have hw : lib.isPermute (h.graph 0).cls = false := by rw [hg]; rfl
  refine ⟨hh, fun f hf => (C87_derivative_depth lib_propsOk lib_plainForm lib_shallow hr hw hh h0 (hp _) (hp _) f (by simp; omega)).1,
    fun f hf => C87_derivative_depth_needed _ hal (by rw [hg0]; rfl) (by rw [hg0]; exact squares_steps _ n n (Nat.le_refl _)) f hf⟩
end Chumpy
