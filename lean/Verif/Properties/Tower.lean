import Verif.Properties.Depth
import Verif.Properties.Links
import Verif.AD.Unary
/-!
# C87: the depth is needed

The bounds of C87 are upper bounds.  Here: a chain of objects each of which asks the next one first does overflow a stack that is not deeper than the chain is
long, once the caches along it have been cleared.
-/
namespace Chumpy
variable {C T V D : Type} {s : Sig C T V D}

/-- Given the terms, the body asks for the value of the child `m` before anything else that can fail. -/
def Prog.AsksFirst {α : Type} (tm : Name → Option T) (m : Name) : Prog T V α → Prop
  | .child n _ => n = m
  | .term n k => (k (tm n)).AsksFirst tm m
  | _ => False

/-- `n` references lead from `a` to `b`, and each object of the chain, to compute its value, asks the next one first. -/
inductive AskChain (s : Sig C T V D) (g : Graph C T) : ℕ → Id → Id → Prop
  | nil (a : Id) : AskChain s g 0 a a
  | cons {n : ℕ} {a b c : Id} {k : Name} : (g a).dterms k = some c → (s.computeR (g a).cls).AsksFirst (g a).terms k → AskChain s g n c b →
    AskChain s g (n + 1) a b

theorem AskChain.anc {g : Graph C T} {n : ℕ} {a b : Id} (h : AskChain s g n a b) : Anc g b a := by
  induction h with
  | nil a => exact .refl
  | cons hk _ _ ih => exact .step _ hk ih

theorem runProg_asks {rd : Req → M C T V D V} {i c : Id} {m : Name} (p : Prog T V V) : ∀ {h : Heap C T V D}, p.AsksFirst (h.graph i).terms m →
    (h.graph i).dterms m = some c → (rd (.r c) h).2 = .error .fuel → (runProg rd i p h).2 = .error .fuel := by
  induction p with
  | term n k ih => intro h ha hd hf; exact ih _ ha hd hf
  | child n k ih =>
    intro h ha hd hf
    obtain rfl : n = m := ha
    have hd' : (h.node i).dterms n = some c := hd
    simp only [runProg, hd', M.bind]
    rcases hq : rd (.r c) h with ⟨h', r⟩
    rw [hq] at hf
    obtain rfl : r = .error .fuel := hf
    rfl
  | _ => intro h ha; exact ha.elim

/-- Without cached values along the chain, a read recurses along all of it. -/
theorem read_overflows : ∀ (f n : ℕ) {a b : Id} {h : Heap C T V D}, AskChain s h.graph n a b →
    (∀ j, Anc h.graph b j → (h.node j).cacheR = none) → f ≤ n → (read s f (.r a) h).2 = .error .fuel
  | 0, _, _, _, _, _, _, _ => rfl
  | f + 1, 0, _, _, _, _, _, hf => absurd hf (by omega)
  | f + 1, n + 1, a, b, h, hc, hn, hf => by
    have ha := hc.anc
    cases hc with
    | @cons _ _ _ c k hk hask hrest =>
    -- `_call_on_changed` changes neither the graph nor the values
    have key : ∃ h1, callOnChanged a h = (h1, .ok ()) ∧ h1.graph = h.graph ∧ ∀ j, (h1.node j).cacheR = (h.node j).cacheR := by
      unfold callOnChanged
      split
      · exact ⟨h, rfl, rfl, fun _ => rfl⟩
      · refine ⟨_, rfl, ?_, fun j => ?_⟩
        · funext j
          by_cases hj : j = a <;> simp [Heap.graph, Heap.modify, hj]
        · by_cases hj : j = a <;> simp [Heap.modify, hj]
    obtain ⟨h1, e1, g1, c1⟩ := key
    simp only [read, M.bind, e1]
    rw [c1 a, hn a ha]
    simp only [emit]
    generalize hh2 : ({ h1 with log := h1.log ++ [Event.ranR a] } : Heap C T V D) = h2
    have g2 : h2.graph = h.graph := by rw [← hh2]; exact g1
    have c2 : ∀ j, (h2.node j).cacheR = (h.node j).cacheR := fun j => by rw [← hh2]; exact c1 j
    have hcl : (h1.node a).cls = (h.graph a).cls := by rw [← g1]; rfl
    have hrec := read_overflows f n (a := c) (b := b) (h := h2) (by rw [g2]; exact hrest)
      (fun j hj => by rw [c2]; rw [g2] at hj; exact hn j hj) (by omega)
    have := runProg_asks (rd := read s f) (i := a) (c := c) (m := k) (s.computeR (h1.node a).cls) (h := h2)
      (by rw [hcl, g2]; exact hask) (by rw [g2]; exact hk) hrec
    rcases hq : runProg (read s f) a (s.computeR (h1.node a).cls) h2 with ⟨h3, r⟩
    rw [hq] at this
    obtain rfl : r = .error .fuel := this
    rfl

/-- C87, lower bound: after any history, and then `x.clear_cache()`, `y.r` overflows every stack not deeper than
the number of references between `y` and `x`, if each object between asks the next one first. -/
theorem C87_depth_needed (ops : List (Op C T D)) {x y : Id} {n : ℕ} (hx : ((run s ops (Heap.empty s)).node x).alive = true)
    (hc : AskChain s (run s ops (Heap.empty s)).graph n y x) (f : ℕ) (hf : f ≤ n) :
    (read s f (.r y) (step s (.clear x) (run s ops (Heap.empty s))).1).2 = .error .fuel := by
  have e : (step s (.clear x) (run s ops (Heap.empty s))).1 = (clearCacheFull s x none (run s ops (Heap.empty s))).1 := by
    simp only [step, ifAlive]; rw [if_pos hx]; rfl
  have hg : (step s (.clear x) (run s ops (Heap.empty s))).1.graph = (run s ops (Heap.empty s)).graph := by
    funext j
    rw [e]
    exact ((C04_clear_cache (s := s) _ (fun n hn => (run_str ops).par0 n hn) x).2.2.2.1 j).1
  refine read_overflows f n (b := x) (by rw [hg]; exact hc) (fun j hj => ?_) hf
  rw [hg] at hj
  exact ((C04_reachable ops x hx j).1 hj).1

namespace ADDemo
/-- `x = Ch(v)`, then `n` times `x = x ** 2`. -/
noncomputable def squares (v : Arr) (n : ℕ) : List (ObjSpec ClassDef Par) := leafO v :: (List.range n).map fun i => unO chSquare i

theorem squares_ok (v : Arr) (n : ℕ) : WellBuilt lib (squares v n) := by
  refine ⟨fun i o ho kw hkw => ?_, fun o ho => ?_, fun o ho => ?_, rfl⟩
  · rcases i with _ | i
    · obtain rfl : leafO v = o := by simpa [squares] using ho
      obtain rfl : kw = .term nmX (.arr v) := by simpa [leafO] using hkw
      trivial
    · simp only [squares, List.getElem?_cons_succ, List.getElem?_map] at ho
      by_cases hi : i < n
      · rw [List.getElem?_range hi] at ho
        obtain rfl : unO chSquare i = o := by simpa using ho
        obtain rfl : kw = .link nmA i := by simpa [unO] using hkw
        exact ⟨by simp [unO], Nat.lt_succ_self i⟩
      · simp [hi] at ho
  · simp only [squares, List.mem_cons, List.mem_map] at ho
    rcases ho with rfl | ⟨i, _, rfl⟩ <;> simp [leafO, unO]
  · simp only [squares, List.mem_cons, List.mem_map] at ho
    rcases ho with rfl | ⟨i, _, rfl⟩ <;> rfl

theorem squares_at (v : Arr) (n i : ℕ) (hi : i < n) : buildGraph lib (squares v n) (i + 1) = (unO chSquare i).node := by
  simp [buildGraph, squares, hi]
end ADDemo

/-- C87: the bound is linear and cannot be better.  For every `n` there is a graph of height `n`, reachable by making objects only, whose last object is read
without overflow with every stack of depth `n + 2` or more, and overflows every stack of depth `n` or less once `x.clear_cache()` has been called. -/
theorem C87_linear_depth (n : ℕ) : ∃ (ops : List (Op ClassDef Par Jac)) (y : Id),
    let h := (step lib (.clear 0) (run lib ops (Heap.empty lib))).1
    HeightLe h.graph n y ∧ (∀ f ≥ n + 2, (read lib f (.r y) h).2 ≠ .error .fuel) ∧ ∀ f ≤ n, (read lib f (.r y) h).2 = .error .fuel := by
  open ADDemo in
  have hok := squares_ok ⟨[1], fun _ => 1⟩ n
  refine ⟨buildOps (squares ⟨[1], fun _ => 1⟩ n), n, ?_⟩
  intro h
  have hg0 : (run lib (buildOps (squares ⟨[1], fun _ => 1⟩ n)) (Heap.empty lib)).graph = buildGraph lib (squares ⟨[1], fun _ => 1⟩ n) := build_graph _ hok.earlier
  have hal : ((run lib (buildOps (squares ⟨[1], fun _ => 1⟩ n)) (Heap.empty lib)).node 0).alive = true := by
    rw [(build_alive (s := lib) _ hok.earlier).2]; simp [squares]
  have hg : h.graph = buildGraph lib (squares ⟨[1], fun _ => 1⟩ n) := by
    rw [← hg0]
    funext j
    have e : h = (clearCacheFull lib 0 none (run lib (buildOps (squares ⟨[1], fun _ => 1⟩ n)) (Heap.empty lib))).1 := by
      show (step lib (.clear 0) _).1 = _
      simp only [step, ifAlive]; rw [if_pos hal]; rfl
    rw [e]
    exact ((C04_clear_cache (s := lib) _ (fun n hn => (run_str _).par0 n hn) 0).2.2.2.1 j).1
  have hr : Reach lib ⟨False, False⟩ h := .step _ (build_reach ⟨False, False⟩ _ (fun o ho hp => by rw [hok.plain o ho] at hp; cases hp)) trivial
  have hh : HeightLe h.graph n n := by
    rw [hg]
    have : ∀ {k : ℕ} {a b : Id}, RefChain (buildGraph lib (squares ⟨[1], fun _ => 1⟩ n)) k a b → k ≤ a := by
      intro k a b hc
      induction hc with
      | nil a => exact Nat.zero_le _
      | cons hk _ ih => exact Nat.lt_of_le_of_lt ih (hok.link hk).choose_spec.2.2.2
    exact fun k b hc => this hc
  have hcls : ∀ b, (buildGraph lib (squares ⟨[1], fun _ => 1⟩ n) b).cls = chLeaf ∨ (buildGraph lib (squares ⟨[1], fun _ => 1⟩ n) b).cls = chSquare := by
    intro b
    rcases b with _ | b
    · exact Or.inl rfl
    · by_cases hb : b < n
      · exact Or.inr (by rw [squares_at _ n b hb]; rfl)
      · refine Or.inl ?_
        have : (squares ⟨[1], fun _ => 1⟩ n)[b + 1]? = none := by simp [squares]; omega
        unfold buildGraph
        rw [this]
  have hp : PlainBelow lib h.graph n := by
    intro k b _
    rw [hg]
    rcases hcls b with e | e
    · rw [e]; exact ⟨fun _ => rfl, fun t => by dsimp only; split <;> trivial⟩
    · rw [e]; exact ⟨fun _ => rfl, fun t => trivial⟩
  refine ⟨hh, fun f hf => (C87_value_depth lib_propsOk hr hh hp f hf).1, fun f hf => C87_depth_needed _ hal ?_ f hf⟩
  rw [hg0]
  have : ∀ i ≤ n, AskChain lib (buildGraph lib (squares ⟨[1], fun _ => 1⟩ n)) i i 0 := by
    intro i
    induction i with
    | zero => exact fun _ => .nil 0
    | succ i ih =>
      intro hi
      have e := squares_at ⟨[1], fun _ => 1⟩ n i (by omega)
      refine .cons (k := nmA) (c := i) ?_ ?_ (ih (by omega))
      · rw [e]; rfl
      · rw [e]; rfl
  exact this n (Nat.le_refl _)
end Chumpy
