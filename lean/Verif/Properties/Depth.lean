import Verif.Core.Depth
import Verif.Properties.Jacobian
import Verif.Properties.Tags
/-!
# C87: how deep reading recurses

Reading a value or a derivative recurses along the references between objects.  The stack depth counts nested requests: each is a fixed number of
Python frames (`r`, `compute_r` and what it calls; `dr_wrt`, `_compute_dr_wrt_sliced`, `compute_dr_wrt`, ch.py:593-600, 283-312, 729-834).
-/
namespace Chumpy
variable {C T V D : Type} {s : Sig C T V D}

/-- "There is a chain of `n` references from `a` to `b`." -/
inductive RefChain (g : Graph C T) : ℕ → Id → Id → Prop
  | nil (a : Id) : RefChain g 0 a a
  | cons {n : ℕ} {a b c : Id} {k : Name} : (g a).dterms k = some c → RefChain g n c b → RefChain g (n + 1) a b

/-- "Every chain of references that starts at `a` has at most `n` references." -/
def HeightLe (g : Graph C T) (n : ℕ) (a : Id) : Prop := ∀ k b, RefChain g k a b → k ≤ n

/-- The objects under `a` have no `@depends_on` properties, and no `compute_r` of theirs reads the own value. -/
def PlainBelow (s : Sig C T V D) (g : Graph C T) (a : Id) : Prop :=
  ∀ k b, RefChain g k a b → (∀ p, s.propDecl (g b).cls p = none) ∧ (s.computeR (g b).cls).NoSelf

section
variable {g : Graph C T} {P : Id → Prop}

theorem RefChain.snoc {n : ℕ} {a b c : Id} {k : Name} (h : RefChain g n a b) (hk : (g b).dterms k = some c) : RefChain g (n + 1) a c := by
  induction h with
  | nil a => exact .cons hk (.nil _)
  | cons h1 _ ih => exact .cons h1 (ih hk)

/-- The length of the longest chain. -/
noncomputable def heightOf (g : Graph C T) (a : Id) : ℕ := sSup {k | ∃ b, RefChain g k a b}

theorem heightOf_le {n : ℕ} {a : Id} (h : HeightLe g n a) : heightOf g a ≤ n := csSup_le ⟨0, a, .nil a⟩ fun k hk => h k _ hk.choose_spec

theorem heightOf_lt {n : ℕ} {a c : Id} {k : Name} (h : HeightLe g n a) (hk : (g a).dterms k = some c) : heightOf g c < heightOf g a := by
  have hb : BddAbove {k | ∃ b, RefChain g k a b} := ⟨n, fun k hk => h k _ hk.choose_spec⟩
  have hb' : BddAbove {k | ∃ b, RefChain g k c b} := ⟨n, fun q hq => Nat.le_of_succ_le (h (q + 1) _ (.cons hk hq.choose_spec))⟩
  obtain ⟨b, hm⟩ := Nat.sSup_mem (s := {k | ∃ b, RefChain g k c b}) ⟨0, c, .nil c⟩ hb'
  exact Nat.lt_of_succ_le (le_csSup hb ⟨b, .cons hk hm⟩)

theorem heights {n m : ℕ} {y w : Id} (hy : HeightLe g n y) (hw : HeightLe g m w) (py : PlainBelow s g y) (pw : PlainBelow s g w) :
    Heights s g (fun i => (∃ k, RefChain g k y i) ∨ ∃ k, RefChain g k w i) (heightOf g) := by
  have app : ∀ {k q : ℕ} {a b c : Id}, RefChain g k a b → RefChain g q b c → RefChain g (k + q) a c := by
    intro k q a b c h1 h2
    induction h1 with
    | nil a => rwa [Nat.zero_add]
    | cons h _ ih => rw [Nat.add_right_comm]; exact .cons h (ih h2)
  refine ⟨fun i hi k c hk => ⟨?_, ?_⟩, fun i hi => ?_, fun i hi => ?_⟩
  · exact hi.imp (fun ⟨q, h⟩ => ⟨q + 1, h.snoc hk⟩) fun ⟨q, h⟩ => ⟨q + 1, h.snoc hk⟩
  · rcases hi with ⟨q, h⟩ | ⟨q, h⟩
    · exact heightOf_lt (n := n) (fun k' b hb => by have := hy _ _ (app h hb); omega) hk
    · exact heightOf_lt (n := m) (fun k' b hb => by have := hw _ _ (app h hb); omega) hk
  · rcases hi with ⟨q, h⟩ | ⟨q, h⟩
    · exact (py _ _ h).1
    · exact (pw _ _ h).1
  · rcases hi with ⟨q, h⟩ | ⟨q, h⟩
    · exact (py _ _ h).2
    · exact (pw _ _ h).2
end

/-- C87, values: after every history (legal as in C01), reading `y.r` with a stack deeper by 2 than the height of the graph under `y` does not overflow it, whatever
is cached, and returns (or raises) the same with every deeper stack. -/
theorem C87_value_depth (hp : s.PropsOk) {h : Heap C T V D} (hr : Reach s ⟨False, False⟩ h) {y : Id} {n : ℕ} (hy : HeightLe h.graph n y)
    (py : PlainBelow s h.graph y) (f : ℕ) (hf : n + 2 ≤ f) :
    (read s f (.r y) h).2 ≠ .error .fuel ∧ (read s f (.r y) h).2 = evalReq s h.graph (n + 2) (.r y) := by
  have hh := heights hy hy py py
  have hle := heightOf_le hy
  have e0 := hh.value _ y (Or.inl ⟨0, .nil y⟩) (Nat.le_refl _) (n + 2) (by omega)
  have e1 := hh.value _ y (Or.inl ⟨0, .nil y⟩) (Nat.le_refl _) f (by omega)
  have h1 := (C01_value_never_stale_partial hp hr f y).2.2 e1
  have h2 := evalReq_mono s h.graph hf (.r y) e0
  have e : (read s f (.r y) h).2 = evalReq s h.graph (n + 2) (.r y) := h1.trans h2
  exact ⟨by rw [e]; exact e0, e⟩

/-- C87, derivatives: `y.dr_wrt(w)` needs no deeper stack than the height of the graph under `y`, plus the larger one of that height and the height of
the graph under `w`, plus 3. -/
theorem C87_derivative_depth (hp : s.PropsOk) (ho : s.PlainForm) (hs : Shallow s) {h : Heap C T V D} (hr : Reach s ⟨False, True⟩ h) {y w : Id} {n m : ℕ}
    (hw : s.isPermute (h.graph w).cls = false) (hy : HeightLe h.graph n y) (hm : HeightLe h.graph m w) (py : PlainBelow s h.graph y)
    (pw : PlainBelow s h.graph w) (f : ℕ) (hf : n + max n m + 3 ≤ f) :
    (drWrt s f y w h).2 ≠ .error .fuel ∧ (drWrt s f y w h).2 = evalDr s h.graph (n + max n m + 3) y w := by
  have hh := heights hy hm py pw
  have hle := heightOf_le hy
  have hle' := heightOf_le hm
  have e0 := hh.dr hs (w := w) (Or.inr ⟨0, .nil w⟩) _ y (Or.inl ⟨0, .nil y⟩) (Nat.le_refl _) (n + max n m + 3) (by omega)
  have e1 := hh.dr hs (w := w) (Or.inr ⟨0, .nil w⟩) _ y (Or.inl ⟨0, .nil y⟩) (Nat.le_refl _) f (by omega)
  have h1 := (C02_derivative_never_stale_partial hp ho hr f y w hw).2.2 e1
  have h2 := evalDr_mono s h.graph hf y w e0
  have e : (drWrt s f y w h).2 = evalDr s h.graph (n + max n m + 3) y w := h1.trans h2
  exact ⟨by rw [e]; exact e0, e⟩

/-- In a graph without cycles, chains are at most as long as the number of objects reachable. -/
theorem heightLe_of_acyclic {g : Graph C T} : ∀ (S : Finset Id) (a : Id), (∀ k b, RefChain g k a b → b ∈ S) →
    (∀ k b, RefChain g (k + 1) b b → False) → HeightLe g (S.card - 1) a := by
  intro S
  induction S using Finset.strongInduction with
  | H S ih =>
    intro a hS hac k b h
    cases h with
    | nil => exact Nat.zero_le _
    | @cons n _ _ c q hk hc =>
      have ha : a ∈ S := hS 0 a (.nil a)
      have hsub : ∀ k b, RefChain g k c b → b ∈ S.erase a := fun k b hb =>
        Finset.mem_erase.2 ⟨fun e => hac k a (.cons hk (e ▸ hb)), hS (k + 1) b (.cons hk hb)⟩
      have h1 := ih (S.erase a) (Finset.erase_ssubset ha) c hsub hac n b hc
      have hc1 : 0 < (S.erase a).card := Finset.card_pos.2 ⟨c, hsub 0 c (.nil c)⟩
      have hc2 := Finset.card_erase_of_mem ha
      omega

/-- C87, by the number of objects: in a graph without cycles a stack deeper by one than the number of objects under `y` suffices. -/
theorem C87_value_depth_by_objects (hp : s.PropsOk) {h : Heap C T V D} (hr : Reach s ⟨False, False⟩ h) {y : Id} (S : Finset Id)
    (hS : ∀ k b, RefChain h.graph k y b → b ∈ S) (hac : ∀ k b, RefChain h.graph (k + 1) b b → False) (py : PlainBelow s h.graph y) (f : ℕ)
    (hf : S.card + 1 ≤ f) : (read s f (.r y) h).2 ≠ .error .fuel := by
  have h0 : 0 < S.card := Finset.card_pos.2 ⟨y, hS 0 y (.nil y)⟩
  exact (C87_value_depth hp hr (heightLe_of_acyclic S y hS hac) py f (by omega)).1

theorem lib_shallow : Shallow lib where
  superdot a b := by
    show Jac.superdot a b ≠ _
    unfold Jac.superdot
    split
    · simp
    · simp
    · unfold Jac.matdot
      split <;> try (split <;> simp)
      all_goals simp
  add a b := by
    show Jac.add a b ≠ _
    unfold Jac.add
    repeat' split
    all_goals simp

namespace ADDemo
theorem sharing_refs {i c : Id} {k : Name} (h : (buildGraph lib sharing i).dterms k = some c) : c < i := (sharing_ok.link h).choose_spec.2.2.2

theorem sharing_height (a : Id) : HeightLe (buildGraph lib sharing) a a := by
  intro k b h
  induction h with
  | nil a => exact Nat.zero_le _
  | cons h _ ih => have := sharing_refs h; exact Nat.lt_of_le_of_lt ih this

theorem sharing_plain (a : Id) : PlainBelow lib (buildGraph lib sharing) a := by
  intro k b _
  rcases b with _ | _ | _ | _ | b
  · exact ⟨fun _ => rfl, fun t => by dsimp only; split <;> trivial⟩
  · exact ⟨fun _ => rfl, fun t => by dsimp only; split <;> trivial⟩
  · exact ⟨fun _ => rfl, fun t u => by dsimp only; split <;> trivial⟩
  · exact ⟨fun _ => rfl, fun t u => by dsimp only; split <;> trivial⟩
  · exact ⟨fun _ => rfl, fun t => by dsimp only; split <;> trivial⟩

/-- `y = a*b + a`: five requests suffice for the value, nine for the derivative. -/
example : ∃ h, Reach lib ⟨False, True⟩ h ∧ (∀ f ≥ 5, (read lib f (.r 3) h).2 ≠ .error .fuel) ∧ ∀ f ≥ 9, (drWrt lib f 3 0 h).2 ≠ .error .fuel := by
  obtain ⟨h, hr, hg⟩ := sharing_ok.reach ⟨False, True⟩
  refine ⟨h, hr, fun f hf => ?_, fun f hf => ?_⟩
  · exact (C87_value_depth lib_propsOk (Reach.weaken (m := ⟨False, True⟩) (m' := ⟨False, False⟩) (fun h => h) (fun _ => trivial) hr) (by rw [hg]; exact sharing_height 3)
      (by rw [hg]; exact sharing_plain 3) f hf).1
  · exact (C87_derivative_depth lib_propsOk lib_plainForm lib_shallow hr (by rw [hg]; rfl) (by rw [hg]; exact sharing_height 3)
      (by rw [hg]; exact sharing_height 0) (by rw [hg]; exact sharing_plain 3) (by rw [hg]; exact sharing_plain 0) f hf).1
/-- The graph of `y = a*b + a` has no cycles. -/
example (k : ℕ) (b : Id) (h : RefChain (buildGraph lib sharing) (k + 1) b b) : False := by
  have lt : ∀ {k : ℕ} {a b : Id}, RefChain (buildGraph lib sharing) k a b → b ≤ a := by
    intro k a b h
    induction h with
    | nil => exact Nat.le_refl _
    | cons h _ ih => exact Nat.le_of_lt (Nat.lt_of_le_of_lt ih (sharing_refs h))
  cases h with
  | cons h h' => exact Nat.lt_irrefl _ (Nat.lt_of_le_of_lt (lt h') (sharing_refs h))
end ADDemo
end Chumpy
