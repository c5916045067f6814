import Verif.Core.ClassSetup
/-!
# What positional constructor arguments mean (C61)
-/
namespace Chumpy.Cls
variable (D : Classes)

/-! ## Specification -/

/-- The names written for a class, in its body or in that of its nearest base class which writes any. -/
def written (f : Nat → Option Names) (k : Nat) : List Nat := (((chain D k).findSome? f).map Names.list).getD []

/-- The order of the positional arguments of a class as its text says: the `term_order` written for it, or else the names of its
`terms` and then of its `dterms`. -/
def specOrder (k : Nat) : List Nat := ((chain D k).findSome? D.order).getD (written D D.terms k ++ written D D.dterms k)

/-- What binding the positional arguments `pos` in the order `ns` and keyword arguments `kw` should give; `none` is an exception. -/
structure Binds {α : Type} (ns : List Nat) (pos : List α) (kw : Nat → Option α) (out : Option (Nat → Option α)) : Prop where
  few : pos.length ≤ ns.length → ∃ f, out = some f ∧ (∀ i (h : i < pos.length) (h' : i < ns.length), f ns[i] = some pos[i]) ∧
    ∀ n, n ∉ ns.take pos.length → f n = kw n
  many : ns.length < pos.length → out = none

/-! ## Lookup -/
section
variable {D} {α : Type}

theorem chain_eq (k : Nat) : chain D k = k :: ((D.base k).map (chain D)).getD [] := by
  rw [chain]
  cases h : D.base k <;> rfl

theorem chain_suffix {k c : Nat} (h : k ∈ chain D c) : ∃ pre, chain D c = pre ++ chain D k ∧ k ∉ pre := by
  induction c using Nat.strongRecOn with
  | _ c ih =>
    by_cases hk : k = c
    · exact ⟨[], by rw [hk]; rfl, by simp⟩
    · rw [chain_eq] at h ⊢
      cases hb : D.base c with
      | none => rw [hb] at h; simp [hk] at h
      | some p =>
        rw [hb] at h
        simp only [Option.map_some, Option.getD_some, List.mem_cons, hk, false_or] at h
        obtain ⟨pre, h1, h2⟩ := ih p (D.base_lt c p hb) h
        exact ⟨c :: pre, by simp [h1], by simp [hk, h2]⟩

theorem chain_le {k c : Nat} (h : k ∈ chain D c) : k ≤ c := by
  induction c using Nat.strongRecOn with
  | _ c ih =>
    rw [chain_eq] at h
    cases hb : D.base c with
    | none => rw [hb] at h; simp at h; exact Nat.le_of_eq h
    | some p =>
      rw [hb] at h
      simp only [Option.map_some, Option.getD_some, List.mem_cons] at h
      rcases h with h | h
      · exact Nat.le_of_eq h
      · exact Nat.le_trans (ih p (D.base_lt c p hb) h) (Nat.le_of_lt (D.base_lt c p hb))

theorem findSome_put {f : Nat → Option α} {k : Nat} {x : α} {l : List Nat} (h : k ∉ l) : l.findSome? (put f k x) = l.findSome? f := by
  induction l with
  | nil => rfl
  | cons a l ih =>
    simp only [List.mem_cons, not_or] at h
    rw [List.findSome?_cons, List.findSome?_cons, ih h.2]
    simp [put, Ne.symm h.1]

theorem look_put_self (f : Nat → Option α) (k : Nat) (x : α) : look D (put f k x) k = some x := by
  unfold look
  rw [chain_eq, List.findSome?_cons]
  simp [put]

theorem look_put_off {f : Nat → Option α} {k c : Nat} {x : α} (h : k ∉ chain D c) : look D (put f k x) c = look D f c := findSome_put h

/-- Looking up from a class below `k`: the classes in between come first. -/
theorem look_below (f : Nat → Option α) {k c : Nat} (x : α) (h : k ∈ chain D c) :
    ∃ o : Option α, look D f c = o.or (look D f k) ∧ look D (put f k x) c = o.or (some x) := by
  obtain ⟨pre, h1, h2⟩ := chain_suffix h
  refine ⟨pre.findSome? f, ?_, ?_⟩
  · unfold look; rw [h1, List.findSome?_append]
  · have := look_put_self (D := D) f k x
    unfold look at this ⊢
    rw [h1, List.findSome?_append, findSome_put h2, this]

theorem listOf_put {f : Nat → Option Names} {k : Nat} {x : Names} (h : x.list = listOf D f k) (c : Nat) :
    listOf D (put f k x) c = listOf D f c := by
  by_cases hc : k ∈ chain D c
  · obtain ⟨o, h1, h2⟩ := look_below f x hc
    unfold listOf at h ⊢
    rw [h1, h2]
    cases o with
    | some y => rfl
    | none => simpa using h
  · unfold listOf; rw [look_put_off hc]

theorem listOf_tidy (f : Nat → Option Names) (k c : Nat) : listOf D (tidy D f k) c = listOf D f c := by
  unfold tidy
  split
  · next h => exact listOf_put (by unfold listOf; rw [h]; rfl) c
  · next n h => exact listOf_put (by unfold listOf; rw [h]; rfl) c
  · rfl
end

/-! ## The invariant -/

/-- What holds after the constructions `hist`. -/
structure Inv (hist : List Nat) (s : State) : Prop where
  terms : ∀ c, listOf D s.terms c = written D D.terms c
  dterms : ∀ c, listOf D s.dterms c = written D D.dterms c
  order : ∀ c, s.order c = D.order c ∨ look D D.order c = none ∧ s.order c = some (specOrder D c)
  parms : ∀ nm l, s.parms nm = some l → ∃ c ∈ hist, D.name c = nm ∧ l = (chain D c).flatMap D.declared
  ready : ∀ c, s.ready c = true → (look D s.order c).isSome = true ∧ (written D D.terms c ++ written D D.dterms c).any D.reserved = false

variable {D}

theorem inv_parms {hist : List Nat} {s : State} (hi : Inv D hist s) (k : Nat) :
    Inv D (k :: hist) (parmsOf D k s).2 ∧
    ∃ c ∈ k :: hist, D.name c = D.name k ∧ (parmsOf D k s).1 = (chain D c).flatMap D.declared := by
  unfold parmsOf
  split
  · next l h =>
    obtain ⟨c, h1, h2, h3⟩ := hi.parms _ _ h
    refine ⟨⟨hi.terms, hi.dterms, hi.order, ?_, hi.ready⟩, c, List.mem_cons_of_mem _ h1, h2, h3⟩
    intro nm l' h'
    obtain ⟨c', a, b⟩ := hi.parms nm l' h'
    exact ⟨c', List.mem_cons_of_mem _ a, b⟩
  · refine ⟨⟨hi.terms, hi.dterms, hi.order, ?_, hi.ready⟩, k, List.mem_cons_self, rfl, rfl⟩
    intro nm l' h'
    change put s.parms _ _ nm = _ at h'
    unfold put at h'
    split at h'
    · next e => exact ⟨k, List.mem_cons_self, e.symm, (Option.some.inj h').symm⟩
    · obtain ⟨c', a, b⟩ := hi.parms nm l' h'
      exact ⟨c', List.mem_cons_of_mem _ a, b⟩

/-- Looking up the order of a class in a state. -/
theorem look_order {hist : List Nat} {s : State} (hi : Inv D hist s) (k : Nat) :
    look D s.order k = look D D.order k ∨
    look D D.order k = none ∧ ∃ p ∈ chain D k, look D s.order k = some (specOrder D p) := by
  cases hd : look D D.order k with
  | none =>
    -- nobody on the chain writes an order
    have hn : ∀ c ∈ chain D k, D.order c = none := by
      unfold look at hd
      exact List.findSome?_eq_none_iff.1 hd
    cases hs : look D s.order k with
    | none => exact .inl rfl
    | some o =>
      right
      refine ⟨rfl, ?_⟩
      unfold look at hs
      obtain ⟨c, hc, he⟩ := List.exists_of_findSome?_eq_some hs
      rcases hi.order c with h | h
      · rw [hn c hc] at h; rw [h] at he; cases he
      · exact ⟨c, hc, by rw [← he, h.2]⟩
  | some o =>
    left
    -- up to the first class which writes an order, nobody has been given one
    rw [← hd]
    have gen : ∀ c, look D D.order c ≠ none → look D s.order c = look D D.order c := by
      intro c
      induction c using Nat.strongRecOn with
      | _ c ih =>
        intro hne
        have e1 : ∀ f : Nat → Option (List Nat), look D f c = (f c).or ((D.base c).bind (look D f)) := by
          intro f
          unfold look
          rw [chain_eq, List.findSome?_cons]
          cases f c with
          | some x => rfl
          | none =>
            cases D.base c with
            | none => rfl
            | some p => rfl
        rcases hi.order c with h | h
        · rw [e1, e1, h]
          cases hdc : D.order c with
          | some x => rfl
          | none =>
            cases hb : D.base c with
            | none => rfl
            | some p =>
              rw [e1, hdc, hb] at hne
              simp only [Option.none_or, Option.bind_some] at hne ⊢
              exact ih p (D.base_lt c p hb) hne
        · exact absurd h.1 hne
    exact gen k (by rw [hd]; simp)

theorem inv_setup {hist : List Nat} {s : State} (hi : Inv D hist s) (k : Nat) :
    Inv D (k :: hist) (setup D k s).2 ∧ ((setup D k s).1 = true → (look D (setup D k s).2.order k).isSome = true) ∧
    ((∀ c ∈ k :: hist, D.name c = D.name k → (chain D c).flatMap D.declared = []) →
      (written D D.terms k ++ written D D.dterms k).any D.reserved = false → (setup D k s).1 = true) := by
  unfold setup
  split
  · next hr =>
    refine ⟨⟨hi.terms, hi.dterms, hi.order, ?_, hi.ready⟩, fun _ => (hi.ready k hr).1, fun _ _ => rfl⟩
    intro nm l' h'
    obtain ⟨c', a, b⟩ := hi.parms nm l' h'
    exact ⟨c', List.mem_cons_of_mem _ a, b⟩
  · obtain ⟨hp, c0, hc0, hn0, hl0⟩ := inv_parms hi k
    generalize hpp : parmsOf D k s = p at hp hl0
    have hqi : Inv D (k :: hist) (tidied D k p.2) :=
      ⟨fun c => by show listOf D (tidy D _ _) c = _; rw [listOf_tidy]; exact hp.terms c,
        fun c => by show listOf D (tidy D _ _) c = _; rw [listOf_tidy]; exact hp.dterms c, hp.order, hp.parms, hp.ready⟩
    generalize tidied D k p.2 = q at hqi
    split
    · next hne =>
      refine ⟨hqi, (fun h => by cases h), fun h _ => ?_⟩
      exact absurd (hl0.trans (h c0 hc0 hn0)) hne
    · have hui : Inv D (k :: hist) (ordered D k q) ∧ (look D (ordered D k q).order k).isSome = true := by
        have hall : allTerms D k q = written D D.terms k ++ written D D.dterms k := by
          unfold allTerms; rw [hqi.terms, hqi.dterms]
        unfold ordered
        rw [hall]
        split
        · next hnone =>
          have hq0 : look D q.order k = none := by simpa using hnone
          have hD : look D D.order k = none := by
            rcases look_order hqi k with h | h
            · rw [← h]; exact hq0
            · exact h.1
          refine ⟨⟨hqi.terms, hqi.dterms, ?_, hqi.parms, ?_⟩, by rw [look_put_self]; rfl⟩
          · intro c
            by_cases hc : c = k
            · right
              subst hc
              refine ⟨hD, ?_⟩
              unfold look at hD
              simp [put, specOrder, hD]
            · simpa [put, hc] using hqi.order c
          · intro c hc
            refine ⟨?_, (hqi.ready c hc).2⟩
            have := (hqi.ready c hc).1
            by_cases hkc : k ∈ chain D c
            · obtain ⟨o, -, h2⟩ := look_below q.order (written D D.terms k ++ written D D.dterms k) hkc
              rw [h2]; cases o <;> rfl
            · rw [look_put_off hkc]; exact this
        · next hnone => exact ⟨hqi, Option.isSome_iff_ne_none.2 (by simpa using hnone)⟩
      generalize ordered D k q = u at hui
      have hall : allTerms D k u = written D D.terms k ++ written D D.dterms k := by
        unfold allTerms; rw [hui.1.terms, hui.1.dterms]
      rw [hall]
      split
      · next hres => exact ⟨hui.1, (fun h => by cases h), fun _ h => absurd hres (by rw [h]; simp)⟩
      · next hres =>
        refine ⟨⟨hui.1.terms, hui.1.dterms, hui.1.order, hui.1.parms, ?_⟩, fun _ => hui.2, fun _ _ => rfl⟩
        intro c hc
        simp only [Bool.or_eq_true, beq_iff_eq] at hc
        rcases hc with hc | hc
        · subst hc; exact ⟨hui.2, by simpa using hres⟩
        · exact hui.1.ready c hc

theorem inv_construct {α : Type} {hist : List Nat} {s : State} (hi : Inv D hist s) (k : Nat) (pos : List α) (kw : Nat → Option α) :
    Inv D (k :: hist) (construct D k pos kw s).2 := by
  obtain ⟨h1, -, -⟩ := inv_setup hi k
  unfold construct
  dsimp only
  split
  · obtain ⟨h2, -⟩ := inv_parms h1 k
    refine ⟨h2.terms, h2.dterms, h2.order, ?_, h2.ready⟩
    intro nm l h
    obtain ⟨c, a, b⟩ := h2.parms nm l h
    exact ⟨c, by simpa using a, b⟩
  · exact h1

theorem inv_after (hist : List Nat) : Inv D hist (after D hist) := by
  induction hist with
  | nil => exact ⟨fun _ => rfl, fun _ => rfl, fun _ => .inl rfl, (fun _ _ h => by cases h), (fun _ h => by cases h)⟩
  | cons k older ih => exact inv_construct ih k [] _

theorem bindArgs_binds {α : Type} (ns : List Nat) (hn : ns.Nodup) (pos : List α) (kw : Nat → Option α) : Binds ns pos kw (bindArgs ns pos kw) := by
  induction pos generalizing ns kw with
  | nil => exact ⟨fun _ => ⟨kw, by cases ns <;> rfl, (fun i h => by simp at h), fun _ _ => rfl⟩, fun h => by simp at h⟩
  | cons a as ih =>
    cases ns with
    | nil => exact ⟨fun h => by simp at h, fun _ => rfl⟩
    | cons n ns =>
      rw [List.nodup_cons] at hn
      have := ih ns hn.2 (put kw n a)
      refine ⟨fun h => ?_, fun h => this.many (by simpa using h)⟩
      obtain ⟨f, h1, h2, h3⟩ := this.few (by simpa using h)
      refine ⟨f, h1, ?_, ?_⟩
      · intro i hi hi'
        cases i with
        | zero =>
          have := h3 n (fun hm => hn.1 (List.mem_of_mem_take hm))
          simpa [put] using this
        | succ i => simpa using h2 i (by simpa using hi) (by simpa using hi')
      · intro m hm
        simp only [List.length_cons, List.take_succ_cons, List.mem_cons, not_or] at hm
        rw [h3 m hm.2]
        simp [put, hm.1]
end Chumpy.Cls

namespace Chumpy
open Cls

/-- **C61**, in full: whatever was constructed before, the positional arguments of a constructor are bound in the order which the text
of the class says, provided no attribute is called like a method of `Ch`. -/
def C61_full : Prop :=
  ∀ (D : Classes) (hist : List Nat) (k : Nat) (α : Type) (pos : List α) (kw : Nat → Option α),
    (∀ c, D.declared c = []) ∨ (∀ c c', D.name c = D.name c' → c = c') →
    (chain D k).flatMap D.declared = [] → (written D D.terms k ++ written D D.dterms k).any D.reserved = false → (specOrder D k).Nodup →
    Binds (specOrder D k) pos kw (construct D k pos kw (after D hist)).1

/-- **C61**, partial: it holds when every base class says the same order as the class itself; in particular for all classes directly
below `Ch`.  Also, classes of the same `__name__` must not have `Term` declarations.  Missing: classes which extend the attributes of a
class without writing a `term_order` — there it fails, see below. -/
theorem C61_positional_arguments_partial (D : Classes) (hist : List Nat) (k : Nat) {α : Type} (pos : List α) (kw : Nat → Option α)
    (hbase : ∀ p ∈ chain D k, specOrder D p = specOrder D k)
    (hnew : ∀ c ∈ k :: hist, D.name c = D.name k → (chain D c).flatMap D.declared = [])
    (hres : (written D D.terms k ++ written D D.dterms k).any D.reserved = false) (hnd : (specOrder D k).Nodup) :
    Binds (specOrder D k) pos kw (construct D k pos kw (after D hist)).1 := by
  have hi := inv_after (D := D) hist
  obtain ⟨h1, h2, h3⟩ := inv_setup hi k
  have ht := h3 hnew hres
  have hs := h2 ht
  obtain ⟨h4, c, hc, hcn, hcl⟩ := inv_parms h1 k
  have hl : (parmsOf D k (setup D k (after D hist)).2).1 = [] := by
    rw [hcl]; exact hnew c (by simpa using hc) hcn
  have hord : (parmsOf D k (setup D k (after D hist)).2).2.order = (setup D k (after D hist)).2.order := by
    unfold parmsOf; split <;> rfl
  unfold construct
  dsimp only
  rw [if_pos ht, hord]
  dsimp only
  rw [if_neg (by rw [hl]; simp)]
  have hlook : (look D (setup D k (after D hist)).2.order k).getD [] = specOrder D k := by
    rcases look_order h1 k with h | ⟨-, p, hp, h⟩
    · rw [h] at hs ⊢
      unfold specOrder
      cases hd : look D D.order k with
      | none => rw [hd] at hs; cases hs
      | some o => unfold look at hd; rw [hd]; rfl
    · rw [h]; exact hbase p hp
  rw [hlook]
  exact bindArgs_binds _ hnd pos kw

/-- Classes directly below `Ch`, in particular all those of the library which have names of their own. -/
theorem C61_direct_subclasses (D : Classes) (hist : List Nat) (k : Nat) {α : Type} (pos : List α) (kw : Nat → Option α)
    (hbase : D.base k = none) (hold : ∀ c, D.declared c = [])
    (hres : (written D D.terms k ++ written D D.dterms k).any D.reserved = false) (hnd : (specOrder D k).Nodup) :
    Binds (specOrder D k) pos kw (construct D k pos kw (after D hist)).1 := by
  refine C61_positional_arguments_partial D hist k pos kw ?_ ?_ hres hnd
  · intro p hp
    rw [chain_eq, hbase] at hp
    simp at hp
    rw [hp]
  · intro c _ _
    rw [List.flatMap_eq_nil_iff]
    intro x _
    exact hold x

/-- A class with the differentiable terms 1 and 2, and a class below it which adds the term 3: `class A(Ch): dterms = 'a', 'b'` and
`class B(A): terms = 'k'`. -/
def extending : Classes where
  base k := if k = 1 then some 0 else none
  base_lt k p h := by
    by_cases hk : k = 1
    · rw [if_pos hk] at h
      have := Option.some.inj h
      omega
    · rw [if_neg hk] at h; cases h
  name k := k
  terms k := if k = 1 then some (.str 3) else none
  dterms k := if k = 0 then some (.seq [1, 2]) else none
  order _ := none
  declared _ := []
  reserved _ := false

theorem extending_chains : chain extending 0 = [0] ∧ chain extending 1 = [1, 0] := by
  have h0 : chain extending 0 = [0] := by rw [chain_eq]; rfl
  refine ⟨h0, ?_⟩
  rw [chain_eq]
  show 1 :: chain extending 0 = _
  rw [h0]

/-- In a new session `B(7)` sets `k`; after any `A(...)` has been made, it sets `a`. -/
theorem C61_extended_class_refuted :
    specOrder extending 1 = [3, 1, 2] ∧
    (∃ f, (construct extending 1 [7] (fun _ => none) (after extending [])).1 = some f ∧ f 3 = some 7 ∧ f 1 = none) ∧
    ∃ f, (construct extending 1 [7] (fun _ => none) (after extending [0])).1 = some f ∧ f 3 = none ∧ f 1 = some 7 := by
  obtain ⟨h0, h1⟩ := extending_chains
  have e1 : extending.terms = fun k => if k = 1 then some (.str 3) else none := rfl
  have e2 : extending.dterms = fun k => if k = 0 then some (.seq [1, 2]) else none := rfl
  have e3 : extending.order = fun _ => none := rfl
  have e4 : extending.declared = fun _ => [] := rfl
  have e5 : extending.reserved = fun _ => false := rfl
  have e6 : extending.name = fun k => k := rfl
  refine ⟨?_, ?_, ?_⟩
  · simp [specOrder, written, h1, e1, e2, e3, Names.list]
  · refine ⟨put (fun _ => none) 3 7, ?_, rfl, rfl⟩
    simp [construct, setup, parmsOf, tidied, tidy, ordered, allTerms, listOf, look, h1, after, start, e1, e2, e3, e4, e5, e6, put, Names.list, bindArgs]
  · refine ⟨put (fun _ => none) 1 7, ?_, rfl, rfl⟩
    simp [construct, setup, parmsOf, tidied, tidy, ordered, allTerms, listOf, look, h0, h1, after, start, e1, e2, e3, e4, e5, e6, put, Names.list, bindArgs]

/-- The full property fails. -/
theorem C61_full_refuted : ¬ C61_full := by
  intro h
  obtain ⟨h1, -, f, hf, h3, -⟩ := C61_extended_class_refuted
  have hb := h extending [0] 1 Nat [7] (fun _ => none) (.inl fun _ => rfl) (by rw [extending_chains.2]; rfl)
    (by rw [List.any_eq_false]; intro x _; simp [extending]) (by rw [h1]; decide)
  rw [h1] at hb
  obtain ⟨g, hg, h2, -⟩ := hb.few (by decide)
  rw [hf] at hg
  have e := h2 0 (by decide) (by decide)
  rw [← Option.some.inj hg] at e
  rw [show ([3, 1, 2] : List Nat)[0] = 3 from rfl, h3] at e
  cases e

/-- Two classes directly below `Ch` with the same `__name__`: the first declares a `Term`, the second has the differentiable term 1. -/
def namesakes : Classes where
  base _ := none
  base_lt _ _ h := by cases h
  name _ := 0
  terms _ := none
  dterms k := if k = 1 then some (.str 1) else none
  order _ := none
  declared k := if k = 0 then [5] else []
  reserved _ := false

/-- After an attempt to make an object of the first class, no object of the second can be made. -/
theorem C61_same_name_refuted :
    (∃ f, (construct namesakes 1 [7] (fun _ => none) (after namesakes [])).1 = some f ∧ f 1 = some 7) ∧
    (construct namesakes 1 [7] (fun _ => none) (after namesakes [0])).1 = none := by
  have hc : ∀ k, chain namesakes k = [k] := fun k => by rw [chain_eq]; rfl
  have e1 : namesakes.terms = fun _ => none := rfl
  have e2 : namesakes.dterms = fun k => if k = 1 then some (.str 1) else none := rfl
  have e3 : namesakes.order = fun _ => none := rfl
  have e4 : namesakes.declared = fun k => if k = 0 then [5] else [] := rfl
  have e5 : namesakes.reserved = fun _ => false := rfl
  have e6 : namesakes.name = fun _ => 0 := rfl
  constructor
  · refine ⟨put (fun _ => none) 1 7, ?_, rfl⟩
    simp [construct, setup, parmsOf, tidied, tidy, ordered, allTerms, listOf, look, hc, after, start, e1, e2, e3, e4, e5, e6, put, Names.list, bindArgs]
  · simp [construct, setup, parmsOf, tidied, tidy, look, hc, after, start, e1, e2, e3, e4, e6, put]

/-- `divide` and `NanDivide` (ch_ops.py:397-422), numbered 0 and 1: the hypotheses hold although one is the base of the other. -/
def dividing : Classes where
  base k := if k = 1 then some 0 else none
  base_lt := extending.base_lt
  name k := k
  terms _ := none
  dterms _ := some (.seq [1, 2])
  order _ := none
  declared _ := []
  reserved n := n == 9

example (hist : List Nat) (a b : Nat) : ∃ f, (construct dividing 1 [a, b] (fun _ => none) (after dividing hist)).1 = some f ∧
    f 1 = some a ∧ f 2 = some b := by
  have hs : ∀ k, specOrder dividing k = [1, 2] := by
    intro k
    have h0 : (chain dividing k).findSome? dividing.order = none := by
      rw [List.findSome?_eq_none_iff]; intro _ _; rfl
    have h1 : (chain dividing k).findSome? dividing.terms = none := by
      rw [List.findSome?_eq_none_iff]; intro _ _; rfl
    have h2 : (chain dividing k).findSome? dividing.dterms = some (.seq [1, 2]) := by
      rw [chain_eq, List.findSome?_cons]; rfl
    simp [specOrder, written, h0, h1, h2, Names.list]
  have hw : written dividing dividing.terms 1 ++ written dividing dividing.dterms 1 = [1, 2] := by
    have h0 : (chain dividing 1).findSome? dividing.order = none := by
      rw [List.findSome?_eq_none_iff]; intro _ _; rfl
    have := hs 1
    rwa [specOrder, h0] at this
  have hb := C61_positional_arguments_partial dividing hist 1 [a, b] (fun _ => none) (fun p _ => by rw [hs, hs])
    (fun c _ _ => by rw [List.flatMap_eq_nil_iff]; intro _ _; rfl) (by rw [hw]; rfl) (by rw [hs]; decide)
  rw [hs] at hb
  obtain ⟨f, h1, h2, -⟩ := hb.few (by simp)
  exact ⟨f, h1, h2 0 (by simp) (by simp), h2 1 (by simp) (by simp)⟩

end Chumpy
