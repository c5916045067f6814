import Verif.Core.Clear
import Verif.Core.Indep
/-! Back-links: `_parents` mirrors the differentiable links exactly. -/
namespace Chumpy
variable {C T V D α : Type}

/-- `q` is registered under name `k` in the dictionary `ps`. -/
def Reg (ps : List (Id × List Name)) (q : Id) (k : Name) : Prop := ∃ ns, (q, ns) ∈ ps ∧ k ∈ ns

/-- `ps` is a dictionary (keys distinct) of nonempty sets. -/
structure PsOk (ps : List (Id × List Name)) : Prop where
  keys : (ps.map (·.1)).Nodup
  names : ∀ q ns, (q, ns) ∈ ps → ns ≠ [] ∧ ns.Nodup

theorem PsOk.nil : PsOk [] := ⟨List.nodup_nil, by simp⟩

theorem PsOk.tail {p : Id × List Name} {ps : List (Id × List Name)} (h : PsOk (p :: ps)) : PsOk ps :=
  ⟨(List.nodup_cons.1 h.keys).2, fun q ns hm => h.names q ns (List.mem_cons_of_mem _ hm)⟩

theorem reg_cons {q0 : Id} {ns0 : List Name} {ps : List (Id × List Name)} {q : Id} {k : Name} :
    Reg ((q0, ns0) :: ps) q k ↔ (q = q0 ∧ k ∈ ns0) ∨ Reg ps q k := by
  unfold Reg
  constructor
  · rintro ⟨ns, hm, hk⟩
    rcases List.mem_cons.1 hm with h | h
    · cases h; exact Or.inl ⟨rfl, hk⟩
    · exact Or.inr ⟨ns, h, hk⟩
  · rintro (⟨rfl, hk⟩ | ⟨ns, hm, hk⟩)
    · exact ⟨ns0, by simp, hk⟩
    · exact ⟨ns, by simp [hm], hk⟩

theorem addParent_keys (q : Id) (k : Name) (ps : List (Id × List Name)) (x : Id) :
    x ∈ (addParent q k ps).map (·.1) ↔ x = q ∨ x ∈ ps.map (·.1) := by
  induction ps with
  | nil => simp [addParent]
  | cons p ps ih =>
    obtain ⟨q', ns⟩ := p
    unfold addParent
    split
    · rename_i h; subst h; simp
    · simp only [List.map_cons, List.mem_cons, ih]
      constructor
      · rintro (h | h | h) <;> simp [h]
      · rintro (h | h | h) <;> simp [h]

theorem addParent_reg (q : Id) (k : Name) (ps : List (Id × List Name)) (q' : Id) (k' : Name) :
    Reg (addParent q k ps) q' k' ↔ Reg ps q' k' ∨ (q' = q ∧ k' = k) := by
  induction ps with
  | nil =>
    simp only [addParent, Reg, List.mem_singleton, Prod.mk.injEq]
    constructor
    · rintro ⟨ns, ⟨h, rfl⟩, hk⟩; exact Or.inr ⟨h, by simpa using hk⟩
    · rintro (⟨ns, h, _⟩ | ⟨h, h'⟩)
      · simp at h
      · exact ⟨[k], ⟨h, rfl⟩, by simp [h']⟩
  | cons p ps ih =>
    obtain ⟨q0, ns⟩ := p
    unfold addParent
    split
    · rename_i h; subst h
      rw [reg_cons, reg_cons]
      by_cases hk : k ∈ ns
      · simp only [hk, if_true]
        constructor
        · exact Or.inl
        · rintro (h | ⟨rfl, rfl⟩)
          · exact h
          · exact Or.inl ⟨rfl, hk⟩
      · simp only [hk, if_false, List.mem_append, List.mem_singleton]
        constructor
        · rintro (⟨h, h' | h'⟩ | h)
          · exact Or.inl (Or.inl ⟨h, h'⟩)
          · exact Or.inr ⟨h, h'⟩
          · exact Or.inl (Or.inr h)
        · rintro ((⟨h, h'⟩ | h) | ⟨h, h'⟩)
          · exact Or.inl ⟨h, Or.inl h'⟩
          · exact Or.inr h
          · exact Or.inl ⟨h, Or.inr h'⟩
    · rw [reg_cons, reg_cons, ih]
      constructor
      · rintro (h | h | h)
        · exact Or.inl (Or.inl h)
        · exact Or.inl (Or.inr h)
        · exact Or.inr h
      · rintro ((h | h) | h)
        · exact Or.inl h
        · exact Or.inr (Or.inl h)
        · exact Or.inr (Or.inr h)

theorem addParent_ok (q : Id) (k : Name) {ps : List (Id × List Name)} (h : PsOk ps) :
    PsOk (addParent q k ps) := by
  induction ps with
  | nil => exact ⟨by simp [addParent], by intro q' ns hm; simp [addParent] at hm; simp [hm.2]⟩
  | cons p ps ih =>
    obtain ⟨q0, ns⟩ := p
    have ht := h.tail
    have hk := List.nodup_cons.1 h.keys
    unfold addParent
    split
    · refine ⟨by simpa using h.keys, ?_⟩
      intro q' ns' hm
      rcases List.mem_cons.1 hm with hm | hm
      · cases hm
        have := h.names q0 ns (by simp)
        split
        · exact this
        · rename_i hnk
          refine ⟨by simp, ?_⟩
          rw [List.nodup_append]
          refine ⟨this.2, by simp, ?_⟩
          intro a ha b hb
          simp at hb; subst hb
          rintro rfl; exact hnk ha
      · exact ht.names q' ns' hm
    · rename_i hne
      have ih' := ih ht
      refine ⟨?_, ?_⟩
      · simp only [List.map_cons, List.nodup_cons]
        refine ⟨?_, ih'.keys⟩
        rw [addParent_keys]
        rintro (h | h)
        · exact hne h
        · exact hk.1 h
      · intro q' ns' hm
        rcases List.mem_cons.1 hm with hm | hm
        · cases hm; exact h.names q0 ns (by simp)
        · exact ih'.names q' ns' hm

theorem not_reg_of_key {ps : List (Id × List Name)} {q : Id} (h : q ∉ ps.map (·.1)) (k : Name) :
    ¬ Reg ps q k := by
  rintro ⟨ns, hm, _⟩
  exact h (List.mem_map.2 ⟨_, hm, rfl⟩)

theorem removeParent_spec (q : Id) (k : Name) {ps : List (Id × List Name)} (h : PsOk ps)
    (hr : Reg ps q k) : ∃ ps', removeParent q k ps = some ps' ∧ PsOk ps' ∧
      (∀ x, x ∈ ps'.map (·.1) → x ∈ ps.map (·.1)) ∧
      ∀ q' k', Reg ps' q' k' ↔ Reg ps q' k' ∧ ¬ (q' = q ∧ k' = k) := by
  induction ps with
  | nil => simp [Reg] at hr
  | cons p ps ih =>
    obtain ⟨q0, ns⟩ := p
    have ht := h.tail
    have hkeys := List.nodup_cons.1 h.keys
    have hns := h.names q0 ns (by simp)
    unfold removeParent
    by_cases hq : q0 = q
    · subst hq
      rw [if_pos rfl]
      have hnr : ∀ k', ¬ Reg ps q0 k' := not_reg_of_key hkeys.1
      have hk : k ∈ ns := by
        rcases reg_cons.1 hr with h | h
        · exact h.2
        · exact absurd h (hnr k)
      rw [if_pos hk]
      refine ⟨_, rfl, ?_, ?_, ?_⟩
      · split
        · exact ht
        · rename_i hne
          refine ⟨by simpa using h.keys, ?_⟩
          intro q' ns' hm
          rcases List.mem_cons.1 hm with hm | hm
          · cases hm
            exact ⟨by simpa using hne, hns.2.filter _⟩
          · exact ht.names q' ns' hm
      · intro x hx
        split at hx
        · exact List.mem_cons_of_mem _ hx
        · simpa using hx
      · intro q' k'
        split
        · rename_i hemp
          have hall : ∀ k'' ∈ ns, k'' = k := by
            intro k'' hk''
            have := List.isEmpty_iff.1 hemp
            rw [List.filter_eq_nil_iff] at this
            simpa using this k'' hk''
          rw [reg_cons]
          constructor
          · intro hr'
            refine ⟨Or.inr hr', ?_⟩
            rintro ⟨rfl, _⟩; exact hnr _ hr'
          · rintro ⟨⟨rfl, hk'⟩ | hr', hnot⟩
            · exact absurd ⟨rfl, hall _ hk'⟩ hnot
            · exact hr'
        · rw [reg_cons, reg_cons]
          simp only [List.mem_filter, decide_eq_true_eq]
          constructor
          · rintro (⟨rfl, hk', hne⟩ | hr')
            · exact ⟨Or.inl ⟨rfl, hk'⟩, fun ⟨_, h⟩ => hne h⟩
            · refine ⟨Or.inr hr', ?_⟩
              rintro ⟨rfl, _⟩; exact hnr _ hr'
          · rintro ⟨⟨rfl, hk'⟩ | hr', hnot⟩
            · exact Or.inl ⟨rfl, hk', fun h => hnot ⟨rfl, h⟩⟩
            · exact Or.inr hr'
    · rw [if_neg hq]
      have hr' : Reg ps q k := by
        rcases reg_cons.1 hr with h | h
        · exact absurd h.1.symm hq
        · exact h
      obtain ⟨ps', e, ok', hsub, hreg⟩ := ih ht hr'
      rw [e]
      refine ⟨_, rfl, ?_, ?_, ?_⟩
      · refine ⟨?_, ?_⟩
        · simp only [List.map_cons, List.nodup_cons]
          exact ⟨fun hx => hkeys.1 (hsub _ hx), ok'.keys⟩
        · intro q' ns' hm
          rcases List.mem_cons.1 hm with hm | hm
          · cases hm; exact hns
          · exact ok'.names q' ns' hm
      · intro x hx
        rcases List.mem_cons.1 hx with hx | hx
        · exact List.mem_cons.2 (Or.inl hx)
        · exact List.mem_cons.2 (Or.inr (hsub x hx))
      · intro q' k'
        rw [reg_cons, reg_cons, hreg]
        constructor
        · rintro (⟨rfl, hk'⟩ | ⟨h1, h2⟩)
          · exact ⟨Or.inl ⟨rfl, hk'⟩, fun ⟨h, _⟩ => hq h⟩
          · exact ⟨Or.inr h1, h2⟩
        · rintro ⟨h1 | h1, h2⟩
          · exact Or.inl h1
          · exact Or.inr ⟨h1, h2⟩

/-- The back-links `par` are exactly the reverse of the links of `g`. -/
structure Links (par : Id → List (Id × List Name)) (g : Graph C T) : Prop where
  exact : ∀ q k n, (g q).dterms k = some n ↔ Reg (par n) q k
  ok : ∀ n, PsOk (par n)

def Heap.par (h : Heap C T V D) : Id → List (Id × List Name) := fun n => (h.node n).parents

theorem Links.registered {h : Heap C T V D} {g : Graph C T} (hl : Links h.par g) {n q : Id} :
    h.Registered n q ↔ ∃ k, (g q).dterms k = some n := by
  constructor
  · rintro ⟨ns, hm⟩
    have := (hl.ok n).names q ns hm
    obtain ⟨k, hk⟩ := List.exists_mem_of_ne_nil _ this.1
    exact ⟨k, (hl.exact q k n).2 ⟨ns, hm, hk⟩⟩
  · rintro ⟨k, hk⟩
    obtain ⟨ns, hm, _⟩ := (hl.exact q k n).1 hk
    exact ⟨ns, hm⟩

theorem not_tagged_none (h : Heap C T V D) (n : Id) : ¬ h.Tagged none n := by
  rintro ⟨h, _⟩; simp at h

/-- Upward reachability through back-links is dependence. -/
theorem Links.up_iff {h : Heap C T V D} {g : Graph C T} (hl : Links h.par g) {i j : Id} :
    Up h none i j ↔ Anc g i j := by
  constructor
  · intro hu
    induction hu with
    | refl => exact Anc.refl
    | step _ _ hr ih =>
      obtain ⟨k, hk⟩ := hl.registered.1 hr
      exact Anc.step k hk ih
  · intro ha
    induction ha with
    | refl => exact Up.refl
    | step k hk _ ih => exact Up.step ih (not_tagged_none h _) (hl.registered.2 ⟨k, hk⟩)

theorem Links.congr {par : Id → List (Id × List Name)} {g g' : Graph C T} (hl : Links par g)
    (h : ∀ q k, (g' q).dterms k = (g q).dterms k) : Links par g' :=
  ⟨fun q k n => by rw [h]; exact hl.exact q k n, hl.ok⟩

/-- The graph with one differentiable link changed. -/
def setLink (g : Graph C T) (i : Id) (k : Name) (c : Id) : Graph C T := fun j =>
  if j = i then { g i with dterms := fun m => if m = k then some c else (g i).dterms m } else g j

/-- The bookkeeping of `__setattr__` keeps back-links exact. -/
theorem Links.relink {par : Id → List (Id × List Name)} {g : Graph C T} (hl : Links par g) (i : Id) (k : Name)
    (c : Id) (par0 : Id → List (Id × List Name))
    (h0 : match (g i).dterms k with
      | none => par0 = par
      | some o => ∃ ps, removeParent i k (par o) = some ps ∧ par0 = fun n => if n = o then ps else par n) :
    Links (fun n => if n = c then addParent i k (par0 c) else par0 n) (setLink g i k c) := by
  -- after unlinking
  have key : (∀ n, PsOk (par0 n)) ∧
      ∀ n q k', Reg (par0 n) q k' ↔ Reg (par n) q k' ∧ ¬ (q = i ∧ k' = k) := by
    cases ho : (g i).dterms k with
    | none =>
      rw [ho] at h0
      dsimp only at h0
      subst h0
      refine ⟨hl.ok, fun n q k' => ⟨fun hr => ⟨hr, ?_⟩, fun h => h.1⟩⟩
      rintro ⟨rfl, rfl⟩
      have := (hl.exact _ _ n).2 hr
      rw [ho] at this; cases this
    | some o =>
      rw [ho] at h0
      obtain ⟨ps, hps, rfl⟩ := h0
      obtain ⟨ps', e, ok', _, hreg⟩ := removeParent_spec i k (hl.ok o) ((hl.exact i k o).1 ho)
      rw [hps] at e; cases e
      refine ⟨?_, ?_⟩
      · intro n
        dsimp only
        split
        · exact ok'
        · exact hl.ok n
      · intro n q k'
        dsimp only
        split
        · rename_i hn; subst hn; exact hreg q k'
        · rename_i hn
          refine ⟨fun hr => ⟨hr, ?_⟩, fun h => h.1⟩
          rintro ⟨rfl, rfl⟩
          have := (hl.exact _ _ n).2 hr
          rw [ho] at this; cases this; exact hn rfl
  obtain ⟨hok, hreg⟩ := key
  constructor
  · intro q k' n
    have hr' : Reg (if n = c then addParent i k (par0 c) else par0 n) q k' ↔
        Reg (par0 n) q k' ∨ (n = c ∧ q = i ∧ k' = k) := by
      split
      · rename_i hn; subst hn; rw [addParent_reg]; simp
      · rename_i hn; simp [hn]
    rw [hr', hreg, ← hl.exact]
    unfold setLink
    by_cases hq : q = i
    · subst hq
      rw [if_pos rfl]
      dsimp only
      by_cases hk : k' = k
      · subst hk; simp [eq_comm]
      · simp [hk]
    · rw [if_neg hq]; simp [hq]
  · intro n
    split
    · exact addParent_ok i k (hok c)
    · exact hok n

end Chumpy
