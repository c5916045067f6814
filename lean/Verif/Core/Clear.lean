import Verif.Core.Heap
/-! `clear_cache`: termination, and exactly what it does. -/
namespace Chumpy
variable {C T V D α β : Type}

theorem modify_node (h : Heap C T V D) (i : Id) (f : Node C T V D → Node C T V D) (j : Id) :
    (h.modify i f).node j = if j = i then f (h.node i) else h.node j := rfl

theorem modify_node_self (h : Heap C T V D) (i : Id) (f : Node C T V D → Node C T V D) :
    (h.modify i f).node i = f (h.node i) := by simp [modify_node]

theorem modify_node_ne (h : Heap C T V D) {i j : Id} (f : Node C T V D → Node C T V D) (hj : j ≠ i) :
    (h.modify i f).node j = h.node j := by simp [modify_node, hj]

/-- A change of names `ns` concerns property `p` of class `c`. -/
def Hits (s : Sig C T V D) (c : C) (p : Name) (ns : List Name) : Prop :=
  ∃ d, s.propDecl c p = some d ∧ ∃ k ∈ d.1, k ∈ ns

theorem invalidate_props (s : Sig C T V D) (n : Node C T V D) (ns : List Name) (p : Name) :
    (Hits s n.cls p ns → (n.invalidate s ns).props p = none) ∧
    (¬ Hits s n.cls p ns → (n.invalidate s ns).props p = n.props p) := by
  unfold Node.invalidate Hits
  dsimp only
  cases hd : s.propDecl n.cls p with
  | none => simp
  | some d =>
    dsimp only
    by_cases h : d.1.any (· ∈ ns) = true
    · rw [if_pos h]
      simp only [List.any_eq_true, decide_eq_true_eq] at h
      exact ⟨fun _ => rfl, fun hn => absurd ⟨d, rfl, h⟩ hn⟩
    · rw [if_neg h]
      simp only [List.any_eq_true, decide_eq_true_eq] at h
      refine ⟨fun ⟨d', hd', hk⟩ => ?_, fun _ => rfl⟩
      cases hd'
      exact absurd hk h

theorem addDirty_mem (n : Node C T V D) (ns : List Name) (k : Name) :
    k ∈ (n.addDirty ns).dirty ↔ k ∈ n.dirty ∨ k ∈ ns := by
  unfold Node.addDirty
  dsimp only
  generalize n.dirty = d
  induction ns generalizing d with
  | nil => simp
  | cons a ns ih =>
    simp only [List.foldl_cons, ih, List.mem_cons]
    by_cases h : a ∈ d
    · simp only [h, if_true]
      constructor
      · rintro (h | h) <;> simp [h]
      · rintro (h' | h' | h')
        · exact Or.inl h'
        · subst h'; exact Or.inl h
        · exact Or.inr h'
    · simp only [h, if_false, List.mem_append, List.mem_singleton]
      constructor
      · rintro ((h | h) | h) <;> simp [h]
      · rintro (h | h | h) <;> simp [h]

/-- Everything of a node but dirty set and property cache is as before. -/
def SameBut (n n' : Node C T V D) : Prop :=
  n'.toGNode = n.toGNode ∧ n'.parents = n.parents ∧ n'.cacheR = n.cacheR ∧ n'.drs = n.drs ∧
  n'.itr = n.itr ∧ n'.alive = n.alive

theorem touchParents_spec (s : Sig C T V D) (ps : List (Id × List Name)) (h : Heap C T V D) :
    (touchParents s ps h).next = h.next ∧ (touchParents s ps h).giter = h.giter ∧
    (touchParents s ps h).log = h.log ∧ ∀ j,
    SameBut (h.node j) ((touchParents s ps h).node j) ∧
    (∀ k, k ∈ ((touchParents s ps h).node j).dirty ↔ k ∈ (h.node j).dirty ∨ ∃ ns, (j, ns) ∈ ps ∧ k ∈ ns) ∧
    (∀ p, ((∃ ns, (j, ns) ∈ ps ∧ Hits s (h.node j).cls p ns) →
            ((touchParents s ps h).node j).props p = none) ∧
          ((¬ ∃ ns, (j, ns) ∈ ps ∧ Hits s (h.node j).cls p ns) →
            ((touchParents s ps h).node j).props p = (h.node j).props p)) := by
  induction ps generalizing h with
  | nil =>
    refine ⟨rfl, rfl, rfl, fun j => ⟨⟨rfl, rfl, rfl, rfl, rfl, rfl⟩, by simp [touchParents], ?_⟩⟩
    intro p; simp [touchParents]
  | cons a ps ih =>
    obtain ⟨q, ns0⟩ := a
    have hstep : touchParents s ((q, ns0) :: ps) h =
      touchParents s ps (h.modify q (fun n => (n.addDirty ns0).invalidate s ns0)) := rfl
    rw [hstep]
    obtain ⟨h1, h2, h2', h3⟩ := ih (h.modify q (fun n => (n.addDirty ns0).invalidate s ns0))
    refine ⟨h1, h2, h2', fun j => ?_⟩
    obtain ⟨⟨a1, a2, a3, a4, a5, a6⟩, b, c⟩ := h3 j
    by_cases hj : j = q
    · subst hj
      rw [modify_node_self] at a1 a2 a3 a4 a5 a6 b c
      refine ⟨⟨a1, a2, a3, a4, a5, a6⟩, ?_, ?_⟩
      · intro k
        rw [b k]
        have : k ∈ (((h.node j).addDirty ns0).invalidate s ns0).dirty ↔ k ∈ (h.node j).dirty ∨ k ∈ ns0 :=
          addDirty_mem (h.node j) ns0 k
        rw [this]
        constructor
        · rintro ((h | h) | ⟨ns, h, hk⟩)
          · exact Or.inl h
          · exact Or.inr ⟨ns0, by simp, h⟩
          · exact Or.inr ⟨ns, by simp [h], hk⟩
        · rintro (h | ⟨ns, h, hk⟩)
          · exact Or.inl (Or.inl h)
          · simp only [List.mem_cons, Prod.mk.injEq, true_and] at h
            rcases h with h | h
            · subst h; exact Or.inl (Or.inr hk)
            · exact Or.inr ⟨ns, h, hk⟩
      · intro p
        obtain ⟨c1, c2⟩ := c p
        have hinv := invalidate_props s ((h.node j).addDirty ns0) ns0 p
        have hcls : (((h.node j).addDirty ns0).invalidate s ns0).cls = (h.node j).cls := rfl
        rw [hcls] at c1 c2
        have hcls2 : ((h.node j).addDirty ns0).cls = (h.node j).cls := rfl
        rw [hcls2] at hinv
        have hprops : ((h.node j).addDirty ns0).props p = (h.node j).props p := rfl
        by_cases hx : ∃ ns, (j, ns) ∈ ps ∧ Hits s (h.node j).cls p ns
        · refine ⟨fun _ => c1 hx, fun hn => absurd ?_ hn⟩
          obtain ⟨ns, hm, hh⟩ := hx
          exact ⟨ns, by simp [hm], hh⟩
        · rw [c2 hx]
          by_cases hy : Hits s (h.node j).cls p ns0
          · refine ⟨fun _ => hinv.1 hy, fun hn => absurd ⟨ns0, by simp, hy⟩ hn⟩
          · refine ⟨fun ⟨ns, hm, hh⟩ => ?_, fun _ => (hinv.2 hy).trans hprops⟩
            simp only [List.mem_cons, Prod.mk.injEq, true_and] at hm
            rcases hm with hm | hm
            · subst hm; exact absurd hh hy
            · exact absurd ⟨ns, hm, hh⟩ hx
    · rw [modify_node_ne h _ hj] at a1 a2 a3 a4 a5 a6 b c
      have hmem : ∀ ns, (j, ns) ∈ (q, ns0) :: ps ↔ (j, ns) ∈ ps := by intro ns; simp [hj]
      refine ⟨⟨a1, a2, a3, a4, a5, a6⟩, ?_, ?_⟩
      · intro k; simp only [hmem]; exact b k
      · intro p; simp only [hmem]; exact c p

/-- Object `q` is registered as depending directly on `n`. -/
def Heap.Registered (h : Heap C T V D) (n q : Id) : Prop := ∃ ns, (q, ns) ∈ (h.node n).parents

/-- `n` carries the (non-`None`) tag of the running `clear_cache(itr)`. -/
def Heap.Tagged (h : Heap C T V D) (itr : Option Nat) (n : Id) : Prop :=
  itr.isSome = true ∧ (h.node n).itr = itr

/-- Objects that can be reached upward from `i`, through objects not carrying the tag. -/
inductive Up (h : Heap C T V D) (itr : Option Nat) (i : Id) : Id → Prop
  | refl : Up h itr i i
  | step {n q} : Up h itr i n → ¬ h.Tagged itr n → h.Registered n q → Up h itr i q

/-- What `clear_cache(itr)` on `i` did, `S` being the objects cleared. -/
structure ClearPost (s : Sig C T V D) (h h' : Heap C T V D) (i : Id) (itr : Option Nat) (S : List Id) :
    Prop where
  next : h'.next = h.next
  giter : h'.giter = h.giter
  log : h'.log = h.log
  gnode : ∀ j, (h'.node j).toGNode = (h.node j).toGNode
  parents : ∀ j, (h'.node j).parents = (h.node j).parents
  alive : ∀ j, (h'.node j).alive = (h.node j).alive
  wiped : ∀ j ∈ S, (h'.node j).cacheR = none ∧ (h'.node j).drs = (fun _ => none) ∧ (h'.node j).itr = itr
  kept : ∀ j, j ∉ S → (h'.node j).cacheR = (h.node j).cacheR ∧ (h'.node j).drs = (h.node j).drs ∧
    (h'.node j).itr = (h.node j).itr
  dirty : ∀ j k, k ∈ (h'.node j).dirty ↔
    k ∈ (h.node j).dirty ∨ ∃ n ∈ S, ∃ ns, (j, ns) ∈ (h.node n).parents ∧ k ∈ ns
  propsHit : ∀ j p, (∃ n ∈ S, ∃ ns, (j, ns) ∈ (h.node n).parents ∧ Hits s (h.node j).cls p ns) →
    (h'.node j).props p = none
  propsKept : ∀ j p, (¬ ∃ n ∈ S, ∃ ns, (j, ns) ∈ (h.node n).parents ∧ Hits s (h.node j).cls p ns) →
    (h'.node j).props p = (h.node j).props p
  start : i ∈ S ∨ h.Tagged itr i
  closed : ∀ n ∈ S, ∀ q, h.Registered n q → q ∈ S ∨ h.Tagged itr q
  sound : ∀ n ∈ S, Up h itr i n ∧ ¬ h.Tagged itr n
  nodup : S.Nodup

/-- Invariant of the loop. -/
structure LoopInv (s : Sig C T V D) (h h' : Heap C T V D) (i : Id) (itr : Option Nat)
    (todo S : List Id) (c : Nat) : Prop where
  next : h'.next = h.next
  giter : h'.giter = h.giter
  log : h'.log = h.log
  gnode : ∀ j, (h'.node j).toGNode = (h.node j).toGNode
  parents : ∀ j, (h'.node j).parents = (h.node j).parents
  alive : ∀ j, (h'.node j).alive = (h.node j).alive
  wiped : ∀ j ∈ S, (h'.node j).cacheR = none ∧ (h'.node j).drs = (fun _ => none) ∧ (h'.node j).itr = itr
  kept : ∀ j, j ∉ S → (h'.node j).cacheR = (h.node j).cacheR ∧ (h'.node j).drs = (h.node j).drs ∧
    (h'.node j).itr = (h.node j).itr
  dirty : ∀ j k, k ∈ (h'.node j).dirty ↔
    k ∈ (h.node j).dirty ∨ ∃ n ∈ S, ∃ ns, (j, ns) ∈ (h.node n).parents ∧ k ∈ ns
  propsHit : ∀ j p, (∃ n ∈ S, ∃ ns, (j, ns) ∈ (h.node n).parents ∧ Hits s (h.node j).cls p ns) →
    (h'.node j).props p = none
  propsKept : ∀ j p, (¬ ∃ n ∈ S, ∃ ns, (j, ns) ∈ (h.node n).parents ∧ Hits s (h.node j).cls p ns) →
    (h'.node j).props p = (h.node j).props p
  start : i ∈ S ∨ i ∈ todo ∨ h.Tagged itr i
  closed : ∀ n ∈ S, ∀ q, h.Registered n q → q ∈ S ∨ q ∈ todo ∨ h.Tagged itr q
  sound : ∀ n ∈ S, Up h itr i n ∧ ¬ h.Tagged itr n
  todoUp : ∀ n ∈ todo, Up h itr i n
  nodup : S.Nodup
  count : c + todo.length = 1 + (S.map (fun n => (h.node n).parents.length)).sum

theorem LoopInv.skip {s : Sig C T V D} {h h' : Heap C T V D} {i : Id} {itr : Option Nat} {n : Id}
    {todo S : List Id} {c : Nat} (hi : LoopInv s h h' i itr (n :: todo) S c)
    (hn : n ∈ S ∨ h.Tagged itr n) : LoopInv s h h' i itr todo S (c + 1) := by
  refine { hi with start := ?_, closed := ?_, todoUp := ?_, count := ?_ }
  · rcases hi.start with h | h | h
    · exact Or.inl h
    · rcases List.mem_cons.1 h with h | h
      · subst h; rcases hn with h | h
        · exact Or.inl h
        · exact Or.inr (Or.inr h)
      · exact Or.inr (Or.inl h)
    · exact Or.inr (Or.inr h)
  · intro m hm q hq
    rcases hi.closed m hm q hq with h | h | h
    · exact Or.inl h
    · rcases List.mem_cons.1 h with h | h
      · subst h; rcases hn with h | h
        · exact Or.inl h
        · exact Or.inr (Or.inr h)
      · exact Or.inr (Or.inl h)
    · exact Or.inr (Or.inr h)
  · intro m hm; exact hi.todoUp m (List.mem_cons_of_mem _ hm)
  · have := hi.count; simp only [List.length_cons] at this; omega

theorem LoopInv.visit {s : Sig C T V D} {h h' : Heap C T V D} {i : Id} {itr : Option Nat} {n : Id}
    {todo S : List Id} {c : Nat} (hi : LoopInv s h h' i itr (n :: todo) S c)
    (hn : n ∉ S) (ht : ¬ h.Tagged itr n) :
    LoopInv s h (touchParents s (h'.node n).parents (h'.modify n (·.wipe itr))) i itr
      ((((h'.node n).parents.map (·.1)).reverse) ++ todo) (n :: S) (c + 1) := by
  obtain ⟨t1, t2, t2', t3⟩ := touchParents_spec s (h'.node n).parents (h'.modify n (·.wipe itr))
  have hpar : (h'.node n).parents = (h.node n).parents := hi.parents n
  generalize hps : (h'.node n).parents = ps at *
  have hreg : ∀ q, q ∈ (ps.map (·.1)).reverse ↔ h.Registered n q := by
    intro q
    simp only [List.mem_reverse, List.mem_map, Heap.Registered, ← hpar]
    constructor
    · rintro ⟨⟨a, b⟩, hm, rfl⟩; exact ⟨b, hm⟩
    · rintro ⟨ns, hm⟩; exact ⟨(q, ns), hm, rfl⟩
  have hcls : ∀ j, ((h'.modify n (·.wipe itr)).node j).cls = (h.node j).cls := by
    intro j
    have := hi.gnode j
    rw [modify_node]; split
    · subst_vars; exact congrArg GNode.cls (hi.gnode _)
    · exact congrArg GNode.cls (hi.gnode _)
  refine ⟨t1.trans hi.next, t2.trans hi.giter, t2'.trans hi.log, ?_, ?_, ?_, ?_, ?_, ?_, ?_, ?_, ?_, ?_, ?_, ?_, ?_, ?_⟩
  · intro j
    rw [(t3 j).1.1, modify_node]
    split
    · subst_vars; exact hi.gnode _
    · exact hi.gnode j
  · intro j
    rw [(t3 j).1.2.1, modify_node]
    split
    · subst_vars; exact hi.parents _
    · exact hi.parents j
  · intro j
    rw [(t3 j).1.2.2.2.2.2, modify_node]
    split
    · subst_vars; exact hi.alive _
    · exact hi.alive j
  · intro j hj
    rw [(t3 j).1.2.2.1, (t3 j).1.2.2.2.1, (t3 j).1.2.2.2.2.1, modify_node]
    split
    · exact ⟨rfl, rfl, rfl⟩
    · rename_i hne
      exact hi.wiped j (by simpa [hne] using hj)
  · intro j hj
    simp only [List.mem_cons, not_or] at hj
    rw [(t3 j).1.2.2.1, (t3 j).1.2.2.2.1, (t3 j).1.2.2.2.2.1, modify_node_ne _ _ hj.1]
    exact hi.kept j hj.2
  · intro j k
    rw [(t3 j).2.1 k]
    have : k ∈ ((h'.modify n (·.wipe itr)).node j).dirty ↔ k ∈ (h'.node j).dirty := by
      rw [modify_node]; split
      · subst_vars; rfl
      · rfl
    rw [this, hi.dirty j k]
    constructor
    · rintro ((h | ⟨m, hm, hx⟩) | ⟨ns, hm, hk⟩)
      · exact Or.inl h
      · exact Or.inr ⟨m, by simp [hm], hx⟩
      · exact Or.inr ⟨n, by simp, ns, hpar ▸ hm, hk⟩
    · rintro (h | ⟨m, hm, ns, hx, hk⟩)
      · exact Or.inl (Or.inl h)
      · rcases List.mem_cons.1 hm with hm | hm
        · subst hm; exact Or.inr ⟨ns, hpar ▸ hx, hk⟩
        · exact Or.inl (Or.inr ⟨m, hm, ns, hx, hk⟩)
  · rintro j p ⟨m, hm, ns, hx, hk⟩
    have hpr := (t3 j).2.2 p
    by_cases hy : ∃ ns, (j, ns) ∈ ps ∧ Hits s (h.node j).cls p ns
    · exact hpr.1 (by rw [hcls]; exact hy)
    · rw [hpr.2 (by rw [hcls]; exact hy)]
      have hm : m ∈ S := by
        rcases List.mem_cons.1 hm with hm | hm
        · subst hm; exact absurd ⟨ns, hpar ▸ hx, hk⟩ hy
        · exact hm
      have := hi.propsHit j p ⟨m, hm, ns, hx, hk⟩
      rw [modify_node]; split
      · subst_vars; exact this
      · exact this
  · intro j p hno
    have hpr := (t3 j).2.2 p
    rw [hpr.2 (by rw [hcls]; rintro ⟨ns, hm, hk⟩; exact hno ⟨n, by simp, ns, hpar ▸ hm, hk⟩)]
    have := hi.propsKept j p (by rintro ⟨m, hm, hx⟩; exact hno ⟨m, by simp [hm], hx⟩)
    rw [modify_node]; split
    · subst_vars; exact this
    · exact this
  · rcases hi.start with h | h | h
    · exact Or.inl (by simp [h])
    · rcases List.mem_cons.1 h with h | h
      · subst h; exact Or.inl (by simp)
      · exact Or.inr (Or.inl (by simp [h]))
    · exact Or.inr (Or.inr h)
  · intro m hm q hq
    rcases List.mem_cons.1 hm with hm | hm
    · subst hm
      exact Or.inr (Or.inl (List.mem_append.2 (Or.inl ((hreg q).2 hq))))
    · rcases hi.closed m hm q hq with h | h | h
      · exact Or.inl (by simp [h])
      · rcases List.mem_cons.1 h with h | h
        · subst h; exact Or.inl (by simp)
        · exact Or.inr (Or.inl (by simp [h]))
      · exact Or.inr (Or.inr h)
  · intro m hm
    rcases List.mem_cons.1 hm with hm | hm
    · subst hm; exact ⟨hi.todoUp _ (by simp), ht⟩
    · exact hi.sound m hm
  · intro m hm
    rcases List.mem_append.1 hm with hm | hm
    · exact Up.step (hi.todoUp n (by simp)) ht ((hreg m).1 hm)
    · exact hi.todoUp m (by simp [hm])
  · exact List.nodup_cons.2 ⟨hn, hi.nodup⟩
  · have := hi.count
    simp only [List.length_cons, List.length_append, List.length_reverse, List.length_map, List.map_cons,
      List.sum_cons] at *
    rw [← hpar]; omega

/-- Registrations of objects not yet cleared. -/
def Heap.rem (h : Heap C T V D) (S : List Id) : Nat :=
  (((List.range h.next).filter (fun n => decide (n ∉ S))).map (fun n => (h.node n).parents.length)).sum

theorem sum_filter_split (l : List Nat) (w : Nat → Nat) (S : List Nat) (n : Nat) (hl : l.Nodup)
    (hn : n ∈ l) (hS : n ∉ S) :
    ((l.filter (fun m => decide (m ∉ S))).map w).sum =
      w n + ((l.filter (fun m => decide (m ∉ n :: S))).map w).sum := by
  induction l with
  | nil => simp at hn
  | cons a l ih =>
    obtain ⟨ha, hl⟩ := List.nodup_cons.1 hl
    by_cases hna : n = a
    · subst hna
      have h1 : ∀ m ∈ l, (decide (m ∉ S)) = decide (m ∉ n :: S) := by
        intro m hm
        have : m ≠ n := by rintro rfl; exact ha hm
        simp [this]
      rw [List.filter_cons_of_pos (by simpa using hS), List.filter_cons_of_neg (by simp),
        List.map_cons, List.sum_cons, List.filter_congr h1]
    · have hn' : n ∈ l := by simpa [hna] using hn
      have := ih hl hn'
      by_cases haS : a ∈ S
      · rw [List.filter_cons_of_neg (by simpa using haS), List.filter_cons_of_neg (by simp [haS]), this]
      · have haS' : a ∉ n :: S := by simp [haS, Ne.symm hna]
        rw [List.filter_cons_of_pos (by simpa using haS), List.filter_cons_of_pos (by simpa using haS'),
          List.map_cons, List.map_cons, List.sum_cons, List.sum_cons, this]
        omega

theorem clearLoop_spec (s : Sig C T V D) (h : Heap C T V D) (i : Id) (itr : Option Nat)
    (hwf : ∀ n, h.next ≤ n → (h.node n).parents = []) :
    ∀ (f : Nat) (todo S : List Id) (h' : Heap C T V D) (c : Nat),
      LoopInv s h h' i itr todo S c → todo.length + h.rem S ≤ f →
      ∃ S', LoopInv s h (clearLoop s itr f todo S h' c).1 i itr [] S' (clearLoop s itr f todo S h' c).2.1 ∧
        (clearLoop s itr f todo S h' c).2.2 = true := by
  intro f
  induction f with
  | zero =>
    intro todo S h' c hi hf
    have : todo = [] := by cases todo with
      | nil => rfl
      | cons a l => simp at hf
    subst this
    exact ⟨S, hi, rfl⟩
  | succ f ih =>
    intro todo S h' c hi hf
    cases todo with
    | nil => exact ⟨S, hi, rfl⟩
    | cons n todo =>
      simp only [List.length_cons] at hf
      rw [clearLoop]
      by_cases h1 : (itr.isSome && itr == (h'.node n).itr) = true
      · rw [if_pos h1]
        refine ih todo S h' (c + 1) (hi.skip ?_) (by omega)
        simp only [Bool.and_eq_true, beq_iff_eq] at h1
        by_cases hn : n ∈ S
        · exact Or.inl hn
        · right
          exact ⟨h1.1, by rw [← (hi.kept n hn).2.2]; exact h1.2.symm⟩
      · rw [if_neg h1]
        by_cases h2 : n ∈ S
        · rw [if_pos h2]
          exact ih todo S h' (c + 1) (hi.skip (Or.inl h2)) (by omega)
        · rw [if_neg h2]
          have ht : ¬ h.Tagged itr n := by
            rintro ⟨ha, hb⟩
            apply h1
            simp only [Bool.and_eq_true, beq_iff_eq]
            exact ⟨ha, by rw [(hi.kept n h2).2.2, hb]⟩
          have hv := hi.visit h2 ht
          refine ih _ _ _ _ hv ?_
          have hp := hi.parents n
          simp only [List.length_append, List.length_reverse, List.length_map, hp]
          by_cases hlt : n < h.next
          · have := sum_filter_split (List.range h.next) (fun n => (h.node n).parents.length) S n
              List.nodup_range (List.mem_range.2 hlt) h2
            have e : h.rem S = (h.node n).parents.length + h.rem (n :: S) := this
            omega
          · rw [hwf n (Nat.le_of_not_lt hlt)]
            have : h.rem (n :: S) = h.rem S := by
              unfold Heap.rem
              have : ∀ m ∈ List.range h.next, decide (m ∉ n :: S) = decide (m ∉ S) := by
                intro m hm
                have : m ≠ n := Nat.ne_of_lt (Nat.lt_of_lt_of_le (List.mem_range.1 hm) (Nat.le_of_not_lt hlt))
                simp [this]
              rw [List.filter_congr this]
            simp only [List.length_nil]; omega

theorem clearCacheFull_spec (s : Sig C T V D) (h : Heap C T V D) (i : Id) (itr : Option Nat)
    (hwf : ∀ n, h.next ≤ n → (h.node n).parents = []) :
    ∃ S, ClearPost s h (clearCacheFull s i itr h).1 i itr S ∧
      (clearCacheFull s i itr h).2.1 = 1 + (S.map (fun n => (h.node n).parents.length)).sum ∧
      (clearCacheFull s i itr h).2.2 = true := by
  have h0 : LoopInv s h h i itr [i] [] 0 := by
    refine ⟨rfl, rfl, rfl, fun _ => rfl, fun _ => rfl, fun _ => rfl, by simp, fun _ _ => ⟨rfl, rfl, rfl⟩, by simp,
      by simp, by simp, by simp, by simp, by simp, ?_, List.nodup_nil, by simp⟩
    intro n hn; simp at hn; subst hn; exact Up.refl
  have hrem : h.rem [] = h.edges := by
    unfold Heap.rem Heap.edges
    have : (List.range h.next).filter (fun n => decide (n ∉ ([] : List Id))) = List.range h.next := by
      apply List.filter_eq_self.2; simp
    rw [this]
  obtain ⟨S, hS, hfin⟩ := clearLoop_spec s h i itr hwf (h.edges + 2) [i] [] h 0 h0 (by simp [hrem]; omega)
  refine ⟨S, ?_, ?_, hfin⟩
  · exact ⟨hS.next, hS.giter, hS.log, hS.gnode, hS.parents, hS.alive, hS.wiped, hS.kept, hS.dirty, hS.propsHit,
      hS.propsKept, by simpa using hS.start, by simpa using hS.closed, hS.sound, hS.nodup⟩
  · have := hS.count; simp only [List.length_nil, Nat.add_zero] at this; exact this

theorem clearCache_spec (s : Sig C T V D) (h : Heap C T V D) (i : Id) (itr : Option Nat)
    (hwf : ∀ n, h.next ≤ n → (h.node n).parents = []) :
    ∃ S, ClearPost s h (clearCache s i itr h) i itr S :=
  let ⟨S, hS, _⟩ := clearCacheFull_spec s h i itr hwf
  ⟨S, hS⟩

/-- The cleared set is exactly the untagged part of what is reachable upward. -/
theorem ClearPost.mem_iff {s : Sig C T V D} {h h' : Heap C T V D} {i : Id} {itr : Option Nat} {S : List Id}
    (hp : ClearPost s h h' i itr S) (n : Id) : n ∈ S ↔ Up h itr i n ∧ ¬ h.Tagged itr n := by
  refine ⟨hp.sound n, fun ⟨hu, ht⟩ => ?_⟩
  have key : ∀ n, Up h itr i n → n ∈ S ∨ h.Tagged itr n := by
    intro n hu
    induction hu with
    | refl => exact hp.start
    | step _ hnt hr ih =>
      rcases ih with ih | ih
      · exact hp.closed _ ih _ hr
      · exact absurd ih hnt
  exact (key n hu).resolve_right ht

end Chumpy
