import Mathlib.Data.List.Dedup
import Verif.Core.Off
import Verif.Core.Traverse
import Verif.Core.Iso
import Verif.Properties.Tags
/-! `Ch.copy` / pickling of a whole graph (ch.py:341-359, ch_ops.py:95-96). -/
namespace Chumpy
variable {C T V D : Type} {s : Sig C T V D}

/-- The attributes re-assigned by `__setstate__`: `set(self.dterms) & set(self.__dict__)` (ch.py:358). -/
def GNode.linkNames (n : GNode C T) : List Name := (n.dnames.filter (fun k => (n.dterms k).isSome)).dedup

/-- The objects `copy` has made so far: original and copy. -/
abbrev Memo := List (Id × Id)

/-- The links of the copy, through the pickler's memo. -/
def copiedLinks (n : GNode C T) (m : Memo) : List (Name × Id) :=
  n.linkNames.filterMap (fun k => (n.dterms k).bind fun c => (m.lookup c).map fun c' => (k, c'))

/-- The pickler visits the objects an object refers to, one after the other, sharing the memo. -/
def copyKids (rec : Id → Memo → M C T V D Memo) : List Id → Memo → M C T V D Memo
  | [], m => M.pure m
  | c :: cs, m => M.bind (rec c m) fun m' => copyKids rec cs m'

/-- `pickle.loads(pickle.dumps(self))` (ch_ops.py:95-96) for the object graph below `i`: every object is rebuilt once
(the memo), after those it refers to (`__setstate__` runs on the finished state).  `f` is the recursion limit. -/
def copyObj (s : Sig C T V D) : Nat → Id → Memo → M C T V D Memo
  | 0, _, _ => M.throw .fuel
  | f + 1, i, m => fun h =>
    if (m.lookup i).isSome then (h, .ok m)
    else M.bind (copyKids (copyObj s f) ((h.graph i).linkNames.filterMap (h.graph i).dterms) m)
      (fun m' => M.bind (clone s i (copiedLinks (h.graph i) m')) fun c => M.pure ((i, c) :: m')) h

/-- `x.copy()`. -/
def copy (s : Sig C T V D) (f : Nat) (i : Id) : M C T V D Id :=
  M.bind (copyObj s f i []) fun m => match m.lookup i with
    | some c => M.pure c
    | none => M.throw .attr

/-- One object is referred to under two names. -/
def Aliased (g : Graph C T) (j : Id) : Prop :=
  ∃ k k' c, k ≠ k' ∧ (g j).dterms k = some c ∧ (g j).dterms k' = some c

theorem mem_linkNames {n : GNode C T} {k : Name} : k ∈ n.linkNames ↔ k ∈ n.dnames ∧ (n.dterms k).isSome = true := by
  simp [GNode.linkNames, List.mem_dedup, List.mem_filter]

/-- What has been copied so far is a copy, and nothing else has changed. -/
structure CopyInv (s : Sig C T V D) (fr : Mode) (h0 : Heap C T V D) (m : Memo) (h : Heap C T V D) : Prop where
  reach : Reach s fr h
  next : h0.next ≤ h.next
  old : ∀ j, j < h0.next → h.graph j = h0.graph j ∧ ((h0.node j).alive = true → (h.node j).alive = true)
  new : ∀ a b, m.lookup a = some b → h0.next ≤ b ∧ b < h.next ∧ (h.node b).alive = true ∧ (h0.node a).alive = true
  inj : ∀ a a' b, m.lookup a = some b → m.lookup a' = some b → a = a'
  graph : ∀ a b, m.lookup a = some b → h.graph b = { h0.graph a with dterms := fun k => ((h0.graph a).dterms k).bind (fun c => m.lookup c) }
  kids : ∀ a b, m.lookup a = some b → ∀ k c, (h0.graph a).dterms k = some c → (m.lookup c).isSome = true
  plain : ∀ a b, m.lookup a = some b → ¬ Aliased h0.graph a

/-- The memo only grows. -/
def MemoLe (m m' : Memo) : Prop := ∀ a b, m.lookup a = some b → m'.lookup a = some b

theorem copiedLinks_spec {n : GNode C T} {m : Memo} (hk : ∀ k c, n.dterms k = some c → (m.lookup c).isSome = true) :
    (copiedLinks n m).map (·.1) = n.linkNames ∧
    (∀ l ∈ copiedLinks n m, l.1 ∈ n.linkNames ∧ ∃ c, n.dterms l.1 = some c ∧ m.lookup c = some l.2) := by
  constructor
  · unfold copiedLinks
    have : ∀ ks : List Name, (∀ k ∈ ks, (n.dterms k).isSome = true) →
        (ks.filterMap (fun k => (n.dterms k).bind fun c => (m.lookup c).map fun c' => (k, c'))).map (·.1) = ks := by
      intro ks
      induction ks with
      | nil => intro _; rfl
      | cons k ks ih =>
        intro hks
        have h1 := hks k (by simp)
        obtain ⟨c, hc⟩ := Option.isSome_iff_exists.1 h1
        obtain ⟨c', hc'⟩ := Option.isSome_iff_exists.1 (hk k c hc)
        rw [List.filterMap_cons_some (b := (k, c')) (by simp [hc, hc']), List.map_cons, ih (fun k' hk' => hks k' (by simp [hk']))]
    exact this _ (fun k hk' => (mem_linkNames.1 hk').2)
  · intro l hl
    unfold copiedLinks at hl
    obtain ⟨k, hk', e⟩ := List.mem_filterMap.1 hl
    cases hc : n.dterms k with
    | none => rw [hc] at e; cases e
    | some c =>
      rw [hc] at e
      simp only [Option.bind_some] at e
      cases hc' : m.lookup c with
      | none => rw [hc'] at e; cases e
      | some c' =>
        rw [hc'] at e
        simp only [Option.map_some, Option.some.injEq] at e
        subst e
        exact ⟨hk', c, hc, hc'⟩

theorem copiedLinks_lookup {n : GNode C T} {m : Memo} (hk : ∀ k c, n.dterms k = some c → (m.lookup c).isSome = true)
    (hdn : ∀ k c, n.dterms k = some c → k ∈ n.dnames) (k : Name) :
    (copiedLinks n m).lookup k = (n.dterms k).bind (fun c => m.lookup c) := by
  obtain ⟨h1, h2⟩ := copiedLinks_spec hk
  have hnd : ((copiedLinks n m).map (·.1)).Nodup := by rw [h1]; exact List.nodup_dedup _
  cases hc : n.dterms k with
  | none =>
    rw [lookup_none]
    · rfl
    · rw [h1, mem_linkNames, hc]; simp
  | some c =>
    have hm : k ∈ (copiedLinks n m).map (·.1) := by
      rw [h1, mem_linkNames, hc]; exact ⟨hdn k c hc, rfl⟩
    obtain ⟨l, hl, rfl⟩ := List.mem_map.1 hm
    rw [lookup_of_mem hnd hl]
    obtain ⟨_, c', hc', e⟩ := h2 l hl
    rw [hc] at hc'
    injection hc' with hc'
    subst hc'
    exact e.symm

/-- The copies of the children are distinct exactly if the children are, name by name. -/
theorem copiedLinks_nodup {n : GNode C T} {m : Memo} (hk : ∀ k c, n.dterms k = some c → (m.lookup c).isSome = true)
    (hdn : ∀ k c, n.dterms k = some c → k ∈ n.dnames) (hinj : ∀ a a' b, m.lookup a = some b → m.lookup a' = some b → a = a') :
    ((copiedLinks n m).map (·.2)).Nodup ↔ ¬ ∃ k k' c, k ≠ k' ∧ n.dterms k = some c ∧ n.dterms k' = some c := by
  obtain ⟨h1, h2⟩ := copiedLinks_spec hk
  have hnd : ((copiedLinks n m).map (·.1)).Nodup := by rw [h1]; exact List.nodup_dedup _
  have hmem : ∀ k c c', n.dterms k = some c → m.lookup c = some c' → (k, c') ∈ copiedLinks n m := by
    intro k c c' hc hc'
    have := copiedLinks_lookup hk hdn k
    have hm : k ∈ (copiedLinks n m).map (·.1) := by
      rw [h1, mem_linkNames, hc]; exact ⟨hdn k c hc, rfl⟩
    obtain ⟨l, hl, rfl⟩ := List.mem_map.1 hm
    rw [lookup_of_mem hnd hl, hc] at this
    simp only [Option.bind_some, hc', Option.some.injEq] at this
    subst this; exact hl
  constructor
  · rintro h ⟨k, k', c, hne, hc, hc2⟩
    obtain ⟨c', hc'⟩ := Option.isSome_iff_exists.1 (hk k c hc)
    have := List.inj_on_of_nodup_map h (hmem k c c' hc hc') (hmem k' c c' hc2 hc') rfl
    injection this with this
    exact hne this
  · intro h
    refine (List.nodup_map_iff_inj_on ?_).2 ?_
    · exact List.Nodup.of_map _ hnd
    · rintro ⟨k, b⟩ hl ⟨k', b'⟩ hl' e
      dsimp only at e; subst e
      obtain ⟨_, c, hc, e1⟩ := h2 _ hl
      obtain ⟨_, c', hc', e2⟩ := h2 _ hl'
      dsimp only at hc hc' e1 e2
      have := hinj c c' b e1 e2
      subst this
      by_contra hne
      exact h ⟨k, k', c, fun e => hne (by rw [e]), hc, hc'⟩

theorem acc_irrefl {α : Type} {r : α → α → Prop} {a : α} (h : Acc r a) : ¬ r a a := by
  induction h with
  | intro a _ ih => intro hr; exact ih a hr hr

/-- The outcome of copying `is`: the invariant, and everything below the given objects is copied; or `KeyError`, and some
object below one of them refers to one object under two names. -/
def CopyPost (s : Sig C T V D) (fr : Mode) (h0 : Heap C T V D) (is : List Id) (m : Memo) (r : Heap C T V D × Except Err Memo) : Prop :=
  match r.2 with
  | .ok m' => CopyInv s fr h0 m' r.1 ∧ MemoLe m m' ∧ (∀ i ∈ is, (m'.lookup i).isSome = true) ∧
      ∀ a b, m'.lookup a = some b → m.lookup a = some b ∨ ∃ i ∈ is, Relation.ReflTransGen (Uses h0.graph) i a
  | .error e => e = .key ∧ (∃ i ∈ is, ∃ j, Relation.ReflTransGen (Uses h0.graph) i j ∧ Aliased h0.graph j) ∧
      Reach s fr r.1 ∧ ∀ j, j < h0.next → r.1.graph j = h0.graph j ∧ ((h0.node j).alive = true → (r.1.node j).alive = true)

theorem copyKids_post {fr : Mode} {h0 : Heap C T V D} {rec : Id → Memo → M C T V D Memo} : ∀ (cs : List Id),
    (∀ c ∈ cs, ∀ m h, CopyInv s fr h0 m h → CopyPost s fr h0 [c] m (rec c m h)) →
    ∀ m h, CopyInv s fr h0 m h → CopyPost s fr h0 cs m (copyKids rec cs m h) := by
  intro cs
  induction cs with
  | nil => intro _ m h x; exact ⟨x, fun _ _ h => h, (fun i hi => by cases hi), fun _ _ h => Or.inl h⟩
  | cons c cs ih =>
    intro hr m h x
    have a := hr c (by simp) m h x
    rw [copyKids]
    simp only [M.bind]
    rcases hx : rec c m h with ⟨h1, r⟩
    rw [hx] at a
    cases r with
    | error e =>
      obtain ⟨a1, ⟨i, hi, a2⟩, a3⟩ := a
      rw [List.mem_singleton] at hi; subst hi
      exact ⟨a1, ⟨i, by simp, a2⟩, a3⟩
    | ok m1 =>
      obtain ⟨a1, a2, a3, a4⟩ := a
      have b := ih (fun c' hc' => hr c' (by simp [hc'])) m1 h1 a1
      dsimp only
      rcases hx' : copyKids rec cs m1 h1 with ⟨h2, r⟩
      rw [hx'] at b
      cases r with
      | error e =>
        obtain ⟨b1, ⟨i, hi, b2⟩, b3⟩ := b
        exact ⟨b1, ⟨i, by simp [hi], b2⟩, b3⟩
      | ok m2 =>
        obtain ⟨b1, b2, b3, b4⟩ := b
        refine ⟨b1, fun x y h => b2 x y (a2 x y h), fun i hi => ?_, fun a b h => ?_⟩
        rcases List.mem_cons.1 hi with rfl | hi
        · obtain ⟨y, hy⟩ := Option.isSome_iff_exists.1 (a3 i (by simp))
          rw [b2 i y hy]; rfl
        · exact b3 i hi
        · rcases b4 a b h with h | ⟨i, hi, h⟩
          · rcases a4 a b h with h | ⟨i, hi, h⟩
            · exact Or.inl h
            · rw [List.mem_singleton] at hi; subst hi; exact Or.inr ⟨i, by simp, h⟩
          · exact Or.inr ⟨i, by simp [hi], h⟩

theorem copyObj_post {fr : Mode} {h0 : Heap C T V D} (hr0 : Reach s fr h0) {i : Id}
    (hac : Acc (fun c i => Uses h0.graph i c) i) : (h0.node i).alive = true →
    ∃ F, ∀ f, F ≤ f → ∀ m h, CopyInv s fr h0 m h → CopyPost s fr h0 [i] m (copyObj s f i m h) := by
  have hs0 : Str h0 := reach_str hr0
  induction hac with
  | intro i hacc ih =>
    intro hi
    let cs := (h0.graph i).linkNames.filterMap (h0.graph i).dterms
    have hcs : ∀ c ∈ cs, Uses h0.graph i c := fun c hc => by
      obtain ⟨k, hk, e⟩ := List.mem_filterMap.1 hc
      exact ⟨k, (mem_linkNames.1 hk).1, e⟩
    obtain ⟨F, hF⟩ : ∃ F, ∀ f, F ≤ f → ∀ c ∈ cs, ∀ m h, CopyInv s fr h0 m h → CopyPost s fr h0 [c] m (copyObj s f c m h) := by
      obtain ⟨F, hF⟩ := exists_bound (P := fun c F => ∀ f, F ≤ f → ∀ m h, CopyInv s fr h0 m h → CopyPost s fr h0 [c] m (copyObj s f c m h))
        (fun _ _ _ hab h f hf => h f (Nat.le_trans hab hf)) (l := cs) (fun c hc => by
          obtain ⟨k, _, e⟩ := hcs c hc
          exact ih c (hcs c hc) (hs0.child_alive e))
      exact ⟨F, fun f hf c hc => hF c hc f hf⟩
    refine ⟨F + 1, fun f hf m h x => ?_⟩
    obtain ⟨f, rfl⟩ : ∃ n, f = n + 1 := ⟨f - 1, by omega⟩
    rw [copyObj]
    dsimp only
    split
    · rename_i hm
      exact ⟨x, fun _ _ h => h, (fun j hj => by rw [List.mem_singleton] at hj; subst hj; exact hm), fun _ _ h => Or.inl h⟩
    · rename_i hm
      have hlt : i < h0.next := hs0.alive_lt hi
      have hgi : h.graph i = h0.graph i := (x.old i hlt).1
      rw [hgi]
      have a := copyKids_post cs (hF f (by omega)) m h x
      simp only [M.bind]
      rcases hx : copyKids (copyObj s f) cs m h with ⟨h1, r⟩
      rw [hx] at a
      cases r with
      | error e =>
        obtain ⟨a1, ⟨c, hc, j, hj, a2⟩, a3⟩ := a
        exact ⟨a1, ⟨i, by simp, j, .head (hcs c hc) hj, a2⟩, a3⟩
      | ok m1 =>
        obtain ⟨a1, a2, a3, a4⟩ := a
        dsimp only at a1 ⊢
        have hs1 : Str h1 := reach_str a1.reach
        obtain ⟨hg1, hal1⟩ := a1.old i hlt
        have hkids : ∀ k c, (h0.graph i).dterms k = some c → (m1.lookup c).isSome = true := fun k c e =>
          a3 c (List.mem_filterMap.2 ⟨k, mem_linkNames.2 ⟨hs0.dn i k c e, by rw [e]; rfl⟩, e⟩)
        have hdn : ∀ k c, (h0.graph i).dterms k = some c → k ∈ (h0.graph i).dnames := fun k c e => hs0.dn i k c e
        obtain ⟨l1, l2⟩ := copiedLinks_spec hkids
        have hg : CloneGuard h1 i (copiedLinks (h0.graph i) m1) := by
          have e1 : (h1.node i).dnames = (h0.graph i).dnames := congrArg GNode.dnames hg1
          have e2 : (h1.node i).dterms = (h0.graph i).dterms := congrArg GNode.dterms hg1
          refine ⟨hal1 hi, by rw [l1]; exact List.nodup_dedup _, fun l hl => ?_, fun k hk hsome => ?_⟩
          · obtain ⟨p, c, _, q⟩ := l2 l hl
            rw [e1, e2]
            exact ⟨(a1.new c l.2 q).2.2.1, mem_linkNames.1 p⟩
          · rw [e1] at hk; rw [e2] at hsome
            rw [l1]; exact mem_linkNames.2 ⟨hk, hsome⟩
        have hreach : Reach s fr (clone s i (copiedLinks (h0.graph i) m1) h1).1 := .step (.clone i _) a1.reach trivial
        have hkept : ∀ j, j < h1.next → (clone s i (copiedLinks (h0.graph i) m1) h1).1.graph j = h1.graph j ∧
            ((h1.node j).alive = true → ((clone s i (copiedLinks (h0.graph i) m1) h1).1.node j).alive = true) :=
          fun j hj => clone_kept (s := s) (A := fun j => j < h1.next) hs1 (Nat.lt_irrefl _) i _ j hj
        by_cases hal : Aliased h0.graph i
        · have hnd : ¬ ((copiedLinks (h0.graph i) m1).map (·.2)).Nodup := fun h =>
            (copiedLinks_nodup hkids hdn a1.inj).1 h hal
          have sp := clone_spec (s := s) hs1 hg
          rw [if_neg hnd] at sp
          have he : (clone s i (copiedLinks (h0.graph i) m1) h1).2 = .error .key := by rw [sp]
          generalize clone s i (copiedLinks (h0.graph i) m1) h1 = r at *
          obtain ⟨h2, r2⟩ := r
          dsimp only at he; subst he
          refine ⟨rfl, ⟨i, by simp, i, .refl, hal⟩, hreach, fun j hj => ?_⟩
          obtain ⟨p, q⟩ := hkept j (Nat.lt_of_lt_of_le hj a1.next)
          obtain ⟨p', q'⟩ := a1.old j hj
          exact ⟨p.trans p', fun h => q (q' h)⟩
        · have hnd : ((copiedLinks (h0.graph i) m1).map (·.2)).Nodup := (copiedLinks_nodup hkids hdn a1.inj).2 hal
          obtain ⟨he, b⟩ := clone_ok (s := s) (fr := fr) hs1 hg hnd
          have hb0 := cloneBase_node (s := s) i ((copiedLinks (h0.graph i) m1).map (·.1)) h1 h1.next
          rw [if_pos rfl] at hb0
          have bg := congrFun b.graph h1.next
          have bn := b.next
          have ba := b.aliveEq h1.next
          rw [hb0] at ba
          have ba' : ((clone s i (copiedLinks (h0.graph i) m1) h1).1.node h1.next).alive = true := ba
          have bn' : (clone s i (copiedLinks (h0.graph i) m1) h1).1.next = h1.next + 1 := bn
          rw [if_pos rfl] at bg
          have bg' : (clone s i (copiedLinks (h0.graph i) m1) h1).1.graph h1.next =
              { h0.graph i with dterms := fun k => ((h0.graph i).dterms k).bind (fun c => m1.lookup c) } := by
            rw [bg]
            have : (cloneBase s i ((copiedLinks (h0.graph i) m1).map (·.1)) h1).graph h1.next =
                { h0.graph i with dterms := fun _ => none } := by
              rw [Heap.graph_apply, hb0, ← hg1]; rfl
            rw [this]
            dsimp only
            congr 1
            funext k
            rw [copiedLinks_lookup hkids hdn]; simp
          generalize clone s i (copiedLinks (h0.graph i) m1) h1 = r at *
          obtain ⟨h2, r2⟩ := r
          dsimp only at he; subst he
          have hmi : m1.lookup i = none := by
            cases e : m1.lookup i with
            | none => rfl
            | some b =>
              rcases a4 i b e with h3 | ⟨c, hc, h3⟩
              · exact absurd (by rw [h3]; rfl) hm
              · have hcyc : Relation.TransGen (Uses h0.graph) i i := Relation.TransGen.head' (hcs c hc) h3
                have hirr : ¬ Relation.TransGen (Uses h0.graph) i i := by
                  have : ∀ j, Acc (fun c i => Uses h0.graph i c) j → ¬ Relation.TransGen (Uses h0.graph) j j := by
                    intro j hj
                    have hj' := hj.transGen
                    intro hc
                    have hc' : Relation.TransGen (fun c i => Uses h0.graph i c) j j := Relation.transGen_swap.1 hc
                    exact acc_irrefl hj' hc'
                  exact this i ⟨i, hacc⟩
                exact absurd hcyc hirr
          have hlk : ∀ a, ((i, h1.next) :: m1).lookup a = if a = i then some h1.next else m1.lookup a := by
            intro a
            by_cases ha : a = i
            · subst ha; simp [List.lookup]
            · simp [List.lookup, beq_eq_false_iff_ne.2 ha, ha]
          have hle : MemoLe m1 ((i, h1.next) :: m1) := fun a b e => by
            rw [hlk, if_neg (by rintro rfl; rw [hmi] at e; cases e)]; exact e
          have hfix : ∀ a, (∀ k c, (h0.graph a).dterms k = some c → (m1.lookup c).isSome = true) → ∀ k,
              ((h0.graph a).dterms k).bind (fun c => ((i, h1.next) :: m1).lookup c) = ((h0.graph a).dterms k).bind (fun c => m1.lookup c) := by
            intro a ha k
            cases e : (h0.graph a).dterms k with
            | none => rfl
            | some c =>
              obtain ⟨c', hc'⟩ := Option.isSome_iff_exists.1 (ha k c e)
              simp only [Option.bind_some]
              rw [hle c c' hc', hc']
          dsimp only at hkept hreach bg' bn' ba'
          simp only [M.pure]
          refine ⟨⟨hreach, ?_, fun j hj => ?_, fun a b e => ?_, fun a a' b e e' => ?_, fun a b e => ?_, fun a b e k c hc => ?_, fun a b e => ?_⟩,
            fun a b e => hle a b (a2 a b e), fun j hj => ?_, fun a b e => ?_⟩
          · dsimp only; rw [bn']; exact Nat.le_succ_of_le a1.next
          · obtain ⟨p, q⟩ := hkept j (Nat.lt_of_lt_of_le hj a1.next)
            obtain ⟨p', q'⟩ := a1.old j hj
            exact ⟨p.trans p', fun h => q (q' h)⟩
          · dsimp only
            rw [hlk] at e
            split at e
            · subst_vars
              injection e with e; subst e
              exact ⟨a1.next, by rw [bn']; exact Nat.lt_succ_self _, ba', hi⟩
            · obtain ⟨p1, p2, p3, p4⟩ := a1.new a b e
              exact ⟨p1, by rw [bn']; exact Nat.lt_succ_of_lt p2, (hkept b p2).2 p3, p4⟩
          · rw [hlk] at e e'
            split at e <;> split at e'
            · subst_vars; rfl
            · injection e with e; subst e
              exact absurd (a1.new a' _ e').2.1 (Nat.lt_irrefl _)
            · injection e' with e'; subst e'
              exact absurd (a1.new a _ e).2.1 (Nat.lt_irrefl _)
            · exact a1.inj a a' b e e'
          · dsimp only
            rw [hlk] at e
            split at e
            · subst_vars
              injection e with e; subst e
              rw [bg']
              congr 1
              funext k
              exact (hfix a hkids k).symm
            · rw [(hkept b (a1.new a b e).2.1).1, a1.graph a b e]
              dsimp only
              congr 1
              funext k
              exact (hfix a (a1.kids a b e) k).symm
          · rw [hlk] at e
            have : (m1.lookup c).isSome = true := by
              split at e
              · subst_vars; exact hkids k c hc
              · exact a1.kids a b e k c hc
            obtain ⟨c', hc'⟩ := Option.isSome_iff_exists.1 this
            rw [hle c c' hc']; rfl
          · rw [hlk] at e
            split at e
            · subst_vars; exact hal
            · exact a1.plain a b e
          · rw [List.mem_singleton] at hj; subst hj
            rw [hlk, if_pos rfl]; rfl
          · rw [hlk] at e
            split at e
            · subst_vars; exact Or.inr ⟨a, by simp, .refl⟩
            · rcases a4 a b e with h | ⟨c, hc, h⟩
              · exact Or.inl h
              · exact Or.inr ⟨i, by simp, .head (hcs c hc) h⟩

end Chumpy
