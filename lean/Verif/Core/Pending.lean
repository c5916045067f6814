import Verif.Core.Inv
/-! Pending change notifications (`_dirty_vars`) through all operations. -/
namespace Chumpy
variable {C T V D α : Type} {s : Sig C T V D}

/-- Pending names are never dropped by a write, no notification is sent, no object dies. -/
structure Keeps (h h' : Heap C T V D) : Prop where
  log : h'.log = h.log
  alive : ∀ j, (h.node j).alive = true → (h'.node j).alive = true
  dirty : ∀ j, (h.node j).alive = true → ∀ k ∈ (h.node j).dirty, k ∈ (h'.node j).dirty

theorem Keeps.refl (h : Heap C T V D) : Keeps h h := ⟨rfl, fun _ h => h, fun _ _ _ h => h⟩

theorem Keeps.trans {a b c : Heap C T V D} (x : Keeps a b) (y : Keeps b c) : Keeps a c :=
  ⟨y.log.trans x.log, fun j h => y.alive j (x.alive j h), fun j h k hk => y.dirty j (x.alive j h) k (x.dirty j h k hk)⟩

theorem Writing.keeps {h h2 h4 : Heap C T V D} {i : Id} {n : Name} {itr : Option Nat}
    (w : Writing s h h2 h4 i n itr) : Keeps h h4 := by
  refine ⟨w.log4, fun j hj => by rw [w.alive4]; exact hj, fun j _ k hk => ?_⟩
  obtain ⟨S, hp⟩ := w.post
  rw [(w.same4 j).2.2.2.2.2.2]
  exact (hp.dirty j k).2 (Or.inl ((w.dirty2 j k).2 (Or.inl hk)))

/-- Exactly which names become pending by an untagged assignment. -/
theorem Writing.dirty_iff {h h2 h4 : Heap C T V D} {i : Id} {n : Name} (w : Writing s h h2 h4 i n none) (j : Id) (k : Name) :
    k ∈ (h4.node j).dirty ↔ k ∈ (h.node j).dirty ∨ (j = i ∧ k = n) ∨
      ∃ c, (h4.graph j).dterms k = some c ∧ Anc h4.graph i c := by
  obtain ⟨S, hp⟩ := w.post
  rw [(w.same4 j).2.2.2.2.2.2, hp.dirty j k, w.dirty2 j k, or_assoc]
  refine or_congr Iff.rfl (or_congr Iff.rfl ?_)
  constructor
  · rintro ⟨m, hm, ns, hns, hk⟩
    refine ⟨m, (w.links.exact j k m).2 ⟨ns, hns, hk⟩, ?_⟩
    exact w.links.up_iff.1 (hp.sound m hm).1
  · rintro ⟨c, hc, ha⟩
    obtain ⟨ns, hns, hk⟩ := (w.links.exact j k c).1 hc
    refine ⟨c, (hp.mem_iff c).2 ⟨w.links.up_iff.2 ha, not_tagged_none _ _⟩, ns, hns, hk⟩

theorem setTerm_keeps {h : Heap C T V D} (hs : Str h) (i : Id) (n : Name) (t : T) (itr : Option Nat) :
    Keeps h (setTerm s i n t itr h).1 := by
  obtain ⟨h2, w, _⟩ := setTerm_writing (s := s) h hs i n t itr
  exact w.keeps

theorem setDterm_keeps {h : Heap C T V D} (hs : Str h) (i : Id) (k : Name) (c : Id) (hc : (h.node c).alive = true)
    (itr : Option Nat) : Keeps h (setDterm s i k c itr h).1 := by
  obtain ⟨_, h2, w, _⟩ := setDterm_writing (s := s) h hs i k c itr hc
  exact w.keeps

theorem alloc_keeps {h : Heap C T V D} (hs : Str h) (cls : C) (dn : List Name) (md ms : Bool) :
    Keeps h (alloc cls dn md ms h).1 := by
  have hne : ∀ j, (h.node j).alive = true → j ≠ h.next := fun j hj e => by
    subst e; exact absurd (hs.alive_lt hj) (Nat.lt_irrefl _)
  refine ⟨rfl, fun j hj => ?_, fun j hj k hk => ?_⟩
  · rw [alloc_node, if_neg (hne j hj)]; exact hj
  · rw [alloc_node, if_neg (hne j hj)]; exact hk

theorem newLeaf_keeps {h : Heap C T V D} (hs : Str h) (x : T) : Keeps h (newLeaf s x h).1 :=
  (alloc_keeps hs s.base [] false false).trans
    (setTerm_keeps (alloc_str hs s.base [] false false) h.next s.xname x none)

theorem setattr_keeps {h : Heap C T V D} (hs : Str h) (i : Id) (kw : KW T) (itr : Option Nat) :
    Keeps h (setattr s i itr kw h).1 := by
  cases kw with
  | term n t => exact setTerm_keeps hs i n t itr
  | link k c =>
    simp only [setattr]
    split
    · exact setDterm_keeps hs i k c (by simp_all) itr
    · exact Keeps.refl h
  | bad n => exact Keeps.refl h
  | wrap k x =>
    simp only [setattr]
    split
    · obtain ⟨n, hok, _⟩ := newLeaf_post (s := s) (fr := ⟨False, False⟩) hs x
      have hb : M.bind (newLeaf s x) (fun l => setDterm s i k l itr) h =
          setDterm s i k h.next itr (newLeaf s x h).1 := by
        simp only [M.bind]
        rcases hx : newLeaf s x h with ⟨h', r⟩
        rw [hx] at hok; dsimp only at hok; subst hok; rfl
      rw [hb]
      exact (newLeaf_keeps hs x).trans (setDterm_keeps n.str i k h.next n.born itr)
    · exact Keeps.refl h

theorem setAll_keeps (i : Id) (kws : List (KW T)) : ∀ {h : Heap C T V D}, Str h → (h.node i).alive = true →
    Keeps h (setAll s i kws h).1 := by
  induction kws with
  | nil => intro h _ _; exact Keeps.refl h
  | cons kw kws ih =>
    intro h hs hi
    cases kws with
    | nil => simp only [setAll]; exact setattr_keeps hs i kw none
    | cons kw2 kws =>
      rw [setAll.eq_3 s i kw (kw2 :: kws) (by simp)]
      have a := (setattr_post (s := s) (fr := ⟨False, False⟩) hs hi kw (itr := some 9999) (by intro t h; cases h; simp)).1
      have b := setattr_keeps (s := s) hs i kw (some 9999)
      simp only [M.bind]
      rcases hx : setattr s i (some 9999) kw h with ⟨h1, r⟩
      rw [hx] at a b
      cases r with
      | error e => exact b
      | ok u => exact b.trans (ih a.str (a.alive i hi))

theorem batchLoop_keeps (t : Nat) (ws : List (Id × KW T)) : ∀ {h : Heap C T V D}, Str h →
    (∀ w ∈ ws, (h.node w.1).alive = true) → (t ≤ h.giter ∨ t = 9999) → Keeps h (batchLoop s t ws h).1 := by
  induction ws with
  | nil => intro h _ _ _; exact Keeps.refl h
  | cons w ws ih =>
    intro h hs ha ht
    obtain ⟨a, _⟩ := setattr_post (s := s) (fr := ⟨False, False⟩) hs (ha w (by simp)) w.2 (itr := some t)
      (by intro t' h; cases h; exact ht)
    have b := setattr_keeps (s := s) hs w.1 w.2 (some t)
    rw [batchLoop]
    simp only [M.bind]
    rcases hx : setattr s w.1 (some t) w.2 h with ⟨h1, r⟩
    rw [hx] at a b
    cases r with
    | error e => exact b
    | ok u => exact b.trans (ih a.str (fun w' hw' => a.alive _ (ha w' (by simp [hw']))) (by rw [a.giter]; exact ht))

theorem collect_keeps {h : Heap C T V D} (i j : Id) (hj : j ≠ i) :
    ((collect i h).node j).alive = (h.node j).alive ∧ ((collect i h).node j).dirty = (h.node j).dirty := by
  rw [collect_node, if_neg hj]; exact ⟨rfl, rfl⟩

theorem newObj_keeps {h : Heap C T V D} (hs : Str h) (cls : C) (dnames : List Name) (md ms : Bool) (kws : List (KW T)) :
    Keeps h (newObj s cls dnames md ms kws h).1 := by
  unfold newObj
  split
  · have n := alloc_post (s := s) (fr := ⟨False, False⟩) hs cls dnames md ms
    have a := (alloc_keeps hs cls dnames md ms).trans (setAll_keeps (s := s) h.next kws n.str n.born)
    have hb : M.bind (alloc cls dnames md ms) (fun i => orCollect i (setAll s i kws)) h =
      orCollect h.next (setAll s h.next kws) (alloc cls dnames md ms h).1 := rfl
    rw [hb, orCollect]
    rcases hx : setAll s h.next kws (alloc cls dnames md ms h).1 with ⟨h', r⟩
    rw [hx] at a
    cases r with
    | ok u => exact a
    | error e =>
      have hne : ∀ j, (h.node j).alive = true → j ≠ h.next := fun j hj e => by
        subst e; exact absurd (hs.alive_lt hj) (Nat.lt_irrefl _)
      refine ⟨a.log, fun j hj => ?_, fun j hj k hk => ?_⟩
      · dsimp only
        rw [(collect_keeps h.next j (hne j hj)).1]; exact a.alive j hj
      · dsimp only
        rw [(collect_keeps h.next j (hne j hj)).2]; exact a.dirty j hj k hk
  · exact Keeps.refl h

theorem clone_keeps {h : Heap C T V D} (hs : Str h) (i : Id) (ls : List (Name × Id)) : Keeps h (clone s i ls h).1 := by
  have hne : ∀ j, (h.node j).alive = true → j ≠ h.next := fun j hj e => by
    rw [e, hs.unborn h.next (Nat.le_refl _)] at hj; cases hj
  by_cases hg : CloneGuard h i ls
  · by_cases hnd : (ls.map (·.2)).Nodup
    · have b := (clone_ok (s := s) (fr := ⟨False, False⟩) hs hg hnd).2
      refine ⟨b.log, fun j hj => ?_, fun j hj k hk => b.dirty j k ?_⟩
      · rw [b.aliveEq, cloneBase_node, if_neg (hne j hj)]; exact hj
      · rw [cloneBase_node, if_neg (hne j hj)]; exact hk
    · have a := clone_spec (s := s) hs hg
      rw [if_neg hnd] at a
      rw [a]
      have b := alloc_keeps hs (h.node i).cls (h.node i).dnames (h.node i).makeDense (h.node i).makeSparse
      refine ⟨b.log, fun j hj => ?_, fun j hj k hk => ?_⟩
      · dsimp only
        rw [(collect_keeps h.next j (hne j hj)).1]; exact b.alive j hj
      · dsimp only
        rw [(collect_keeps h.next j (hne j hj)).2]; exact b.dirty j hj k hk
  · rw [clone, if_neg (fun h => hg (cloneOk_iff.1 h))]; exact Keeps.refl h

/-- A read of some kind. -/
inductive Op.IsRead : Op C T D → Prop
  | r (f i) : Op.IsRead (.readR f i)
  | prop (f i p) : Op.IsRead (.readProp f i p)
  | dr (f i w) : Op.IsRead (.readDr f i w)
  | lop (td f i w L) : Op.IsRead (.readLop td f i w L)
  | lmult (ne f i w L) : Op.IsRead (.readLmult ne f i w L)

theorem step_read_frame {h : Heap C T V D} {op : Op C T D} (ho : op.IsRead) : RFrame h (step s op h).1 := by
  cases ho with
  | r f i => simp only [step, ifAlive]; split
             · exact read_pres rframe_rel f _ h
             · exact RFrame.refl h
  | prop f i p => simp only [step, ifAlive]; split
                  · exact read_pres rframe_rel f _ h
                  · exact RFrame.refl h
  | dr f i w => simp only [step, ifAlive]; split
                · split
                  · exact drWrt_pres rframe_rel f i w h
                  · exact RFrame.refl h
                · exact RFrame.refl h
  | lop td f i w L => simp only [step, ifAlive]; split
                      · split
                        · exact leftMul_pres rframe_rel _ f i w L h
                        · exact RFrame.refl h
                      · exact RFrame.refl h
  | lmult ne f i w L => simp only [step, ifAlive]; split
                        · split
                          · exact leftMul_pres rframe_rel _ f i w L h
                          · exact RFrame.refl h
                        · exact RFrame.refl h

/-- Every operation other than a read and the collection of `j` keeps what is pending for `j`. -/
theorem step_write_keeps {h : Heap C T V D} (hs : Str h) (op : Op C T D) (hr : ¬ op.IsRead) (j : Id)
    (hg : ∀ d, op = .gc d → d ≠ j) (hj : (h.node j).alive = true) :
    (step s op h).1.log = h.log ∧ ((step s op h).1.node j).alive = true ∧
    ∀ k ∈ (h.node j).dirty, k ∈ ((step s op h).1.node j).dirty := by
  have fin : ∀ {h'}, Keeps h h' → h'.log = h.log ∧ (h'.node j).alive = true ∧ ∀ k ∈ (h.node j).dirty, k ∈ (h'.node j).dirty :=
    fun x => ⟨x.log, x.alive j hj, x.dirty j hj⟩
  cases op with
  | new cls dnames md ms kws => exact fin (newObj_keeps hs cls dnames md ms kws)
  | set i kws =>
    simp only [step, M.map', setObj]
    split
    · exact fin (setAll_keeps i kws hs ‹_›)
    · exact fin (Keeps.refl h)
  | batch ws =>
    simp only [step, M.map', batch]
    split
    · rename_i ha
      have hs' : Str { h with giter := h.giter + 1 } := ⟨hs.links, hs.dead, hs.unborn, hs.dn, hs.keys, fun n t ht => by
          rcases hs.tags n t ht with h | h
          · left; show t ≤ _ + 1; omega
          · exact Or.inr h⟩
      have := batchLoop_keeps (s := s) (h.giter + 1) ws hs' (fun w hw => List.all_eq_true.1 ha w hw) (Or.inl (Nat.le_refl _))
      exact ⟨this.log, this.alive j hj, this.dirty j hj⟩
    · exact fin (Keeps.refl h)
  | clear i =>
    simp only [step, ifAlive]
    split
    · obtain ⟨S, hp⟩ := clearCache_spec s h i none (fun n hn => hs.par0 n hn)
      exact ⟨hp.log, by dsimp only; rw [hp.alive]; exact hj, fun k hk => (hp.dirty j k).2 (Or.inl hk)⟩
    · exact fin (Keeps.refl h)
  | readR f i => exact absurd (.r f i) hr
  | readProp f i p => exact absurd (.prop f i p) hr
  | readDr f i w => exact absurd (.dr f i w) hr
  | readLop td f i w L => exact absurd (.lop td f i w L) hr
  | readLmult ne f i w L => exact absurd (.lmult ne f i w L) hr
  | gc i =>
    simp only [step]
    split
    · obtain ⟨a, b⟩ := collect_keeps (h := h) i j (Ne.symm (hg i rfl))
      exact ⟨rfl, by dsimp only; rw [a]; exact hj, fun k hk => by dsimp only; rw [b]; exact hk⟩
    · exact fin (Keeps.refl h)
  | clone i ls => exact fin (clone_keeps hs i ls)
  | addDterm i k kw =>
    simp only [step, ifAlive]
    split
    · rename_i ha
      simp only [M.map', addDterm]
      obtain ⟨ns, h1, _, h3⟩ := addDterm_mid (h := h) i k
      rw [h3]
      have hs' := dnames_str hs i ns h1
      have hk0 : Keeps h (h.modify i (fun n => { n with dnames := ns })) := by
        refine ⟨rfl, fun m hm => ?_, fun m hm q hq => ?_⟩
        · rw [modify_node]; split
          · subst_vars; exact hm
          · exact hm
        · rw [modify_node]; split
          · subst_vars; exact hq
          · exact hq
      exact fin (hk0.trans (setattr_keeps (s := s) hs' i kw none))
    · exact fin (Keeps.refl h)

/-- Every pending name of `j` is delivered before a body of `j` runs, in any later history in which `j` is
not collected. -/
theorem run_delivers (later : List (Op C T D)) (j : Id) (hg : .gc j ∉ later) :
    ∀ {h : Heap C T V D}, Str h → (h.node j).alive = true →
    ∃ l, (run s later h).log = h.log ++ l ∧
      (∀ k ∈ (h.node j).dirty, k ∈ ((run s later h).node j).dirty ∨ ∃ ns, .changed j ns ∈ l ∧ k ∈ ns) ∧
      ∀ l1 e l2, l = l1 ++ e :: l2 → e.Computes j → ∀ k ∈ (h.node j).dirty, ∃ ns, .changed j ns ∈ l1 ∧ k ∈ ns := by
  induction later with
  | nil => intro h _ _; exact ⟨[], by simp [run], fun k hk => Or.inl hk, fun l1 e l2 h => by simp at h⟩
  | cons op ops ih =>
    intro h hs hj
    have hs1 := step_str (s := s) hs op
    have hops : .gc j ∉ ops := fun hm => hg (List.mem_cons_of_mem _ hm)
    by_cases hr : op.IsRead
    · have fr := step_read_frame (s := s) (h := h) hr
      obtain ⟨la, ea, oa⟩ := fr.log
      obtain ⟨lb, eb, pb, qb⟩ := ih hops hs1 (by rw [fr.alive]; exact hj)
      refine ⟨la ++ lb, ?_, ?_, ?_⟩
      · show (run s ops (step s op h).1).log = _
        rw [eb, ea, List.append_assoc]
      · intro k hk
        rcases oa.drained j with hd | ⟨_, hd⟩
        · rcases pb k (by rw [hd]; exact hk) with h1 | ⟨ns, h1, h2⟩
          · exact Or.inl h1
          · exact Or.inr ⟨ns, List.mem_append_right _ h1, h2⟩
        · exact Or.inr ⟨_, List.mem_append_left _ hd, hk⟩
      · intro l1 e l2 hl he k hk
        rcases List.append_eq_append_iff.1 hl with ⟨c, h1, h2⟩ | ⟨c, h1, h2⟩
        · rcases oa.drained j with hd | ⟨_, hd⟩
          · obtain ⟨ns, h3, h4⟩ := qb c e l2 h2 he k (by rw [hd]; exact hk)
            exact ⟨ns, by rw [h1]; exact List.mem_append_right _ h3, h4⟩
          · exact ⟨_, by rw [h1]; exact List.mem_append_left _ hd, hk⟩
        · cases c with
          | nil =>
            rw [List.append_nil] at h1; rw [List.nil_append] at h2
            rcases oa.drained j with hd | ⟨_, hd⟩
            · obtain ⟨ns, h3, h4⟩ := qb [] e l2 h2.symm he k (by rw [hd]; exact hk)
              simp at h3
            · exact ⟨_, by rw [← h1]; exact hd, hk⟩
          | cons z zs =>
            simp only [List.cons_append, List.cons.injEq] at h2
            rcases oa.before j l1 e zs (by rw [h1, h2.1]) he with h3 | h3
            · rw [h3] at hk; simp at hk
            · exact ⟨_, h3, hk⟩
    · obtain ⟨h1, h2, h3⟩ := step_write_keeps (s := s) hs op hr j (fun d hd e => hg (by rw [hd, e]; simp)) hj
      obtain ⟨lb, eb, pb, qb⟩ := ih hops hs1 h2
      refine ⟨lb, ?_, fun k hk => pb k (h3 k hk), fun l1 e l2 hl he k hk => qb l1 e l2 hl he k (h3 k hk)⟩
      show (run s ops (step s op h).1).log = _
      rw [eb, h1]

/-! ## A single untagged assignment -/

/-- Name `k` of object `j` is reached by the assignment of name `n` of object `i`. -/
def Touched (g : Graph C T) (i : Id) (n : Name) (j : Id) (k : Name) : Prop :=
  (j = i ∧ k = n) ∨ ∃ c, (g j).dterms k = some c ∧ Anc g i c

/-- Effect of one assignment on the objects that existed before. -/
structure Assigned (s : Sig C T V D) (h h' : Heap C T V D) (i : Id) (n : Name) : Prop where
  dirty : ∀ j, (h.node j).alive = true → ∀ k, k ∈ (h'.node j).dirty ↔ k ∈ (h.node j).dirty ∨ Touched h'.graph i n j k
  hit : ∀ j, (h.node j).alive = true → ∀ p d, s.propDecl (h.graph j).cls p = some d →
    (∃ k ∈ d.1, Touched h'.graph i n j k) → (h'.node j).props p = none
  miss : ∀ j, (h.node j).alive = true → ∀ p, (¬ ∃ d, s.propDecl (h.graph j).cls p = some d ∧
    ∃ k ∈ d.1, Touched h'.graph i n j k) → (h'.node j).props p = (h.node j).props p
  cleared : ∀ j, (h.node j).alive = true → Anc h'.graph i j →
    (h'.node j).cacheR = none ∧ ∀ w, (h'.node j).drs w = none
  kept : ∀ j, (h.node j).alive = true → ¬ Anc h'.graph i j →
    (h'.node j).cacheR = (h.node j).cacheR ∧ (h'.node j).drs = (h.node j).drs

theorem Writing.assigned {h h2 h4 : Heap C T V D} {i : Id} {n : Name} (w : Writing s h h2 h4 i n none) :
    Assigned s h h4 i n := by
  obtain ⟨S, hp⟩ := w.post
  have hmem : ∀ c, c ∈ S ↔ Anc h4.graph i c := fun c => by
    rw [hp.mem_iff c, w.links.up_iff]
    exact ⟨fun h => h.1, fun h => ⟨h, not_tagged_none _ _⟩⟩
  have hreg : ∀ j k, (∃ m ∈ S, ∃ ns, (j, ns) ∈ (h2.node m).parents ∧ k ∈ ns) ↔
      ∃ c, (h4.graph j).dterms k = some c ∧ Anc h4.graph i c := by
    intro j k
    constructor
    · rintro ⟨m, hm, ns, hns, hk⟩
      exact ⟨m, (w.links.exact j k m).2 ⟨ns, hns, hk⟩, (hmem m).1 hm⟩
    · rintro ⟨c, hc, ha⟩
      obtain ⟨ns, hns, hk⟩ := (w.links.exact j k c).1 hc
      exact ⟨c, (hmem c).2 ha, ns, hns, hk⟩
  have hcls : ∀ j, (h2.node j).cls = (h.graph j).cls := fun j => by
    show (h2.graph j).cls = _; rw [w.g2]
  refine ⟨fun j _ k => w.dirty_iff j k, ?_, ?_, ?_, ?_⟩
  · rintro j _ p d hd ⟨k, hk, ht⟩
    rw [(w.same4 j).2.2.1]
    by_cases hx : ∃ m ∈ S, ∃ ns, (j, ns) ∈ (h2.node m).parents ∧ Hits s (h2.node j).cls p ns
    · exact hp.propsHit j p hx
    · rw [hp.propsKept j p hx]
      rcases ht with ⟨rfl, rfl⟩ | ht
      · exact w.p2i p ⟨d, hd, k, hk, by simp⟩
      · obtain ⟨m, hm, ns, hns, hkn⟩ := (hreg j k).2 ht
        exact absurd ⟨m, hm, ns, hns, d, by rw [hcls]; exact hd, k, hk, hkn⟩ hx
  · intro j _ p hn
    rw [(w.same4 j).2.2.1, hp.propsKept j p]
    · apply w.p2k
      rintro ⟨rfl, d, hd, k, hk, hkn⟩
      simp only [List.mem_singleton] at hkn
      exact hn ⟨d, hd, k, hk, Or.inl ⟨rfl, hkn⟩⟩
    · rintro ⟨m, hm, ns, hns, d, hd, k, hk, hkn⟩
      rw [hcls] at hd
      exact hn ⟨d, hd, k, hk, Or.inr ((hreg j k).1 ⟨m, hm, ns, hns, hkn⟩)⟩
  · intro j _ ha
    obtain ⟨a, b, _⟩ := hp.wiped j ((hmem j).2 ha)
    rw [(w.same4 j).1, (w.same4 j).2.1]
    exact ⟨a, fun x => by rw [b]⟩
  · intro j _ ha
    obtain ⟨a, b, _⟩ := hp.kept j (fun hm => ha ((hmem j).1 hm))
    rw [(w.same4 j).1, (w.same4 j).2.1, a, b]
    exact ⟨w.r2 j, w.d2 j⟩

/-- `Ch(value)` touches no existing object. -/
theorem newLeaf_old {h : Heap C T V D} (hs : Str h) (x : T) (j : Id) (hj : (h.node j).alive = true) :
    (∀ k, k ∈ ((newLeaf s x h).1.node j).dirty ↔ k ∈ (h.node j).dirty) ∧
    ((newLeaf s x h).1.node j).props = (h.node j).props ∧
    ((newLeaf s x h).1.node j).cacheR = (h.node j).cacheR ∧
    ((newLeaf s x h).1.node j).drs = (h.node j).drs ∧ (newLeaf s x h).1.graph j = h.graph j := by
  have hs0 := alloc_str hs s.base [] false false
  obtain ⟨h2, w, hpar, hg⟩ := setTerm_writing (s := s) (alloc s.base [] false false h).1 hs0 h.next s.xname x none
  have e : (newLeaf s x h).1 = (setTerm s h.next s.xname x none (alloc s.base [] false false h).1).1 := rfl
  rw [e]
  have hne : ∀ m, (h.node m).alive = true → m ≠ h.next := fun m hm e => by
    subst e; exact absurd (hs.alive_lt hm) (Nat.lt_irrefl _)
  have hg0 : ∀ m, m ≠ h.next → (setTerm s h.next s.xname x none (alloc s.base [] false false h).1).1.graph m = h.graph m := by
    intro m hm
    rw [hg]; dsimp only; rw [if_neg hm, Heap.graph_apply, alloc_node, if_neg hm]; rfl
  have hanc : ∀ m, Anc (setTerm s h.next s.xname x none (alloc s.base [] false false h).1).1.graph h.next m → (h.node m).alive = true → False := by
    intro m ha
    induction ha with
    | refl => intro hm; exact hne _ hm rfl
    | @step m c k hk _ ih =>
      intro hm
      rw [hg0 m (hne m hm)] at hk
      exact ih (hs.child_alive hk)
  have hal : ((alloc s.base [] false false h).1.node j).alive = true := by
    rw [alloc_node, if_neg (hne j hj)]; exact hj
  have hnt : ∀ k, ¬ Touched (setTerm s h.next s.xname x none (alloc s.base [] false false h).1).1.graph h.next s.xname j k := by
    rintro k (⟨rfl, _⟩ | ⟨c, hc, ha⟩)
    · exact hne _ hj rfl
    · rw [hg0 j (hne j hj)] at hc
      exact hanc c ha (hs.child_alive hc)
  have a := w.assigned
  have hnode : (alloc s.base [] false false h).1.node j = h.node j := by rw [alloc_node, if_neg (hne j hj)]
  refine ⟨fun k => ?_, ?_, ?_, ?_, hg0 j (hne j hj)⟩
  · rw [a.dirty j hal k, hnode]
    exact ⟨fun h => h.elim id (fun h => absurd h (hnt k)), Or.inl⟩
  · funext p
    rw [a.miss j hal p, hnode]
    rintro ⟨d, _, k, _, hk⟩; exact hnt k hk
  · rw [(a.kept j hal (fun ha => hanc j ha hj)).1, hnode]
  · rw [(a.kept j hal (fun ha => hanc j ha hj)).2, hnode]

/-- The name a keyword assigns. -/
def KW.name : KW T → Name
  | .term n _ => n
  | .link k _ => k
  | .wrap k _ => k
  | .bad n => n

/-- Every successful single assignment. -/
theorem setattr_assigned {h : Heap C T V D} (hs : Str h) (i : Id) (kw : KW T)
    (hok : (setattr s i none kw h).2 = .ok ()) : Assigned s h (setattr s i none kw h).1 i kw.name := by
  cases kw with
  | term n t =>
    obtain ⟨h2, w, _⟩ := setTerm_writing (s := s) h hs i n t none
    exact w.assigned
  | link k c =>
    simp only [setattr] at hok ⊢
    split
    · rename_i hc
      obtain ⟨_, h2, w, _⟩ := setDterm_writing (s := s) h hs i k c none hc.2
      exact w.assigned
    · rename_i hc; rw [if_neg hc] at hok; cases hok
  | bad n => cases hok
  | wrap k x =>
    simp only [setattr] at hok ⊢
    split
    · obtain ⟨n, hx, _⟩ := newLeaf_post (s := s) (fr := ⟨False, False⟩) hs x
      have hb : M.bind (newLeaf s x) (fun l => setDterm s i k l none) h =
          setDterm s i k h.next none (newLeaf s x h).1 := by
        simp only [M.bind]
        rcases hx' : newLeaf s x h with ⟨h', r⟩
        rw [hx'] at hx; dsimp only at hx; subst hx; rfl
      rw [hb]
      obtain ⟨_, h2, w, _⟩ := setDterm_writing (s := s) (newLeaf s x h).1 n.str i k h.next none n.born
      have a := w.assigned
      have kp := newLeaf_keeps (s := s) hs x
      refine ⟨?_, ?_, ?_, ?_, ?_⟩
      · intro j hj m
        rw [a.dirty j (kp.alive j hj) m, (newLeaf_old hs x j hj).1 m]; rfl
      · intro j hj p d hd
        refine a.hit j (kp.alive j hj) p d ?_
        rw [(newLeaf_old hs x j hj).2.2.2.2]; exact hd
      · intro j hj p hn
        rw [a.miss j (kp.alive j hj) p, (newLeaf_old hs x j hj).2.1]
        rw [(newLeaf_old hs x j hj).2.2.2.2]; exact hn
      · intro j hj; exact a.cleared j (kp.alive j hj)
      · intro j hj ha
        obtain ⟨b, c⟩ := a.kept j (kp.alive j hj) ha
        rw [b, c]
        exact ⟨(newLeaf_old hs x j hj).2.2.1, (newLeaf_old hs x j hj).2.2.2.1⟩
    · rename_i hc; rw [if_neg hc] at hok; cases hok

end Chumpy
