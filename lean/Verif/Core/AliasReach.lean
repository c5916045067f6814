import Verif.Core.AliasInv
import Verif.Core.Pending
import Verif.Properties.Fresh
/-! Histories of operations on objects some of whose differentiable terms are aliases. -/
namespace Chumpy
variable {C T V D α : Type} {s : Sig C T V D} {al : Aliases C} {h : Heap C T V D}

theorem KW.target_name (kw : KW T) : kw.target = kw.name := by cases kw <;> rfl

/-- Marking a name as changed and clearing caches is an assignment that assigns nothing. -/
theorem touch_writing (hs : Str h) (i : Id) (n : Name) (itr : Option Nat) :
    ∃ h2, Writing s h h2 (touch s i n itr h) i n itr ∧ (∀ j, (h2.node j).parents = (h.node j).parents) ∧
      (touch s i n itr h).graph = h.graph := by
  have hn1 : ∀ j, SameBut (h.node j) ((h.modify i (fun nd => (nd.addDirty [n]).invalidate s [n])).node j) := by
    intro j
    rw [modify_node]; split
    · subst_vars; exact ⟨rfl, rfl, rfl, rfl, rfl, rfl⟩
    · exact ⟨rfl, rfl, rfl, rfl, rfl, rfl⟩
  have hg1 : (h.modify i (fun nd => (nd.addDirty [n]).invalidate s [n])).graph = h.graph := by funext j; exact (hn1 j).1
  have hpar1 : ∀ m, (h.modify i (fun nd => (nd.addDirty [n]).invalidate s [n])).next ≤ m →
      ((h.modify i (fun nd => (nd.addDirty [n]).invalidate s [n])).node m).parents = [] := by
    intro m hm; rw [(hn1 m).2.1]; exact hs.par0 m hm
  obtain ⟨S, hp⟩ := clearCache_spec s _ i itr hpar1
  have hg4 : (touch s i n itr h).graph = h.graph := (clearCache_graph hp).trans hg1
  refine ⟨h.modify i (fun nd => (nd.addDirty [n]).invalidate s [n]), ?_, fun j => (hn1 j).2.1, hg4⟩
  refine
    { g2 := hg1, next2 := rfl, r2 := fun j => (hn1 j).2.2.1, d2 := fun j => (hn1 j).2.2.2.1, p2 := ?_, p2i := ?_, p2k := ?_
      itr2 := fun j => (hn1 j).2.2.2.2.1, alive2 := fun j => (hn1 j).2.2.2.2.2, giter2 := rfl
      off := fun j _ => by rw [hg4], cls := by rw [hg4], fl := by rw [hg4]; exact ⟨rfl, rfl⟩,
      nm := fun m _ => by rw [hg4]; exact ⟨rfl, rfl⟩, dn := by rw [hg4]
      links := ?_, par0 := hpar1, same4 := fun j => ⟨rfl, rfl, rfl, rfl, rfl, rfl, rfl⟩
      dirty2 := ?_, log4 := hp.log, next4 := hp.next, giter4 := hp.giter }
  · intro j p
    rw [modify_node]; split
    · subst_vars
      by_cases hh : Hits s ((h.node j).addDirty [n]).cls p [n]
      · exact Or.inl ((invalidate_props s _ [n] p).1 hh)
      · exact Or.inr ((invalidate_props s _ [n] p).2 hh)
    · exact Or.inr rfl
  · intro p hh
    rw [modify_node_self]
    exact (invalidate_props s _ [n] p).1 hh
  · intro j p hh
    rw [modify_node]; split
    · subst_vars
      exact (invalidate_props s _ [n] p).2 (fun hx => hh ⟨rfl, hx⟩)
    · rfl
  · have hpe : (h.modify i (fun nd => (nd.addDirty [n]).invalidate s [n])).par = h.par := by funext j; exact (hn1 j).2.1
    rw [hpe, hg4]; exact hs.links
  · intro j m
    rw [modify_node]
    by_cases hj : j = i
    · subst hj; rw [if_pos rfl]
      show m ∈ ((h.node j).addDirty [n]).dirty ↔ _
      rw [addDirty_mem]; simp
    · rw [if_neg hj]; simp [hj]

theorem touch_str (hs : Str h) {i : Id} (hi : (h.node i).alive = true) (n : Name) {itr : Option Nat}
    (ht : ∀ t, itr = some t → t ≤ h.giter ∨ t = 9999) : Str (touch s i n itr h) := by
  obtain ⟨h2, w, hpar, hg⟩ := touch_writing (s := s) hs i n itr
  refine w.str hs hi (fun j hj => by rw [hpar]; exact (hs.dead j hj).1) ?_ ht
  intro k c hk
  have h1 : ((touch s i n itr h).graph i).dterms k = some c := hk
  show k ∈ ((touch s i n itr h).graph i).dnames
  rw [hg] at h1 ⊢
  exact hs.dn i k c h1

/-- An ordinary assignment, seen through the aliases. -/
theorem setattr_view (hpo : s.PropsOk) (hok : al.Ok) (hap : s.AliasProps al) (hs : Str h) (hfl : Flags h) {i : Id}
    (hi : (h.node i).alive = true) (kw : KW T) (itr : Option Nat) :
    (CohX s (Fresh s) (NotSlice s) (h.view al) (Anc h.graph i) →
      CohX s (Fresh s) (NotSlice s) ((setattr s i itr kw h).1.view al) (Anc (setattr s i itr kw h).1.graph i)) ∧
    ((setattr s i itr kw h).2 = .ok () → itr = none → CohX s (Fresh s) (NotSlice s) (h.view al) (Anc h.graph i) →
      Coh s (Fresh s) (NotSlice s) ((setattr s i itr kw h).1.view al)) ∧
    ((setattr s i itr kw h).2 ≠ .ok () → (setattr s i itr kw h).1 = h) := by
  cases kw with
  | term n t =>
    obtain ⟨h2, w, _, _⟩ := setTerm_writing (s := s) h hs i n t itr
    exact ⟨fun hc => w.view_cohX hpo hok hap hc, fun _ hn hc => by subst hn; exact w.view_coh hpo hok hap hs hc,
      fun hne => absurd rfl hne⟩
  | link k c =>
    simp only [setattr]
    split
    · rename_i hg
      obtain ⟨hres, h2, w, _, _⟩ := setDterm_writing (s := s) h hs i k c itr hg.2
      exact ⟨fun hc => w.view_cohX hpo hok hap hc, fun _ hn hc => by subst hn; exact w.view_coh hpo hok hap hs hc,
        fun hne => absurd hres hne⟩
    · rename_i hg
      exact ⟨id, fun hne => (by cases hne), fun _ => rfl⟩
  | bad n =>
    exact ⟨id, fun hne => (by cases hne), fun _ => rfl⟩
  | wrap k x =>
    simp only [setattr]
    split
    · obtain ⟨n, hx, _⟩ := newLeaf_post (s := s) (fr := ⟨False, False⟩) hs x
      have hb : M.bind (newLeaf s x) (fun l => setDterm s i k l itr) h =
          setDterm s i k h.next itr (newLeaf s x h).1 := by
        simp only [M.bind]
        rcases hx' : newLeaf s x h with ⟨h', r⟩
        rw [hx'] at hx; dsimp only at hx; subst hx; rfl
      rw [hb]
      have hX : ∀ j, Anc h.graph i j → Anc (newLeaf s x h).1.graph i j := by
        intro j hj
        induction hj with
        | refl => exact Anc.refl
        | @step j c k hk _ ih =>
          have hjn : j ≠ h.next := by
            rintro rfl
            have := (hs.dead h.next (hs.unborn h.next (Nat.le_refl _))).2.1 k
            rw [Heap.graph_apply, this] at hk; cases hk
          exact Anc.step k (by rw [n.off j hjn]; exact hk) ih
      obtain ⟨hres, h2, w, _, _⟩ := setDterm_writing (s := s) (newLeaf s x h).1 n.str i k h.next itr n.born
      exact ⟨fun hc => w.view_cohX hpo hok hap ((view_newLeaf hs hfl x hc).mono hX),
        fun _ hn hc => by subst hn; exact w.view_coh hpo hok hap n.str ((view_newLeaf hs hfl x hc).mono hX),
        fun hne => absurd hres hne⟩
    · exact ⟨id, fun hne => (by cases hne), fun _ => rfl⟩

/-- What an assignment, or several, on `i` achieve. -/
structure PostA (s : Sig C T V D) (al : Aliases C) (h h' : Heap C T V D) (i : Id) (links : Id → Prop) (ok untagged : Prop) : Prop where
  str : Str h'
  alive : ∀ j, (h.node j).alive = true → (h'.node j).alive = true
  giter : h'.giter = h.giter
  cls : ∀ j, (h.node j).alive = true → (h'.graph j).cls = (h.graph j).cls
  flags : Flags h → Flags h'
  par : ∀ j, (h.node j).alive = true → ¬ links j → (h.node j).parents = [] → (h'.node j).parents = []
  cohX : CohX s (Fresh s) (NotSlice s) (h.view al) (Anc h.graph i) → CohX s (Fresh s) (NotSlice s) (h'.view al) (Anc h'.graph i)
  done : ok → untagged → CohX s (Fresh s) (NotSlice s) (h.view al) (Anc h.graph i) → Coh s (Fresh s) (NotSlice s) (h'.view al)
  safe : untagged → Coh s (Fresh s) (NotSlice s) (h.view al) → Coh s (Fresh s) (NotSlice s) (h'.view al)

/-- One assignment, to an alias or not. -/
theorem setattrA_post (hpo : s.PropsOk) (hok : al.Ok) (hap : s.AliasProps al) (hs : Str h) (hfl : Flags h) {i : Id}
    (hi : (h.node i).alive = true) (kw : KW T) {itr : Option Nat} (ht : ∀ t, itr = some t → t ≤ h.giter ∨ t = 9999) :
    PostA s al h (setattrA s al i itr kw h).1 i (fun j => ∃ k, kw = .link k j) ((setattrA s al i itr kw h).2 = .ok ()) (itr = none) := by
  unfold setattrA
  cases ha : al (h.node i).cls kw.target with
  | none =>
    dsimp only
    obtain ⟨p, par⟩ := setattr_post (s := s) (fr := ⟨False, False⟩) hs hi kw ht
    obtain ⟨a, b, c⟩ := setattr_view (s := s) (al := al) hpo hok hap hs hfl hi kw itr
    refine ⟨p.str, p.alive, p.giter, p.cls, p.flags, fun j hj hl hp => par j hj (fun k hk => hl ⟨k, hk⟩) hp, a, b, ?_⟩
    intro hn hc
    by_cases hr : (setattr s i itr kw h).2 = .ok ()
    · exact b hr hn (hc.cohX _)
    · rw [c hr]; exact hc
  | some q =>
    obtain ⟨k, k2⟩ := q
    dsimp only
    have key : ∀ h1 : Heap C T V D, Str h1 → (∀ j, (h1.node j).alive = (h.node j).alive) → h1.giter = h.giter → h1.graph = h.graph →
        (∀ j, (h1.node j).parents = (h.node j).parents) →
        (CohX s (Fresh s) (NotSlice s) (h.view al) (Anc h.graph i) → CohX s (Fresh s) (NotSlice s) (h1.view al) (Anc h1.graph i)) →
        (Coh s (Fresh s) (NotSlice s) (h.view al) → Coh s (Fresh s) (NotSlice s) (h1.view al)) →
        PostA s al h (match (h1.node i).dterms k with
          | none => (h1, (Except.error Err.attr : Except Err Unit))
          | some c => setattr s c none (kw.onto k2) h1).1 i (fun j => ∃ k, kw = .link k j)
          ((match (h1.node i).dterms k with
          | none => (h1, (Except.error Err.attr : Except Err Unit))
          | some c => setattr s c none (kw.onto k2) h1).2 = .ok ()) (itr = none) := by
      intro h1 hs1 hal hgi hg hpar hcx hco
      have hfl1 : Flags h1 := fun n => by rw [hg]; exact hfl n
      cases hd : (h1.node i).dterms k with
      | none =>
        dsimp only
        exact ⟨hs1, fun j hj => by rw [hal]; exact hj, hgi, fun j _ => by rw [hg], fun _ => hfl1,
          fun j _ _ hp => by rw [hpar]; exact hp, hcx, fun hx => (by cases hx), fun _ => hco⟩
      | some c =>
        dsimp only
        have hc : (h1.node c).alive = true := hs1.child_alive hd
        obtain ⟨p, par⟩ := setattr_post (s := s) (fr := ⟨False, False⟩) hs1 hc (kw.onto k2) (itr := none) (by intro t h; cases h)
        obtain ⟨a, b, e⟩ := setattr_view (s := s) (al := al) hpo hok hap hs1 hfl1 hc (kw.onto k2) none
        have hup : ∀ j, Anc h1.graph i j → Anc h1.graph c j := fun j hj => (Anc.step k hd Anc.refl).trans hj
        refine ⟨p.str, fun j hj => p.alive j (by rw [hal]; exact hj), p.giter.trans hgi,
          fun j hj => (p.cls j (by rw [hal]; exact hj)).trans (by rw [hg]), fun _ => p.flags hfl1, ?_, ?_, ?_, ?_⟩
        · intro j hj hl hp
          refine par j (by rw [hal]; exact hj) (fun k' hk' => hl ?_) (by rw [hpar]; exact hp)
          cases kw with
          | link k0 c0 => simp only [KW.onto, KW.link.injEq] at hk'; exact ⟨k0, by rw [hk'.2]⟩
          | term _ _ => simp [KW.onto] at hk'
          | wrap _ _ => simp [KW.onto] at hk'
          | bad _ => simp [KW.onto] at hk'
        · intro hc0
          by_cases hr : (setattr s c none (kw.onto k2) h1).2 = .ok ()
          · exact (b hr rfl ((hcx hc0).mono hup)).cohX _
          · rw [e hr]; exact hcx hc0
        · intro hr _ hc0
          exact b hr rfl ((hcx hc0).mono hup)
        · intro _ hc0
          by_cases hr : (setattr s c none (kw.onto k2) h1).2 = .ok ()
          · exact b hr rfl ((hco hc0).cohX _)
          · rw [e hr]; exact hco hc0
    by_cases hdn : kw.target ∈ (h.node i).dnames
    · rw [if_pos hdn]
      obtain ⟨h2, w, hpar, hg⟩ := touch_writing (s := s) hs i kw.target itr
      refine key _ (touch_str hs hi _ ht) w.alive4 (w.giter4.trans w.giter2) hg (fun j => by rw [w.par4, hpar])
        (fun hc => w.view_cohX hpo hok hap hc) (fun hc => ?_)
      refine hc.shrink (h' := (touch s i kw.target itr h).view al) ?_ ⟨⟨w.shrink.r, w.shrink.p, w.shrink.d⟩, w.shrink.alive⟩
      rw [Heap.view_graph, Heap.view_graph, hg]
    · rw [if_neg hdn]
      exact key h hs (fun _ => rfl) rfl rfl (fun _ => rfl) id id

/-- All the keywords. -/
theorem setAllA_post (hpo : s.PropsOk) (hok : al.Ok) (hap : s.AliasProps al) (i : Id) (kws : List (KW T)) :
    ∀ {h : Heap C T V D}, Str h → Flags h → (h.node i).alive = true →
    PostA s al h (setAllA s al i kws h).1 i (fun j => ∃ k, KW.link k j ∈ kws) ((setAllA s al i kws h).2 = .ok () ∧ kws ≠ [])
      (kws.length ≤ 1 ∨ (setAllA s al i kws h).2 = .ok ()) := by
  induction kws with
  | nil =>
    intro h hs _ hi
    exact ⟨hs, fun _ h => h, rfl, fun _ _ => rfl, id, fun _ _ _ h => h, id, fun h => absurd rfl h.2, fun _ => id⟩
  | cons kw kws ih =>
    intro h hs hfl hi
    cases kws with
    | nil =>
      have p := setattrA_post (s := s) (al := al) hpo hok hap hs hfl hi kw (itr := none) (by intro t h; cases h)
      exact ⟨p.str, p.alive, p.giter, p.cls, p.flags, fun j hj hl hp => p.par j hj (fun ⟨k, hk⟩ => hl ⟨k, by simp [hk]⟩) hp,
        p.cohX, fun hr _ hc => p.done hr.1 rfl hc, fun _ hc => p.safe rfl hc⟩
    | cons kw2 kws =>
      have p := setattrA_post (s := s) (al := al) hpo hok hap hs hfl hi kw (itr := some 9999) (by intro t h; injection h with h; exact Or.inr h.symm)
      rw [setAllA.eq_3 s al i kw (kw2 :: kws) (by simp)]
      simp only [M.bind]
      rcases hx : setattrA s al i (some 9999) kw h with ⟨h1, r⟩
      rw [hx] at p
      cases r with
      | error e =>
        dsimp only at p ⊢
        refine ⟨p.str, p.alive, p.giter, p.cls, p.flags, fun j hj hl hp => p.par j hj (fun ⟨k, hk⟩ => hl ⟨k, by simp [hk]⟩) hp,
          p.cohX, fun hr => (by cases hr.1), fun hr => ?_⟩
        rcases hr with hr | hr
        · simp at hr
        · cases hr
      | ok u =>
        dsimp only at p ⊢
        have c := ih p.str (p.flags hfl) (p.alive i hi)
        refine ⟨c.str, fun j hj => c.alive j (p.alive j hj), c.giter.trans p.giter,
          fun j hj => (c.cls j (p.alive j hj)).trans (p.cls j hj), fun hf => c.flags (p.flags hf), ?_, fun hc => c.cohX (p.cohX hc), ?_, ?_⟩
        · intro j hj hl hp
          exact c.par j (p.alive j hj) (fun ⟨k, hk⟩ => hl ⟨k, by simp [hk]⟩) (p.par j hj (fun ⟨k, hk⟩ => hl ⟨k, by simp [hk]⟩) hp)
        · intro hr _ hc
          exact c.done ⟨hr.1, by simp⟩ (Or.inr hr.1) (p.cohX hc)
        · intro hr hc
          rcases hr with hr | hr
          · simp at hr
          · exact c.done ⟨hr, by simp⟩ (Or.inr hr) (p.cohX (hc.cohX _))

/-- The invariant: bookkeeping is right, and every stored value is right on the view. -/
structure InvA (s : Sig C T V D) (al : Aliases C) (h : Heap C T V D) : Prop where
  str : Str h
  flags : Flags h
  coh : Coh s (Fresh s) (NotSlice s) (h.view al)

theorem InvA.init : InvA s al (Heap.empty s) :=
  ⟨str_empty, fun _ => ⟨rfl, rfl⟩, ⟨fun _ _ h => (by cases h), fun _ _ _ h => (by cases h), fun _ _ _ _ _ h => (by cases h),
    fun _ _ _ h => (by cases h)⟩⟩

/-- A call of `set` with several keywords runs to its end. -/
def LegalA (s : Sig C T V D) (al : Aliases C) (h : Heap C T V D) : AOp C T → Prop
  | .set i kws => kws.length ≤ 1 ∨ (stepA s al (.set i kws) h).2.isOk = true
  | _ => True

theorem InvA.frame (hi : InvA s al h) {h' : Heap C T V D} (hg : h'.graph = h.graph) (hc : Coh s (Fresh s) (NotSlice s) (h'.view al))
    (fr : RFrame (h.view al) (h'.view al)) : InvA s al h' := by
  refine ⟨hi.str.rframe ?_, fun n => by rw [hg]; exact hi.flags n, hc⟩
  obtain ⟨l, hl, k⟩ := fr.log
  exact ⟨hg, fr.parents, fr.itr, fr.alive, fr.next, fr.giter, fr.keepR, fr.keepP, fr.keepD, fr.keys,
    l, hl, ⟨k.changed, k.drained, k.before, k.onceR, k.onceP⟩⟩

theorem InvA.read (hi : InvA s al h) (f : Nat) (q : Req) : InvA s al (readA s al f q h).1 ∧
    Agree (readA s al f q h).2 (fun f => evalReq s (h.graph.view al) f q) f := by
  obtain ⟨e, g⟩ := seen_read (s := s) (al := al) f q h
  obtain ⟨a, _, c⟩ := read_sim (P := True) f q (h.view al) hi.coh rfl
  have fr := read_pres (s := s) rframe_rel f q (h.view al)
  rw [e] at a c fr
  exact ⟨hi.frame g a fr, c trivial⟩

theorem InvA.dr (hi : InvA s al h) (f : Nat) (i w : Id) : InvA s al (drWrtA s al f i w h).1 ∧
    (s.PlainForm → s.isPermute (h.graph w).cls = false → Agree (drWrtA s al f i w h).2 (fun f => evalDr s (h.graph.view al) f i w) f) := by
  obtain ⟨e, g⟩ := seen_dr (s := s) (al := al) f i w h
  obtain ⟨a, _, c⟩ := drWrt_sim (W := NotSlice s) f i w (h.view al) hi.coh rfl
  have fr := drWrt_pres (s := s) rframe_rel f i w (h.view al)
  rw [e] at a c fr
  refine ⟨hi.frame g a fr, fun ho hw => ?_⟩
  exact c ⟨⟨ho, fun n => hi.flags n⟩, hw⟩

theorem mem_ordered (c : C) (kws : List (KW T)) (kw : KW T) : kw ∈ ordered al c kws ↔ kw ∈ kws := by
  simp only [ordered, List.mem_append, List.mem_filter]
  cases al c kw.target <;> simp

theorem length_ordered (c : C) (kws : List (KW T)) : (ordered al c kws).length = kws.length := by
  induction kws with
  | nil => rfl
  | cons kw kws ih =>
    simp only [ordered, List.length_append, List.filter_cons] at ih ⊢
    cases al c kw.target <;> simp <;> omega

theorem InvA.new (hpo : s.PropsOk) (hok : al.Ok) (hap : s.AliasProps al) (hi : InvA s al h) (cls : C) (dnames : List Name)
    (kws : List (KW T)) : InvA s al (newObjA s al cls dnames kws h).1 := by
  unfold newObjA
  split
  · rename_i ho
    have n := alloc_post (s := s) (fr := ⟨False, False⟩) hi.str cls dnames false false
    have hfl1 : Flags (alloc cls dnames false false h).1 := by
      intro j
      rw [Heap.graph_apply, alloc_node]
      split
      · exact ⟨rfl, rfl⟩
      · exact hi.flags j
    have a := setAllA_post (s := s) (al := al) hpo hok hap h.next (ordered al cls kws) n.str hfl1 n.born
    have hb : M.bind (alloc cls dnames false false) (fun i => orCollect i (setAllA s al i (ordered al cls kws))) h =
      orCollect h.next (setAllA s al h.next (ordered al cls kws)) (alloc cls dnames false false h).1 := rfl
    rw [hb, orCollect]
    have hcx1 := view_alloc (s := s) (al := al) (X := fun _ => False) hi.str hi.flags cls dnames (hi.coh.cohX _)
    have hcoh1 : Coh s (Fresh s) (NotSlice s) ((alloc cls dnames false false h).1.view al) :=
      hcx1.fix (fun _ h => h.elim) (fun _ _ _ _ _ _ _ _ h => h.elim)
    have hpar : ((setAllA s al h.next (ordered al cls kws) (alloc cls dnames false false h).1).1.node h.next).parents = [] := by
      refine a.par h.next n.born ?_ (by rw [n.par]; exact hi.str.par0 _ (Nat.le_refl _))
      rintro ⟨k, hk⟩
      exact old_next hi.str ho k ((mem_ordered cls kws _).1 hk)
    have hcx := a.cohX (hcoh1.cohX _)
    rcases hx : setAllA s al h.next (ordered al cls kws) (alloc cls dnames false false h).1 with ⟨h', r⟩
    rw [hx] at a hpar hcx
    cases r with
    | ok u => exact ⟨a.str, a.flags hfl1, a.safe (Or.inr rfl) hcoh1⟩
    | error e => exact ⟨collect_str a.str hpar, collect_flags (a.flags hfl1), view_collect a.str (a.flags hfl1) hpar hcx⟩
  · exact hi

/-- Every operation keeps the invariant. -/
theorem InvA.step (hpo : s.PropsOk) (hok : al.Ok) (hap : s.AliasProps al) (hi : InvA s al h) (op : AOp C T)
    (hl : LegalA s al h op) : InvA s al (stepA s al op h).1 := by
  cases op with
  | new cls dnames kws => exact hi.new hpo hok hap cls dnames kws
  | set i kws =>
    revert hl
    simp only [LegalA, stepA, M.map', setObjA]
    split
    · rename_i ha
      intro hl
      have a := setAllA_post (s := s) (al := al) hpo hok hap i (ordered al (h.node i).cls kws) hi.str hi.flags ha
      refine ⟨a.str, a.flags hi.flags, a.safe ?_ hi.coh⟩
      rcases hl with hl | hl
      · exact Or.inl (by rw [length_ordered]; exact hl)
      · right
        rcases hx : setAllA s al i (ordered al (h.node i).cls kws) h with ⟨h', r⟩
        rw [hx] at hl
        cases r with
        | ok u => rfl
        | error e => cases hl
    · intro _; exact hi
  | clear i =>
    simp only [stepA, ifAlive]
    split
    · obtain ⟨a, b, c⟩ := clear_writing_like (s := s) hi.str i none (by intro t h; cases h)
      refine ⟨a, fun n => by rw [c]; exact hi.flags n, hi.coh.shrink (by rw [Heap.view_graph, Heap.view_graph, c]) ⟨⟨b.r, b.p, b.d⟩, b.alive⟩⟩
    · exact hi
  | readR f i =>
    simp only [stepA, ifAlive]
    split
    · exact (hi.read f (.r i)).1
    · exact hi
  | readProp f i p =>
    simp only [stepA, ifAlive]
    split
    · exact (hi.read f (.prop i p)).1
    · exact hi
  | readDr f i w =>
    simp only [stepA, ifAlive]
    split
    · split
      · exact hi.dr f i w |>.1
      · exact hi
    · exact hi
  | gc i =>
    simp only [stepA]
    split
    · rename_i hp
      exact ⟨collect_str hi.str hp, collect_flags hi.flags, view_collect hi.str hi.flags hp (hi.coh.cohX _)⟩
    · exact hi

/-- States reached by histories with aliases. -/
inductive ReachA (s : Sig C T V D) (al : Aliases C) : Heap C T V D → Prop
  | init : ReachA s al (Heap.empty s)
  | step {h : Heap C T V D} (op : AOp C T) : ReachA s al h → LegalA s al h op → ReachA s al (stepA s al op h).1

theorem reachA_inv (hpo : s.PropsOk) (hok : al.Ok) (hap : s.AliasProps al) (hr : ReachA s al h) : InvA s al h := by
  induction hr with
  | init => exact InvA.init
  | step op _ hl ih => exact ih.step hpo hok hap op hl

end Chumpy
