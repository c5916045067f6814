import Verif.Core.Ops
/-! Unpickling one object: when it succeeds, and that it then amounts to a construction by assignments. -/
namespace Chumpy
variable {C T V D : Type} {s : Sig C T V D}

theorem Heap.ext' {h h' : Heap C T V D} (h1 : h.next = h'.next) (h2 : ∀ j, h.node j = h'.node j)
    (h3 : h.giter = h'.giter) (h4 : h.log = h'.log) : h = h' := by
  cases h; cases h'
  simp only at h1 h2 h3 h4
  have := funext h2
  subst h1 h3 h4 this; rfl

/-- An object without parents is cleared alone. -/
theorem clearCache_top (s : Sig C T V D) {i : Id} {h : Heap C T V D} (hp : (h.node i).parents = []) :
    clearCache s i none h = h.modify i (·.wipe none) := by
  simp [clearCache, clearCacheFull, clearLoop, hp, touchParents]

theorem removeParent_absent {q : Id} {k : Name} : ∀ {ps : List (Id × List Name)}, q ∉ ps.map (·.1) →
    removeParent q k ps = some ps := by
  intro ps
  induction ps with
  | nil => intro _; rfl
  | cons p ps ih =>
    obtain ⟨q', ns⟩ := p
    intro h
    simp only [List.map_cons, List.mem_cons, not_or] at h
    unfold removeParent
    rw [if_neg (Ne.symm h.1), ih h.2]; rfl

/-- Registered under other names only: `set.remove` raises. -/
theorem removeParent_other {q : Id} {k : Name} : ∀ {ps : List (Id × List Name)}, PsOk ps → q ∈ ps.map (·.1) → ¬ Reg ps q k →
    removeParent q k ps = none := by
  intro ps
  induction ps with
  | nil => intro _ h _; cases h
  | cons p ps ih =>
    obtain ⟨q', ns⟩ := p
    intro hok h hr
    unfold removeParent
    by_cases hq : q' = q
    · subst hq
      rw [if_pos rfl]
      have : k ∉ ns := fun hk => hr ⟨ns, by simp, hk⟩
      rw [if_neg this]
    · rw [if_neg hq, ih hok.tail ?_ (fun ⟨n, hm, hk⟩ => hr ⟨n, by simp [hm], hk⟩)]
      · rfl
      · simp only [List.map_cons, List.mem_cons] at h
        exact h.resolve_left (fun h => hq h.symm)

theorem addParent_filter {q : Id} {k : Name} : ∀ {ps : List (Id × List Name)},
    (addParent q k ps).filter (fun p => p.1 ≠ q) = ps.filter (fun p => p.1 ≠ q) := by
  intro ps
  induction ps with
  | nil => simp [addParent]
  | cons p ps ih =>
    obtain ⟨q', ns⟩ := p
    unfold addParent
    by_cases hq : q' = q
    · subst hq; simp
    · rw [if_neg hq, List.filter_cons, List.filter_cons, ih]

/-- What an assignment does to its object when that has no parents. -/
def linkNode (s : Sig C T V D) (k : Name) (c : Id) (nd : Node C T V D) : Node C T V D :=
  { ((nd.addDirty [k]).invalidate s [k]).wipe none with dterms := fun m => if m = k then some c else nd.dterms m }

theorem setDterm_top {h : Heap C T V D} {i c : Id} {k : Name} (hp : (h.node i).parents = []) (hc : c ≠ i)
    (hu : unlink i k h = some h) :
    setDterm s i k c none h = ((h.modify c (fun nd => { nd with parents := addParent i k nd.parents })).modify i
      (linkNode s k c), .ok ()) := by
  unfold setDterm
  rw [hu]
  dsimp only
  have hp2 : (((h.modify c (fun nd => { nd with parents := addParent i k nd.parents })).modify i
      (fun nd => (nd.addDirty [k]).invalidate s [k])).node i).parents = [] := by
    rw [modify_node_self, modify_node_ne _ _ (Ne.symm hc)]; exact hp
  rw [clearCache_top s hp2]
  congr 1
  refine Heap.ext' rfl (fun j => ?_) rfl rfl
  by_cases hj : j = i
  · subst hj; simp only [modify_node_self]; rfl
  · simp only [modify_node_ne _ _ hj]

/-- The state while the links of the new object `i` are being restored: `done` are those registered so far. -/
structure CInv (h0 : Heap C T V D) (i : Id) (cls : C) (done : List (Name × Id)) (h : Heap C T V D) : Prop where
  next : h.next = h0.next + 1
  giter : h.giter = h0.giter
  log : h.log = h0.log
  off : ∀ j, j ≠ i → h.node j = { h0.node j with parents := (h.node j).parents }
  filt : ∀ j, j ≠ i → (h.node j).parents.filter (fun p => p.1 ≠ i) = (h0.node j).parents
  par : (h.node i).parents = []
  cls : (h.node i).cls = cls
  reg : ∀ c, c ≠ i → ∀ k, Reg (h.node c).parents i k ↔ (k, c) ∈ done
  ok : ∀ c, PsOk (h.node c).parents

theorem CInv.key {h0 h : Heap C T V D} {i : Id} {cls : C} {done : List (Name × Id)} (x : CInv h0 i cls done h) {c : Id} (hc : c ≠ i) :
    i ∈ (h.node c).parents.map (·.1) ↔ c ∈ done.map (·.2) := by
  constructor
  · intro h1
    obtain ⟨⟨q, ns⟩, hm, rfl⟩ := List.mem_map.1 h1
    obtain ⟨hne, _⟩ := (x.ok c).names q ns hm
    obtain ⟨k, ks, rfl⟩ := List.exists_cons_of_ne_nil hne
    exact List.mem_map.2 ⟨(k, c), (x.reg c hc k).1 ⟨_, hm, by simp⟩, rfl⟩
  · intro h1
    obtain ⟨⟨k, c'⟩, hm, rfl⟩ := List.mem_map.1 h1
    obtain ⟨ns, hm', _⟩ := (x.reg c' hc k).2 hm
    exact List.mem_map.2 ⟨_, hm', rfl⟩

theorem CInv.step {h0 h : Heap C T V D} {i : Id} {cls : C} {done : List (Name × Id)} (x : CInv h0 i cls done h) {k : Name} {c : Id}
    (hc : c ≠ i) : CInv h0 i cls ((k, c) :: done)
      ((h.modify c (fun nd => { nd with parents := addParent i k nd.parents })).modify i (linkNode s k c)) where
  next := x.next
  giter := x.giter
  log := x.log
  off j hj := by
    rw [modify_node_ne _ _ hj, modify_node]
    split
    · subst_vars; rw [x.off j hj]
    · exact x.off j hj
  filt j hj := by
    rw [modify_node_ne _ _ hj, modify_node]
    split
    · subst_vars; dsimp only; rw [addParent_filter]; exact x.filt j hj
    · exact x.filt j hj
  par := by rw [modify_node_self, modify_node_ne _ _ (Ne.symm hc)]; exact x.par
  cls := by rw [modify_node_self, modify_node_ne _ _ (Ne.symm hc)]; exact x.cls
  reg c' hc' k' := by
    rw [modify_node_ne _ _ hc', modify_node]
    split
    · subst_vars
      dsimp only
      rw [addParent_reg, x.reg c' hc' k']
      simp only [List.mem_cons, Prod.mk.injEq, true_and, and_true]
      exact or_comm
    · rename_i hne
      rw [x.reg c' hc' k']
      simp only [List.mem_cons, Prod.mk.injEq, hne, and_false, false_or]
  ok c' := by
    rw [modify_node]
    split
    · show PsOk ((h.modify c _).node i).parents
      rw [modify_node_ne _ _ (Ne.symm hc)]; exact x.ok i
    · rw [modify_node]; split
      · exact addParent_ok i k (x.ok c)
      · exact x.ok c'

/-- Whether restoring the links succeeds depends only on whether some object is referred to under two names. -/
theorem linkAll_outcome {h0 : Heap C T V D} {i : Id} {cls : C} : ∀ (ls done : List (Name × Id)) (h : Heap C T V D),
    CInv h0 i cls done h → (∀ l ∈ ls, l.2 ≠ i ∧ (h.node i).dterms l.1 = some l.2) →
    ((done ++ ls).map (·.1)).Nodup → (done.map (·.2)).Nodup →
    if ((done ++ ls).map (·.2)).Nodup then
      ∃ h' done', linkAll s i ls h = (h', .ok ()) ∧ CInv h0 i cls done' h'
    else ∃ h' done', linkAll s i ls h = (h', .error .key) ∧ CInv h0 i cls done' h' := by
  intro ls
  induction ls with
  | nil =>
    intro done h x _ _ hd
    rw [List.append_nil, if_pos hd]
    exact ⟨h, done, rfl, x⟩
  | cons l ls ih =>
    obtain ⟨k, c⟩ := l
    intro done h x hl hn hd
    obtain ⟨hc, hdt⟩ := hl (k, c) (by simp)
    dsimp only at hc hdt
    by_cases hm : c ∈ done.map (·.2)
    · -- already registered under another name
      have hnn : ¬ ((done ++ (k, c) :: ls).map (·.2)).Nodup := by
        intro h1
        rw [List.map_append, List.nodup_append] at h1
        exact h1.2.2 c hm c (by simp) rfl
      rw [if_neg hnn]
      have hnr : ¬ Reg (h.node c).parents i k := by
        rw [x.reg c hc]
        intro h1
        rw [List.map_append, List.nodup_append] at hn
        exact hn.2.2 k (List.mem_map.2 ⟨_, h1, rfl⟩) k (by simp) rfl
      have hu : unlink i k h = none := by
        unfold unlink
        rw [hdt]
        dsimp only
        rw [removeParent_other (x.ok c) ((x.key hc).2 hm) hnr]
      refine ⟨h, done, ?_, x⟩
      simp only [linkAll, M.bind, setDterm, hu]
    · have hu : unlink i k h = some h := by
        unfold unlink
        rw [hdt]
        dsimp only
        rw [removeParent_absent (fun h1 => hm ((x.key hc).1 h1))]
        dsimp only
        congr 1
        refine Heap.ext' rfl (fun j => ?_) rfl rfl
        rw [modify_node]; split
        · subst_vars; rfl
        · rfl
      have hst := setDterm_top (s := s) x.par hc hu
      have hx := x.step (s := s) (k := k) hc
      have hperm : ((k, c) :: done ++ ls).Perm (done ++ (k, c) :: ls) := List.perm_middle.symm
      have := ih ((k, c) :: done) _ hx (fun l hl' => ?_) ?_ ?_
      · have he : linkAll s i ((k, c) :: ls) h = linkAll s i ls ((h.modify c (fun nd => { nd with parents := addParent i k nd.parents })).modify i
            (linkNode s k c)) := by
          simp only [linkAll, M.bind, hst]
        rw [he]
        by_cases hnd : ((done ++ (k, c) :: ls).map (·.2)).Nodup
        · rw [if_pos hnd]
          rwa [if_pos ((hperm.map _).nodup_iff.2 hnd)] at this
        · rw [if_neg hnd]
          rwa [if_neg (fun h => hnd ((hperm.map _).nodup_iff.1 h))] at this
      · obtain ⟨h1, h2⟩ := hl l (by simp [hl'])
        refine ⟨h1, ?_⟩
        rw [modify_node_self, modify_node_ne _ _ (Ne.symm hc)]
        simp only [linkNode]
        have : l.1 ≠ k := by
          rintro rfl
          rw [List.map_append, List.nodup_append] at hn
          simp only [List.map_cons] at hn
          exact (List.nodup_cons.1 hn.2.1).1 (List.mem_map.2 ⟨l, hl', rfl⟩)
        rw [if_neg this]; exact h2
      · exact (hperm.map _).nodup_iff.2 hn
      · exact List.nodup_cons.2 ⟨hm, hd⟩

/-- The new object without links, with the properties that the restoring of the links leaves valid. -/
def cloneBase (s : Sig C T V D) (j : Id) (names : List Name) (h : Heap C T V D) : Heap C T V D :=
  { h.modify h.next (fun _ => (cloneNode s (h.node j) []).invalidate s names) with next := h.next + 1 }

/-- `hA` is the state with the dictionary restored at once, `hB` the one built link by link. -/
structure Twin (s : Sig C T V D) (i : Id) (all : List Name) (dt : Name → Option Id) (done : List Name)
    (hA hB : Heap C T V D) : Prop where
  next : hA.next = hB.next
  giter : hA.giter = hB.giter
  log : hA.log = hB.log
  off : ∀ j, j ≠ i → hA.node j = hB.node j
  self : hA.node i = { hB.node i with dterms := dt, props := (hA.node i).props }
  propsB : ∀ p, (hB.node i).props p = ((hA.node i).invalidate s all).props p
  propsDone : ∀ p, Hits s (hA.node i).cls p done → (hA.node i).props p = none
  dtB : ∀ k, (hB.node i).dterms k = if k ∈ done then dt k else none
  par : (hA.node i).parents = []

theorem Twin.eq {i : Id} {all : List Name} {dt : Name → Option Id} {done : List Name} {hA hB : Heap C T V D}
    (x : Twin s i all dt done hA hB) (hall : ∀ k ∈ all, k ∈ done) (hdt : ∀ k, k ∉ done → dt k = none) : hA = hB := by
  refine Heap.ext' x.next (fun j => ?_) x.giter x.log
  by_cases hj : j = i
  · subst hj
    have h1 : (hB.node j).dterms = dt := funext fun k => by
      rw [x.dtB]; split
      · rfl
      · exact (hdt k ‹_›).symm
    have h2 : (hA.node j).props = (hB.node j).props := funext fun p => by
      rw [x.propsB]
      by_cases hh : Hits s (hA.node j).cls p all
      · rw [(invalidate_props s _ all p).1 hh]
        obtain ⟨d, hd, k, hk, hka⟩ := hh
        exact x.propsDone p ⟨d, hd, k, hk, hall k hka⟩
      · rw [(invalidate_props s _ all p).2 hh]
    have h3 := x.self
    rw [h2, ← h1] at h3
    exact h3
  · exact x.off j hj

theorem linkNode_props (k : Name) (c : Id) (nd : Node C T V D) (p : Name) :
    (Hits s nd.cls p [k] → (linkNode s k c nd).props p = none) ∧ (¬ Hits s nd.cls p [k] → (linkNode s k c nd).props p = nd.props p) :=
  invalidate_props s (nd.addDirty [k]) [k] p

theorem linkNode_congr (k : Name) (c : Id) (nd : Node C T V D) (dt : Name → Option Id) (pr : Name → Option V) (hk : dt k = some c) :
    linkNode s k c { nd with dterms := dt, props := pr } =
      { linkNode s k c nd with dterms := dt, props := (linkNode s k c { nd with dterms := dt, props := pr }).props } := by
  have : (fun m => if m = k then some c else dt m) = dt := funext fun m => by
    split
    · subst_vars; exact hk.symm
    · rfl
  simp only [linkNode, Node.addDirty, Node.invalidate, Node.wipe, this]

theorem Twin.step {i : Id} {all : List Name} {dt : Name → Option Id} {done : List Name} {hA hB : Heap C T V D}
    (x : Twin s i all dt done hA hB) {k : Name} {c : Id} (hc : c ≠ i) (hk : dt k = some c) (hka : k ∈ all) :
    Twin s i all dt (k :: done)
      ((hA.modify c (fun nd => { nd with parents := addParent i k nd.parents })).modify i (linkNode s k c))
      ((hB.modify c (fun nd => { nd with parents := addParent i k nd.parents })).modify i (linkNode s k c)) := by
  have eA : (((hA.modify c (fun nd => { nd with parents := addParent i k nd.parents })).modify i (linkNode s k c)).node i) =
      linkNode s k c (hA.node i) := by rw [modify_node_self, modify_node_ne _ _ (Ne.symm hc)]
  have eB : (((hB.modify c (fun nd => { nd with parents := addParent i k nd.parents })).modify i (linkNode s k c)).node i) =
      linkNode s k c (hB.node i) := by rw [modify_node_self, modify_node_ne _ _ (Ne.symm hc)]
  have hcls : (hB.node i).cls = (hA.node i).cls := by rw [x.self]
  refine ⟨x.next, x.giter, x.log, fun j hj => ?_, ?_, fun p => ?_, fun p hh => ?_, fun m => ?_, ?_⟩
  · rw [modify_node_ne _ _ hj, modify_node_ne _ _ hj, modify_node, modify_node, x.off c hc, x.off j hj]
  · rw [eA, eB]
    have := linkNode_congr (s := s) k c (hB.node i) dt (hA.node i).props hk
    rw [← x.self] at this
    exact this
  · rw [eA, eB]
    by_cases h1 : Hits s (hA.node i).cls p [k]
    · rw [(linkNode_props k c (hB.node i) p).1 (by rw [hcls]; exact h1)]
      have h2 : Hits s (hA.node i).cls p all := by
        obtain ⟨d, hd, m, hm, hmk⟩ := h1
        rw [List.mem_singleton] at hmk
        subst hmk
        exact ⟨d, hd, m, hm, hka⟩
      exact ((invalidate_props s (linkNode s k c (hA.node i)) all p).1 h2).symm
    · rw [(linkNode_props k c (hB.node i) p).2 (by rw [hcls]; exact h1), x.propsB]
      by_cases h2 : Hits s (hA.node i).cls p all
      · rw [(invalidate_props s (hA.node i) all p).1 h2]
        exact ((invalidate_props s (linkNode s k c (hA.node i)) all p).1 h2).symm
      · rw [(invalidate_props s (hA.node i) all p).2 h2, (invalidate_props s (linkNode s k c (hA.node i)) all p).2 h2,
          (linkNode_props k c (hA.node i) p).2 h1]
  · rw [eA] at hh ⊢
    have hh' : Hits s (hA.node i).cls p (k :: done) := hh
    by_cases h1 : Hits s (hA.node i).cls p [k]
    · exact (linkNode_props k c (hA.node i) p).1 h1
    · rw [(linkNode_props k c (hA.node i) p).2 h1]
      obtain ⟨d, hd, m, hm, hmk⟩ := hh'
      rcases List.mem_cons.1 hmk with rfl | hmk
      · exact absurd ⟨d, hd, m, hm, by simp⟩ h1
      · exact x.propsDone p ⟨d, hd, m, hm, hmk⟩
  · rw [eB]
    simp only [linkNode]
    by_cases hm : m = k
    · subst hm; simp [hk]
    · rw [if_neg hm, x.dtB]; simp [hm]
  · rw [eA]; exact x.par

/-- When no object occurs under two names, restoring the dictionary and registering is the same as building the object
link by link. -/
theorem linkAll_twin {h0 : Heap C T V D} {i : Id} {cls : C} {all : List Name} {dt : Name → Option Id} :
    ∀ (ls done : List (Name × Id)) (hA hB : Heap C T V D),
    CInv h0 i cls done hA → Twin s i all dt (done.map (·.1)) hA hB → (∀ l ∈ ls, l.2 ≠ i ∧ dt l.1 = some l.2 ∧ l.1 ∈ all) →
    ((done ++ ls).map (·.1)).Nodup → ((done ++ ls).map (·.2)).Nodup →
    ∃ hA' hB' done', linkAll s i ls hA = (hA', .ok ()) ∧ linkAll s i ls hB = (hB', .ok ()) ∧
      Twin s i all dt done' hA' hB' ∧ ∀ k, k ∈ done' ↔ k ∈ (done ++ ls).map (·.1) := by
  intro ls
  induction ls with
  | nil =>
    intro done hA hB _ y _ _ _
    exact ⟨hA, hB, _, rfl, rfl, y, fun k => by rw [List.append_nil]⟩
  | cons l ls ih =>
    obtain ⟨k, c⟩ := l
    intro done hA hB x y hl hn hd
    obtain ⟨hc, hdt, hka⟩ := hl (k, c) (by simp)
    dsimp only at hc hdt hka
    have hm : c ∉ done.map (·.2) := by
      intro h1
      rw [List.map_append, List.nodup_append] at hd
      exact hd.2.2 c h1 c (by simp) rfl
    have hkd : k ∉ done.map (·.1) := by
      intro h1
      rw [List.map_append, List.nodup_append] at hn
      exact hn.2.2 k h1 k (by simp) rfl
    have huA : unlink i k hA = some hA := by
      unfold unlink
      have : (hA.node i).dterms k = some c := by rw [y.self]; exact hdt
      rw [this]
      dsimp only
      rw [removeParent_absent (fun h1 => hm ((x.key hc).1 h1))]
      dsimp only
      congr 1
      refine Heap.ext' rfl (fun j => ?_) rfl rfl
      rw [modify_node]; split
      · subst_vars; rfl
      · rfl
    have huB : unlink i k hB = some hB := by
      unfold unlink
      rw [y.dtB, if_neg hkd]
    have hparB : (hB.node i).parents = [] := by
      have := y.self
      have h2 := y.par
      rw [this] at h2; exact h2
    have hstA := setDterm_top (s := s) x.par hc huA
    have hstB := setDterm_top (s := s) hparB hc huB
    have hperm : ((k, c) :: done ++ ls).Perm (done ++ (k, c) :: ls) := List.perm_middle.symm
    obtain ⟨hA', hB', done', eA, eB, z, hmem⟩ := ih ((k, c) :: done) _ _ (x.step (s := s) (k := k) hc) (y.step hc hdt hka)
      (fun l hl' => hl l (by simp [hl'])) ((hperm.map _).nodup_iff.2 hn) ((hperm.map _).nodup_iff.2 hd)
    refine ⟨hA', hB', done', ?_, ?_, z, fun k' => by rw [hmem, (hperm.map _).mem_iff]⟩
    · simp only [linkAll, M.bind, hstA]; exact eA
    · simp only [linkAll, M.bind, hstB]; exact eB

theorem lookup_of_mem {ls : List (Name × Id)} (hn : (ls.map (·.1)).Nodup) {l : Name × Id} (hl : l ∈ ls) :
    ls.lookup l.1 = some l.2 := by
  induction ls with
  | nil => cases hl
  | cons a ls ih =>
    simp only [List.map_cons, List.nodup_cons] at hn
    rcases List.mem_cons.1 hl with rfl | hl'
    · simp [List.lookup]
    · have : l.1 ≠ a.1 := fun e => hn.1 (e ▸ List.mem_map.2 ⟨l, hl', rfl⟩)
      obtain ⟨a1, a2⟩ := a
      simp only [List.lookup, beq_eq_false_iff_ne.2 this]
      exact ih hn.2 hl'

theorem lookup_none {ls : List (Name × Id)} {k : Name} (h : k ∉ ls.map (·.1)) : ls.lookup k = none := by
  induction ls with
  | nil => rfl
  | cons a ls ih =>
    obtain ⟨a1, a2⟩ := a
    simp only [List.map_cons, List.mem_cons, not_or] at h
    simp only [List.lookup, beq_eq_false_iff_ne.2 h.1]
    exact ih h.2

/-- The guard of `clone`, in words. -/
structure CloneGuard (h : Heap C T V D) (j : Id) (ls : List (Name × Id)) : Prop where
  alive : (h.node j).alive = true
  names : (ls.map (·.1)).Nodup
  link : ∀ l ∈ ls, (h.node l.2).alive = true ∧ l.1 ∈ (h.node j).dnames ∧ ((h.node j).dterms l.1).isSome = true
  all : ∀ k ∈ (h.node j).dnames, ((h.node j).dterms k).isSome = true → k ∈ ls.map (·.1)

theorem cloneOk_iff {h : Heap C T V D} {j : Id} {ls : List (Name × Id)} : CloneOk h j ls = true ↔ CloneGuard h j ls := by
  unfold CloneOk
  simp only [Bool.and_eq_true, decide_eq_true_eq, List.all_eq_true, Bool.or_eq_true, Bool.not_eq_true', List.contains_iff_mem]
  constructor
  · rintro ⟨⟨⟨h1, h2⟩, h3⟩, h4⟩
    refine ⟨h1, h2, fun l hl => ⟨(h3 l hl).1, (h3 l hl).2.1, (h3 l hl).2.2⟩, fun k hk hs => ?_⟩
    rcases h4 k hk with h5 | h5
    · rw [h5] at hs; cases hs
    · exact h5
  · rintro ⟨h1, h2, h3, h4⟩
    refine ⟨⟨⟨h1, h2⟩, fun l hl => ⟨(h3 l hl).1, (h3 l hl).2.1, (h3 l hl).2.2⟩⟩, fun k hk => ?_⟩
    cases hs : ((h.node j).dterms k).isSome with
    | false => exact Or.inl rfl
    | true => exact Or.inr (h4 k hk hs)

/-- `clone`, case by case. -/
theorem clone_spec {h : Heap C T V D} (hs : Str h) {j : Id} {ls : List (Name × Id)} (hg : CloneGuard h j ls) :
    if (ls.map (·.2)).Nodup then
      ∃ h', linkAll s h.next ls (cloneBase s j (ls.map (·.1)) h) = (h', .ok ()) ∧ clone s j ls h = (h', .ok h.next)
    else clone s j ls h = (collect h.next
      (alloc (h.node j).cls (h.node j).dnames (h.node j).makeDense (h.node j).makeSparse h).1, .error .key) := by
  have hlt : ∀ l ∈ ls, l.2 ≠ h.next := fun l hl e => by
    have := (hg.link l hl).1
    rw [e, hs.unborn h.next (Nat.le_refl _)] at this; cases this
  have hnr : ∀ c k, ¬ Reg (h.node c).parents h.next k := fun c k hr => by
    have := (hs.links.exact h.next k c).2 hr
    rw [Heap.graph_apply, (hs.dead h.next (hs.unborn h.next (Nat.le_refl _))).2.1 k] at this; cases this
  let h1 : Heap C T V D := { h.modify h.next (fun _ => cloneNode s (h.node j) ls) with next := h.next + 1 }
  have n1 : h1.node h.next = cloneNode s (h.node j) ls := modify_node_self h h.next (fun _ => cloneNode s (h.node j) ls)
  have n2 : ∀ c, c ≠ h.next → h1.node c = h.node c := fun c hc => modify_node_ne h (fun _ => cloneNode s (h.node j) ls) hc
  have x : CInv h h.next (h.node j).cls [] h1 := by
    refine ⟨rfl, rfl, rfl, fun c hc => by rw [n2 c hc], fun c hc => ?_, by rw [n1]; rfl, by rw [n1]; rfl, fun c hc k => ?_, fun c => ?_⟩
    · rw [n2 c hc, List.filter_eq_self]
      intro p hp
      obtain ⟨q, ns⟩ := p
      obtain ⟨hne, _⟩ := (hs.links.ok c).names q ns hp
      obtain ⟨k, ks, rfl⟩ := List.exists_cons_of_ne_nil hne
      simp only [decide_eq_true_eq]
      rintro rfl
      exact hnr c k ⟨_, hp, by simp⟩
    · rw [n2 c hc]; simp [hnr]
    · by_cases hc : c = h.next
      · subst hc; rw [n1]; exact PsOk.nil
      · rw [n2 c hc]; exact hs.links.ok c
  have hl1 : ∀ l ∈ ls, l.2 ≠ h.next ∧ (h1.node h.next).dterms l.1 = some l.2 := fun l hl =>
    ⟨hlt l hl, by rw [n1]; exact lookup_of_mem hg.names hl⟩
  have hcl : clone s j ls h = orCollect h.next (linkAll s h.next ls) h1 := by
    unfold clone
    rw [if_pos (cloneOk_iff.2 hg)]
  rw [hcl]
  split
  · rename_i hnd
    have m1 : (cloneBase s j (ls.map (·.1)) h).node h.next = (cloneNode s (h.node j) []).invalidate s (ls.map (·.1)) :=
      modify_node_self h h.next (fun _ => (cloneNode s (h.node j) []).invalidate s (ls.map Prod.fst))
    have m2 : ∀ c, c ≠ h.next → (cloneBase s j (ls.map (·.1)) h).node c = h.node c := fun c hc =>
      modify_node_ne h (fun _ => (cloneNode s (h.node j) []).invalidate s (ls.map Prod.fst)) hc
    have y : Twin s h.next (ls.map (·.1)) (fun k => ls.lookup k) [] h1 (cloneBase s j (ls.map (·.1)) h) := by
      refine ⟨rfl, rfl, rfl, fun c hc => by rw [n2 c hc, m2 c hc], ?_, fun p => ?_, fun p hh => ?_, fun k => ?_, ?_⟩
      · rw [n1, m1]; rfl
      · rw [n1, m1]; rfl
      · obtain ⟨_, _, _, _, hk⟩ := hh; cases hk
      · rw [m1]; rfl
      · rw [n1]; rfl
    obtain ⟨hA, hB, done, eA, eB, z, hm⟩ := linkAll_twin (s := s) ls [] h1 _ x y
      (fun l hl => ⟨hlt l hl, lookup_of_mem hg.names hl, List.mem_map.2 ⟨l, hl, rfl⟩⟩) hg.names hnd
    have hAB : hA = hB := z.eq (fun k hk => (hm k).2 hk) (fun k hk => lookup_none (fun h => hk ((hm k).2 h)))
    refine ⟨hB, eB, ?_⟩
    simp only [orCollect, eA, hAB]
  · rename_i hnd
    have := linkAll_outcome (s := s) ls [] h1 x hl1 hg.names List.nodup_nil
    rw [List.nil_append, if_neg hnd] at this
    obtain ⟨h', done', e, x'⟩ := this
    simp only [orCollect, e]
    congr 1
    refine Heap.ext' x'.next (fun c => ?_) x'.giter x'.log
    simp only [collect, alloc]
    by_cases hc : c = h.next
    · rw [if_pos hc, if_pos hc, x'.cls, modify_node_self]; rfl
    · rw [if_neg hc, if_neg hc, modify_node_ne _ _ hc]
      have h3 : (h.node c).parents.filter (fun p => p.1 ≠ h.next) = (h.node c).parents := by
        rw [← x'.filt c hc, List.filter_filter]
        simp
      rw [x'.filt c hc, h3]
      rw [x'.off c hc]

/-! ### The invariants -/

theorem cloneBase_node (j : Id) (names : List Name) (h : Heap C T V D) (m : Id) : (cloneBase s j names h).node m =
    if m = h.next then (cloneNode s (h.node j) []).invalidate s names else h.node m := by
  unfold cloneBase
  dsimp only
  rw [modify_node]

theorem cloneBase_str {h : Heap C T V D} (hs : Str h) {j : Id} (names : List Name) : Str (cloneBase s j names h) := by
  have hdead := hs.dead h.next (hs.unborn h.next (Nat.le_refl _))
  have hnode := cloneBase_node (s := s) j names h
  have hpar : (cloneBase s j names h).par = h.par := by
    funext m
    show ((cloneBase s j names h).node m).parents = (h.node m).parents
    rw [hnode]; split
    · subst_vars; exact hdead.1.symm
    · rfl
  refine ⟨?_, ?_, ?_, ?_, ?_, ?_⟩
  · rw [hpar]
    refine hs.links.congr ?_
    intro q k
    show ((cloneBase s j names h).node q).dterms k = (h.node q).dterms k
    rw [hnode]; split
    · subst_vars; exact (hdead.2.1 k).symm
    · rfl
  · intro n hn
    rw [hnode] at hn ⊢
    split at hn
    · cases hn
    · rw [if_neg ‹_›]; exact hs.dead n hn
  · intro n hn
    have hn' : h.next + 1 ≤ n := hn
    rw [hnode, if_neg (Nat.ne_of_gt (Nat.lt_of_lt_of_le (Nat.lt_succ_self _) hn'))]
    exact hs.unborn n (by omega)
  · intro q k c hk
    rw [hnode] at hk ⊢
    split at hk
    · cases hk
    · rw [if_neg ‹_›]; exact hs.dn q k c hk
  · intro i w d hd
    rw [hnode] at hd
    split at hd
    · cases hd
    · rw [hnode]; split
      · rfl
      · exact hs.keys i w d hd
  · intro n t hn
    rw [hnode] at hn
    split at hn
    · have hn' : (if s.isBase (h.node j).cls && ((h.node j).terms s.xname).isSome then none else (h.node j).itr) = some t := hn
      split at hn'
      · cases hn'
      · exact hs.tags j t hn'
    · exact hs.tags n t hn

/-- A property none of whose declared names is a link has the same value in an object with the same terms. -/
theorem evalProp_copy (hs : s.PropsOk) {g g' : Graph C T} {j j' : Id} (hcls : (g' j').cls = (g j).cls)
    (hterms : (g' j').terms = (g j).terms) (f : Nat) : ∀ p d, s.propDecl (g j).cls p = some d →
      (∀ k ∈ d.1, (g j).dterms k = none ∧ (g' j').dterms k = none) →
      evalReq s g' f (.prop j' p) = evalReq s g f (.prop j p) := by
  induction f with
  | zero => intros; rfl
  | succ f ih =>
    intro p d hd h1
    simp only [evalReq, hcls, hd]
    have hon := hs _ _ _ hd
    generalize d.2 = pr at hon
    induction pr with
    | ret a => rfl
    | raise c => rfl
    | term n k ihk =>
      simp only [Prog.Only] at hon
      simp only [evalProg, hterms]
      exact ihk _ (hon.2 _)
    | child n k ihk =>
      simp only [Prog.Only] at hon
      simp only [evalProg]
      rw [(h1 n hon.1).1, (h1 n hon.1).2]
    | prop q k ihk =>
      simp only [Prog.Only] at hon
      obtain ⟨⟨ds, hds, hsub⟩, hrest⟩ := hon
      simp only [evalProg]
      cases hq : s.propDecl (g j).cls q with
      | none => rw [hq] at hds; cases hds
      | some d' =>
        rw [hq] at hds
        simp only [Option.map_some, Option.some.injEq] at hds
        subst hds
        rw [ih q d' hq (fun k hk => h1 k (hsub k hk))]
        cases evalReq s g f (.prop j q) with
        | ok v => exact ihk v (hrest v)
        | error e => rfl
    | selfR k ihk => simp only [Prog.Only] at hon

/-- In the copy without links nothing is stale. -/
theorem cloneBase_coh {U : Graph C T → Id → Id → Option D → Prop} [Local s U] {fr : Mode} (hpo : s.PropsOk) {h : Heap C T V D} (hs : Str h) {j : Id} {ls : List (Name × Id)}
    (hg : CloneGuard h j ls) (hc : Coh s U (Wf s fr) h) : Coh s U (Wf s fr) (cloneBase s j (ls.map (·.1)) h) := by
  have hdead := hs.dead h.next (hs.unborn h.next (Nat.le_refl _))
  have hnode := cloneBase_node (s := s) j (ls.map (·.1)) h
  have hself := hnode h.next
  rw [if_pos rfl] at hself
  have hoff : SameOff h.graph (cloneBase s j (ls.map (·.1)) h).graph h.next := by
    intro m hm; rw [Heap.graph_apply, hnode, if_neg hm]; rfl
  refine (CohX.fresh (hc.cohX (fun _ => False)) hoff (fun m hm => hs.anc_of_no_parents hdead.1 hm) ⟨?_, ?_, ?_⟩ ?_ ⟨?_, ?_, ?_⟩
    (fun _ _ => hdead.2.2) ?_ (fun w hw => Wf_of_cls (by rw [hoff w hw]))).coh
  · intro m v e; rw [hnode] at e; split at e
    · cases e
    · exact e
  · intro m p v hm e; rw [hnode, if_neg hm] at e; exact e
  · intro m w d e; rw [hnode] at e; split at e
    · cases e
    · exact e
  · intro m hm e; rw [hnode, if_neg hm]; exact e
  · rw [hself]; rfl
  · intro w; rw [hself]; rfl
  · intro p v e
    rw [hself] at e
    by_cases hh : Hits s (h.node j).cls p (ls.map (·.1))
    · rw [(invalidate_props s (cloneNode s (h.node j) []) _ p).1 hh] at e; cases e
    · rw [(invalidate_props s (cloneNode s (h.node j) []) _ p).2 hh] at e
      have hm := hc.p j p v e
      refine ⟨hm.1, hm.2.imp fun f hf => Eq.trans ?_ hf⟩
      have hcls : ((cloneBase s j (ls.map (·.1)) h).graph h.next).cls = (h.graph j).cls := by
        rw [Heap.graph_apply, hself]; rfl
      cases hd : s.propDecl (h.graph j).cls p with
      | none =>
        cases f with
        | zero => rfl
        | succ f => simp only [evalReq, hcls, hd]
      | some d =>
        refine evalProp_copy hpo hcls (by rw [Heap.graph_apply, hself]; rfl) f p d hd (fun k hk => ⟨?_, ?_⟩)
        · show (h.node j).dterms k = none
          cases e2 : (h.node j).dterms k with
          | none => rfl
          | some c => exact absurd ⟨d, hd, k, hk, hg.all k (hs.dn j k c e2) (by rw [e2]; rfl)⟩ hh
        · show ((cloneBase s j (ls.map (·.1)) h).node h.next).dterms k = none
          rw [hself]; rfl
  · intro m; rw [hnode]; split
    · rfl
    · exact hs.next_unused m

theorem cloneBase_perm {h : Heap C T V D} {j : Id} (names : List Name) (hp : PermOne s h) :
    PermOne s (cloneBase s j names h) := by
  intro n hn k hk
  rw [Heap.graph_apply, cloneBase_node] at hn hk
  split at hn
  · rw [if_pos ‹_›] at hk; exact hp j hn k hk
  · rw [if_neg ‹_›] at hk; exact hp n hn k hk

theorem cloneBase_flags {h : Heap C T V D} {j : Id} (names : List Name) (hp : Flags h) : Flags (cloneBase s j names h) := by
  intro n
  rw [Heap.graph_apply, cloneBase_node]
  split
  · exact hp j
  · exact hp n

/-- What registering the links of a new object achieves. -/
structure LinkPost (s : Sig C T V D) (fr : Mode) (h h' : Heap C T V D) (i : Id) (ls : List (Name × Id)) : Prop where
  str : Str h'
  alive : ∀ m, (h.node m).alive = true → (h'.node m).alive = true
  shrink : Shrink h h'
  perm : PermOne s h → PermOne s h'
  flags : Flags h → Flags h'
  coh : ∀ {U : Graph C T → Id → Id → Option D → Prop} [Local s U], s.PropsOk → WOk s fr h i → Coh s U (Wf s fr) h → Coh s U (Wf s fr) h'
  graph : h'.graph = fun m => if m = i then { h.graph i with dterms := fun k => (ls.lookup k).or ((h.graph i).dterms k) } else h.graph m
  par : (h'.node i).parents = []
  giter : h'.giter = h.giter
  next : h'.next = h.next
  aliveEq : ∀ m, (h'.node m).alive = (h.node m).alive
  log : h'.log = h.log
  dirty : ∀ m, ∀ k ∈ (h.node m).dirty, k ∈ (h'.node m).dirty
  itr : (∀ m, (h.node m).itr = none) → ∀ m, (h'.node m).itr = none

theorem linkAll_post {fr : Mode} (i : Id) : ∀ (ls : List (Name × Id)) {h : Heap C T V D}, Str h → (h.node i).alive = true →
    (h.node i).parents = [] → (ls.map (·.1)).Nodup →
    (∀ l ∈ ls, l.1 ∈ (h.node i).dnames ∧ (h.node l.2).alive = true ∧ l.2 ≠ i) →
    LinkPost s fr h (linkAll s i ls h).1 i ls ∧ (linkAll s i ls h).2 = .ok () := by
  intro ls
  induction ls with
  | nil =>
    intro h hs _ hp _ _
    refine ⟨⟨hs, fun _ h => h, Shrink.refl h, id, id, fun _ _ h => h, ?_, hp, rfl, rfl, fun _ => rfl, rfl, fun _ _ h => h, id⟩, rfl⟩
    funext m
    show h.graph m = _
    split
    · subst_vars; rfl
    · rfl
  | cons l ls ih =>
    intro h hs ha hp hn hl
    obtain ⟨hk, hc, hci⟩ := hl l (by simp)
    obtain ⟨a, hok, hpar⟩ := setDterm_post (s := s) (fr := fr) hs ha hk hc (itr := none) (by intro t h; cases h) True
    obtain ⟨_, _, w, _, hg4⟩ := setDterm_writing (s := s) h hs i l.1 l.2 none hc
    have he : linkAll s i (l :: ls) h = linkAll s i ls (setDterm s i l.1 l.2 none h).1 := by
      simp only [linkAll, M.bind]
      rcases hx : setDterm s i l.1 l.2 none h with ⟨h1, r⟩
      rw [hx] at hok; dsimp only at hok; subst hok; rfl
    rw [he]
    generalize hh1 : (setDterm s i l.1 l.2 none h).1 = h1 at *
    have hgi : h1.graph i = { h.graph i with dterms := fun m => if m = l.1 then some l.2 else (h.graph i).dterms m } := by
      rw [hg4]; simp [setLink]
    have hpar1 : (h1.node i).parents = [] := hpar i (Ne.symm hci) hp
    rw [List.map_cons, List.nodup_cons] at hn
    obtain ⟨b, hok2⟩ := ih (h := h1) a.str (a.alive i ha) hpar1 hn.2 (fun l' hl' => by
      obtain ⟨x, y, z⟩ := hl l' (by simp [hl'])
      refine ⟨?_, a.alive _ y, z⟩
      show l'.1 ∈ (h1.graph i).dnames
      rw [hgi]; exact x)
    refine ⟨⟨b.str, fun m hm => b.alive m (a.alive m hm), a.shrink.trans b.shrink, fun h => b.perm (a.perm h),
      fun h => b.flags (a.flags h), fun hpo hw hc' => ?_, ?_, b.par, b.giter.trans a.giter,
      b.next.trans (w.next4.trans w.next2), fun m => (b.aliveEq m).trans (w.alive4 m), b.log.trans w.log4,
      fun m k hk => b.dirty m k ?_, fun hn => b.itr (fun m => ?_)⟩, hok2⟩
    · refine b.coh hpo ?_ (a.coh hpo hw (TagInv.none s h) hc')
      exact hw.mono a.shrink a.perm (a.cls i ha) (fun _ => hpar1)
    · rw [b.graph]
      funext m
      by_cases hm : m = i
      · subst hm
        rw [if_pos rfl, if_pos rfl, hgi]
        dsimp only
        congr 1
        funext k
        obtain ⟨l1, l2⟩ := l
        by_cases hkl : k = l1
        · subst hkl
          rw [lookup_none hn.1]
          simp [List.lookup]
        · simp [List.lookup, beq_eq_false_iff_ne.2 hkl, hkl]
      · rw [if_neg hm, if_neg hm, hg4]; simp [setLink, hm]
    · obtain ⟨S, hp⟩ := w.post
      rw [(w.same4 m).2.2.2.2.2.2, hp.dirty]
      exact Or.inl ((w.dirty2 m k).2 (Or.inl hk))
    · obtain ⟨S, hp⟩ := w.post
      rw [(w.same4 m).2.2.2.1]
      by_cases hm : m ∈ S
      · exact (hp.wiped m hm).2.2
      · exact (hp.kept m hm).2.2.trans ((w.itr2 m).trans (hn m))

end Chumpy
