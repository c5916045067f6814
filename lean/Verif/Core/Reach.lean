import Verif.Core.Clone
import Verif.Core.ReadFrame
import Verif.Core.Step
/-! Invariants of all histories. -/
namespace Chumpy
variable {C T V D α : Type} {s : Sig C T V D} {fr : Mode}

/-- What `set` with several keywords achieves. -/
structure AllPost (s : Sig C T V D) (fr : Mode) (h h' : Heap C T V D) (i : Id) (kws : List (KW T)) (ok : Prop) :
    Prop where
  str : Str h'
  alive : ∀ j, (h.node j).alive = true → (h'.node j).alive = true
  giter : h'.giter = h.giter
  cls : ∀ j, (h.node j).alive = true → (h'.graph j).cls = (h.graph j).cls
  perm : PermOne s h → PermOne s h'
  flags : Flags h → Flags h'
  shrink : Shrink h h'
  par : ∀ j, (h.node j).alive = true → (∀ k, KW.link k j ∉ kws) → (h.node j).parents = [] → (h'.node j).parents = []
  cohX : ∀ {U : Graph C T → Id → Id → Option D → Prop} [Local s U], s.PropsOk → WOk s fr h i → ((fr.frozen → s.isPermute (h.graph i).cls = false) ∨ ∀ k, KW.link k i ∉ kws) →
    CohX s U (Wf s fr) h (Anc h.graph i) → CohX s U (Wf s fr) h' (Anc h'.graph i)
  done : ∀ {U : Graph C T → Id → Id → Option D → Prop} [Local s U], s.PropsOk → WOk s fr h i → ((fr.frozen → s.isPermute (h.graph i).cls = false) ∨ ∀ k, KW.link k i ∉ kws) →
    ok → kws ≠ [] → CohX s U (Wf s fr) h (Anc h.graph i) → Coh s U (Wf s fr) h'
  safe : ∀ {U : Graph C T → Id → Id → Option D → Prop} [Local s U], s.PropsOk → WOk s fr h i → ((fr.frozen → s.isPermute (h.graph i).cls = false) ∨ ∀ k, KW.link k i ∉ kws) →
    (kws.length ≤ 1 ∨ TagInv s h (some 9999)) → Coh s U (Wf s fr) h → Coh s U (Wf s fr) h'

theorem setAll_nil_post {h : Heap C T V D} (hs : Str h) (i : Id) (ok : Prop) :
    AllPost s fr h h i [] ok :=
  ⟨hs, fun _ h => h, rfl, fun _ _ => rfl, id, id, Shrink.refl h, fun _ _ _ h => h, fun _ _ _ h => h,
   fun _ _ _ _ h => absurd rfl h, fun _ _ _ _ h => h⟩

theorem setAll_post (i : Id) (kws : List (KW T)) : ∀ {h : Heap C T V D}, Str h → (h.node i).alive = true →
    AllPost s fr h (setAll s i kws h).1 i kws ((setAll s i kws h).2 = .ok ()) := by
  induction kws with
  | nil => intro h hs _; exact setAll_nil_post hs i _
  | cons kw kws ih =>
    intro h hs hi
    cases kws with
    | nil =>
      obtain ⟨a, b⟩ := setattr_post (s := s) (fr := fr) hs hi kw (itr := none) (by intro t h; cases h)
      simp only [setAll]
      exact
        { str := a.str, alive := a.alive, giter := a.giter, cls := a.cls, perm := a.perm, flags := a.flags
          shrink := a.shrink
          par := fun j hj hne hp => b j hj (fun k hk => hne k (by simp [hk])) hp
          cohX := fun hpo hw _ hc => a.cohX hpo hw hc
          done := fun hpo hw _ hok _ hc => a.done hpo hw hok rfl hc
          safe := fun hpo hw _ _ hc => a.coh hpo hw (TagInv.none s h) hc }
    | cons kw2 kws =>
      obtain ⟨a, b⟩ := setattr_post (s := s) (fr := fr) hs hi kw (itr := some 9999) (by intro t h; cases h; simp)
      have hw' : WOk s fr h i →
          ((fr.frozen → s.isPermute (h.graph i).cls = false) ∨ ∀ k, KW.link k i ∉ kw :: kw2 :: kws) →
          WOk s fr (setattr s i (some 9999) kw h).1 i := by
        intro hw hself
        rcases hself with hself | hself
        · intro hfr
          obtain ⟨x, y, _⟩ := hw hfr
          exact ⟨x, a.perm y, Or.inl (by rw [a.cls i hi]; exact hself hfr)⟩
        · exact hw.mono a.shrink a.perm (a.cls i hi) (fun hp => b i hi (fun k hk => hself k (by simp [hk])) hp)
      have hself' : ((fr.frozen → s.isPermute (h.graph i).cls = false) ∨ ∀ k, KW.link k i ∉ kw :: kw2 :: kws) →
          ((fr.frozen → s.isPermute ((setattr s i (some 9999) kw h).1.graph i).cls = false) ∨
            ∀ k, KW.link k i ∉ kw2 :: kws) := by
        rintro (hself | hself)
        · left; rw [a.cls i hi]; exact hself
        · right; intro k hk; exact hself k (List.mem_cons_of_mem _ hk)
      rw [setAll.eq_3 s i kw (kw2 :: kws) (by simp)]
      simp only [M.bind]
      rcases hx : setattr s i (some 9999) kw h with ⟨h1, r⟩
      rw [hx] at a b hw' hself'
      cases r with
      | error e =>
        dsimp only
        exact
          { str := a.str, alive := a.alive, giter := a.giter, cls := a.cls, perm := a.perm, flags := a.flags
            shrink := a.shrink
            par := fun j hj hne hp => b j hj (fun k hk => hne k (by simp [hk])) hp
            cohX := fun hpo hw _ hc => a.cohX hpo hw hc
            done := fun _ _ _ hok => by cases hok
            safe := fun hpo hw _ ht hc => by
              rcases ht with ht | ht
              · simp at ht
              · exact a.coh hpo hw ht hc
            }
      | ok u =>
        have c := ih a.str (a.alive i hi)
        dsimp only at c ⊢
        exact
          { str := c.str
            alive := fun j hj => c.alive j (a.alive j hj)
            giter := c.giter.trans a.giter
            cls := fun j hj => (c.cls j (a.alive j hj)).trans (a.cls j hj)
            perm := fun hp => c.perm (a.perm hp)
            flags := fun hp => c.flags (a.flags hp)
            shrink := a.shrink.trans c.shrink
            par := fun j hj hne hp => c.par j (a.alive j hj) (fun k hk => hne k (List.mem_cons_of_mem _ hk))
              (b j hj (fun k hk => hne k (by simp [hk])) hp)
            cohX := fun hpo hw hself hc => c.cohX hpo (hw' hw hself) (hself' hself) (a.cohX hpo hw hc)
            done := fun hpo hw hself hok _ hc => c.done hpo (hw' hw hself) (hself' hself) hok (by simp) (a.cohX hpo hw hc)
            safe := fun hpo hw hself ht hc => by
              rcases ht with ht | ht
              · simp at ht
              · exact c.safe hpo (hw' hw hself) (hself' hself) (Or.inr (a.tag ht)) (a.coh hpo hw ht hc) }

/-! ### Collection -/

theorem reg_filter {ps : List (Id × List Name)} {i q : Id} {k : Name} :
    Reg (ps.filter (fun p => p.1 ≠ i)) q k ↔ Reg ps q k ∧ q ≠ i := by
  unfold Reg
  simp only [List.mem_filter, decide_eq_true_eq]
  constructor
  · rintro ⟨ns, ⟨hm, hne⟩, hk⟩; exact ⟨⟨ns, hm, hk⟩, hne⟩
  · rintro ⟨⟨ns, hm, hk⟩, hne⟩; exact ⟨ns, ⟨hm, hne⟩, hk⟩

theorem psOk_filter {ps : List (Id × List Name)} (h : PsOk ps) (i : Id) :
    PsOk (ps.filter (fun p => p.1 ≠ i)) :=
  ⟨(List.filter_sublist.map _).nodup h.keys, fun q ns hm => h.names q ns (List.mem_filter.1 hm).1⟩

theorem collect_node (i : Id) (h : Heap C T V D) (j : Id) : (collect i h).node j =
    if j = i then { blankNode (h.node i).cls with itr := none }
    else { h.node j with
        parents := (h.node j).parents.filter (fun p => p.1 ≠ i)
        drs := fun w => if w = i then none else (h.node j).drs w } := rfl

theorem collect_str {h : Heap C T V D} (hs : Str h) {i : Id} (hp : (h.node i).parents = []) :
    Str (collect i h) := by
  have hnode := collect_node i h
  have self : (collect i h).node i = { blankNode (h.node i).cls with itr := none } := by rw [hnode, if_pos rfl]
  have hpari : h.par i = [] := hp
  refine ⟨⟨?_, ?_⟩, ?_, ?_, ?_, ?_, ?_⟩
  · intro q k n
    show ((collect i h).node q).dterms k = some n ↔ Reg ((collect i h).node n).parents q k
    by_cases hn : n = i
    · subst hn
      rw [self]
      have hno : ¬ ((collect n h).node q).dterms k = some n := by
        intro hk
        by_cases hq : q = n
        · subst hq; rw [self] at hk; cases hk
        · rw [hnode, if_neg hq] at hk
          have := (hs.links.exact q k n).1 hk
          rw [hpari] at this; obtain ⟨_, h, _⟩ := this; cases h
      refine ⟨fun h => absurd h hno, ?_⟩
      rintro ⟨_, h, _⟩; cases h
    · rw [hnode n, if_neg hn, reg_filter]
      by_cases hq : q = i
      · subst hq
        rw [self]
        refine ⟨fun h => (by cases h), fun h => absurd rfl h.2⟩
      · rw [hnode q, if_neg hq]
        have := hs.links.exact q k n
        exact ⟨fun h => ⟨this.1 h, hq⟩, fun h => this.2 h.1⟩
  · intro n
    show PsOk ((collect i h).node n).parents
    by_cases hn : n = i
    · subst hn; rw [self]; exact PsOk.nil
    · rw [hnode, if_neg hn]; exact psOk_filter (hs.links.ok n) i
  · intro n hn
    by_cases hni : n = i
    · subst hni; rw [self]; exact ⟨rfl, fun _ => rfl, rfl, rfl⟩
    · rw [hnode, if_neg hni] at hn ⊢
      obtain ⟨a, b, c⟩ := hs.dead n hn
      exact ⟨by dsimp only; rw [a]; rfl, b, c⟩
  · intro n hn
    by_cases hni : n = i
    · subst hni; rw [self]; rfl
    · rw [hnode, if_neg hni]; exact hs.unborn n hn
  · intro q k c hk
    by_cases hq : q = i
    · subst hq; rw [self] at hk; cases hk
    · rw [hnode, if_neg hq] at hk ⊢; exact hs.dn q k c hk
  · intro j w d hd
    by_cases hj : j = i
    · subst hj; rw [self] at hd; cases hd
    · rw [hnode, if_neg hj] at hd
      dsimp only at hd
      split at hd
      · cases hd
      · rw [hnode, if_neg ‹_›]; exact hs.keys j w d hd
  · intro n t ht
    by_cases hn : n = i
    · subst hn; rw [self] at ht; cases ht
    · rw [hnode, if_neg hn] at ht; exact hs.tags n t ht

theorem collect_cohX {U : Graph C T → Id → Id → Option D → Prop} [Local s U] {h : Heap C T V D} (hs : Str h) {i : Id} (hp : (h.node i).parents = [])
    (hfl : fr.plain → Flags h) {X : Id → Prop} (hc : CohX s U (Wf s fr) h X) : CohX s U (Wf s fr) (collect i h) X := by
  have hnode := collect_node i h
  have self : (collect i h).node i = { blankNode (h.node i).cls with itr := none } := by rw [hnode, if_pos rfl]
  have hoff : SameOff h.graph (collect i h).graph i := by
    intro j hj; rw [Heap.graph_apply, hnode, if_neg hj]; rfl
  refine hc.fresh hoff (fun j hj => hs.anc_of_no_parents hp hj) ⟨?_, ?_, ?_⟩ ?_
    (by rw [self]; exact ⟨rfl, fun _ => rfl, fun p v e => by cases e⟩) (fun w hw => hfl hw.1 i) ?_
    (fun w hw => Wf_of_cls (by rw [hoff w hw]))
  · intro j v e
    by_cases hj : j = i
    · subst hj; rw [self] at e; cases e
    · rw [hnode, if_neg hj] at e; exact e
  · intro j p v hj e
    rw [hnode, if_neg hj] at e; exact e
  · intro j w d e
    by_cases hj : j = i
    · subst hj; rw [self] at e; cases e
    · rw [hnode, if_neg hj] at e
      dsimp only at e
      split at e
      · cases e
      · exact e
  · intro j hj ha; rw [hnode, if_neg hj]; exact ha
  · intro j
    by_cases hj : j = i
    · subst hj; rw [self]; rfl
    · rw [hnode, if_neg hj]; simp

theorem collect_flags {h : Heap C T V D} {i : Id} (hf : Flags h) : Flags (collect i h) := by
  intro n
  rw [Heap.graph_apply, collect_node]
  split
  · exact ⟨rfl, rfl⟩
  · exact hf n

theorem collect_perm {h : Heap C T V D} {i : Id} (hf : PermOne s h) : PermOne s (collect i h) := by
  intro n hn k hk
  rw [Heap.graph_apply, collect_node] at hn hk
  split at hk
  · cases hk
  · rw [if_neg ‹_›] at hn; exact hf n hn k hk

/-! ### Invariants of a state -/

/-- The invariant of all states reached by legal histories, with `U` claimed of the cached derivatives. -/
structure InvU (s : Sig C T V D) (U : Graph C T → Id → Id → Option D → Prop) (fr : Mode) (h : Heap C T V D) : Prop where
  str : Str h
  coh : Coh s U (Wf s fr) h
  perm : fr.frozen → PermOne s h
  flags : fr.plain → Flags h

/-- The invariant with cached derivatives fresh. -/
abbrev Inv (s : Sig C T V D) (fr : Mode) (h : Heap C T V D) : Prop := InvU s (Fresh s) fr h

theorem str_empty : Str (Heap.empty s) :=
  ⟨⟨fun _ _ _ => ⟨fun h => (by cases h), fun ⟨_, h, _⟩ => (by cases h)⟩, fun _ => PsOk.nil⟩,
   fun _ _ => ⟨rfl, fun _ => rfl, rfl, rfl⟩, fun _ _ => rfl, fun _ _ _ h => (by cases h), fun _ _ _ h => (by cases h),
   fun _ _ h => (by cases h)⟩

theorem inv_empty {U : Graph C T → Id → Id → Option D → Prop} : InvU s U fr (Heap.empty s) :=
  ⟨str_empty, ⟨fun _ _ h => (by cases h), fun _ _ _ h => (by cases h), fun _ _ _ _ _ h => (by cases h),
    fun _ _ _ h => (by cases h)⟩, fun _ _ _ _ h => (by cases h), fun _ _ => ⟨rfl, rfl⟩⟩

theorem Str.rframe {h h' : Heap C T V D} (hs : Str h) (f : RFrame h h') : Str h' where
  links := by
    have : h'.par = h.par := by funext n; exact f.parents n
    rw [this, f.graph]; exact hs.links
  dead n hn := by
    rw [f.alive] at hn
    obtain ⟨a, b, c, d⟩ := hs.dead n hn
    have hg : h'.graph n = h.graph n := by rw [f.graph]
    exact ⟨by rw [f.parents]; exact a, fun k => (congrFun (congrArg GNode.dterms hg) k).trans (b k),
      (congrArg GNode.makeDense hg).trans c, (congrArg GNode.makeSparse hg).trans d⟩
  unborn n hn := by rw [f.alive]; rw [f.next] at hn; exact hs.unborn n hn
  dn q k c hk := by
    have hg : h'.graph q = h.graph q := by rw [f.graph]
    have h1 : (h.graph q).dterms k = some c := by rw [← hg]; exact hk
    show k ∈ (h'.graph q).dnames
    rw [hg]; exact hs.dn q k c h1
  keys i w d hd := by
    rw [f.alive]
    rcases f.keys i w d hd with h | h
    · exact hs.keys i w d h
    · exact h
  tags n t ht := by rw [f.itr] at ht; rw [f.giter]; exact hs.tags n t ht

theorem clear_writing_like {h : Heap C T V D} (hs : Str h) (i : Id) (itr : Option Nat)
    (ht : ∀ t, itr = some t → t ≤ h.giter ∨ t = 9999) :
    Str (clearCache s i itr h) ∧ Shrink h (clearCache s i itr h) ∧ (clearCache s i itr h).graph = h.graph := by
  obtain ⟨S, hp⟩ := clearCache_spec s h i itr (fun n hn => hs.par0 n hn)
  have hg := clearCache_graph hp
  refine ⟨⟨?_, ?_, ?_, ?_, ?_, ?_⟩, hp.shrink, hg⟩
  · have : (clearCache s i itr h).par = h.par := by funext n; exact hp.parents n
    rw [this, hg]; exact hs.links
  · intro n hn
    rw [hp.alive] at hn
    have hgn := hp.gnode n
    obtain ⟨a, b, c, d⟩ := hs.dead n hn
    exact ⟨by rw [hp.parents]; exact a, fun k => (congrFun (congrArg GNode.dterms hgn) k).trans (b k),
      (congrArg GNode.makeDense hgn).trans c, (congrArg GNode.makeSparse hgn).trans d⟩
  · intro n hn; rw [hp.alive]; rw [hp.next] at hn; exact hs.unborn n hn
  · intro q k c hk
    have hgn := hp.gnode q
    have h1 : (h.node q).dterms k = some c := by rw [← hk]; exact (congrFun (congrArg GNode.dterms hgn) k).symm
    have h2 := hs.dn q k c h1
    rw [← congrArg GNode.dnames hgn] at h2; exact h2
  · intro j w d hd; rw [hp.alive]; exact hs.keys j w d (hp.shrink.d j w d hd)
  · intro n t hn
    rw [hp.giter]
    by_cases hnS : n ∈ S
    · rw [(hp.wiped n hnS).2.2] at hn; exact ht t hn
    · rw [(hp.kept n hnS).2.2] at hn; exact hs.tags n t hn

theorem Coh.shrink {U : Graph C T → Id → Id → Option D → Prop} {W : Graph C T → Id → Prop} {h h' : Heap C T V D} (hc : Coh s U W h) (hg : h'.graph = h.graph)
    (hsh : Shrink h h') : Coh s U W h' where
  r j v e := by rw [hg]; exact hc.r j v (hsh.r j v e)
  p j p v e := by rw [hg]; exact hc.p j p v (hsh.p j p v e)
  d hp j w d hW e := by rw [hg] at hp hW ⊢; exact hc.d hp j w d hW (hsh.d j w d e)
  k j w d e := hsh.alive w (hc.k j w d (hsh.d j w d e))

/-! ### Batches -/

theorem batchLoop_str (t : Nat) (ws : List (Id × KW T)) : ∀ {h : Heap C T V D}, Str h →
    (∀ w ∈ ws, (h.node w.1).alive = true) → (t ≤ h.giter ∨ t = 9999) → Str (batchLoop s t ws h).1 := by
  induction ws with
  | nil => intro h hs _ _; exact hs
  | cons w ws ih =>
    intro h hs ha ht
    obtain ⟨a, _⟩ := setattr_post (s := s) (fr := ⟨False, False⟩) hs (ha w (by simp)) w.2 (itr := some t)
      (by intro t' h; cases h; exact ht)
    rw [batchLoop]
    simp only [M.bind]
    rcases hx : setattr s w.1 (some t) w.2 h with ⟨h1, r⟩
    rw [hx] at a
    cases r with
    | error e => exact a.str
    | ok u => exact ih a.str (fun w' hw' => a.alive _ (ha w' (by simp [hw']))) (by rw [a.giter]; exact ht)

theorem batchLoop_inv {U : Graph C T → Id → Id → Option D → Prop} [Local s U] (hpo : s.PropsOk) (t : Nat) (ws : List (Id × KW T)) : ∀ {h : Heap C T V D}, InvU s U fr h →
    (∀ w ∈ ws, (h.node w.1).alive = true) → (t ≤ h.giter ∨ t = 9999) → TagInv s h (some t) →
    (fr.frozen → s.LocalDr) → (∀ w ∈ ws, fr.frozen → s.isPermute (h.graph w.1).cls = false) →
    InvU s U fr (batchLoop s t ws h).1 := by
  induction ws with
  | nil => intro h hs _ _ _ _ _; exact hs
  | cons w ws ih =>
    intro h hs ha ht htag hloc hper
    have hi := ha w (by simp)
    obtain ⟨a, _⟩ := setattr_post (s := s) (fr := fr) hs.str hi w.2 (itr := some t)
      (by intro t' h; cases h; exact ht)
    have hw : WOk s fr h w.1 := fun hfr => ⟨hloc hfr, hs.perm hfr, Or.inl (hper w (by simp) hfr)⟩
    rw [batchLoop]
    simp only [M.bind]
    rcases hx : setattr s w.1 (some t) w.2 h with ⟨h1, r⟩
    rw [hx] at a
    have hinv : InvU s U fr h1 := ⟨a.str, a.coh hpo hw htag hs.coh, fun hfr => a.perm (hs.perm hfr), fun hpl => a.flags (hs.flags hpl)⟩
    cases r with
    | error e => exact hinv
    | ok u =>
      refine ih hinv (fun w' hw' => a.alive _ (ha w' (by simp [hw']))) (by rw [a.giter]; exact ht) (a.tag htag) hloc ?_
      intro w' hw' hfr
      dsimp only at a
      rw [a.cls w'.1 (ha w' (by simp [hw']))]
      exact hper w' (by simp [hw']) hfr

/-! ### All operations -/

/-- Side conditions on one operation in state `h`.
* frozen mode: constructed reordering objects have only the term `a`, and are not written to later;
* plain mode: no `make_dense`/`make_sparse`;
* a `set` of several keywords ends without exception, or starts with no object carrying tag 9999 (which
  only an earlier failing `set` leaves behind);
* the global counter is not about to collide with such a left-over tag. -/
def Legal (s : Sig C T V D) (fr : Mode) (h : Heap C T V D) : Op C T D → Prop
  | .new cls dnames md ms _ => (fr.frozen → s.isPermute cls = true → ∀ k ∈ dnames, k = s.permArg) ∧
      (fr.plain → md = false ∧ ms = false)
  | .set i kws => (fr.frozen → s.isPermute (h.graph i).cls = false) ∧
      (kws.length ≤ 1 ∨ (step s (.set i kws) h).2.isOk = true ∨ ∀ n, (h.node n).itr ≠ some 9999)
  | .batch ws => (fr.frozen → ∀ w ∈ ws, s.isPermute (h.graph w.1).cls = false) ∧
      (h.giter + 1 ≠ 9999 ∨ ∀ n, (h.node n).itr ≠ some 9999)
  | .addDterm i _ _ => fr.frozen → s.isPermute (h.graph i).cls = false
  | _ => True

/-- States reached by legal histories. -/
inductive Reach (s : Sig C T V D) (fr : Mode) : Heap C T V D → Prop
  | init : Reach s fr (Heap.empty s)
  | step {h : Heap C T V D} (op : Op C T D) : Reach s fr h → Legal s fr h op → Reach s fr (step s op h).1

theorem setAll_inv {U : Graph C T → Id → Id → Option D → Prop} [Local s U] (hpo : s.PropsOk) {h : Heap C T V D} (hs : InvU s U fr h) {i : Id} (hi : (h.node i).alive = true)
    (kws : List (KW T)) (hloc : fr.frozen → s.LocalDr) (hper : fr.frozen → s.isPermute (h.graph i).cls = false)
    (hok : kws.length ≤ 1 ∨ (setAll s i kws h).2 = .ok () ∨ ∀ n, (h.node n).itr ≠ some 9999) :
    InvU s U fr (setAll s i kws h).1 := by
  have a := setAll_post (s := s) (fr := fr) i kws hs.str hi
  have hw : WOk s fr h i := fun hfr => ⟨hloc hfr, hs.perm hfr, Or.inl (hper hfr)⟩
  refine ⟨a.str, ?_, fun hfr => a.perm (hs.perm hfr), fun hpl => a.flags (hs.flags hpl)⟩
  rcases hok with h1 | h1 | h1
  · exact a.safe hpo hw (Or.inl hper) (Or.inl h1) hs.coh
  · cases kws with
    | nil => exact hs.coh
    | cons kw kws => exact a.done hpo hw (Or.inl hper) h1 (by simp) (hs.coh.cohX _)
  · exact a.safe hpo hw (Or.inl hper) (Or.inr (TagInv.of_untagged (fun n ⟨_, hn⟩ => h1 n hn))) hs.coh

theorem old_next {h : Heap C T V D} (hs : Str h) {kws : List (KW T)} (ho : kws.all (·.Old h) = true) (k : Name) :
    KW.link k h.next ∉ kws := by
  intro hm
  have := List.all_eq_true.1 ho _ hm
  simp only [KW.Old] at this
  rw [hs.unborn h.next (Nat.le_refl _)] at this; cases this

theorem newObj_str {h : Heap C T V D} (hs : Str h) (cls : C) (dnames : List Name) (md ms : Bool) (kws : List (KW T)) :
    Str (newObj s cls dnames md ms kws h).1 := by
  unfold newObj
  split
  · rename_i ho
    have n := alloc_post (s := s) (fr := ⟨False, False⟩) hs cls dnames md ms
    have a := setAll_post (s := s) (fr := ⟨False, False⟩) h.next kws n.str n.born
    have hb : M.bind (alloc cls dnames md ms) (fun i => orCollect i (setAll s i kws)) h =
      orCollect h.next (setAll s h.next kws) (alloc cls dnames md ms h).1 := rfl
    rw [hb, orCollect]
    have hpar : ((setAll s h.next kws (alloc cls dnames md ms h).1).1.node h.next).parents = [] := by
      refine a.par h.next n.born (old_next hs ho) ?_
      rw [n.par]; exact hs.par0 _ (Nat.le_refl _)
    rcases hx : setAll s h.next kws (alloc cls dnames md ms h).1 with ⟨h', r⟩
    rw [hx] at a hpar
    cases r with
    | ok u => exact a.str
    | error e => exact collect_str a.str hpar
  · exact hs

theorem newObj_inv {U : Graph C T → Id → Id → Option D → Prop} [Local s U] (hpo : s.PropsOk) {h : Heap C T V D} (hs : InvU s U fr h) (cls : C) (dnames : List Name) (md ms : Bool)
    (kws : List (KW T)) (hloc : fr.frozen → s.LocalDr)
    (hper : fr.frozen → s.isPermute cls = true → ∀ k ∈ dnames, k = s.permArg)
    (hpl : fr.plain → md = false ∧ ms = false) :
    InvU s U fr (newObj s cls dnames md ms kws h).1 := by
  have hstr := newObj_str (s := s) hs.str cls dnames md ms kws
  revert hstr
  unfold newObj
  split
  · rename_i ho
    have n := alloc_post (s := s) (fr := fr) hs.str cls dnames md ms
    have a := setAll_post (s := s) (fr := fr) h.next kws n.str n.born
    have hb : M.bind (alloc cls dnames md ms) (fun i => orCollect i (setAll s i kws)) h =
      orCollect h.next (setAll s h.next kws) (alloc cls dnames md ms h).1 := rfl
    rw [hb, orCollect]
    have hnode : (alloc cls dnames md ms h).1.node h.next = freshNode cls dnames md ms := by
      rw [alloc_node, if_pos rfl]
    have hperm1 : fr.frozen → PermOne s (alloc cls dnames md ms h).1 := fun hfr =>
      n.perm (hs.perm hfr) (by rw [Heap.graph_apply, hnode]; exact hper hfr)
    have hfl1 : fr.plain → Flags (alloc cls dnames md ms h).1 := fun hp =>
      n.flags (hs.flags hp) (by rw [Heap.graph_apply, hnode]; exact hpl hp)
    have hcoh1 := n.coh hs.coh
    have hpar1 : ((alloc cls dnames md ms h).1.node h.next).parents = [] := by
      rw [n.par]; exact hs.str.par0 _ (Nat.le_refl _)
    have hw : WOk s fr (alloc cls dnames md ms h).1 h.next := fun hfr =>
      ⟨hloc hfr, hperm1 hfr, Or.inr ⟨hpar1, n.drs⟩⟩
    have hself := old_next hs.str ho
    have hpar : ((setAll s h.next kws (alloc cls dnames md ms h).1).1.node h.next).parents = [] :=
      a.par h.next n.born hself hpar1
    have hcx := a.cohX hpo hw (Or.inr hself) (hcoh1.cohX _)
    rcases hx : setAll s h.next kws (alloc cls dnames md ms h).1 with ⟨h', r⟩
    rw [hx] at a hpar hcx
    cases r with
    | ok u =>
      intro hstr
      refine ⟨hstr, ?_, fun hfr => a.perm (hperm1 hfr), fun hp => a.flags (hfl1 hp)⟩
      cases kws with
      | nil => rw [setAll] at hx; cases hx; exact hcoh1
      | cons kw kws => exact a.done hpo hw (Or.inr hself) rfl (by simp) (hcoh1.cohX _)
    | error e =>
      intro hstr
      refine ⟨hstr, ?_, fun hfr => collect_perm (a.perm (hperm1 hfr)), fun hp => collect_flags (a.flags (hfl1 hp))⟩
      dsimp only
      have hc := collect_cohX a.str hpar (fun hp => a.flags (hfl1 hp)) hcx
      have hself' : (collect h.next h').node h.next = { blankNode (h'.node h.next).cls with itr := none } := by
        rw [collect_node, if_pos rfl]
      refine hc.fix ?_ ?_
      · intro j hj
        have := a.str.anc_of_no_parents hpar hj
        subst this
        rw [hself']; exact ⟨rfl, fun _ => rfl⟩
      · intro j p d hd k hk c hc' hx'
        have := a.str.anc_of_no_parents hpar hx'
        subst this
        exfalso
        dsimp only at hstr
        obtain ⟨ns, hm, _⟩ := (hstr.links.exact j k _).1 hc'
        have : (collect h.next h').par h.next = [] := by
          show ((collect h.next h').node h.next).parents = []
          rw [hself']; rfl
        rw [this] at hm; cases hm
  · intro _; exact hs

theorem addDterm_mid {h : Heap C T V D} (i : Id) (k : Name) : ∃ ns : List Name, (∀ m ∈ (h.node i).dnames, m ∈ ns) ∧
    (∀ m ∈ ns, m ∈ (h.node i).dnames ∨ m = k) ∧
    h.modify i (fun n => { n with dnames := if k ∈ n.dnames then n.dnames else n.dnames ++ [k] }) =
      h.modify i (fun n => { n with dnames := ns }) := by
  refine ⟨if k ∈ (h.node i).dnames then (h.node i).dnames else (h.node i).dnames ++ [k], ?_, ?_, rfl⟩
  · intro m hm; split
    · exact hm
    · simp [hm]
  · intro m hm
    split at hm
    · exact Or.inl hm
    · simpa using hm

theorem dnames_str {h : Heap C T V D} (hs : Str h) (i : Id) (ns : List Name)
    (hns : ∀ m ∈ (h.node i).dnames, m ∈ ns) : Str (h.modify i (fun n => { n with dnames := ns })) := by
  have hnode : ∀ j, ((h.modify i (fun n => { n with dnames := ns })).node j) =
      { h.node j with dnames := if j = i then ns else (h.node j).dnames } := by
    intro j; rw [modify_node]; split
    · subst_vars; rfl
    · rfl
  refine ⟨?_, ?_, ?_, ?_, ?_, ?_⟩
  · have : (h.modify i (fun n => { n with dnames := ns })).par = h.par := by
      funext n; show ((h.modify i (fun n => { n with dnames := ns })).node n).parents = _; rw [hnode]; rfl
    rw [this]
    refine hs.links.congr (fun q k => ?_)
    rw [Heap.graph_apply, hnode]; rfl
  · intro n hn; rw [hnode] at hn ⊢; exact hs.dead n hn
  · intro n hn; rw [hnode]; exact hs.unborn n hn
  · intro q k c hk; rw [hnode] at hk ⊢
    dsimp only at hk ⊢
    have := hs.dn q k c hk
    split
    · subst_vars; exact hns k this
    · exact this
  · intro j w d hd; rw [hnode] at hd ⊢; exact hs.keys j w d hd
  · intro n t ht; rw [hnode] at ht; exact hs.tags n t ht

/-- A copy that fails leaves the heap as if the object had been allocated and collected. -/
theorem clone_fail_str (s : Sig C T V D) {h : Heap C T V D} (hs : Str h) (cls : C) (dnames : List Name) (md ms : Bool) :
    Str (collect h.next (alloc cls dnames md ms h).1) := by
  have n := alloc_post (s := s) (fr := ⟨False, False⟩) hs cls dnames md ms
  exact collect_str n.str (by rw [n.par]; exact hs.par0 _ (Nat.le_refl _))

/-- What copying one object achieves. -/
theorem clone_ok {h : Heap C T V D} (hs : Str h) {j : Id} {ls : List (Name × Id)} (hg : CloneGuard h j ls)
    (hnd : (ls.map (·.2)).Nodup) : (clone s j ls h).2 = .ok h.next ∧
      LinkPost s fr (cloneBase s j (ls.map (·.1)) h) (clone s j ls h).1 h.next ls := by
  have a := clone_spec (s := s) hs hg
  rw [if_pos hnd] at a
  obtain ⟨h', e1, e2⟩ := a
  have hself := cloneBase_node (s := s) j (ls.map (·.1)) h h.next
  rw [if_pos rfl] at hself
  have hlt : ∀ l ∈ ls, l.2 ≠ h.next := fun l hl e => by
    have := (hg.link l hl).1
    rw [e, hs.unborn h.next (Nat.le_refl _)] at this; cases this
  obtain ⟨b, _⟩ := linkAll_post (s := s) (fr := fr) h.next ls (cloneBase_str (s := s) hs (j := j) (ls.map (·.1)))
    (by rw [hself]; rfl) (by rw [hself]; rfl) hg.names (fun l hl => by
      refine ⟨by rw [hself]; exact (hg.link l hl).2.1, ?_, hlt l hl⟩
      rw [cloneBase_node, if_neg (hlt l hl)]; exact (hg.link l hl).1)
  rw [e1] at b
  rw [e2]
  exact ⟨rfl, b⟩

theorem clone_str {h : Heap C T V D} (hs : Str h) (j : Id) (ls : List (Name × Id)) : Str (clone s j ls h).1 := by
  by_cases hg : CloneGuard h j ls
  · by_cases hnd : (ls.map (·.2)).Nodup
    · exact (clone_ok (fr := ⟨False, False⟩) hs hg hnd).2.str
    · have a := clone_spec (s := s) hs hg
      rw [if_neg hnd] at a
      rw [a]; exact clone_fail_str s hs _ _ _ _
  · rw [clone, if_neg (fun h => hg (cloneOk_iff.1 h))]; exact hs

theorem leftTerms_pres {R : Heap C T V D → Heap C T V D → Prop} (hR : ReadRel R) (st : RevStyle C T D) (f : Nat) (i w : Id) (L : D)
    {rec : Id → D → M C T V D (Option D)} (hrec : ∀ p L', Pres R (rec p L')) : ∀ ks acc, Pres R (leftTerms s st f i w L rec ks acc) := by
  intro ks
  induction ks with
  | nil => intro acc; exact Pres.const hR (fun _ => rfl)
  | cons k ks ih =>
    intro acc
    refine Pres.bind hR (Pres.const hR (fun _ => rfl)) (fun p => ?_)
    split
    · exact ih acc
    · refine Pres.bind hR (Pres.const hR (fun _ => rfl)) (fun b => ?_)
      split
      · refine Pres.bind hR (drSliced_pres hR f i p) (fun o => ?_)
        cases o with
        | none => exact ih acc
        | some d =>
          refine Pres.bind hR (Pres.const hR (fun _ => rfl)) (fun L' => ?_)
          refine Pres.bind hR (hrec p L') (fun o => ?_)
          cases o with
          | none => exact ih acc
          | some x => exact ih _
      · exact ih acc

theorem leftMul_pres {R : Heap C T V D → Heap C T V D → Prop} (hR : ReadRel R) (st : RevStyle C T D) (f : Nat) :
    ∀ i w L, Pres R (leftMul s st f i w L) := by
  induction f with
  | zero => intro i w L; exact Pres.const hR (fun _ => rfl)
  | succ f ih =>
    intro i w L
    refine Pres.bind hR (hR.onChanged i) (fun _ => ?_)
    refine Pres.bind hR (drSliced_pres hR f i w) (fun direct => ?_)
    refine Pres.bind hR (Pres.const hR (fun _ => rfl)) (fun ds0 => ?_)
    refine Pres.bind hR (fun h => leftTerms_pres hR st f i w L (fun p L' => ih p w L') _ _ h) (fun ds => ?_)
    exact Pres.const hR (fun _ => rfl)

/-- Structure is kept by every operation, whatever happens. -/
theorem step_str {h : Heap C T V D} (hs : Str h) (op : Op C T D) : Str (step s op h).1 := by
  cases op with
  | new cls dnames md ms kws => exact newObj_str hs cls dnames md ms kws
  | set i kws =>
    simp only [step, M.map', setObj]
    split
    · exact (setAll_post (s := s) (fr := ⟨False, False⟩) i kws hs ‹_›).str
    · exact hs
  | batch ws =>
    simp only [step, M.map', batch]
    split
    · rename_i ha
      refine batchLoop_str _ ws ?_ ?_ (Or.inl (Nat.le_refl _))
      · exact ⟨hs.links, hs.dead, hs.unborn, hs.dn, hs.keys, fun n t ht => by
          rcases hs.tags n t ht with h | h
          · left; show t ≤ _ + 1; omega
          · exact Or.inr h⟩
      · intro w hw; exact List.all_eq_true.1 ha w hw
    · exact hs
  | clear i =>
    simp only [step, ifAlive]
    split
    · exact (clear_writing_like hs i none (by intro t h; cases h)).1
    · exact hs
  | readR f i =>
    simp only [step, ifAlive]
    split
    · exact hs.rframe (read_pres rframe_rel f (.r i) h)
    · exact hs
  | readProp f i p =>
    simp only [step, ifAlive]
    split
    · exact hs.rframe (read_pres rframe_rel f (.prop i p) h)
    · exact hs
  | readDr f i w =>
    simp only [step, ifAlive]
    split
    · split
      · exact hs.rframe (drWrt_pres rframe_rel f i w h)
      · exact hs
    · exact hs
  | readLop td f i w L =>
    simp only [step, ifAlive]
    split
    · split
      · exact hs.rframe (leftMul_pres rframe_rel _ f i w L h)
      · exact hs
    · exact hs
  | readLmult ne f i w L =>
    simp only [step, ifAlive]
    split
    · split
      · exact hs.rframe (leftMul_pres rframe_rel _ f i w L h)
      · exact hs
    · exact hs
  | gc i =>
    simp only [step]
    split
    · exact collect_str hs ‹_›
    · exact hs
  | clone j ls => exact clone_str hs j ls
  | addDterm i k kw =>
    simp only [step, ifAlive]
    split
    · rename_i ha
      simp only [M.map', addDterm]
      obtain ⟨ns, h1, _, h3⟩ := addDterm_mid (h := h) i k
      rw [h3]
      have hs' := dnames_str hs i ns h1
      have ha' : ((h.modify i (fun n => { n with dnames := ns })).node i).alive = true := by
        rw [modify_node_self]; exact ha
      exact (setattr_post (s := s) (fr := ⟨False, False⟩) hs' ha' kw (itr := none) (by intro t h; cases h)).1.str
    · exact hs

theorem read_inv {U : Graph C T → Id → Id → Option D → Prop} {h : Heap C T V D} (hs : InvU s U fr h) (f : Nat) (q : Req) : InvU s U fr (read s f q h).1 := by
  obtain ⟨a, b, _⟩ := read_sim (s := s) (W := Wf s fr) (P := True) (g := h.graph) f q h hs.coh rfl
  exact ⟨hs.str.rframe (read_pres rframe_rel f q h), a,
    fun hfr n => by rw [b.graph]; exact hs.perm hfr n, fun hp n => by rw [b.graph]; exact hs.flags hp n⟩

theorem leftMul_inv {U : Graph C T → Id → Id → Option D → Prop} {h : Heap C T V D} (hs : InvU s U fr h) {st : RevStyle C T D} (hst : st.Ok) (f : Nat) (i w : Id) (L : D) :
    InvU s U fr (leftMul s st f i w L h).1 := by
  obtain ⟨a, b, _⟩ := (leftMul_simM (s := s) (W := Wf s fr) (P := True) (g := h.graph) hst f i w L).sim h hs.coh rfl
  exact ⟨hs.str.rframe (leftMul_pres rframe_rel st f i w L h), a,
    fun hfr n => by rw [b.graph]; exact hs.perm hfr n, fun hp n => by rw [b.graph]; exact hs.flags hp n⟩

theorem setattr_none_inv {U : Graph C T → Id → Id → Option D → Prop} [Local s U] (hpo : s.PropsOk) {h : Heap C T V D} (hs : Str h) {i : Id} (hi : (h.node i).alive = true)
    (kw : KW T) (hw : WOk s fr h i) (hp : fr.frozen → PermOne s h) (hf : fr.plain → Flags h)
    (hc : Coh s U (Wf s fr) h) : InvU s U fr (setattr s i none kw h).1 := by
  obtain ⟨a, _⟩ := setattr_post (s := s) (fr := fr) hs hi kw (itr := none) (by intro t h; cases h)
  exact ⟨a.str, a.coh hpo hw (TagInv.none s h) hc, fun hfr => a.perm (hp hfr), fun hpl => a.flags (hf hpl)⟩

end Chumpy
