import Verif.Core.Str
/-! Every write operation preserves the invariants. -/
namespace Chumpy
variable {C T V D α : Type}

/-- Restrictions on a history. `frozen`: reordering objects (slices) are not modified after their
construction.  `plain`: no object is made with `make_dense`/`make_sparse`. -/
structure Mode where
  frozen : Prop
  plain : Prop

/-- For which `wrt` cached derivatives are claimed to be right: in plain histories, for all if slices are
frozen, else for all but slices. -/
def Wf (s : Sig C T V D) (fr : Mode) (g : Graph C T) (w : Id) : Prop :=
  fr.plain ∧ (fr.frozen ∨ s.isPermute (g w).cls = false)

/-- A body returns `None` for a `wrt` that is neither the object nor one of its terms. -/
def Sig.LocalDr (s : Sig C T V D) : Prop := ∀ c, s.computeDr c false [] = .ret none

/-- Reordering objects have the single differentiable term `a` (reordering.py, every class). -/
def PermOne (s : Sig C T V D) (h : Heap C T V D) : Prop :=
  ∀ n, s.isPermute (h.graph n).cls = true → ∀ k ∈ (h.graph n).dnames, k = s.permArg

/-- Under `fr`, only objects that are not slices are written to, or slices under construction. -/
def WOk (s : Sig C T V D) (fr : Mode) (h : Heap C T V D) (i : Id) : Prop :=
  fr.frozen → s.LocalDr ∧ PermOne s h ∧ (s.isPermute (h.graph i).cls = false ∨
    ((h.node i).parents = [] ∧ ∀ j, (h.node j).drs i = none))

variable {s : Sig C T V D} {fr : Mode}

theorem evalSlice_some {g : Graph C T} {f : Nat} {j : Id} : ∀ {n : Nat} {x inner : Id} {d : D},
    evalSlice s g f j n x = .ok (some (inner, d)) →
    s.isPermute (g x).cls = true ∧ inner ≠ j ∧ evalCompDr s g f j inner = .ok (some d) := by
  intro n
  induction n with
  | zero => intro x inner d h; simp [evalSlice] at h
  | succ n ih =>
    intro x inner d h
    rw [evalSlice] at h
    by_cases hp : s.isPermute (g x).cls = true
    · rw [if_pos hp] at h
      cases hd : (g x).dterms s.permArg with
      | none => rw [hd] at h; cases h
      | some y =>
        rw [hd] at h
        dsimp only at h
        by_cases hy : y = j
        · rw [if_pos hy] at h; cases h
        · rw [if_neg hy] at h
          cases he : evalCompDr s g f j y with
          | error e => rw [he] at h; cases h
          | ok o =>
            rw [he] at h
            cases o with
            | none => obtain ⟨_, h2, h3⟩ := ih h; exact ⟨hp, h2, h3⟩
            | some d' => cases h; exact ⟨hp, hy, he⟩
    · rw [if_neg hp] at h; cases h

/-- With `LocalDr`, a nonzero direct derivative means the object is a child. -/
theorem compDr_child (hl : s.LocalDr) {g : Graph C T} {f : Nat} {j x : Id} {d : D} (hx : x ≠ j)
    (h : evalCompDr s g f j x = .ok (some d)) : ∃ k, k ∈ (g j).dnames ∧ (g j).dterms k = some x := by
  unfold evalCompDr at h
  have hjx : (j == x) = false := by simpa using (Ne.symm hx)
  rw [hjx] at h
  cases hn : (g j).namesOf x with
  | nil => rw [hn, hl] at h; simp [evalProg] at h
  | cons k ks =>
    have : k ∈ (g j).namesOf x := by rw [hn]; simp
    simp only [GNode.namesOf, List.mem_filter, decide_eq_true_eq] at this
    exact ⟨k, this⟩

theorem wrtOff_write {h : Heap C T V D} (hs : Str h) {i : Id} (hw : WOk s fr h i) {g' : Graph C T}
    (hoff : SameOff h.graph g' i) (hcls : (g' i).cls = (h.graph i).cls) {j w : Id} {d : Option D}
    (hW : Wf s fr h.graph w) (hd : (h.node j).drs w = some d) : WrtOff s h.graph g' i w := by
  rcases hW.2 with hfr | hp
  case inr => exact wrtOff_of_not_permute s hcls hp
  obtain ⟨hloc, hone, hperm⟩ := hw hfr
  have hchain : ChainAvoid s h.graph g' i w := by
    rintro y hy hpy rfl
    rcases hpy with hpy | hpy
    · rcases hperm with hperm | ⟨hpar, hdrs⟩
      · rw [hperm] at hpy; cases hpy
      · cases hy with
        | refl => rw [hdrs] at hd; cases hd
        | step _ _ hk =>
          obtain ⟨ns, hm, _⟩ := (hs.links.exact _ _ _).1 hk
          have : h.par y = [] := hpar
          rw [this] at hm; simp at hm
    · exact hpy hcls
  refine ⟨hchain, ?_⟩
  intro j' hj' f inner d' he
  obtain ⟨hpw, hinj, hcd⟩ := evalSlice_some he
  have hwi : w ≠ i := hchain w PermChain.refl (Or.inl hpw)
  obtain ⟨k, hk, hkc⟩ := compDr_child hloc hinj hcd
  have hninner : ¬ Anc h.graph i inner := not_anc_child hj' hkc
  by_cases hwin : w = inner
  · subst hwin; exact evalCompDr_off s hoff f hninner _
  · have hgw : g' w = h.graph w := hoff w hwi
    by_cases hna : Anc h.graph i w
    · have hb : (w == inner) = false := by simpa using hwin
      unfold evalCompDr
      rw [hgw, hb]
      cases hn : (h.graph w).namesOf inner with
      | nil => rw [hloc]; rfl
      | cons k ks =>
        have : k ∈ (h.graph w).namesOf inner := by rw [hn]; simp
        simp only [GNode.namesOf, List.mem_filter, decide_eq_true_eq] at this
        have hka := hone w hpw k this.1
        cases hna with
        | refl => exact absurd rfl hwi
        | step k' hk' hc' =>
          have hka' := hone w hpw k' (hs.dn w k' _ hk')
          rw [hka', ← hka, this.2] at hk'
          cases hk'
          exact absurd hc' hninner
    · exact evalCompDr_off s hoff f hna inner

theorem Wf_of_cls {g g' : Graph C T} {w : Id} (h : (g' w).cls = (g w).cls) (hW : Wf s fr g' w) :
    Wf s fr g w := by
  unfold Wf at *; rw [← h]; exact hW

/-- No object uses `make_dense`/`make_sparse`. -/
def Flags (h : Heap C T V D) : Prop := ∀ n, (h.graph n).makeDense = false ∧ (h.graph n).makeSparse = false

/-- What one assignment on `i` achieves. -/
structure SetPost (s : Sig C T V D) (fr : Mode) (h h' : Heap C T V D) (i : Id) (itr : Option Nat) (ok : Prop) :
    Prop where
  str : Str h'
  alive : ∀ j, (h.node j).alive = true → (h'.node j).alive = true
  giter : h'.giter = h.giter
  cls : ∀ j, (h.node j).alive = true → (h'.graph j).cls = (h.graph j).cls
  perm : PermOne s h → PermOne s h'
  flags : Flags h → Flags h'
  shrink : Shrink h h'
  cohX : ∀ {U : Graph C T → Id → Id → Option D → Prop} [Local s U], s.PropsOk → WOk s fr h i → CohX s U (Wf s fr) h (Anc h.graph i) → CohX s U (Wf s fr) h' (Anc h'.graph i)
  coh : ∀ {U : Graph C T → Id → Id → Option D → Prop} [Local s U], s.PropsOk → WOk s fr h i → TagInv s h itr → Coh s U (Wf s fr) h → Coh s U (Wf s fr) h'
  tag : TagInv s h itr → TagInv s h' itr
  done : ∀ {U : Graph C T → Id → Id → Option D → Prop} [Local s U], s.PropsOk → WOk s fr h i → ok → itr = none → CohX s U (Wf s fr) h (Anc h.graph i) → Coh s U (Wf s fr) h'

theorem SetPost.same {h : Heap C T V D} (hs : Str h) {i : Id} {itr : Option Nat} {ok : Prop} (hn : ¬ ok) :
    SetPost s fr h h i itr ok :=
  ⟨hs, fun _ h => h, rfl, fun _ _ => rfl, id, id, Shrink.refl h, fun _ _ h => h, fun _ _ _ h => h, id,
   fun _ _ h => absurd h hn⟩

theorem Writing.setPost {h h2 h4 : Heap C T V D} {i : Id} {n : Name} {itr : Option Nat} {ok : Prop}
    (w : Writing s h h2 h4 i n itr) (hs : Str h) (hs4 : Str h4) : SetPost s fr h h4 i itr ok where
  str := hs4
  alive j hj := by rw [w.alive4]; exact hj
  giter := w.giter4.trans w.giter2
  cls j _ := w.cls4 j
  perm hp m hm k hk := by
    rw [w.cls4] at hm
    refine hp m hm k ?_
    by_cases hmi : m = i
    · subst hmi; rw [← w.dn]; exact hk
    · rw [← w.off m hmi]; exact hk
  flags hf m := by
    by_cases hmi : m = i
    · subst hmi; rw [w.fl.1, w.fl.2]; exact hf m
    · rw [w.off m hmi]; exact hf m
  shrink := w.shrink
  cohX hpo hwok hc := w.cohX hpo hc (fun x => Wf_of_cls (w.cls4 x))
    (fun j x d hW hd => wrtOff_write hs hwok w.off w.cls hW hd)
  coh hpo hwok ht hc := w.coh hpo (hc.cohX _) hs.links ht (fun x => Wf_of_cls (w.cls4 x))
    (fun j x d hW hd => wrtOff_write hs hwok w.off w.cls hW hd)
  tag ht := w.tagInv hs.links ht
  done hpo hwok _ hn hc := by
    subst hn
    exact w.coh hpo hc hs.links (TagInv.none s h) (fun x => Wf_of_cls (w.cls4 x))
      (fun j x d hW hd => wrtOff_write hs hwok w.off w.cls hW hd)

theorem setTerm_post {h : Heap C T V D} (hs : Str h) {i : Id} (hi : (h.node i).alive = true) (n : Name) (t : T)
    {itr : Option Nat} (ht : ∀ t, itr = some t → t ≤ h.giter ∨ t = 9999) (ok : Prop) :
    SetPost s fr h (setTerm s i n t itr h).1 i itr ok ∧
      ∀ j, ((setTerm s i n t itr h).1.node j).parents = (h.node j).parents := by
  obtain ⟨h2, w, hpar, hg4⟩ := setTerm_writing (s := s) h hs i n t itr
  refine ⟨w.setPost hs (w.str hs hi ?_ ?_ ht), fun j => by rw [w.par4, hpar]⟩
  · intro j hj; rw [hpar]; exact (hs.dead j hj).1
  · intro k c hk
    have h1 : ((setTerm s i n t itr h).1.graph i).dterms k = some c := hk
    show k ∈ ((setTerm s i n t itr h).1.graph i).dnames
    rw [hg4] at h1 ⊢
    simp only [if_true] at h1 ⊢
    exact hs.dn i k c h1

theorem setDterm_post {h : Heap C T V D} (hs : Str h) {i : Id} (hi : (h.node i).alive = true) {k : Name} {c : Id}
    (hk : k ∈ (h.node i).dnames) (hc : (h.node c).alive = true)
    {itr : Option Nat} (ht : ∀ t, itr = some t → t ≤ h.giter ∨ t = 9999) (ok : Prop) :
    SetPost s fr h (setDterm s i k c itr h).1 i itr ok ∧ (setDterm s i k c itr h).2 = .ok () ∧
      ∀ j, j ≠ c → (h.node j).parents = [] → ((setDterm s i k c itr h).1.node j).parents = [] := by
  obtain ⟨hok, h2, w, hpar, hg4⟩ := setDterm_writing (s := s) h hs i k c itr hc
  refine ⟨w.setPost hs (w.str hs hi ?_ ?_ ht), hok, fun j hj hn => by rw [w.par4]; exact hpar j hj hn⟩
  · intro j hj
    refine hpar j ?_ (hs.dead j hj).1
    rintro rfl; rw [hc] at hj; cases hj
  · intro m c' hk'
    have h1 : ((setDterm s i k c itr h).1.graph i).dterms m = some c' := hk'
    show m ∈ ((setDterm s i k c itr h).1.graph i).dnames
    rw [hg4] at h1 ⊢
    simp only [setLink, if_true] at h1 ⊢
    by_cases hm : m = k
    · subst hm; exact hk
    · rw [if_neg hm] at h1; exact hs.dn i m c' h1

/-! ### Allocation -/

theorem alloc_node (cls : C) (dnames : List Name) (md ms : Bool) (h : Heap C T V D) (j : Id) :
    (alloc cls dnames md ms h).1.node j = if j = h.next then freshNode cls dnames md ms else h.node j := rfl

theorem alloc_str {h : Heap C T V D} (hs : Str h) (cls : C) (dnames : List Name) (md ms : Bool) :
    Str (alloc cls dnames md ms h).1 := by
  have hdead := hs.dead h.next (hs.unborn h.next (Nat.le_refl _))
  have hnode := alloc_node cls dnames md ms h
  have hpar : (alloc cls dnames md ms h).1.par = h.par := by
    funext j
    show ((alloc cls dnames md ms h).1.node j).parents = (h.node j).parents
    rw [hnode]; split
    · subst_vars; exact hdead.1.symm
    · rfl
  refine ⟨?_, ?_, ?_, ?_, ?_, ?_⟩
  · rw [hpar]
    refine hs.links.congr ?_
    intro q k
    show ((alloc cls dnames md ms h).1.node q).dterms k = (h.node q).dterms k
    rw [hnode]; split
    · subst_vars; exact (hdead.2.1 k).symm
    · rfl
  · intro n hn
    rw [hnode] at hn ⊢
    split at hn
    · cases hn
    · rw [if_neg ‹_›]; exact hs.dead n hn
  · intro n hn
    have hn' : h.next + 1 ≤ n := hn
    rw [hnode, if_neg (Nat.ne_of_gt (Nat.lt_of_lt_of_le (Nat.lt_succ_self _) hn'))]
    exact hs.unborn n (by omega)
  · intro q k c hk
    rw [hnode] at hk ⊢
    split at hk
    · cases hk
    · rw [if_neg ‹_›]; exact hs.dn q k c hk
  · intro i w d hd
    rw [hnode] at hd
    split at hd
    · cases hd
    · rw [hnode]; split
      · rfl
      · exact hs.keys i w d hd
  · intro n t hn
    rw [hnode] at hn
    split at hn
    · cases hn
    · exact hs.tags n t hn

theorem alloc_shrink {h : Heap C T V D} (cls : C) (dnames : List Name) (md ms : Bool) :
    Shrink h (alloc cls dnames md ms h).1 := by
  have hnode := alloc_node cls dnames md ms h
  refine ⟨⟨?_, ?_, ?_⟩, ?_⟩
  · intro j v e; rw [hnode] at e; split at e
    · cases e
    · exact e
  · intro j p v e; rw [hnode] at e; split at e
    · cases e
    · exact e
  · intro j w d e; rw [hnode] at e; split at e
    · cases e
    · exact e
  · intro j e; rw [hnode]; split
    · rfl
    · exact e

/-- Nothing refers to the next identity. -/
theorem Str.next_unused {h : Heap C T V D} (hs : Str h) (j : Id) : (h.node j).drs h.next = none := by
  cases e : (h.node j).drs h.next with
  | none => rfl
  | some d =>
    have := hs.keys j h.next d e
    rw [hs.unborn h.next (Nat.le_refl _)] at this; cases this

/-- What allocating (and initialising) a new object achieves for the others. -/
structure NewPost (s : Sig C T V D) (fr : Mode) (h h' : Heap C T V D) : Prop where
  str : Str h'
  alive : ∀ j, (h.node j).alive = true → (h'.node j).alive = true
  born : (h'.node h.next).alive = true
  next : h'.next = h.next + 1
  giter : h'.giter = h.giter
  off : SameOff h.graph h'.graph h.next
  par : ∀ j, (h'.node j).parents = (h.node j).parents
  shrink : Shrink h h'
  drs : ∀ j, (h'.node j).drs h.next = none
  itr : ∀ j, j ≠ h.next → (h'.node j).itr = (h.node j).itr
  itrN : (h'.node h.next).itr = none
  cohX : ∀ {U : Graph C T → Id → Id → Option D → Prop} [Local s U], ∀ X, CohX s U (Wf s fr) h X → CohX s U (Wf s fr) h' X
  tag : ∀ itr, TagInv s h itr → TagInv s h' itr

theorem newPost_tag {h h' : Heap C T V D} (hs : Str h) (par : ∀ j, (h'.node j).parents = (h.node j).parents)
    (shrink : Shrink h h') (hitr : ∀ j, j ≠ h.next → (h'.node j).itr = (h.node j).itr)
    (itrN : (h'.node h.next).itr = none) (hoff : SameOff h.graph h'.graph h.next) (itr : Option Nat)
    (ht : TagInv s h itr) : TagInv s h' itr := by
  intro n hn
  have hnl : n ≠ h.next := by
    rintro rfl; obtain ⟨h1, h2⟩ := hn; rw [itrN] at h2; rw [← h2] at h1; cases h1
  have hn' : h.Tagged itr n := ⟨hn.1, by rw [← hitr n hnl]; exact hn.2⟩
  obtain ⟨t1, t2, t3⟩ := ht n hn'
  refine ⟨?_, ?_, ?_⟩
  · cases e : (h'.node n).cacheR with
    | none => rfl
    | some v => have := shrink.r n v e; rw [t1] at this; cases this
  · intro w
    cases e : (h'.node n).drs w with
    | none => rfl
    | some v => have := shrink.d n w v e; rw [t2] at this; cases this
  · intro q k hr
    rw [par] at hr
    have hql : q ≠ h.next := by
      rintro rfl
      have := (hs.links.exact h.next k n).2 hr
      have hd := (hs.dead h.next (hs.unborn h.next (Nat.le_refl _))).2.1 k
      rw [Heap.graph_apply, hd] at this; cases this
    obtain ⟨a, b⟩ := t3 q k hr
    refine ⟨⟨a.1, by rw [hitr q hql]; exact a.2⟩, fun p hh => ?_⟩
    have hcls : (h'.node q).cls = (h.node q).cls := congrArg GNode.cls (hoff q hql)
    rw [hcls] at hh
    cases e : (h'.node q).props p with
    | none => rfl
    | some v => have := shrink.p q p v e; rw [b p hh] at this; cases this

theorem newPost_cohX {U : Graph C T → Id → Id → Option D → Prop} [Local s U] {h h' : Heap C T V D} (hs : Str h) (hoff : SameOff h.graph h'.graph h.next)
    (shrink : Shrink h h') (hnew : (h'.node h.next).cacheR = none ∧ (∀ w, (h'.node h.next).drs w = none) ∧
      ∀ p, (h'.node h.next).props p = none) (hdrs : ∀ j, (h'.node j).drs h.next = none) (X : Id → Prop)
    (hc : CohX s U (Wf s fr) h X) : CohX s U (Wf s fr) h' X := by
  have hdead := hs.dead h.next (hs.unborn h.next (Nat.le_refl _))
  refine hc.fresh hoff (fun j hj => hs.anc_of_no_parents hdead.1 hj) ⟨shrink.r, fun j p v _ => shrink.p j p v, shrink.d⟩ (fun j _ => shrink.alive j)
    ⟨hnew.1, hnew.2.1, fun p v e => by rw [hnew.2.2] at e; cases e⟩
    (fun _ _ => hdead.2.2) hdrs ?_
  intro w hw
  exact Wf_of_cls (by rw [hoff w hw])

theorem alloc_post {h : Heap C T V D} (hs : Str h) (cls : C) (dnames : List Name) (md ms : Bool) :
    NewPost s fr h (alloc cls dnames md ms h).1 := by
  have hnode := alloc_node cls dnames md ms h
  have hdead := hs.dead h.next (hs.unborn h.next (Nat.le_refl _))
  have hself : (alloc cls dnames md ms h).1.node h.next = freshNode cls dnames md ms := by
    rw [hnode, if_pos rfl]
  have hoff : SameOff h.graph (alloc cls dnames md ms h).1.graph h.next := by
    intro j hj
    rw [Heap.graph_apply, hnode, if_neg hj]; rfl
  have hpar : ∀ j, ((alloc cls dnames md ms h).1.node j).parents = (h.node j).parents := by
    intro j; rw [hnode]; split
    · subst_vars; exact hdead.1.symm
    · rfl
  have hdrs : ∀ j, ((alloc cls dnames md ms h).1.node j).drs h.next = none := by
    intro j; rw [hnode]; split
    · rfl
    · exact hs.next_unused j
  have hsh := alloc_shrink (h := h) cls dnames md ms
  have hitr : ∀ j, j ≠ h.next → ((alloc cls dnames md ms h).1.node j).itr = (h.node j).itr := by
    intro j hj; rw [hnode, if_neg hj]
  exact
    { str := alloc_str hs cls dnames md ms
      alive := hsh.alive
      born := by rw [hself]; rfl
      next := rfl
      giter := rfl
      off := hoff
      par := hpar
      shrink := hsh
      drs := hdrs
      itr := hitr
      itrN := by rw [hself]; rfl
      cohX := fun X hc => newPost_cohX hs hoff hsh (by rw [hself]; exact ⟨rfl, fun _ => rfl, fun _ => rfl⟩) hdrs X hc
      tag := fun itr ht => newPost_tag hs hpar hsh hitr (by rw [hself]; rfl) hoff itr ht }

theorem newLeaf_post {h : Heap C T V D} (hs : Str h) (x : T) :
    NewPost s fr h (newLeaf s x h).1 ∧ (newLeaf s x h).2 = .ok h.next ∧
      ((newLeaf s x h).1.graph h.next).dnames = [] ∧
      ((newLeaf s x h).1.graph h.next).makeDense = false ∧ ((newLeaf s x h).1.graph h.next).makeSparse = false := by
  let h1 := (alloc s.base [] false false h).1
  have ha : NewPost s fr h h1 := alloc_post hs s.base [] false false
  let h4 := (setTerm s h.next s.xname x none h1).1
  have hres : newLeaf s x h = (h4, .ok h.next) := rfl
  have hnode1 : h1.node h.next = freshNode s.base [] false false := by
    show (alloc s.base [] false false h).1.node h.next = _
    rw [alloc_node, if_pos rfl]
  obtain ⟨h2, w, hpar, hg4⟩ := setTerm_writing (s := s) h1 ha.str h.next s.xname x none
  have hs4 : Str h4 := (setTerm_post (s := s) (fr := fr) ha.str ha.born s.xname x (itr := none) (by intro t h; cases h) True).1.str
  have hpar4 : ∀ j, (h4.node j).parents = (h1.node j).parents := fun j => by
    show ((setTerm s h.next s.xname x none h1).1.node j).parents = _
    rw [w.par4, hpar]
  have hdead := hs.dead h.next (hs.unborn h.next (Nat.le_refl _))
  have hparN : (h4.node h.next).parents = [] := by rw [hpar4, ha.par]; exact hdead.1
  -- only the new object is cleared
  obtain ⟨S, hp⟩ := w.post
  have hS : ∀ n, n ∈ S → n = h.next := by
    intro n hn
    exact hs4.anc_of_no_parents hparN ((w.links.up_iff).1 (hp.sound n hn).1)
  have hNS : h.next ∈ S := hp.start.resolve_right (not_tagged_none _ _)
  have hitr4 : ∀ j, j ≠ h.next → (h4.node j).itr = (h.node j).itr := by
    intro j hj
    show ((setTerm s h.next s.xname x none h1).1.node j).itr = _
    rw [(w.same4 j).2.2.2.1, (hp.kept j (fun h => hj (hS j h))).2.2, w.itr2]
    exact ha.itr j hj
  have hitrN : (h4.node h.next).itr = none := by
    show ((setTerm s h.next s.xname x none h1).1.node h.next).itr = _
    rw [(w.same4 _).2.2.2.1, (hp.wiped _ hNS).2.2]
  have hsh : Shrink h h4 := ha.shrink.trans w.shrink
  have hoff : SameOff h.graph h4.graph h.next := by
    intro j hj; exact (w.off j hj).trans (ha.off j hj)
  have hdrs : ∀ j, (h4.node j).drs h.next = none := by
    intro j
    cases e : (h4.node j).drs h.next with
    | none => rfl
    | some d => have := w.shrink.d j h.next d e; rw [ha.drs] at this; cases this
  have hnew : (h4.node h.next).cacheR = none ∧ (∀ w, (h4.node h.next).drs w = none) ∧
      ∀ p, (h4.node h.next).props p = none := by
    refine ⟨?_, ?_, ?_⟩
    · cases e : (h4.node h.next).cacheR with
      | none => rfl
      | some d => have := w.shrink.r _ d e; rw [hnode1] at this; cases this
    · intro y
      cases e : (h4.node h.next).drs y with
      | none => rfl
      | some d => have := w.shrink.d _ y d e; rw [hnode1] at this; cases this
    · intro y
      cases e : (h4.node h.next).props y with
      | none => rfl
      | some d => have := w.shrink.p _ y d e; rw [hnode1] at this; cases this
  rw [hres]
  have hpar' : ∀ j, (h4.node j).parents = (h.node j).parents := fun j => (hpar4 j).trans (ha.par j)
  refine ⟨?_, rfl, ?_, ?_⟩
  · exact
      { str := hs4
        alive := fun j hj => hsh.alive j hj
        born := w.shrink.alive _ ha.born
        next := w.next4.trans (w.next2.trans ha.next)
        giter := w.giter4.trans (w.giter2.trans ha.giter)
        off := hoff
        par := hpar'
        shrink := hsh
        drs := hdrs
        itr := hitr4
        itrN := hitrN
        cohX := fun X hc => newPost_cohX hs hoff hsh hnew hdrs X hc
        tag := fun itr ht => newPost_tag hs hpar' hsh hitr4 hitrN hoff itr ht }
  · show ((setTerm s h.next s.xname x none h1).1.graph h.next).dnames = []
    rw [w.dn, Heap.graph_apply, hnode1]; rfl
  · show ((setTerm s h.next s.xname x none h1).1.graph h.next).makeDense = false ∧
      ((setTerm s h.next s.xname x none h1).1.graph h.next).makeSparse = false
    rw [w.fl.1, w.fl.2, Heap.graph_apply, hnode1]; exact ⟨rfl, rfl⟩

theorem CohX.coh {U : Graph C T → Id → Id → Option D → Prop} {W : Graph C T → Id → Prop} {h : Heap C T V D} (hc : CohX s U W h (fun _ => False)) : Coh s U W h :=
  hc.fix (fun _ h => h.elim) (fun _ _ _ _ _ _ _ _ h => h.elim)

theorem NewPost.coh {U : Graph C T → Id → Id → Option D → Prop} [Local s U] {h h' : Heap C T V D} (n : NewPost s fr h h') (hc : Coh s U (Wf s fr) h) : Coh s U (Wf s fr) h' :=
  (n.cohX _ (hc.cohX _)).coh

theorem NewPost.perm {h h' : Heap C T V D} (n : NewPost s fr h h') (hp : PermOne s h)
    (hnew : s.isPermute (h'.graph h.next).cls = true → ∀ k ∈ (h'.graph h.next).dnames, k = s.permArg) : PermOne s h' := by
  intro m hm k hk
  by_cases hml : m = h.next
  · subst hml; exact hnew hm k hk
  · rw [n.off m hml] at hm hk; exact hp m hm k hk

theorem NewPost.flags {h h' : Heap C T V D} (n : NewPost s fr h h') (hp : Flags h)
    (hnew : (h'.graph h.next).makeDense = false ∧ (h'.graph h.next).makeSparse = false) : Flags h' := by
  intro m
  by_cases hml : m = h.next
  · subst hml; exact hnew
  · rw [n.off m hml]; exact hp m

/-- The write condition carries over to a later heap that only lost caches. -/
theorem WOk.mono {h h' : Heap C T V D} {i : Id} (hw : WOk s fr h i) (hsh : Shrink h h')
    (hperm : PermOne s h → PermOne s h') (hcls : (h'.graph i).cls = (h.graph i).cls)
    (hpar : (h.node i).parents = [] → (h'.node i).parents = []) : WOk s fr h' i := by
  intro hfr
  obtain ⟨a, b, c⟩ := hw hfr
  refine ⟨a, hperm b, ?_⟩
  rcases c with c | ⟨c1, c2⟩
  · exact Or.inl (by rw [hcls]; exact c)
  · refine Or.inr ⟨hpar c1, fun j => ?_⟩
    cases e : (h'.node j).drs i with
    | none => rfl
    | some d => have := hsh.d j i d e; rw [c2] at this; cases this

/-- One assignment. -/
theorem setattr_post {h : Heap C T V D} (hs : Str h) {i : Id} (hi : (h.node i).alive = true) (kw : KW T)
    {itr : Option Nat} (ht : ∀ t, itr = some t → t ≤ h.giter ∨ t = 9999) :
    SetPost s fr h (setattr s i itr kw h).1 i itr ((setattr s i itr kw h).2 = .ok ()) ∧
      ∀ j, (h.node j).alive = true → (∀ k, kw ≠ .link k j) → (h.node j).parents = [] →
        ((setattr s i itr kw h).1.node j).parents = [] := by
  cases kw with
  | term n t =>
    obtain ⟨a, b⟩ := setTerm_post (s := s) (fr := fr) hs hi n t ht ((setattr s i itr (.term n t) h).2 = .ok ())
    exact ⟨a, fun j _ _ hj => (b j).trans hj⟩
  | link k c =>
    simp only [setattr]
    split
    · rename_i hg
      obtain ⟨a, _, b⟩ := setDterm_post (s := s) (fr := fr) hs hi hg.1 hg.2 ht ((setDterm s i k c itr h).2 = .ok ())
      exact ⟨a, fun j _ hne hj => b j (by rintro rfl; exact hne k rfl) hj⟩
    · exact ⟨SetPost.same hs (by simp), fun j _ _ hj => hj⟩
  | bad n => exact ⟨SetPost.same hs (by simp [setattr, M.throw]), fun j _ _ hj => hj⟩
  | wrap k x =>
    simp only [setattr]
    split
    · rename_i hg
      obtain ⟨n, hok, hdn, hfl⟩ := newLeaf_post (s := s) (fr := fr) hs x
      have hb : M.bind (newLeaf s x) (fun l => setDterm s i k l itr) h =
          setDterm s i k h.next itr (newLeaf s x h).1 := by
        simp only [M.bind]
        rcases hx : newLeaf s x h with ⟨h', r⟩
        rw [hx] at hok; dsimp only at hok; subst hok; rfl
      rw [hb]
      generalize hh1 : (newLeaf s x h).1 = h1 at *
      have hii : i ≠ h.next := by rintro rfl; exact absurd (hs.alive_lt hi) (Nat.lt_irrefl _)
      have hgi : h1.graph i = h.graph i := n.off i hii
      have hk1 : k ∈ (h1.node i).dnames := by
        show k ∈ (h1.graph i).dnames
        rw [hgi]; exact hg
      obtain ⟨a, hok2, b⟩ := setDterm_post (s := s) (fr := fr) n.str (n.alive i hi) hk1 n.born (itr := itr)
        (by rw [n.giter]; exact ht) True
      have hwok1 : WOk s fr h i → WOk s fr h1 i := fun hw => hw.mono n.shrink
        (fun hp => n.perm hp (fun _ k hk => by rw [hdn] at hk; cases hk)) (by rw [hgi]) (fun h => by rw [n.par]; exact h)
      have hX : ∀ j, Anc h.graph i j → Anc h1.graph i j := by
        intro j hj
        induction hj with
        | refl => exact Anc.refl
        | @step j c k hk _ ih =>
          have hjn : j ≠ h.next := by
            rintro rfl
            have := (hs.dead h.next (hs.unborn h.next (Nat.le_refl _))).2.1 k
            rw [Heap.graph_apply, this] at hk; cases hk
          exact Anc.step k (by rw [n.off j hjn]; exact hk) ih
      refine ⟨?_, ?_⟩
      · exact
          { str := a.str
            alive := fun j hj => a.alive j (n.alive j hj)
            giter := a.giter.trans n.giter
            cls := fun j hj => by
              have hjn : j ≠ h.next := by rintro rfl; exact absurd (hs.alive_lt hj) (Nat.lt_irrefl _)
              rw [a.cls j (n.alive j hj), n.off j hjn]
            perm := fun hp => a.perm (n.perm hp (fun _ k hk => by rw [hdn] at hk; cases hk))
            flags := fun hp => a.flags (n.flags hp hfl)
            shrink := n.shrink.trans a.shrink
            cohX := fun hpo hw hc => a.cohX hpo (hwok1 hw) ((n.cohX _ hc).mono hX)
            coh := fun hpo hw ht' hc => a.coh hpo (hwok1 hw) (n.tag itr ht') (n.coh hc)
            tag := fun ht' => a.tag (n.tag itr ht')
            done := fun hpo hw _ hn hc => a.done hpo (hwok1 hw) trivial hn ((n.cohX _ hc).mono hX) }
      · intro j hj _ hnil
        have hjn : j ≠ h.next := by rintro rfl; exact absurd (hs.alive_lt hj) (Nat.lt_irrefl _)
        exact b j hjn (by rw [n.par]; exact hnil)
    · exact ⟨SetPost.same hs (by simp), fun j _ _ hj => hj⟩

end Chumpy
