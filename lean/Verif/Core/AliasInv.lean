import Verif.Core.AliasView
import Verif.Core.LambdaReach
/-! Caches stay right when differentiable terms may be aliases. -/
namespace Chumpy
variable {C T V D α : Type} {s : Sig C T V D} {al : Aliases C} {h : Heap C T V D}

/-- An alias goes through an ordinary argument. -/
def Aliases.Ok (al : Aliases C) : Prop := ∀ c n k k2, al c n = some (k, k2) → al c k = none

/-- A property that declares an alias also declares the argument behind the alias. -/
def Sig.AliasProps (s : Sig C T V D) (al : Aliases C) : Prop :=
  ∀ c p d, s.propDecl c p = some d → ∀ n ∈ d.1, ∀ k k2, al c n = some (k, k2) → k ∈ d.1

/-! ### Links of the view -/

theorem look_edge {g : Graph C T} {j c : Id} {n : Name} (hk : g.look al j n = some c) :
    (al (g j).cls n = none ∧ (g j).dterms n = some c) ∨
    ∃ k k2 m, al (g j).cls n = some (k, k2) ∧ (g j).dterms k = some m ∧ (g m).dterms k2 = some c := by
  unfold Graph.look at hk
  cases ha : al (g j).cls n with
  | none => rw [ha] at hk; exact Or.inl ⟨rfl, hk⟩
  | some p =>
    obtain ⟨k, k2⟩ := p
    rw [ha] at hk
    dsimp only at hk
    cases hm : (g j).dterms k with
    | none => rw [hm] at hk; cases hk
    | some m => rw [hm] at hk; exact Or.inr ⟨k, k2, m, rfl, hm, hk⟩

theorem look_of {g : Graph C T} {j : Id} {n k k2 : Name} (ha : al (g j).cls n = some (k, k2)) :
    g.look al j n = ((g j).dterms k).bind (fun c => (g c).dterms k2) := by
  unfold Graph.look; rw [ha]

theorem look_plain {g : Graph C T} {j : Id} {n : Name} (ha : al (g j).cls n = none) : g.look al j n = (g j).dterms n := by
  unfold Graph.look; rw [ha]

theorem view_dterms (g : Graph C T) (j : Id) (n : Name) : (g.view al j).dterms n = g.look al j n := rfl

theorem look_anc {g : Graph C T} {i j c : Id} {n : Name} (hk : g.look al j n = some c) (ha : Anc g i c) : Anc g i j := by
  rcases look_edge hk with ⟨_, h⟩ | ⟨k, k2, m, _, h1, h2⟩
  · exact Anc.step n h ha
  · exact Anc.step k h1 (Anc.step k2 h2 ha)

theorem view_anc {g : Graph C T} {i j : Id} (ha : Anc (g.view al) i j) : Anc g i j := by
  induction ha with
  | refl => exact Anc.refl
  | step k hk _ ih => exact look_anc hk ih

/-! ### Writes -/

/-- Away from `i` and what depends on it, nothing of the view changes. -/
theorem view_eqOn {g g' : Graph C T} {i : Id} (hoff : SameOff g g' i) :
    EqOnClosed (g.view al) (g'.view al) (fun j => ¬ Anc g i j) := by
  refine ⟨fun j hj => ?_, fun j hj k c hk ha => hj (look_anc hk ha)⟩
  have e : g' j = g j := hoff j (not_anc_ne hj)
  have : g'.look al j = g.look al j := by
    funext n
    unfold Graph.look
    rw [e]
    cases al (g j).cls n with
    | none => rfl
    | some p =>
      obtain ⟨k, k2⟩ := p
      dsimp only
      cases hm : (g j).dterms k with
      | none => rfl
      | some m =>
        have : g' m = g m := hoff m (not_anc_ne (not_anc_child hj hm))
        simp only [Option.bind_some, this]
  unfold Graph.view
  rw [this, e]

/-- A write, whatever its tag, keeps everything right that does not depend on `i`. -/
theorem Writing.view_cohX (hpo : s.PropsOk) (hok : al.Ok) (hap : s.AliasProps al) {h2 h4 : Heap C T V D} {i : Id} {n : Name}
    {itr : Option Nat} (w : Writing s h h2 h4 i n itr) (hc : CohX s (Fresh s) (NotSlice s) (h.view al) (Anc h.graph i)) :
    CohX s (Fresh s) (NotSlice s) (h4.view al) (Anc h4.graph i) := by
  have hP := view_eqOn (al := al) w.off
  refine ⟨?_, ?_, ?_, ?_⟩
  · intro j v hj e
    rw [w.off.anc_iff] at hj
    exact (hc.r j v hj (w.shrink.r j v e)).congr (fun f => (hP.req s f j hj).1)
  · intro j p v e hd
    have e' : (h4.node j).props p = some v := e
    have hcl : (h4.graph.view al j).cls = (h.graph.view al j).cls := w.cls4 j
    have hm0 := hc.p j p v (w.shrink.p j p v e')
    cases hpd : s.propDecl (h.graph j).cls p with
    | none =>
      refine ((hm0 ?_).no_prop hpd).elim
      intro d hd'
      have hd2 : s.propDecl (h.graph j).cls p = some d := hd'
      rw [hpd] at hd2; cases hd2
    | some d =>
      have hpd4 : s.propDecl (h4.graph j).cls p = some d := by rw [w.cls4]; exact hpd
      -- the attributes named in the declaration have not changed
      have hraw : ∀ k ∈ d.1, (h4.graph j).terms k = (h.graph j).terms k ∧ (h4.graph j).dterms k = (h.graph j).dterms k := by
        intro k hk
        by_cases hj : j = i
        · subst hj
          apply w.nm
          rintro rfl
          have := w.hit p (hits_of_mem hpd hk (by simp))
          rw [this] at e'; cases e'
        · rw [w.off j hj]; exact ⟨rfl, rfl⟩
      have hfree4 : ∀ k ∈ d.1, ∀ c, h4.graph.look al j k = some c → ¬ Anc h4.graph i c := fun k hk c hc' => hd d hpd4 k hk c hc'
      have hlook : ∀ k ∈ d.1, h4.graph.look al j k = h.graph.look al j k := by
        intro k hk
        cases ha : al (h.graph j).cls k with
        | none => rw [look_plain ha, look_plain (by rw [w.cls4]; exact ha), (hraw k hk).2]
        | some q =>
          obtain ⟨a, b⟩ := q
          have ha4 : al (h4.graph j).cls k = some (a, b) := by rw [w.cls4]; exact ha
          have had := hap _ _ _ hpd k hk a b ha
          rw [look_of ha, look_of ha4, (hraw a had).2]
          cases hm : (h.graph j).dterms a with
          | none => rfl
          | some m =>
            have : ¬ Anc h4.graph i m := by
              refine hfree4 a had m ?_
              rw [look_plain (hok _ _ _ _ ha4), (hraw a had).2]; exact hm
            simp only [Option.bind_some, w.off m (not_anc_ne this)]
      have hfree : ∀ k ∈ d.1, ∀ c, h.graph.look al j k = some c → ¬ Anc h.graph i c := by
        intro k hk c hc'
        rw [← w.off.anc_iff]
        exact hfree4 k hk c (by rw [hlook k hk]; exact hc')
      refine (hm0 ?_).congr (fun f => hP.prop s hpo hcl f p d hpd (fun k hk => ⟨(hraw k hk).1, hlook k hk⟩) hfree)
      intro d' hd' k hk c hc'
      have hd2 : s.propDecl (h.graph j).cls p = some d' := hd'
      rw [hpd] at hd2; injection hd2 with hd2; subst hd2
      exact hfree k hk c hc'
  · intro hp j x d hj hx e
    rw [w.off.anc_iff] at hj
    have e' : (h4.node j).drs x = some d := e
    have hp' : Plain s (h.graph.view al) := by
      refine ⟨hp.1, fun m => ?_⟩
      have h2 : (h4.graph m).makeDense = false ∧ (h4.graph m).makeSparse = false := hp.2 m
      show (h.graph m).makeDense = false ∧ (h.graph m).makeSparse = false
      by_cases hm : m = i
      · subst hm; rw [← w.fl.1, ← w.fl.2]; exact h2
      · rw [← w.off m hm]; exact h2
    have hx4 : s.isPermute (h4.graph x).cls = false := hx
    have hx' : s.isPermute (h.graph x).cls = false := by rw [← w.cls4]; exact hx4
    exact (hc.d hp' j x d hj hx' (w.shrink.d j x d e')).congr (fun f => hP.dr s (Or.inr ⟨hx', hx4⟩) f j hj)
  · intro j x d e
    exact w.shrink.alive x (hc.k j x d (w.shrink.d j x d e))

/-- A write without tag makes everything right. -/
theorem Writing.view_coh (hpo : s.PropsOk) (hok : al.Ok) (hap : s.AliasProps al) (hs : Str h) {h2 h4 : Heap C T V D} {i : Id}
    {n : Name} (w : Writing s h h2 h4 i n none) (hc : CohX s (Fresh s) (NotSlice s) (h.view al) (Anc h.graph i)) :
    Coh s (Fresh s) (NotSlice s) (h4.view al) := by
  refine (w.view_cohX hpo hok hap hc).fix (fun j hj => ?_) (fun j p d hd k hk c hc' hx => ?_)
  · have := w.anc_cleared hs.links (TagInv.none s h) j hj
    exact ⟨this.1, this.2.1⟩
  · have hd' : s.propDecl (h4.graph j).cls p = some d := hd
    rcases look_edge (g := h4.graph) hc' with ⟨_, h1⟩ | ⟨a, b, m, ha, h1, h2⟩
    · exact w.anc_props hs.links (TagInv.none s h) j p d hd' k hk c h1 hx
    · exact w.anc_props hs.links (TagInv.none s h) j p d hd' a (hap _ _ _ hd' k hk a b ha) m h1 (Anc.step b h2 hx)

/-! ### Objects nobody refers to -/

/-- A change of an object nobody refers to. -/
theorem view_lonely {h' : Heap C T V D} {l : Id} {X : Id → Prop} (hs : Str h) (hfl : Flags h) (hp : (h.node l).parents = [])
    (hoff : SameOff h.graph h'.graph l) (hal : ∀ j, j ≠ l → (h.node j).alive = true → (h'.node j).alive = true)
    (hsh : ShrinkOff l h h') (hcl : (h'.node l).cacheR = none ∧ (∀ w, (h'.node l).drs w = none) ∧ ∀ p, (h'.node l).props p = none)
    (hk : ∀ j, (h'.node j).drs l = none) (hc : CohX s (Fresh s) (NotSlice s) (h.view al) X) : CohX s (Fresh s) (NotSlice s) (h'.view al) X := by
  have hno : ∀ q m, (h.graph q).dterms m ≠ some l := by
    intro q m hq
    obtain ⟨ns, hm, _⟩ := (hs.links.exact q m l).1 hq
    have : h.par l = [] := hp
    rw [this] at hm; simp at hm
  have hoffV : SameOff (h.graph.view al) (h'.graph.view al) l := by
    intro j hj
    have e : h'.graph j = h.graph j := hoff j hj
    have : h'.graph.look al j = h.graph.look al j := by
      funext n
      unfold Graph.look
      rw [e]
      cases al (h.graph j).cls n with
      | none => rfl
      | some p =>
        obtain ⟨k, k2⟩ := p
        dsimp only
        cases hm : (h.graph j).dterms k with
        | none => rfl
        | some m =>
          have hml : m ≠ l := by rintro rfl; exact hno j k hm
          simp only [Option.bind_some, hoff m hml]
    unfold Graph.view
    rw [this, e]
  refine hc.fresh hoffV (fun j hj => hs.anc_of_no_parents hp (view_anc hj)) ⟨hsh.r, hsh.p, hsh.d⟩ hal ⟨hcl.1, hcl.2.1, ?_⟩
    (fun _ _ => hfl l) hk ?_
  · intro p v e
    have e' : (h'.node l).props p = some v := e
    rw [hcl.2.2 p] at e'; cases e'
  · intro w hw hW
    have hW' : s.isPermute (h'.graph w).cls = false := hW
    show s.isPermute (h.graph w).cls = false
    rw [← hoff w hw]; exact hW'

theorem view_alloc {X : Id → Prop} (hs : Str h) (hfl : Flags h) (cls : C) (dn : List Name)
    (hc : CohX s (Fresh s) (NotSlice s) (h.view al) X) : CohX s (Fresh s) (NotSlice s) ((alloc cls dn false false h).1.view al) X := by
  have hnode := alloc_node cls dn false false h
  have self : (alloc cls dn false false h).1.node h.next = freshNode cls dn false false := by rw [hnode, if_pos rfl]
  have n := alloc_post (s := s) (fr := ⟨False, False⟩) hs cls dn false false
  exact view_lonely hs hfl (hs.par0 _ (Nat.le_refl _)) n.off (fun j _ hj => n.alive j hj) ⟨n.shrink.r, fun j p v _ => n.shrink.p j p v, n.shrink.d⟩
    (by rw [self]; exact ⟨rfl, fun _ => rfl, fun _ => rfl⟩) n.drs hc

theorem view_newLeaf {X : Id → Prop} (hs : Str h) (hfl : Flags h) (x : T)
    (hc : CohX s (Fresh s) (NotSlice s) (h.view al) X) : CohX s (Fresh s) (NotSlice s) ((newLeaf s x h).1.view al) X := by
  have n := (newLeaf_post (s := s) (fr := ⟨False, False⟩) hs x).1
  refine view_lonely hs hfl (hs.par0 _ (Nat.le_refl _)) n.off (fun j _ hj => n.alive j hj) ⟨n.shrink.r, fun j p v _ => n.shrink.p j p v, n.shrink.d⟩
    ?_ n.drs hc
  have hs0 := alloc_str hs s.base [] false false
  obtain ⟨h2, w, _, _⟩ := setTerm_writing (s := s) (alloc s.base [] false false h).1 hs0 h.next s.xname x none
  have self : (alloc s.base [] false false h).1.node h.next = freshNode s.base [] false false := by rw [alloc_node, if_pos rfl]
  have e : (newLeaf s x h).1 = (setTerm s h.next s.xname x none (alloc s.base [] false false h).1).1 := rfl
  rw [e]
  refine ⟨?_, fun y => ?_, fun y => ?_⟩
  · cases e : ((setTerm s h.next s.xname x none (alloc s.base [] false false h).1).1.node h.next).cacheR with
    | none => rfl
    | some d => have := w.shrink.r _ d e; rw [self] at this; cases this
  · cases e : ((setTerm s h.next s.xname x none (alloc s.base [] false false h).1).1.node h.next).drs y with
    | none => rfl
    | some d => have := w.shrink.d _ y d e; rw [self] at this; cases this
  · cases e : ((setTerm s h.next s.xname x none (alloc s.base [] false false h).1).1.node h.next).props y with
    | none => rfl
    | some d => have := w.shrink.p _ y d e; rw [self] at this; cases this

theorem view_collect {i : Id} (hs : Str h) (hfl : Flags h) (hp : (h.node i).parents = [])
    (hc : CohX s (Fresh s) (NotSlice s) (h.view al) (Anc h.graph i)) : Coh s (Fresh s) (NotSlice s) ((collect i h).view al) := by
  have hnode := collect_node i h
  have self : (collect i h).node i = { blankNode (h.node i).cls with itr := none } := by rw [hnode, if_pos rfl]
  have hcx := view_lonely (h' := collect i h) (l := i) hs hfl hp
    (fun j hj => by rw [Heap.graph_apply, hnode, if_neg hj]; rfl)
    (fun j hj ha => by rw [hnode, if_neg hj]; exact ha)
    ⟨fun j v e => by
      by_cases hj : j = i
      · subst hj; rw [self] at e; cases e
      · rw [hnode, if_neg hj] at e; exact e,
     fun j p v hj e => by rw [hnode, if_neg hj] at e; exact e,
     fun j w d e => by
      by_cases hj : j = i
      · subst hj; rw [self] at e; cases e
      · rw [hnode, if_neg hj] at e
        dsimp only at e
        split at e
        · cases e
        · exact e⟩
    (by rw [self]; exact ⟨rfl, fun _ => rfl, fun _ => rfl⟩)
    (fun j => by
      by_cases hj : j = i
      · subst hj; rw [self]; rfl
      · rw [hnode, if_neg hj]; simp) hc
  refine CohX.coh (hcx.refix (l := i) (fun j hj hx => hj (hs.anc_of_no_parents hp hx)) (by show ((collect i h).node i).cacheR = none; rw [self]; rfl)
    (fun w => by show ((collect i h).node i).drs w = none; rw [self]; rfl) ?_)
  have key : ∀ q m, ((collect i h).graph q).dterms m ≠ some i := by
    intro q m hq
    by_cases hqi : q = i
    · subst hqi; rw [Heap.graph_apply, self] at hq; cases hq
    · rw [Heap.graph_apply, hnode, if_neg hqi] at hq
      obtain ⟨ns, hm, _⟩ := (hs.links.exact q m i).1 hq
      have : h.par i = [] := hp
      rw [this] at hm; simp at hm
  intro j k hjk
  rcases look_edge (g := (collect i h).graph) hjk with ⟨_, h1⟩ | ⟨a, b, m, _, _, h2⟩
  · exact key _ _ h1
  · exact key _ _ h2

end Chumpy
