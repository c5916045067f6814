import Verif.Core.Reach
/-! The invariant holds in every reachable state. -/
namespace Chumpy
variable {C T V D α : Type} {s : Sig C T V D} {fr : Mode}

theorem GEq.prog {g g' : Graph C T} (h : GEq g g') {ev ev' : Req → Except Err V} (he : ∀ q, ev' q = ev q) (j : Id)
    (p : Prog T V α) : evalProg g' ev' j p = evalProg g ev j p := by
  have : ev' = ev := funext he
  subst this
  induction p with
  | ret a => rfl
  | raise c => rfl
  | term n k ih => simp only [evalProg, h.terms]; exact ih _
  | child n k ih =>
    simp only [evalProg, h.dterms]
    cases (g j).dterms n with
    | none => rfl
    | some c =>
      dsimp only
      cases ev' (.r c) with
      | ok v => exact ih v
      | error e => rfl
  | prop p k ih =>
    simp only [evalProg]
    cases ev' (.prop j p) with
    | ok v => exact ih v
    | error e => rfl
  | selfR k ih =>
    simp only [evalProg]
    cases ev' (.r j) with
    | ok v => exact ih v
    | error e => rfl

theorem GEq.req {g g' : Graph C T} (h : GEq g g') (f : Nat) : ∀ q, evalReq s g' f q = evalReq s g f q := by
  induction f with
  | zero => intro q; rfl
  | succ f ih =>
    intro q
    cases q with
    | r i => simp only [evalReq, h.cls]; exact h.prog ih i _
    | prop i p =>
      simp only [evalReq, h.cls]
      cases s.propDecl (g i).cls p with
      | none => rfl
      | some d => exact h.prog ih i _

theorem filter_some (l : List Name) (dt : Name → Option Id) (w : Id) :
    l.filter (fun k => dt k = some w) = (l.filter (fun k => (dt k).isSome)).filter (fun k => dt k = some w) := by
  rw [List.filter_filter]
  apply List.filter_congr
  intro k _
  by_cases h : dt k = some w
  · simp [h]
  · simp [h]

theorem GEq.namesOf {g g' : Graph C T} (h : GEq g g') (j w : Id) : (g' j).namesOf w = (g j).namesOf w := by
  unfold GNode.namesOf
  rw [h.dterms, filter_some, filter_some (g j).dnames, h.names]

theorem GEq.compDr {g g' : Graph C T} (h : GEq g g') (f : Nat) (j w : Id) :
    evalCompDr s g' f j w = evalCompDr s g f j w := by
  unfold evalCompDr
  rw [h.cls, h.namesOf]
  exact h.prog (h.req f) j _

theorem GEq.slice {g g' : Graph C T} (h : GEq g g') (f : Nat) (j : Id) : ∀ n x,
    evalSlice s g' f j n x = evalSlice s g f j n x := by
  intro n
  induction n with
  | zero => intro x; rfl
  | succ n ih =>
    intro x
    simp only [evalSlice, h.cls, h.dterms]
    split
    · cases (g x).dterms s.permArg with
      | none => rfl
      | some y =>
        dsimp only
        split
        · rfl
        · rw [h.compDr]
          cases evalCompDr s g f j y with
          | error e => rfl
          | ok o => cases o with
            | some d => rfl
            | none => exact ih y
    · rfl

theorem GEq.sliced {g g' : Graph C T} (h : GEq g g') (f : Nat) (j w : Id) :
    evalSliced s g' f j w = evalSliced s g f j w := by
  simp only [evalSliced, h.compDr, h.slice]

theorem evalTerms_filter (g : Graph C T) (f : Nat) (i w : Id) (ev : Id → Except Err (Option D)) : ∀ ks acc,
    evalTerms s g f i w ev ks acc = evalTerms s g f i w ev (ks.filter (fun k => ((g i).dterms k).isSome)) acc := by
  intro ks
  induction ks with
  | nil => intro acc; rfl
  | cons k ks ih =>
    intro acc
    cases hk : (g i).dterms k with
    | none =>
      rw [List.filter_cons_of_neg (by simp [hk]), evalTerms, hk]
      exact ih acc
    | some p =>
      rw [List.filter_cons_of_pos (by simp [hk]), evalTerms, evalTerms, hk]
      simp only [ih]

theorem GEq.tms {g g' : Graph C T} (h : GEq g g') (f : Nat) (i w : Id) {ev ev' : Id → Except Err (Option D)}
    (he : ∀ p, ev' p = ev p) : ∀ ks acc, evalTerms s g' f i w ev' ks acc = evalTerms s g f i w ev ks acc := by
  have : ev' = ev := funext he
  subst this
  intro ks
  induction ks with
  | nil => intro acc; rfl
  | cons k ks ih => intro acc; simp only [evalTerms, h.dterms, h.sliced, ih]

theorem GEq.dr {g g' : Graph C T} (h : GEq g g') (f : Nat) : ∀ i w, evalDr s g' f i w = evalDr s g f i w := by
  induction f with
  | zero => intro i w; rfl
  | succ f ih =>
    intro i w
    have e : ∀ acc, evalTerms s g' f i w (fun p => evalDr s g' f p w) (g' i).dnames acc =
        evalTerms s g f i w (fun p => evalDr s g f p w) (g i).dnames acc := by
      intro acc
      rw [h.tms f i w (fun p => ih p w), evalTerms_filter, h.names, ← evalTerms_filter]
    simp only [evalDr, h.sliced, e, h.md, h.ms]

instance : Local s (Fresh s) where
  off hoff hi _ hw h := h.congr (fun f => evalDr_off s hoff hw f _ hi)
  geq hg h := h.congr (fun f => hg.dr f _ _)

/-- Extending `dterms` by a name not yet in use changes no value and no derivative. -/
theorem addName_geq {h : Heap C T V D} (hs : Str h) (i : Id) (k : Name) :
    GEq h.graph (h.modify i (fun n => { n with dnames := if k ∈ n.dnames then n.dnames else n.dnames ++ [k] })).graph := by
  have hnode : ∀ j, ((h.modify i (fun n => { n with dnames := if k ∈ n.dnames then n.dnames else n.dnames ++ [k] })).graph j) =
      { h.graph j with dnames := if j = i then (if k ∈ (h.node i).dnames then (h.node i).dnames else (h.node i).dnames ++ [k]) else (h.node j).dnames } := by
    intro j; rw [Heap.graph_apply, modify_node]; split
    · subst_vars; rfl
    · rfl
  refine ⟨?_, ?_, ?_, ?_, ?_, ?_⟩ <;> intro j <;> rw [hnode]
  dsimp only
  split
  · subst_vars
    split
    · rfl
    · rename_i hk
      rw [List.filter_append]
      have : ((h.graph j).dterms k).isSome = false := by
        cases e : (h.graph j).dterms k with
        | none => rfl
        | some c => exact absurd (hs.dn j k c e) hk
      rw [List.filter_cons_of_neg (by rw [this]; simp)]
      simp; rfl
  · rfl

theorem addName_inv {U : Graph C T → Id → Id → Option D → Prop} [Local s U] {h : Heap C T V D} (hs : InvU s U fr h) {i : Id} (k : Name)
    (hper : fr.frozen → s.isPermute (h.graph i).cls = false) :
    InvU s U fr (h.modify i (fun n => { n with dnames := if k ∈ n.dnames then n.dnames else n.dnames ++ [k] })) := by
  have hg := addName_geq hs.str i k
  have hstr : Str (h.modify i (fun n => { n with dnames := if k ∈ n.dnames then n.dnames else n.dnames ++ [k] })) := by
    obtain ⟨ns, h1, _, h3⟩ := addDterm_mid (h := h) i k
    rw [h3]; exact dnames_str hs.str i ns h1
  generalize hh : (h.modify i (fun n => { n with dnames := if k ∈ n.dnames then n.dnames else n.dnames ++ [k] })) = h' at *
  have hnode : ∀ j, ∃ ns, h'.node j = { h.node j with dnames := ns } ∧ (j ≠ i → ns = (h.node j).dnames) := by
    intro j; rw [← hh, modify_node]; split
    · subst_vars; exact ⟨_, rfl, fun h => absurd rfl h⟩
    · exact ⟨_, rfl, fun _ => rfl⟩
  refine ⟨hstr, ⟨?_, ?_, ?_, ?_⟩, ?_, ?_⟩
  · intro j v e
    obtain ⟨ns, hns, _⟩ := hnode j
    rw [hns] at e
    exact (hs.coh.r j v e).congr (fun f => hg.req f _)
  · intro j p v e
    obtain ⟨ns, hns, _⟩ := hnode j
    rw [hns] at e
    exact (hs.coh.p j p v e).congr (fun f => hg.req f _)
  · intro hp j w d hW e
    obtain ⟨ns, hns, _⟩ := hnode j
    rw [hns] at e
    have hp' : Plain s h.graph := ⟨hp.1, fun n => by rw [← hg.md, ← hg.ms]; exact hp.2 n⟩
    exact Local.geq s hg (hs.coh.d hp' j w d (Wf_of_cls (hg.cls w) hW) e)
  · intro j w d e
    obtain ⟨ns, hns, _⟩ := hnode j
    obtain ⟨ns', hns', _⟩ := hnode w
    rw [hns] at e; rw [hns']
    exact hs.coh.k j w d e
  · intro hfr n hn k' hk'
    rw [hg.cls] at hn
    have hni : n ≠ i := by rintro rfl; rw [hper hfr] at hn; cases hn
    obtain ⟨ns, hns, he⟩ := hnode n
    rw [Heap.graph_apply, hns] at hk'
    rw [he hni] at hk'
    exact hs.perm hfr n hn k' hk'
  · intro hp n; rw [hg.md, hg.ms]; exact hs.flags hp n

theorem clone_inv {U : Graph C T → Id → Id → Option D → Prop} [Local s U] (hpo : s.PropsOk) (hloc : fr.frozen → s.LocalDr) {h : Heap C T V D} (hs : InvU s U fr h) (j : Id)
    (ls : List (Name × Id)) : InvU s U fr (clone s j ls h).1 := by
  by_cases hg : CloneGuard h j ls
  · by_cases hnd : (ls.map (·.2)).Nodup
    · have b := (clone_ok (s := s) (fr := fr) hs.str hg hnd).2
      have hself := cloneBase_node (s := s) j (ls.map (·.1)) h h.next
      rw [if_pos rfl] at hself
      refine ⟨b.str, b.coh hpo ?_ (cloneBase_coh hpo hs.str hg hs.coh), fun hfr => b.perm (cloneBase_perm _ (hs.perm hfr)),
        fun hp => b.flags (cloneBase_flags _ (hs.flags hp))⟩
      intro hfr
      refine ⟨hloc hfr, cloneBase_perm _ (hs.perm hfr), Or.inr ⟨by rw [hself]; rfl, fun m => ?_⟩⟩
      rw [cloneBase_node]; split
      · rfl
      · exact hs.str.next_unused m
    · have a := clone_spec (s := s) hs.str hg
      rw [if_neg hnd] at a
      rw [a]
      dsimp only
      have n := alloc_post (s := s) (fr := fr) hs.str (h.node j).cls (h.node j).dnames (h.node j).makeDense (h.node j).makeSparse
      have hp := (n.par h.next).trans (hs.str.par0 _ (Nat.le_refl _))
      have hn : ((alloc (h.node j).cls (h.node j).dnames (h.node j).makeDense (h.node j).makeSparse h).1.node h.next) =
          freshNode (h.node j).cls (h.node j).dnames (h.node j).makeDense (h.node j).makeSparse := by rw [alloc_node, if_pos rfl]
      have hfl : fr.plain → Flags (alloc (h.node j).cls (h.node j).dnames (h.node j).makeDense (h.node j).makeSparse h).1 :=
        fun hpl => n.flags (hs.flags hpl) (by rw [Heap.graph_apply, hn]; exact hs.flags hpl j)
      refine ⟨collect_str n.str hp, (collect_cohX n.str hp hfl ((n.coh hs.coh).cohX (fun _ => False))).coh,
        fun hfr => collect_perm (n.perm (hs.perm hfr) ?_), fun hpl => collect_flags (hfl hpl)⟩
      rw [Heap.graph_apply, hn]; exact hs.perm hfr j
  · rw [clone, if_neg (fun h => hg (cloneOk_iff.1 h))]; exact hs

/-- Every operation keeps the invariant, if what `dr_wrt` stores is as claimed. -/
theorem step_invU {U : Graph C T → Id → Id → Option D → Prop} [Local s U] (hpo : s.PropsOk) (hloc : fr.frozen → s.LocalDr)
    {h : Heap C T V D} (hs : InvU s U fr h) (op : Op C T D) (hl : Legal s fr h op)
    (hdr : ∀ f i w, Coh s U (Wf s fr) (drWrt s f i w h).1) : InvU s U fr (step s op h).1 := by
  cases op with
  | new cls dnames md ms kws => exact newObj_inv hpo hs cls dnames md ms kws hloc hl.1 hl.2
  | set i kws =>
    obtain ⟨h1, h2⟩ := hl
    by_cases ha : (h.node i).alive = true
    · have e : step s (.set i kws) h = M.map' (fun _ => Out.unit) (setAll s i kws) h := by
        simp only [step, M.map', setObj, ha, if_true]
      rw [e] at h2 ⊢
      refine setAll_inv hpo hs ha kws hloc h1 ?_
      rcases h2 with h2 | h2 | h2
      · exact Or.inl h2
      · right; left
        simp only [M.map'] at h2
        cases hr : (setAll s i kws h).2 with
        | ok u => rfl
        | error e => rw [hr] at h2; cases h2
      · exact Or.inr (Or.inr h2)
    · simp only [step, M.map', setObj, ha]; exact hs
  | batch ws =>
    obtain ⟨h1, h2⟩ := hl
    simp only [step, M.map', batch]
    split
    · rename_i ha
      have hinv : InvU s U fr { h with giter := h.giter + 1 } :=
        ⟨⟨hs.str.links, hs.str.dead, hs.str.unborn, hs.str.dn, hs.str.keys, fun n t ht => by
          rcases hs.str.tags n t ht with h | h
          · left; show t ≤ _ + 1; omega
          · exact Or.inr h⟩, ⟨hs.coh.r, hs.coh.p, hs.coh.d, hs.coh.k⟩, hs.perm, hs.flags⟩
      refine batchLoop_inv hpo _ ws hinv ?_ (Or.inl (Nat.le_refl _)) ?_ hloc (fun w hw hfr => h1 hfr w hw)
      · intro w hw; exact List.all_eq_true.1 ha w hw
      · apply TagInv.of_untagged
        rintro n ⟨_, hn⟩
        have hn' : (h.node n).itr = some (h.giter + 1) := hn
        rcases hs.str.tags n _ hn' with h3 | h3
        · omega
        · rcases h2 with h2 | h2
          · exact h2 h3
          · rw [h3] at hn'; exact h2 n hn'
    · exact hs
  | clear i =>
    simp only [step, ifAlive]
    split
    · obtain ⟨a, b, c⟩ := clear_writing_like (s := s) hs.str i none (by intro t h; cases h)
      exact ⟨a, hs.coh.shrink c b, fun hfr n => by dsimp only; rw [c]; exact hs.perm hfr n,
        fun hp n => by dsimp only; rw [c]; exact hs.flags hp n⟩
    · exact hs
  | readR f i =>
    simp only [step, ifAlive]
    split
    · exact read_inv hs f (.r i)
    · exact hs
  | readProp f i p =>
    simp only [step, ifAlive]
    split
    · exact read_inv hs f (.prop i p)
    · exact hs
  | readDr f i w =>
    simp only [step, ifAlive]
    split
    · split
      · have b := drWrt_pres rframe_rel (s := s) f i w h
        exact ⟨hs.str.rframe b, hdr f i w, fun hfr n => by
          show s.isPermute ((drWrt s f i w h).1.graph n).cls = true →
            ∀ k ∈ ((drWrt s f i w h).1.graph n).dnames, k = s.permArg
          rw [b.graph]; exact hs.perm hfr n,
          fun hp n => by
            show ((drWrt s f i w h).1.graph n).makeDense = false ∧ ((drWrt s f i w h).1.graph n).makeSparse = false
            rw [b.graph]; exact hs.flags hp n⟩
      · exact hs
    · exact hs
  | readLop td f i w L =>
    simp only [step, ifAlive]
    split
    · split
      · exact leftMul_inv hs lopStyle_ok f i w L
      · exact hs
    · exact hs
  | readLmult ne f i w L =>
    simp only [step, ifAlive]
    split
    · split
      · exact leftMul_inv hs lmultStyle_ok f i w L
      · exact hs
    · exact hs
  | gc i =>
    simp only [step]
    split
    · rename_i hp
      exact ⟨collect_str hs.str hp, (collect_cohX hs.str hp hs.flags (hs.coh.cohX (fun _ => False))).coh,
        fun hfr => collect_perm (hs.perm hfr), fun hpl => collect_flags (hs.flags hpl)⟩
    · exact hs
  | clone j ls => exact clone_inv hpo hloc hs j ls
  | addDterm i k kw =>
    simp only [step, ifAlive]
    split
    · rename_i ha
      simp only [M.map', addDterm]
      have hi := addName_inv hs k hl (i := i)
      have hg := addName_geq hs.str i k
      refine setattr_none_inv hpo hi.str ?_ kw ?_ hi.perm hi.flags hi.coh
      · rw [modify_node_self]; exact ha
      · intro hfr; exact ⟨hloc hfr, hi.perm hfr, Or.inl (by rw [hg.cls]; exact hl hfr)⟩
    · exact hs

theorem step_inv (hpo : s.PropsOk) (hloc : fr.frozen → s.LocalDr) {h : Heap C T V D} (hs : Inv s fr h) (op : Op C T D)
    (hl : Legal s fr h op) : Inv s fr (step s op h).1 :=
  step_invU hpo hloc hs op hl (fun f i w => (drWrt_sim (W := Wf s fr) (g := h.graph) f i w h hs.coh rfl).1)

theorem reach_inv (hpo : s.PropsOk) (hloc : fr.frozen → s.LocalDr) {h : Heap C T V D} (hr : Reach s fr h) :
    Inv s fr h := by
  induction hr with
  | init => exact inv_empty
  | step op _ hl ih => exact step_inv hpo hloc ih op hl

theorem run_str (ops : List (Op C T D)) : Str (run s ops (Heap.empty s)) := by
  unfold run
  have : ∀ (ops : List (Op C T D)) (h : Heap C T V D), Str h → Str (ops.foldl (fun h op => (step s op h).1) h) := by
    intro ops
    induction ops with
    | nil => intro h hs; exact hs
    | cons op ops ih => intro h hs; exact ih _ (step_str hs op)
  exact this ops _ str_empty

end Chumpy
