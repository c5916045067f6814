import Verif.Core.LambdaSim
/-! Histories of programs with lambdas, and what their reads return. -/
namespace Chumpy
variable {C T V D : Type} {s : Sig C T V D}

/-- When `F` may be made a lambda with these arguments and this body (ch.py:1247-1265), by what the code does or as a simplification:
* its links have been made, nothing has been made a lambda of it before, and it is not part of a body yet;
* the handles are different objects of a class like `ChHandle` (no slice, no `@depends_on` property), made for `F`, part of the body,
  and their `x` is what `F` has under the argument's name (ch.py:1262);
* the arguments are not part of the body (default values are made by the handle, but handed over: ch.py:1249, 1262);
* only `F` and the body itself refer to the body;
* the body has the handles of the lambdas in it. -/
structure LamOk (s : Sig C T V D) (L : Lam) (h : Heap C T V D) (F : Id) (args : List (Name × Id)) (body : List Id) : Prop where
  free : L.owners F = []
  live : (h.node F).alive = true
  noArgs : L.args F = []
  new : ∀ j, F ∉ L.owners j
  notIn : F ∉ body
  names : (args.map (·.1)).Nodup
  handles : (args.map (·.2)).Nodup
  inBody : ∀ p ∈ args, p.2 ∈ body
  fresh : ∀ p ∈ args, L.of p.2 = none ∧ L.args p.2 = []
  cls : ∀ p ∈ args, s.isPermute (h.graph p.2).cls = false ∧ (∀ q, s.propDecl (h.graph p.2).cls q = none) ∧
    s.xname ∈ (h.graph p.2).dnames
  plainF : ∀ q, s.propDecl (h.graph F).cls q = none
  linked : ∀ p ∈ args, ∃ y, (h.graph F).dterms p.1 = some y ∧ (h.graph p.2).dterms s.xname = some y ∧ y ∉ body
  alive : ∀ j ∈ body, (h.node j).alive = true
  closed : ∀ q k c, (h.graph q).dterms k = some c → c ∈ body → q ∈ body ∨ q = F
  inner : ∀ K ∈ body, ∀ p ∈ L.args K, p.2 ∈ body

/-- Which steps a program may take: the user does not get hold of the body of a lambda.  Simplification: lambdas and handles are not
collected. -/
def LLegal (s : Sig C T V D) (L : Lam) (h : Heap C T V D) : LOp C T → Prop
  | .alloc _ _ => True
  | .term i _ _ => L.owners i = []
  | .link i _ c => L.owners i = [] ∧ L.owners c = []
  | .clear _ => True
  | .readR _ i => L.owners i = []
  | .readProp _ i _ => L.owners i = []
  | .readDr _ i w => L.owners i = [] ∧ L.owners w = []
  | .gc i => L.args i = [] ∧ L.of i = none
  | .lambda F args body => LamOk s L h F args body

/-- The states of programs with lambdas. -/
inductive LReach (s : Sig C T V D) : Lam → Heap C T V D → Prop
  | init : LReach s Lam.empty (Heap.empty s)
  | step {L : Lam} {h : Heap C T V D} (op : LOp C T) : LReach s L h → LLegal s L h op → LReach s (L.step op) (stepL s L op h)

variable {L : Lam} {h : Heap C T V D} {S : Id → Name → Prop}

theorem LStr.same (hl : LStr s L h S) {h' : Heap C T V D} (hs : Str h') (hg : h'.graph = h.graph)
    (hal : ∀ j, (h'.node j).alive = (h.node j).alive) (hn : h'.next = h.next)
    (hd : ∀ F a, S F a → a ∈ (h'.node F).dirty) : LStr s L h' S where
  str := hs
  flags := by intro n; rw [hg]; exact hl.flags n
  enc := by rw [hg]; exact hl.enc
  ofIff := hl.ofIff
  uniq := hl.uniq
  lam F a hd hm := by
    have ok := hl.lam F a hd hm
    refine ⟨by rw [hal]; exact ok.liveF, by rw [hal]; exact ok.liveH, ok.own, ok.sub, ?_, ?_, ?_, ?_, ?_, ?_, ok.notH⟩
      <;> rw [hg]
    · exact ok.cls
    · exact ok.xn
    · exact ok.npH
    · exact ok.npF
    · exact ok.arg
    · exact ok.sync
  stale F a hS := ⟨(hl.stale F a hS).1, hd F a hS⟩
  born j hj := hl.born j (by rw [hn] at hj; exact hj)

theorem LInv.init : LInv s Lam.empty (Heap.empty s) (fun _ _ => False) where
  str := str_empty
  flags _ := ⟨rfl, rfl⟩
  enc i k c hk := by simp [Lam.empty]
  ofIff F a hd := by simp [Lam.empty]
  uniq F a hd hd' hm := by simp [Lam.empty] at hm
  lam F a hd hm := by simp [Lam.empty] at hm
  stale F a hS := hS.elim
  born j _ := ⟨rfl, rfl, rfl⟩
  coh := by
    refine ⟨?_, ?_, ?_, ?_⟩
    · intro j v _ e; cases e
    · intro j p v e; cases e
    · intro _ j w d _ _ e; cases e
    · intro i w d e; cases e

theorem LInv.clear (hl : LInv s L h S) (i : Id) : LInv s L (clearCache s i none h) S := by
  obtain ⟨hs', hsh, hg⟩ := clear_writing_like (s := s) hl.str i none (by intro t h; cases h)
  obtain ⟨U, hp⟩ := clearCache_spec s h i none (fun n hn => hl.str.par0 n hn)
  refine ⟨hl.toLStr.same hs' hg hp.alive hp.next (fun F a hS => (hp.dirty F a).2 (Or.inl (hl.stale F a hS).2)), ?_⟩
  have hga : ((clearCache s i none h).applied s L).graph = (h.applied s L).graph := by
    rw [Heap.applied_graph, Heap.applied_graph, hg]
  rw [hg]
  refine ⟨?_, ?_, ?_, ?_⟩
  · intro j v hj e; rw [hga]; exact hl.coh.r j v hj (hsh.r j v e)
  · intro j p v e h0; rw [hga] at h0 ⊢; exact hl.coh.p j p v (hsh.p j p v e) h0
  · intro hpl j w d hj hW e; rw [hga] at hpl hW ⊢; exact hl.coh.d hpl j w d hj hW (hsh.d j w d e)
  · intro j w d e; exact hsh.alive w (hl.coh.k j w d (hsh.d j w d e))

/-- Only for the object `l`, whose caches are empty and to which nobody refers, is more claimed. -/
theorem CohX.refix {W : Graph C T → Id → Prop} {X Y : Id → Prop} {l : Id} (hc : CohX s (Fresh s) W h X) (hXY : ∀ j, j ≠ l → X j → Y j)
    (h1 : (h.node l).cacheR = none) (h2 : ∀ w, (h.node l).drs w = none) (h3 : ∀ j k, (h.graph j).dterms k ≠ some l) :
    CohX s (Fresh s) W h Y where
  r j v hj e := hc.r j v (fun hx => hj (hXY j (by rintro rfl; rw [h1] at e; cases e) hx)) e
  p j p v e hd := hc.p j p v e (fun d hd' k hk c hk' hx => hd d hd' k hk c hk' (hXY c (by rintro rfl; exact h3 j k hk') hx))
  d hp j w d hj hW e := hc.d hp j w d (fun hx => hj (hXY j (by rintro rfl; rw [h2] at e; cases e) hx)) hW e
  k := hc.k

theorem LStr.no_ref (hl : LStr s L h S) {l : Id} (hp : (h.node l).parents = []) (q : Id) (m : Name) :
    (h.graph q).dterms m ≠ some l := by
  intro hq
  obtain ⟨ns, hm, _⟩ := (hl.str.links.exact q m l).1 hq
  have : h.par l = [] := hp
  rw [this] at hm; simp at hm

/-- Allocation and collection: a change of `l`, which is neither a lambda nor a handle and to which nobody refers. -/
theorem LInv.lonely (hl : LInv s L h S) {h' : Heap C T V D} {l : Id} (hp : (h.node l).parents = []) (hs' : Str h')
    (hoff : ∀ j, j ≠ l → (h'.node j).toGNode = (h.node j).toGNode ∧ (h'.node j).alive = (h.node j).alive ∧
      (h'.node j).dirty = (h.node j).dirty)
    (hsh : ShrinkOff l h h') (hcl : (h'.node l).cacheR = none ∧ (∀ w, (h'.node l).drs w = none) ∧ ∀ p, (h'.node l).props p = none)
    (hk : ∀ j, (h'.node j).drs l = none) (hfl : Flags h') (hdt : ∀ k, (h'.graph l).dterms k = none)
    (ha : L.args l = []) (ho : L.of l = none) (hnext : h.next ≤ h'.next) : LInv s L h' S := by
  have hg : ∀ j, j ≠ l → h'.graph j = h.graph j := fun j hj => (hoff j hj).1
  have hargs : ∀ F a hd, (a, hd) ∈ L.args F → F ≠ l ∧ hd ≠ l := by
    intro F a hd hm
    refine ⟨by rintro rfl; rw [ha] at hm; simp at hm, ?_⟩
    rintro rfl
    have := (hl.ofIff F a hd).1 hm
    rw [ho] at this; cases this
  have hL : LStr s L h' S := by
    refine ⟨hs', hfl, ?_, hl.ofIff, hl.uniq, ?_, ?_, ?_⟩
    · intro i k c hk'
      by_cases hi : i = l
      · subst hi; rw [hdt] at hk'; cases hk'
      · rw [hg i hi] at hk'; exact hl.enc i k c hk'
    · intro F a hd hm
      have ok := hl.lam F a hd hm
      obtain ⟨hF, hh⟩ := hargs F a hd hm
      refine ⟨by rw [(hoff F hF).2.1]; exact ok.liveF, by rw [(hoff hd hh).2.1]; exact ok.liveH, ok.own, ok.sub, ?_, ?_, ?_, ?_, ?_, ?_, ok.notH⟩
      · rw [hg hd hh]; exact ok.cls
      · rw [hg hd hh]; exact ok.xn
      · rw [hg hd hh]; exact ok.npH
      · rw [hg F hF]; exact ok.npF
      · rw [hg F hF]; exact ok.arg
      · rw [hg F hF, hg hd hh]; exact ok.sync
    · intro F a hS
      obtain ⟨⟨hd, hm⟩, h2⟩ := hl.stale F a hS
      exact ⟨⟨hd, hm⟩, by rw [(hoff F (hargs F a hd hm).1).2.2]; exact h2⟩
    · intro j hj; exact hl.born j (Nat.le_trans hnext hj)
  refine ⟨hL, ?_⟩
  have hoffA : SameOff (h.applied s L).graph (h'.applied s L).graph l := by
    intro j hj
    show applied s L h'.graph j = applied s L h.graph j
    cases hof : L.of j with
    | none => rw [applied_none hof, applied_none hof, hg j hj]
    | some p =>
      obtain ⟨F, a⟩ := p
      have hF := (hargs F a j ((hl.ofIff F a j).2 hof)).1
      rw [applied_some hof, applied_some hof, hg j hj, hg F hF]
  have hc' : CohX s (Fresh s) (NotSlice s) (h'.applied s L) (Exempt L h.graph S) := by
    refine hl.coh.fresh hoffA (fun j hj => hl.anc_lonely hp hj) ⟨hsh.r, hsh.p, hsh.d⟩ ?_ ⟨hcl.1, hcl.2.1, ?_⟩ ?_ hk ?_
    · intro j hj hal; show (h'.node j).alive = true; rw [(hoff j hj).2.1]; exact hal
    · intro p v e
      have e' : (h'.node l).props p = some v := e
      rw [hcl.2.2 p] at e'; cases e'
    · intro w _
      rw [Heap.applied_graph, (applied_flags _ _).1, (applied_flags _ _).2]; exact hl.flags l
    · intro w hw hW
      unfold NotSlice at hW ⊢
      rw [← hoffA w hw]; exact hW
  refine hc'.refix (l := l) ?_ hcl.1 hcl.2.1 ?_
  · rintro j hj ⟨K, b, hd, hS, hm, hK, hanc⟩
    refine ⟨K, b, hd, hS, hm, hK, ?_⟩
    clear hK
    induction hanc with
    | refl => exact Anc.refl
    | step k hk' hanc ih =>
      rename_i j c
      have hc : c ≠ l := by rintro rfl; exact hl.no_ref hp _ _ hk'
      exact Anc.step k (by rw [hg j hj]; exact hk') (ih hc)
  · intro j k hjk
    have key : ∀ q m, (h'.graph q).dterms m ≠ some l := by
      intro q m hq
      by_cases hq' : q = l
      · subst hq'; rw [hdt] at hq; cases hq
      · rw [hg q hq'] at hq; exact hl.no_ref hp q m hq
    rcases applied_edge hjk with he | ⟨F, a, _, _, he⟩
    · exact key j k he
    · exact key F a he

theorem LInv.alloc (hl : LInv s L h S) (cls : C) (dn : List Name) : LInv s L (alloc cls dn false false h).1 S := by
  have hnode := alloc_node cls dn false false h
  have self : (Chumpy.alloc cls dn false false h).1.node h.next = freshNode cls dn false false := by rw [hnode, if_pos rfl]
  obtain ⟨_, b2, b3⟩ := hl.born h.next (Nat.le_refl _)
  have hu := alloc_shrink (h := h) cls dn false false
  refine hl.lonely (l := h.next) (hl.str.par0 _ (Nat.le_refl _)) (alloc_str hl.str cls dn false false) ?_
    ⟨hu.r, fun j p v _ e => hu.p j p v e, hu.d⟩ (by rw [self]; exact ⟨rfl, fun _ => rfl, fun _ => rfl⟩) ?_ ?_ ?_ b2 b3 ?_
  · intro j hj; rw [hnode, if_neg hj]; exact ⟨rfl, rfl, rfl⟩
  · intro j; rw [hnode]; split
    · rfl
    · exact hl.str.next_unused j
  · intro n
    rw [Heap.graph_apply, hnode]; split
    · exact ⟨rfl, rfl⟩
    · exact hl.flags n
  · intro k; rw [Heap.graph_apply, self]; rfl
  · exact Nat.le_succ _

theorem LInv.collect (hl : LInv s L h S) {i : Id} (hp : (h.node i).parents = []) (ha : L.args i = []) (ho : L.of i = none) :
    LInv s L (collect i h) S := by
  have hnode := collect_node i h
  have self : (Chumpy.collect i h).node i = { blankNode (h.node i).cls with itr := none } := by rw [hnode, if_pos rfl]
  refine hl.lonely (l := i) hp (collect_str hl.str hp) ?_ ⟨?_, ?_, ?_⟩ (by rw [self]; exact ⟨rfl, fun _ => rfl, fun _ => rfl⟩) ?_
    (collect_flags hl.flags) ?_ ha ho (Nat.le_refl _)
  · intro j hj; rw [hnode, if_neg hj]; exact ⟨rfl, rfl, rfl⟩
  · intro j v e
    by_cases hj : j = i
    · subst hj; rw [self] at e; cases e
    · rw [hnode, if_neg hj] at e; exact e
  · intro j p v hj e
    rw [hnode, if_neg hj] at e; exact e
  · intro j w d e
    by_cases hj : j = i
    · subst hj; rw [self] at e; cases e
    · rw [hnode, if_neg hj] at e
      dsimp only at e
      split at e
      · cases e
      · exact e
  · intro j
    by_cases hj : j = i
    · subst hj; rw [self]; rfl
    · rw [hnode, if_neg hj]; simp
  · intro k; rw [Heap.graph_apply, self]; rfl

theorem find_handle {args : List (Name × Id)} (hn : (args.map (·.2)).Nodup) {a : Name} {hd : Id} (hm : (a, hd) ∈ args) :
    args.find? (fun p => p.2 == hd) = some (a, hd) := by
  induction args with
  | nil => simp at hm
  | cons x l ih =>
    rw [List.map_cons, List.nodup_cons] at hn
    by_cases hx : x.2 = hd
    · rw [List.find?_cons_of_pos (by simpa using hx)]
      rcases List.mem_cons.1 hm with rfl | hm
      · rfl
      · exact absurd (List.mem_map.2 ⟨_, hm, hx.symm⟩) hn.1
    · rw [List.find?_cons_of_neg (by simpa using hx)]
      rcases List.mem_cons.1 hm with rfl | hm
      · exact absurd rfl hx
      · exact ih hn.2 hm

theorem name_handle {args : List (Name × Id)} (hn : (args.map (·.1)).Nodup) {a : Name} {hd hd' : Id} (hm : (a, hd) ∈ args)
    (hm' : (a, hd') ∈ args) : hd = hd' := by
  induction args with
  | nil => simp at hm
  | cons x l ih =>
    rw [List.map_cons, List.nodup_cons] at hn
    rcases List.mem_cons.1 hm with e | hm
    · rcases List.mem_cons.1 hm' with e' | hm'
      · rw [← e'] at e; injection e
      · exact absurd (List.mem_map.2 ⟨_, hm', by rw [← e]⟩) hn.1
    · rcases List.mem_cons.1 hm' with e' | hm'
      · exact absurd (List.mem_map.2 ⟨_, hm, by rw [← e']⟩) hn.1
      · exact ih hn.2 hm hm'

theorem find_spec {args : List (Name × Id)} {j : Id} {p : Name × Id} (h : args.find? (fun p => p.2 == j) = some p) :
    p ∈ args ∧ p.2 = j :=
  ⟨List.mem_of_find?_eq_some h, by simpa using List.find?_some h⟩

theorem LInv.lambda (hl : LInv s L h S) {F : Id} {args : List (Name × Id)} {body : List Id} (ok : LamOk s L h F args body) :
    LInv s (L.step (.lambda F args body : LOp C T)) h S := by
  let L' : Lam := L.step (.lambda F args body : LOp C T)
  have hargsF : L'.args F = args := by show (if F = F then args else _) = args; rw [if_pos rfl]
  have hargs : ∀ K, K ≠ F → L'.args K = L.args K := fun K hK => by show (if K = F then args else _) = _; rw [if_neg hK]
  have hownB : ∀ j, j ∈ body → L'.owners j = F :: L.owners j := fun j hj => by
    show (if j ∈ body then F :: L.owners j else L.owners j) = _; rw [if_pos hj]
  have hownN : ∀ j, j ∉ body → L'.owners j = L.owners j := fun j hj => by
    show (if j ∈ body then F :: L.owners j else L.owners j) = _; rw [if_neg hj]
  have hown : ∀ j K, K ∈ L.owners j → K ∈ L'.owners j := by
    intro j K hK
    by_cases hj : j ∈ body
    · rw [hownB j hj]; exact List.mem_cons_of_mem _ hK
    · rw [hownN j hj]; exact hK
  have hownI : ∀ j K, K ∈ L'.owners j → K ∈ L.owners j ∨ (K = F ∧ j ∈ body) := by
    intro j K hK
    by_cases hj : j ∈ body
    · rw [hownB j hj] at hK
      rcases List.mem_cons.1 hK with rfl | hK
      · exact Or.inr ⟨rfl, hj⟩
      · exact Or.inl hK
    · rw [hownN j hj] at hK; exact Or.inl hK
  have hofS : ∀ a hd, (a, hd) ∈ args → L'.of hd = some (F, a) := by
    intro a hd hm
    show (match args.find? (fun p => p.2 == hd) with | some p => some (F, p.1) | none => L.of hd) = _
    rw [find_handle ok.handles hm]
  have hofN : ∀ j, (∀ p ∈ args, p.2 ≠ j) → L'.of j = L.of j := by
    intro j hj
    show (match args.find? (fun p => p.2 == j) with | some p => some (F, p.1) | none => L.of j) = _
    cases hf : args.find? (fun p => p.2 == j) with
    | none => rfl
    | some p => exact absurd (find_spec hf).2 (hj p (find_spec hf).1)
  have hofC : ∀ j, (∃ a, (a, j) ∈ args ∧ L'.of j = some (F, a)) ∨ ((∀ p ∈ args, p.2 ≠ j) ∧ L'.of j = L.of j) := by
    intro j
    by_cases hj : ∃ a, (a, j) ∈ args
    · obtain ⟨a, ha⟩ := hj; exact Or.inl ⟨a, ha, hofS a j ha⟩
    · have : ∀ p ∈ args, p.2 ≠ j := by rintro ⟨a, b⟩ hp rfl; exact hj ⟨a, hp⟩
      exact Or.inr ⟨this, hofN j this⟩
  have hofF : L'.of F = none := by
    rw [hofN F (fun p hp e => ok.notIn (e ▸ ok.inBody p hp))]
    exact hl.of_none ok.free
  have hST : ∀ K b, S K b → K ≠ F := by
    rintro K b hS rfl
    obtain ⟨⟨hd, hm⟩, _⟩ := hl.stale _ _ hS
    rw [ok.noArgs] at hm; simp at hm
  have happ : applied s L' h.graph = applied s L h.graph := by
    funext j
    rcases hofC j with ⟨a, hm, ho⟩ | ⟨_, ho⟩
    · obtain ⟨y, h1, h2, _⟩ := ok.linked _ hm
      rw [applied_some ho, applied_none (ok.fresh _ hm).1]
      have : (fun k => if k = s.xname then (h.graph F).dterms a else (h.graph j).dterms k) = (h.graph j).dterms := by
        funext k
        split
        · subst_vars; rw [h2]; exact h1
        · rfl
      rw [this]
    · cases ho' : L.of j with
      | none => rw [applied_none (ho.trans ho'), applied_none ho']
      | some p => rw [applied_some (F := p.1) (a := p.2) (ho.trans ho'), applied_some (F := p.1) (a := p.2) ho']
  refine ⟨⟨hl.str, hl.flags, ?_, ?_, ?_, ?_, ?_, ?_⟩, ?_⟩
  · intro i k c hk K hK
    rcases hownI c K hK with hK | ⟨rfl, hc⟩
    · rcases hl.enc i k c hk K hK with e | e
      · exact Or.inl e
      · exact Or.inr (hown i K e)
    · rcases ok.closed i k c hk hc with hi | rfl
      · exact Or.inr (by show _ ∈ L'.owners i; rw [hownB i hi]; simp)
      · exact Or.inl rfl
  · intro K a hd
    show (a, hd) ∈ L'.args K ↔ L'.of hd = some (K, a)
    by_cases hK : K = F
    · subst hK
      rw [hargsF]
      refine ⟨hofS a hd, fun ho => ?_⟩
      rcases hofC hd with ⟨b, hm, hb⟩ | ⟨_, hb⟩
      · rw [ho] at hb; injection hb with hb; injection hb with _ hb; subst hb; exact hm
      · rw [ho] at hb
        have := (hl.ofIff K a hd).2 hb.symm
        rw [ok.noArgs] at this; simp at this
    · rw [hargs K hK]
      constructor
      · intro hm
        have h1 := (hl.ofIff K a hd).1 hm
        rcases hofC hd with ⟨b, hm', hb⟩ | ⟨_, hb⟩
        · rw [(ok.fresh _ hm').1] at h1; cases h1
        · rw [hb]; exact h1
      · intro ho
        rcases hofC hd with ⟨b, hm', hb⟩ | ⟨_, hb⟩
        · rw [hb] at ho; injection ho with ho; injection ho with h1 _; exact absurd h1.symm hK
        · rw [hb] at ho; exact (hl.ofIff K a hd).2 ho
  · intro K a hd hd' hm hm'
    have hm1 : (a, hd) ∈ L'.args K := hm
    have hm1' : (a, hd') ∈ L'.args K := hm'
    by_cases hK : K = F
    · subst hK
      rw [hargsF] at hm1 hm1'
      exact name_handle ok.names hm1 hm1'
    · rw [hargs K hK] at hm1 hm1'
      exact hl.uniq K a hd hd' hm1 hm1'
  · intro K a hd hm
    have hm1 : (a, hd) ∈ L'.args K := hm
    by_cases hK : K = F
    · subst hK
      rw [hargsF] at hm1
      obtain ⟨y, h1, h2, h3⟩ := ok.linked _ hm1
      have hb := ok.inBody _ hm1
      refine ⟨ok.live, ok.alive _ hb, ?_, ?_, (ok.cls _ hm1).1, (ok.cls _ hm1).2.2, (ok.cls _ hm1).2.1, ok.plainF, ⟨y, h1, ?_⟩, ?_, hofF⟩
      · show K ∈ L'.owners hd; rw [hownB _ hb]; simp
      · intro K' hK'
        have : K' ∈ L'.owners K := hK'
        rw [hownN _ ok.notIn, ok.free] at this; simp at this
      · intro K' hK'
        rcases hownI y K' hK' with e | ⟨_, e⟩
        · rcases hl.enc K a y h1 K' e with e' | e'
          · subst e'; exact absurd e (ok.new y)
          · exact hown _ _ e'
        · exact absurd e h3
      · intro _; exact h2.trans h1.symm
    · rw [hargs K hK] at hm1
      have ok' := hl.lam K a hd hm1
      refine ⟨ok'.liveF, ok'.liveH, hown _ _ ok'.own, ?_, ok'.cls, ok'.xn, ok'.npH, ok'.npF, ?_, ok'.sync, ?_⟩
      · intro K' hK'
        rcases hownI K K' hK' with e | ⟨rfl, e⟩
        · exact hown _ _ (ok'.sub K' e)
        · show K' ∈ L'.owners hd; rw [hownB hd (ok.inner K e _ hm1)]; simp
      · obtain ⟨y, hy, hs⟩ := ok'.arg
        refine ⟨y, hy, fun K' hK' => ?_⟩
        rcases hownI y K' hK' with e | ⟨rfl, e⟩
        · exact hown _ _ (hs K' e)
        · rcases ok.closed K a y hy e with e' | e'
          · show K' ∈ L'.owners K; rw [hownB K e']; simp
          · exact absurd e' hK
      · show L'.of K = none
        rw [hofN K ?_]
        · exact ok'.notH
        · rintro p hp rfl
          rw [(ok.fresh p hp).2] at hm1; simp at hm1
  · intro K a hS
    obtain ⟨⟨hd, hm⟩, h2⟩ := hl.stale K a hS
    refine ⟨⟨hd, ?_⟩, h2⟩
    show (a, hd) ∈ L'.args K
    rw [hargs K (hST K a hS)]; exact hm
  · intro j hj
    obtain ⟨b1, b2, b3⟩ := hl.born j hj
    have hdead := hl.str.unborn j hj
    have hjb : j ∉ body := fun hb => by rw [ok.alive j hb] at hdead; cases hdead
    have hjF : j ≠ F := by rintro rfl; rw [ok.live] at hdead; cases hdead
    refine ⟨(hownN j hjb).trans b1, (hargs j hjF).trans b2, (hofN j ?_).trans b3⟩
    rintro p hp rfl; exact hjb (ok.inBody p hp)
  · have hga : h.applied s L' = h.applied s L := by
      unfold Heap.applied; rw [happ]
    show CohX s (Fresh s) (NotSlice s) (h.applied s L') _
    rw [hga]
    refine hl.coh.mono ?_
    rintro j ⟨K, b, hd, hS, hm, hK, ha⟩
    refine ⟨K, b, hd, hS, ?_, hown j K hK, ha⟩
    show (b, hd) ∈ L'.args K
    rw [hargs K (hST K b hS)]; exact hm

theorem LStr.encG (hl : LStr s L h S) : EncG L (applied s L h.graph) := fun _ _ _ hk => hl.encA hk

theorem LInv.free_ok {i : Id} (hi : L.owners i = []) : Ok L S i := by
  intro K hK; rw [hi] at hK; simp at hK

theorem LInv.prop_ok (hl : LInv s L h S) {i : Id} (hi : L.owners i = []) (p : Name) :
    OkReq s L (applied s L h.graph) S (.prop i p) := by
  refine ⟨LInv.free_ok hi, ?_⟩
  by_cases hS : ∃ b, S i b
  · obtain ⟨b, hb⟩ := hS
    obtain ⟨⟨hd, hm⟩, _⟩ := hl.stale i b hb
    right; intro q; rw [applied_cls]; exact (hl.lam _ _ _ hm).npF q
  · left; intro b hb; exact hS ⟨b, hb⟩

/-- What a step achieves. -/
theorem LInv.step (hpo : s.PropsOk) (hl : LInv s L h S) (op : LOp C T) (hop : LLegal s L h op) :
    ∃ S', LInv s (L.step op) (stepL s L op h) S' := by
  cases op with
  | alloc cls dn => exact ⟨S, hl.alloc cls dn⟩
  | term i n t =>
    simp only [stepL]
    split
    · rename_i hi
      obtain ⟨h2, w, _, hg⟩ := setTerm_writing (s := s) h hl.str i n t none
      have hs4 := (setTerm_post (s := s) (fr := ⟨False, False⟩) hl.str hi n t (itr := none) (by intro t h; cases h) True).1.str
      have hd : ((setTerm s i n t none h).1.graph i).dterms = (h.graph i).dterms := by rw [hg]; simp
      refine ⟨_, hl.write hpo w hs4 hop ?_ ?_⟩
      · intro c hc; rw [hd] at hc; exact Or.inr hc
      · rw [hd]; exact fun h => h
    · exact ⟨S, hl⟩
  | link i k c =>
    simp only [stepL]
    split
    · rename_i hi
      simp only [setattr]
      split
      · rename_i hc
        obtain ⟨hok, h2, w, _, hg4⟩ := setDterm_writing (s := s) h hl.str i k c none hc.2
        have hs4 := (setDterm_post (s := s) (fr := ⟨False, False⟩) hl.str hi hc.1 hc.2 (itr := none) (by intro t h; cases h) True).1.str
        have hd : ((setDterm s i k c none h).1.graph i).dterms k = some c := by rw [hg4]; simp [setLink]
        refine ⟨_, hl.write hpo w hs4 hop.1 ?_ ?_⟩
        · intro c' hc'; rw [hd] at hc'; injection hc' with e; subst e; exact Or.inl hop.2
        · intro _; rw [hd]; simp
      · exact ⟨S, hl⟩
    · exact ⟨S, hl⟩
  | clear i =>
    simp only [stepL]
    split
    · exact ⟨S, hl.clear i⟩
    · exact ⟨S, hl⟩
  | readR f i =>
    simp only [stepL]
    split
    · obtain ⟨S', _, hl', _⟩ := readL_sim_true hl.encG f (.r i) S (LInv.free_ok hop) h S (fun _ _ h => h) hl rfl
      exact ⟨S', hl'⟩
    · exact ⟨S, hl⟩
  | readProp f i p =>
    simp only [stepL]
    split
    · obtain ⟨S', _, hl', _⟩ := readL_sim_true hl.encG f (.prop i p) S (hl.prop_ok hop p) h S (fun _ _ h => h) hl rfl
      exact ⟨S', hl'⟩
    · exact ⟨S, hl⟩
  | readDr f i w =>
    simp only [stepL]
    split
    · obtain ⟨S', _, hl', _⟩ := drWrtL_sim hl.encG f i w S (LInv.free_ok hop.1) (LInv.free_ok hop.2) h S (fun _ _ h => h) hl rfl
      exact ⟨S', hl'⟩
    · exact ⟨S, hl⟩
  | gc i =>
    simp only [stepL]
    split
    · rename_i hp; exact ⟨S, hl.collect hp hop.1 hop.2⟩
    · exact ⟨S, hl⟩
  | lambda F args body => exact ⟨S, hl.lambda hop⟩

theorem lreach_inv (hpo : s.PropsOk) (hr : LReach s L h) : ∃ S, LInv s L h S := by
  induction hr with
  | init => exact ⟨_, LInv.init⟩
  | step op _ hop ih =>
    obtain ⟨S, hl⟩ := ih
    exact hl.step hpo op hop

theorem lreach_read (hpo : s.PropsOk) (hr : LReach s L h) {i : Id} (hi : L.owners i = []) (f : Nat) :
    Agree (readL s L f (.r i) h).2 (fun f => evalReq s (applied s L h.graph) f (.r i)) f := by
  obtain ⟨S, hl⟩ := lreach_inv hpo hr
  obtain ⟨_, _, _, _, _, ha⟩ := readL_sim_true hl.encG f (.r i) S (LInv.free_ok hi) h S (fun _ _ h => h) hl rfl
  exact ha trivial

theorem lreach_prop (hpo : s.PropsOk) (hr : LReach s L h) {i : Id} (hi : L.owners i = []) (p : Name) (f : Nat) :
    Agree (readL s L f (.prop i p) h).2 (fun f => evalReq s (applied s L h.graph) f (.prop i p)) f := by
  obtain ⟨S, hl⟩ := lreach_inv hpo hr
  obtain ⟨_, _, _, _, _, ha⟩ := readL_sim_true hl.encG f (.prop i p) S (hl.prop_ok hi p) h S (fun _ _ h => h) hl rfl
  exact ha trivial

theorem lreach_dr (hpo : s.PropsOk) (hof : ∀ d, s.outForm false false d = d) (hr : LReach s L h) {i w : Id} (hi : L.owners i = [])
    (hw : L.owners w = []) (hns : s.isPermute (h.node w).cls = false) (f : Nat) :
    Agree (drWrtL s L f i w h).2 (fun f => evalDr s (applied s L h.graph) f i w) f := by
  obtain ⟨S, hl⟩ := lreach_inv hpo hr
  obtain ⟨_, _, _, _, _, ha⟩ := drWrtL_sim hl.encG f i w S (LInv.free_ok hi) (LInv.free_ok hw) h S (fun _ _ h => h) hl rfl
  exact ha ⟨plain_applied h hl.flags hof, by unfold NotSlice; rw [applied_cls]; exact hns⟩

end Chumpy
