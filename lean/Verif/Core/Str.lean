import Verif.Core.Write
/-! Structural invariant, and every write as a `Writing`. -/
namespace Chumpy
variable {C T V D α : Type}

/-- What holds of the bookkeeping in every state, coherent or not. -/
structure Str (h : Heap C T V D) : Prop where
  links : Links h.par h.graph
  dead : ∀ n, (h.node n).alive = false → (h.node n).parents = [] ∧ (∀ k, (h.node n).dterms k = none) ∧
    (h.node n).makeDense = false ∧ (h.node n).makeSparse = false
  unborn : ∀ n, h.next ≤ n → (h.node n).alive = false
  dn : ∀ q k c, (h.node q).dterms k = some c → k ∈ (h.node q).dnames
  keys : ∀ i w d, (h.node i).drs w = some d → (h.node w).alive = true
  tags : ∀ n t, (h.node n).itr = some t → t ≤ h.giter ∨ t = 9999

namespace Str

theorem child_alive {h : Heap C T V D} (hs : Str h) {q c : Id} {k : Name} (hk : (h.node q).dterms k = some c) :
    (h.node c).alive = true := by
  cases ha : (h.node c).alive with
  | true => rfl
  | false =>
    obtain ⟨ns, hm, _⟩ := (hs.links.exact q k c).1 hk
    have : h.par c = [] := (hs.dead c ha).1
    rw [this] at hm; simp at hm

theorem par0 {h : Heap C T V D} (hs : Str h) (n : Id) (hn : h.next ≤ n) : (h.node n).parents = [] :=
  (hs.dead n (hs.unborn n hn)).1

theorem alive_lt {h : Heap C T V D} (hs : Str h) {n : Id} (ha : (h.node n).alive = true) : n < h.next := by
  rcases Nat.lt_or_ge n h.next with h1 | h1
  · exact h1
  · rw [hs.unborn n h1] at ha; cases ha

/-- Nobody depends on an object without parents. -/
theorem anc_of_no_parents {h : Heap C T V D} (hs : Str h) {l : Id} (hl : (h.node l).parents = []) {j : Id}
    (ha : Anc h.graph l j) : j = l := by
  induction ha with
  | refl => rfl
  | step k hk _ ih =>
    subst ih
    obtain ⟨ns, hm, _⟩ := (hs.links.exact _ _ _).1 hk
    have : h.par _ = [] := hl
    rw [this] at hm; simp at hm

end Str

variable {s : Sig C T V D}

theorem Heap.graph_apply (h : Heap C T V D) (i : Id) : h.graph i = (h.node i).toGNode := rfl

theorem clearCache_graph {h : Heap C T V D} {i : Id} {itr : Option Nat} {S : List Id}
    (hp : ClearPost s h (clearCache s i itr h) i itr S) : (clearCache s i itr h).graph = h.graph := by
  funext j; exact hp.gnode j

/-- `__setattr__` on a plain term. -/
theorem setTerm_writing (h : Heap C T V D) (hs : Str h) (i : Id) (n : Name) (t : T) (itr : Option Nat) :
    ∃ h2, Writing s h h2 (setTerm s i n t itr h).1 i n itr ∧
      (∀ j, (h2.node j).parents = (h.node j).parents) ∧
      ((setTerm s i n t itr h).1.graph = fun j =>
        if j = i then { h.graph i with terms := fun m => if m = n then some t else (h.graph i).terms m } else h.graph j) := by
  let h1 := h.modify i (fun nd => (nd.addDirty [n]).invalidate s [n])
  have hres : setTerm s i n t itr h = ((clearCache s i itr h1).modify i
      (fun nd => { nd with terms := fun m => if m = n then some t else nd.terms m }), .ok ()) := rfl
  have hn1 : ∀ j, SameBut (h.node j) (h1.node j) := by
    intro j
    show SameBut _ ((h.modify i _).node j)
    rw [modify_node]; split
    · subst_vars; exact ⟨rfl, rfl, rfl, rfl, rfl, rfl⟩
    · exact ⟨rfl, rfl, rfl, rfl, rfl, rfl⟩
  have hg1 : h1.graph = h.graph := by funext j; exact (hn1 j).1
  have hpar1 : ∀ m, h1.next ≤ m → (h1.node m).parents = [] := by
    intro m hm; rw [(hn1 m).2.1]; exact hs.par0 m hm
  obtain ⟨S, hp⟩ := clearCache_spec s h1 i itr hpar1
  have hg2 : (clearCache s i itr h1).graph = h.graph := (clearCache_graph hp).trans hg1
  have hg4 : (setTerm s i n t itr h).1.graph = fun j =>
      if j = i then { h.graph i with terms := fun m => if m = n then some t else (h.graph i).terms m } else h.graph j := by
    rw [hres]
    funext j
    rw [Heap.graph_apply]
    dsimp only
    rw [modify_node]
    by_cases hj : j = i
    · subst hj
      rw [if_pos rfl, if_pos rfl, ← hg2]; rfl
    · rw [if_neg hj, if_neg hj, ← hg2]; rfl
  refine ⟨h1, ?_, fun j => (hn1 j).2.1, hg4⟩
  refine
    { g2 := hg1, next2 := rfl, r2 := fun j => (hn1 j).2.2.1, d2 := fun j => (hn1 j).2.2.2.1, p2 := ?_, p2i := ?_, p2k := ?_
      itr2 := fun j => (hn1 j).2.2.2.2.1, alive2 := fun j => (hn1 j).2.2.2.2.2, giter2 := rfl
      off := ?_, cls := ?_, fl := ?_, nm := ?_, dn := ?_, links := ?_, par0 := hpar1, same4 := ?_
      dirty2 := ?_, log4 := hp.log, next4 := hp.next, giter4 := hp.giter }
  · intro j p
    show ((h.modify i _).node j).props p = _ ∨ _
    rw [modify_node]; split
    · subst_vars
      by_cases hh : Hits s ((h.node j).addDirty [n]).cls p [n]
      · exact Or.inl ((invalidate_props s _ [n] p).1 hh)
      · exact Or.inr ((invalidate_props s _ [n] p).2 hh)
    · exact Or.inr rfl
  · intro p hh
    show ((h.modify i _).node i).props p = _
    rw [modify_node_self]
    exact (invalidate_props s _ [n] p).1 hh
  · intro j p hh
    show ((h.modify i _).node j).props p = _
    rw [modify_node]; split
    · subst_vars
      exact (invalidate_props s _ [n] p).2 (fun hx => hh ⟨rfl, hx⟩)
    · rfl
  · intro j hj; rw [hg4]; simp [hj]
  · rw [hg4]; simp
  · rw [hg4]; simp
  · intro m hm; rw [hg4]; simp [hm]
  · rw [hg4]; simp
  · have hpe : h1.par = h.par := by funext j; exact (hn1 j).2.1
    rw [hpe]
    refine hs.links.congr ?_
    intro q k; rw [hg4]; dsimp only; split
    · subst_vars; rfl
    · rfl
  · intro j
    rw [hres]
    dsimp only
    rw [modify_node]
    by_cases hj : j = i
    · subst hj; rw [if_pos rfl]; exact ⟨rfl, rfl, rfl, rfl, rfl, rfl, rfl⟩
    · rw [if_neg hj]; exact ⟨rfl, rfl, rfl, rfl, rfl, rfl, rfl⟩
  · intro j m
    show m ∈ ((h.modify i _).node j).dirty ↔ _
    rw [modify_node]
    by_cases hj : j = i
    · subst hj; rw [if_pos rfl]
      show m ∈ ((h.node j).addDirty [n]).dirty ↔ _
      rw [addDirty_mem]; simp
    · rw [if_neg hj]; simp [hj]

/-- `__setattr__` on a differentiable term never raises `KeyError`, and is a `Writing`. -/
theorem setDterm_writing (h : Heap C T V D) (hs : Str h) (i : Id) (k : Name) (c : Id) (itr : Option Nat)
    (hc : (h.node c).alive = true) :
    (setDterm s i k c itr h).2 = .ok () ∧
    ∃ h2, Writing s h h2 (setDterm s i k c itr h).1 i k itr ∧
      (∀ j, j ≠ c → (h.node j).parents = [] → (h2.node j).parents = []) ∧
      (setDterm s i k c itr h).1.graph = setLink h.graph i k c := by
  -- after unlinking
  have hun : ∃ h0 : Heap C T V D,
      unlink i k h = some h0 ∧
      h0.next = h.next ∧ h0.giter = h.giter ∧ h0.log = h.log ∧
      (∀ j, ∃ ps, h0.node j = { h.node j with parents := ps } ∧ ((h.node j).parents = [] → ps = [])) ∧
      (match (h.graph i).dterms k with
        | none => h0.par = h.par
        | some o => ∃ ps, removeParent i k (h.par o) = some ps ∧ h0.par = fun n => if n = o then ps else h.par n) := by
    unfold unlink
    cases ho : (h.node i).dterms k with
    | none =>
      refine ⟨h, rfl, rfl, rfl, rfl, fun j => ⟨(h.node j).parents, rfl, id⟩, ?_⟩
      rw [Heap.graph_apply, ho]
    | some o =>
      obtain ⟨ps, e, _, hsub, _⟩ := removeParent_spec i k (hs.links.ok o) ((hs.links.exact i k o).1 ho)
      have e' : removeParent i k (h.node o).parents = some ps := e
      dsimp only
      rw [e']
      refine ⟨_, rfl, rfl, rfl, rfl, ?_, ?_⟩
      · intro j
        rw [modify_node]
        by_cases hj : j = o
        · subst hj
          refine ⟨ps, by rw [if_pos rfl], ?_⟩
          intro hnil
          have : h.par j = [] := hnil
          rw [this] at hsub
          cases ps with
          | nil => rfl
          | cons a l => exact absurd (hsub a.1 (by simp)) (by simp)
        · exact ⟨(h.node j).parents, by rw [if_neg hj], id⟩
      · rw [Heap.graph_apply, ho]
        refine ⟨ps, e, ?_⟩
        funext n
        show ((h.modify o _).node n).parents = _
        rw [modify_node]; split <;> rfl
  obtain ⟨h0, hh0, hnext0, hgiter0, hlog0, hnode0, hpar0⟩ := hun
  let h1 := h0.modify c (fun nd => { nd with parents := addParent i k nd.parents })
  let h2 := h1.modify i (fun nd => (nd.addDirty [k]).invalidate s [k])
  let h3 := clearCache s i itr h2
  have hres : setDterm s i k c itr h =
      (h3.modify i (fun nd => { nd with dterms := fun m => if m = k then some c else nd.dterms m }), .ok ()) := by
    unfold setDterm
    dsimp only
    rw [hh0]
  have hnode1 : ∀ j, ∃ ps, h1.node j = { h.node j with parents := ps } ∧
      (j ≠ c → (h.node j).parents = [] → ps = []) ∧
      ps = (if j = c then addParent i k (h0.par c) else h0.par j) := by
    intro j
    show ∃ ps, (h0.modify c _).node j = _ ∧ _
    obtain ⟨ps, hps, hnil⟩ := hnode0 j
    rw [modify_node]
    by_cases hj : j = c
    · subst hj
      refine ⟨addParent i k ps, by rw [if_pos rfl, hps], fun h => absurd rfl h, ?_⟩
      rw [if_pos rfl]; unfold Heap.par; rw [hps]
    · refine ⟨ps, by rw [if_neg hj, hps], fun _ => hnil, ?_⟩
      rw [if_neg hj]; unfold Heap.par; rw [hps]
  have hnode2 : ∀ j, (h2.node j).toGNode = (h.node j).toGNode ∧ (h2.node j).parents = (h1.node j).parents ∧
      (h2.node j).cacheR = (h.node j).cacheR ∧ (h2.node j).drs = (h.node j).drs ∧
      (h2.node j).itr = (h.node j).itr ∧ (h2.node j).alive = (h.node j).alive := by
    intro j
    obtain ⟨ps, hps, _⟩ := hnode1 j
    show ((h1.modify i _).node j).toGNode = _ ∧ ((h1.modify i _).node j).parents = _ ∧ ((h1.modify i _).node j).cacheR = _ ∧ ((h1.modify i _).node j).drs = _ ∧
      ((h1.modify i _).node j).itr = _ ∧ ((h1.modify i _).node j).alive = _
    rw [modify_node]
    by_cases hj : j = i
    · subst hj
      rw [if_pos rfl, hps]; exact ⟨rfl, rfl, rfl, rfl, rfl, rfl⟩
    · rw [if_neg hj, hps]; exact ⟨rfl, rfl, rfl, rfl, rfl, rfl⟩
  have hg2 : h2.graph = h.graph := by funext j; exact (hnode2 j).1
  have hnext2 : h2.next = h.next := hnext0
  have hpar2 : h2.par = fun n => if n = c then addParent i k (h0.par c) else h0.par n := by
    funext n
    obtain ⟨ps, hps, _, he⟩ := hnode1 n
    show (h2.node n).parents = _
    rw [(hnode2 n).2.1, hps, ← he]
  have hlinks2 : Links h2.par (setLink h.graph i k c) := by
    rw [hpar2]; exact hs.links.relink i k c h0.par hpar0
  have hnil2 : ∀ j, j ≠ c → (h.node j).parents = [] → (h2.node j).parents = [] := by
    intro j hj hnil
    obtain ⟨ps, hps, hn, _⟩ := hnode1 j
    rw [(hnode2 j).2.1, hps]; exact hn hj hnil
  have hparz : ∀ m, h2.next ≤ m → (h2.node m).parents = [] := by
    intro m hm
    rw [hnext2] at hm
    refine hnil2 m ?_ (hs.par0 m hm)
    rintro rfl
    exact absurd (hs.alive_lt hc) (Nat.not_lt.2 hm)
  obtain ⟨S, hp⟩ := clearCache_spec s h2 i itr hparz
  have hg3 : h3.graph = h.graph := (clearCache_graph hp).trans hg2
  have hg4 : (setDterm s i k c itr h).1.graph = setLink h.graph i k c := by
    rw [hres]
    funext j
    rw [Heap.graph_apply]
    dsimp only
    rw [modify_node]
    unfold setLink
    by_cases hj : j = i
    · subst hj; rw [if_pos rfl, if_pos rfl, ← hg3]; rfl
    · rw [if_neg hj, if_neg hj, ← hg3]; rfl
  refine ⟨by rw [hres], h2, ?_, hnil2, hg4⟩
  refine
    { g2 := hg2, next2 := hnext2, r2 := fun j => (hnode2 j).2.2.1, d2 := fun j => (hnode2 j).2.2.2.1, p2 := ?_, p2i := ?_, p2k := ?_
      itr2 := fun j => (hnode2 j).2.2.2.2.1, alive2 := fun j => (hnode2 j).2.2.2.2.2, giter2 := hgiter0
      off := ?_, cls := ?_, fl := ?_, nm := ?_, dn := ?_, links := ?_, par0 := hparz, same4 := ?_, dirty2 := ?_, log4 := ?_
      next4 := ?_, giter4 := ?_ }
  · intro j p
    obtain ⟨ps, hps, _⟩ := hnode1 j
    show ((h1.modify i _).node j).props p = _ ∨ _
    rw [modify_node]
    by_cases hj : j = i
    · subst hj
      rw [if_pos rfl]
      by_cases hh : Hits s ((h1.node j).addDirty [k]).cls p [k]
      · exact Or.inl ((invalidate_props s _ [k] p).1 hh)
      · right; rw [(invalidate_props s _ [k] p).2 hh]
        show (h1.node j).props p = _
        rw [hps]
    · rw [if_neg hj, hps]; exact Or.inr rfl
  · intro p hh
    show ((h1.modify i _).node i).props p = _
    rw [modify_node_self]
    refine (invalidate_props s _ [k] p).1 ?_
    obtain ⟨ps, hps, _⟩ := hnode1 i
    show Hits s (h1.node i).cls p [k]
    rw [hps]; exact hh
  · intro j p hh
    obtain ⟨ps, hps, _⟩ := hnode1 j
    show ((h1.modify i _).node j).props p = _
    rw [modify_node]
    by_cases hj : j = i
    · subst hj
      rw [if_pos rfl, (invalidate_props s _ [k] p).2]
      · show (h1.node j).props p = _
        rw [hps]
      · intro hx
        refine hh ⟨rfl, ?_⟩
        have : Hits s (h1.node j).cls p [k] := hx
        rw [hps] at this; exact this
    · rw [if_neg hj, hps]
  · intro j hj; rw [hg4]; simp [setLink, hj]
  · rw [hg4]; simp [setLink]
  · rw [hg4]; simp [setLink]
  · intro m hm; rw [hg4]; simp [setLink, hm]
  · rw [hg4]; simp [setLink]
  · rw [hg4]; exact hlinks2
  · intro j
    rw [hres]
    dsimp only
    rw [modify_node]
    by_cases hj : j = i
    · subst hj; rw [if_pos rfl]; exact ⟨rfl, rfl, rfl, rfl, rfl, rfl, rfl⟩
    · rw [if_neg hj]; exact ⟨rfl, rfl, rfl, rfl, rfl, rfl, rfl⟩
  · intro j m
    obtain ⟨ps, hps, _⟩ := hnode1 j
    show m ∈ ((h1.modify i _).node j).dirty ↔ _
    rw [modify_node]
    by_cases hj : j = i
    · subst hj; rw [if_pos rfl]
      show m ∈ ((h1.node j).addDirty [k]).dirty ↔ _
      rw [addDirty_mem, hps]; simp
    · rw [if_neg hj, hps]; simp [hj]
  · rw [hres]; exact hp.log.trans hlog0
  · rw [hres]; exact hp.next
  · rw [hres]; exact hp.giter

namespace Writing
variable {h h2 h4 : Heap C T V D} {i : Id} {n : Name} {itr : Option Nat}

theorem alive4 (w : Writing s h h2 h4 i n itr) (j : Id) : (h4.node j).alive = (h.node j).alive := by
  obtain ⟨S, hp⟩ := w.post
  rw [(w.same4 j).2.2.2.2.2.1, hp.alive, w.alive2]

theorem itr4 (w : Writing s h h2 h4 i n itr) (j : Id) : (h4.node j).itr = itr ∨ (h4.node j).itr = (h.node j).itr := by
  obtain ⟨S, hp⟩ := w.post
  rw [(w.same4 j).2.2.2.1]
  by_cases hj : j ∈ S
  · exact Or.inl (hp.wiped j hj).2.2
  · exact Or.inr (by rw [(hp.kept j hj).2.2, w.itr2])

theorem str (w : Writing s h h2 h4 i n itr) (hs : Str h) (hi : (h.node i).alive = true)
    (hdead : ∀ j, (h.node j).alive = false → (h2.node j).parents = [])
    (hdn : ∀ k c, (h4.node i).dterms k = some c → k ∈ (h4.node i).dnames)
    (ht : ∀ t, itr = some t → t ≤ h.giter ∨ t = 9999) : Str h4 where
  links := w.links4
  dead j hj := by
    rw [w.alive4] at hj
    have hji : j ≠ i := by rintro rfl; rw [hi] at hj; cases hj
    obtain ⟨d1, d2, d6, d7⟩ := hs.dead j hj
    have hg : h4.graph j = h.graph j := w.off j hji
    refine ⟨by rw [w.par4]; exact hdead j hj, ?_, ?_, ?_⟩
    · intro k; exact (congrFun (congrArg GNode.dterms hg) k).trans (d2 k)
    · exact (congrArg GNode.makeDense hg).trans d6
    · exact (congrArg GNode.makeSparse hg).trans d7
  unborn j hj := by
    rw [w.alive4]; rw [w.next4, w.next2] at hj; exact hs.unborn j hj
  dn q k c hk := by
    by_cases hq : q = i
    · subst hq; exact hdn k c hk
    · have hg : h4.graph q = h.graph q := w.off q hq
      have h1 : (h.graph q).dterms k = some c := by rw [← hg]; exact hk
      have h2 := hs.dn q k c h1
      show k ∈ (h4.graph q).dnames
      rw [hg]; exact h2
  keys j x d e := by rw [w.alive4]; exact hs.keys j x d (w.shrink.d j x d e)
  tags j t e := by
    rw [w.giter4, w.giter2]
    rcases w.itr4 j with h | h
    · rw [h] at e; exact ht t e
    · rw [h] at e; exact hs.tags j t e

end Writing

end Chumpy
