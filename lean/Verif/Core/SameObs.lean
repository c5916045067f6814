import Verif.Core.Pending
/-! Operations on two states with the same graph have the same effect on it, whatever the caches and tags. -/
namespace Chumpy
variable {C T V D α : Type} {s : Sig C T V D}

/-- Same objects, same attributes. -/
structure SameObs (h h' : Heap C T V D) : Prop where
  graph : h'.graph = h.graph
  next : h'.next = h.next
  alive : ∀ j, (h'.node j).alive = (h.node j).alive

theorem SameObs.refl (h : Heap C T V D) : SameObs h h := ⟨rfl, rfl, fun _ => rfl⟩
theorem SameObs.symm {h h' : Heap C T V D} (x : SameObs h h') : SameObs h' h :=
  ⟨x.graph.symm, x.next.symm, fun j => (x.alive j).symm⟩
theorem SameObs.trans {a b c : Heap C T V D} (x : SameObs a b) (y : SameObs b c) : SameObs a c :=
  ⟨y.graph.trans x.graph, y.next.trans x.next, fun j => (y.alive j).trans (x.alive j)⟩

theorem RFrame.sameObs {h h' : Heap C T V D} (f : RFrame h h') : SameObs h h' := ⟨f.graph, f.next, f.alive⟩

theorem SameObs.dnames {h h' : Heap C T V D} (x : SameObs h h') (i : Id) : (h'.node i).dnames = (h.node i).dnames := by
  show (h'.graph i).dnames = (h.graph i).dnames; rw [x.graph]

theorem setTerm_sameObs {h h' : Heap C T V D} (hs : Str h) (hs' : Str h') (x : SameObs h h') (i : Id) (n : Name) (t : T)
    (itr itr' : Option Nat) : SameObs (setTerm s i n t itr h).1 (setTerm s i n t itr' h').1 := by
  obtain ⟨a2, w, _, g⟩ := setTerm_writing (s := s) h hs i n t itr
  obtain ⟨b2, w', _, g'⟩ := setTerm_writing (s := s) h' hs' i n t itr'
  refine ⟨by rw [g, g', x.graph], ?_, fun j => ?_⟩
  · rw [w'.next4, w'.next2, w.next4, w.next2, x.next]
  · rw [w'.alive4, w.alive4, x.alive]

theorem setDterm_sameObs {h h' : Heap C T V D} (hs : Str h) (hs' : Str h') (x : SameObs h h') (i : Id) (k : Name) (c : Id)
    (hc : (h.node c).alive = true) (itr itr' : Option Nat) :
    SameObs (setDterm s i k c itr h).1 (setDterm s i k c itr' h').1 ∧
      (setDterm s i k c itr h).2 = .ok () ∧ (setDterm s i k c itr' h').2 = .ok () := by
  obtain ⟨o, a2, w, _, g⟩ := setDterm_writing (s := s) h hs i k c itr hc
  obtain ⟨o', b2, w', _, g'⟩ := setDterm_writing (s := s) h' hs' i k c itr' (by rw [x.alive]; exact hc)
  refine ⟨⟨by rw [g, g', x.graph], ?_, fun j => ?_⟩, o, o'⟩
  · rw [w'.next4, w'.next2, w.next4, w.next2, x.next]
  · rw [w'.alive4, w.alive4, x.alive]

theorem alloc_sameObs {h h' : Heap C T V D} (x : SameObs h h') (cls : C) (dn : List Name) (md ms : Bool) :
    SameObs (alloc cls dn md ms h).1 (alloc cls dn md ms h').1 := by
  refine ⟨?_, ?_, fun j => ?_⟩
  · funext j
    rw [Heap.graph_apply, Heap.graph_apply, alloc_node, alloc_node, x.next]
    split
    · rfl
    · show h'.graph j = h.graph j; rw [x.graph]
  · show h'.next + 1 = h.next + 1; rw [x.next]
  · rw [alloc_node, alloc_node, x.next]
    split
    · rfl
    · exact x.alive j

theorem newLeaf_sameObs {h h' : Heap C T V D} (hs : Str h) (hs' : Str h') (x : SameObs h h') (v : T) :
    SameObs (newLeaf s v h).1 (newLeaf s v h').1 := by
  have := setTerm_sameObs (s := s) (alloc_str hs s.base [] false false) (alloc_str hs' s.base [] false false)
    (alloc_sameObs x s.base [] false false) h.next s.xname v none none
  have e : (newLeaf s v h').1 = (setTerm s h.next s.xname v none (alloc s.base [] false false h').1).1 := by
    rw [← x.next]; rfl
  rw [e]; exact this

theorem wrap_eq {h : Heap C T V D} (hs : Str h) (i : Id) (k : Name) (v : T) (itr : Option Nat) :
    M.bind (newLeaf s v) (fun l => setDterm s i k l itr) h = setDterm s i k h.next itr (newLeaf s v h).1 := by
  obtain ⟨n, hx, _⟩ := newLeaf_post (s := s) (fr := ⟨False, False⟩) hs v
  simp only [M.bind]
  rcases hx' : newLeaf s v h with ⟨h', r⟩
  rw [hx'] at hx; dsimp only at hx; subst hx; rfl

/-- Assignments: same effect, same outcome, whatever the tags. -/
theorem setattr_sameObs {h h' : Heap C T V D} (hs : Str h) (hs' : Str h') (x : SameObs h h') (i : Id)
    (itr itr' : Option Nat) (kw : KW T) :
    SameObs (setattr s i itr kw h).1 (setattr s i itr' kw h').1 ∧
      (setattr s i itr kw h).2 = (setattr s i itr' kw h').2 := by
  cases kw with
  | term n t => exact ⟨setTerm_sameObs hs hs' x i n t itr itr', rfl⟩
  | bad n => exact ⟨x, rfl⟩
  | link k c =>
    simp only [setattr]
    rw [x.dnames, x.alive]
    split
    · rename_i hc
      obtain ⟨a, b, c⟩ := setDterm_sameObs (s := s) hs hs' x i k c hc.2 itr itr'
      exact ⟨a, b.trans c.symm⟩
    · exact ⟨x, rfl⟩
  | wrap k v =>
    simp only [setattr]
    rw [x.dnames]
    split
    · rw [wrap_eq hs, wrap_eq hs', x.next]
      obtain ⟨n, _⟩ := newLeaf_post (s := s) (fr := ⟨False, False⟩) hs v
      obtain ⟨n', _⟩ := newLeaf_post (s := s) (fr := ⟨False, False⟩) hs' v
      obtain ⟨a, b, c⟩ := setDterm_sameObs (s := s) n.str n'.str (newLeaf_sameObs hs hs' x v) i k h.next n.born itr itr'
      exact ⟨a, b.trans c.symm⟩
    · exact ⟨x, rfl⟩

/-- Keywords assigned one by one, as separate statements, stopping at the first exception. -/
def eachSet (s : Sig C T V D) (i : Id) : List (KW T) → M C T V D Unit
  | [] => M.pure ()
  | kw :: kws => M.bind (setObj s i [kw]) fun _ => eachSet s i kws

theorem setattr_str {h : Heap C T V D} (hs : Str h) {i : Id} (hi : (h.node i).alive = true) (kw : KW T)
    {itr : Option Nat} (ht : ∀ t, itr = some t → t ≤ h.giter ∨ t = 9999) :
    Str (setattr s i itr kw h).1 ∧ ((setattr s i itr kw h).1.node i).alive = true := by
  have a := (setattr_post (s := s) (fr := ⟨False, False⟩) hs hi kw ht).1
  exact ⟨a.str, a.alive i hi⟩

theorem setAll_sameObs (i : Id) (kws : List (KW T)) : ∀ {h h' : Heap C T V D}, Str h → Str h' → SameObs h h' →
    (h.node i).alive = true →
    SameObs (setAll s i kws h).1 (setAll s i kws h').1 ∧ (setAll s i kws h).2 = (setAll s i kws h').2 := by
  induction kws with
  | nil => intro h h' _ _ x _; exact ⟨x, rfl⟩
  | cons kw kws ih =>
    intro h h' hs hs' x hi
    cases kws with
    | nil => simp only [setAll]; exact setattr_sameObs hs hs' x i none none kw
    | cons kw2 kws =>
      rw [setAll.eq_3 s i kw (kw2 :: kws) (by simp)]
      obtain ⟨a, b⟩ := setattr_sameObs (s := s) hs hs' x i (some 9999) (some 9999) kw
      obtain ⟨c, d⟩ := setattr_str (s := s) hs hi kw (itr := some 9999) (by intro t h; cases h; simp)
      obtain ⟨c', _⟩ := setattr_str (s := s) hs' (i := i) (by rw [x.alive]; exact hi) kw (itr := some 9999) (by intro t h; cases h; simp)
      simp only [M.bind]
      rcases hx : setattr s i (some 9999) kw h with ⟨h1, r⟩
      rcases hx' : setattr s i (some 9999) kw h' with ⟨h1', r'⟩
      rw [hx] at a b c d; rw [hx'] at a b c'
      dsimp only at b; subst b
      cases r with
      | error e => exact ⟨a, rfl⟩
      | ok u => exact ih c c' a d

theorem eachSet_setAll (i : Id) (kws : List (KW T)) : ∀ {h h' : Heap C T V D}, Str h → Str h' → SameObs h h' →
    (h.node i).alive = true →
    SameObs (setAll s i kws h).1 (eachSet s i kws h').1 ∧ (setAll s i kws h).2 = (eachSet s i kws h').2 := by
  induction kws with
  | nil => intro h h' _ _ x _; exact ⟨x, rfl⟩
  | cons kw kws ih =>
    intro h h' hs hs' x hi
    have hi' : (h'.node i).alive = true := by rw [x.alive]; exact hi
    have hset : setObj s i [kw] h' = setattr s i none kw h' := by simp [setObj, hi', setAll]
    obtain ⟨itr, hitr, he⟩ : ∃ itr : Option Nat, (∀ t, itr = some t → t = 9999) ∧
        setAll s i (kw :: kws) h = M.bind (setattr s i itr kw) (fun _ => setAll s i kws) h := by
      cases kws with
      | nil =>
        refine ⟨none, (fun t h => by cases h), ?_⟩
        simp only [setAll, M.bind]
        rcases setattr s i none kw h with ⟨h1, r⟩
        cases r <;> rfl
      | cons kw2 kws => exact ⟨some 9999, by intro t h; cases h; rfl, by rw [setAll.eq_3 s i kw (kw2 :: kws) (by simp)]⟩
    rw [he, eachSet]
    obtain ⟨a, b⟩ := setattr_sameObs (s := s) hs hs' x i itr none kw
    obtain ⟨c, d⟩ := setattr_str (s := s) hs hi kw (itr := itr) (fun t h => Or.inr (hitr t h))
    obtain ⟨c', _⟩ := setattr_str (s := s) hs' hi' kw (itr := none) (by intro t h; cases h)
    simp only [M.bind]
    rw [hset]
    rcases hx : setattr s i itr kw h with ⟨h1, r⟩
    rcases hx' : setattr s i none kw h' with ⟨h1', r'⟩
    rw [hx] at a b c d; rw [hx'] at a b c'
    dsimp only at b; subst b
    cases r with
    | error e => exact ⟨a, rfl⟩
    | ok u => exact ih c c' a d

theorem batchLoop_sameObs (t t' : Nat) (ws : List (Id × KW T)) : ∀ {h h' : Heap C T V D}, Str h → Str h' → SameObs h h' →
    (∀ w ∈ ws, (h.node w.1).alive = true) → (t ≤ h.giter ∨ t = 9999) → (t' ≤ h'.giter ∨ t' = 9999) →
    SameObs (batchLoop s t ws h).1 (batchLoop s t' ws h').1 ∧ (batchLoop s t ws h).2 = (batchLoop s t' ws h').2 := by
  induction ws with
  | nil => intro h h' _ _ x _ _ _; exact ⟨x, rfl⟩
  | cons w ws ih =>
    intro h h' hs hs' x ha ht ht'
    have hi := ha w (by simp)
    have hi' : (h'.node w.1).alive = true := by rw [x.alive]; exact hi
    rw [batchLoop, batchLoop]
    obtain ⟨a, b⟩ := setattr_sameObs (s := s) hs hs' x w.1 (some t) (some t') w.2
    have p := (setattr_post (s := s) (fr := ⟨False, False⟩) hs hi w.2 (itr := some t) (by intro t h; cases h; exact ht)).1
    have p' := (setattr_post (s := s) (fr := ⟨False, False⟩) hs' hi' w.2 (itr := some t') (by intro t h; cases h; exact ht')).1
    simp only [M.bind]
    rcases hx : setattr s w.1 (some t) w.2 h with ⟨h1, r⟩
    rcases hx' : setattr s w.1 (some t') w.2 h' with ⟨h1', r'⟩
    rw [hx] at a b p; rw [hx'] at a b p'
    dsimp only at b; subst b
    cases r with
    | error e => exact ⟨a, rfl⟩
    | ok u =>
      exact ih p.str p'.str a (fun w' hw' => p.alive _ (ha w' (by simp [hw']))) (by rw [p.giter]; exact ht)
        (by rw [p'.giter]; exact ht')

/-- Writes done one by one, untagged. -/
def eachWrite (s : Sig C T V D) : List (Id × KW T) → M C T V D Unit
  | [] => M.pure ()
  | w :: ws => M.bind (setObj s w.1 [w.2]) fun _ => eachWrite s ws

theorem eachWrite_batch (t : Nat) (ws : List (Id × KW T)) : ∀ {h h' : Heap C T V D}, Str h → Str h' → SameObs h h' →
    (∀ w ∈ ws, (h.node w.1).alive = true) → (t ≤ h.giter ∨ t = 9999) →
    SameObs (batchLoop s t ws h).1 (eachWrite s ws h').1 ∧ (batchLoop s t ws h).2 = (eachWrite s ws h').2 := by
  induction ws with
  | nil => intro h h' _ _ x _ _; exact ⟨x, rfl⟩
  | cons w ws ih =>
    intro h h' hs hs' x ha ht
    have hi := ha w (by simp)
    have hi' : (h'.node w.1).alive = true := by rw [x.alive]; exact hi
    have hset : setObj s w.1 [w.2] h' = setattr s w.1 none w.2 h' := by simp [setObj, hi', setAll]
    rw [batchLoop, eachWrite]
    obtain ⟨a, b⟩ := setattr_sameObs (s := s) hs hs' x w.1 (some t) none w.2
    have p := (setattr_post (s := s) (fr := ⟨False, False⟩) hs hi w.2 (itr := some t) (by intro t h; cases h; exact ht)).1
    have p' := (setattr_post (s := s) (fr := ⟨False, False⟩) hs' hi' w.2 (itr := none) (by intro t h; cases h)).1
    simp only [M.bind]
    rw [hset]
    rcases hx : setattr s w.1 (some t) w.2 h with ⟨h1, r⟩
    rcases hx' : setattr s w.1 none w.2 h' with ⟨h1', r'⟩
    rw [hx] at a b p; rw [hx'] at a b p'
    dsimp only at b; subst b
    cases r with
    | error e => exact ⟨a, rfl⟩
    | ok u =>
      exact ih p.str p'.str a (fun w' hw' => p.alive _ (ha w' (by simp [hw']))) (by rw [p.giter]; exact ht)

theorem nobody_iff {h : Heap C T V D} (hs : Str h) (i : Id) :
    (h.node i).parents = [] ↔ ∀ q k, (h.graph q).dterms k ≠ some i := by
  constructor
  · intro hp q k hk
    obtain ⟨ns, hm, _⟩ := (hs.links.exact q k i).1 hk
    have : h.par i = [] := hp
    rw [this] at hm; cases hm
  · intro hn
    cases hp : (h.node i).parents with
    | nil => rfl
    | cons p ps =>
      obtain ⟨q, ns⟩ := p
      have hm : (q, ns) ∈ h.par i := by show (q, ns) ∈ (h.node i).parents; rw [hp]; simp
      obtain ⟨h1, _⟩ := (hs.links.ok i).names q ns hm
      obtain ⟨k, hk⟩ := List.exists_mem_of_ne_nil ns h1
      exact absurd ((hs.links.exact q k i).2 ⟨ns, hm, hk⟩) (hn q k)

theorem collect_sameObs {h h' : Heap C T V D} (x : SameObs h h') (i : Id) : SameObs (collect i h) (collect i h') := by
  refine ⟨?_, x.next, fun j => ?_⟩
  · funext j
    rw [Heap.graph_apply, Heap.graph_apply, collect_node, collect_node]
    have e : (h'.node i).cls = (h.node i).cls := by show (h'.graph i).cls = (h.graph i).cls; rw [x.graph]
    split
    · rw [e]
    · show h'.graph j = h.graph j; rw [x.graph]
  · rw [collect_node, collect_node]
    split
    · rfl
    · exact x.alive j

theorem old_sameObs {h h' : Heap C T V D} (x : SameObs h h') (kw : KW T) : kw.Old h' = kw.Old h := by
  cases kw <;> simp [KW.Old, x.alive]

theorem CloneGuard.sameObs {h h' : Heap C T V D} (x : SameObs h h') {i : Id} {ls : List (Name × Id)} (hg : CloneGuard h i ls) :
    CloneGuard h' i ls := by
  have e1 : (h'.node i).dnames = (h.node i).dnames := congrArg GNode.dnames (congrFun x.graph i)
  have e2 : (h'.node i).dterms = (h.node i).dterms := congrArg GNode.dterms (congrFun x.graph i)
  exact ⟨by rw [x.alive]; exact hg.alive, hg.names, fun l hl => by rw [x.alive, e1, e2]; exact hg.link l hl,
    fun k => by rw [e1, e2]; exact hg.all k⟩

theorem clone_sameObs {h h' : Heap C T V D} (hs : Str h) (hs' : Str h') (x : SameObs h h') (i : Id) (ls : List (Name × Id)) :
    SameObs (clone s i ls h).1 (clone s i ls h').1 ∧ (clone s i ls h).2 = (clone s i ls h').2 := by
  have hgi : (h'.node i).toGNode = (h.node i).toGNode := congrFun x.graph i
  by_cases hg : CloneGuard h i ls
  · have hg' := hg.sameObs x
    by_cases hnd : (ls.map (·.2)).Nodup
    · obtain ⟨r, b⟩ := clone_ok (s := s) (fr := ⟨False, False⟩) hs hg hnd
      obtain ⟨r', b'⟩ := clone_ok (s := s) (fr := ⟨False, False⟩) hs' hg' hnd
      have y : ∀ m, ((cloneBase s i (ls.map (·.1)) h').graph m) = ((cloneBase s i (ls.map (·.1)) h).graph m) := by
        intro m
        rw [Heap.graph_apply, Heap.graph_apply, cloneBase_node, cloneBase_node, x.next]
        split
        · have e : ∀ nd : Node C T V D, ((cloneNode s nd []).invalidate s (ls.map (·.1))).toGNode =
              { nd.toGNode with dterms := fun _ => none } := fun _ => rfl
          rw [e, e, hgi]
        · exact congrFun x.graph m
      refine ⟨⟨?_, ?_, fun m => ?_⟩, by rw [r, r', x.next]⟩
      · rw [b.graph, b'.graph, x.next]
        funext m
        rw [y, y]
      · rw [b.next, b'.next]; show h'.next + 1 = h.next + 1; rw [x.next]
      · rw [b.aliveEq, b'.aliveEq, cloneBase_node, cloneBase_node, x.next]
        split
        · rfl
        · exact x.alive m
    · have a := clone_spec (s := s) hs hg
      have a' := clone_spec (s := s) hs' hg'
      rw [if_neg hnd] at a a'
      rw [a, a']
      have h1 : (h'.node i).cls = (h.node i).cls := congrArg GNode.cls hgi
      have h2 : (h'.node i).dnames = (h.node i).dnames := congrArg GNode.dnames hgi
      have h3 : (h'.node i).makeDense = (h.node i).makeDense := congrArg GNode.makeDense hgi
      have h4 : (h'.node i).makeSparse = (h.node i).makeSparse := congrArg GNode.makeSparse hgi
      rw [h1, h2, h3, h4, x.next]
      exact ⟨collect_sameObs (alloc_sameObs x _ _ _ _) _, rfl⟩
  · have hg' : ¬ CloneGuard h' i ls := fun h1 => hg (h1.sameObs x.symm)
    rw [clone, if_neg (fun h => hg (cloneOk_iff.1 h)), clone, if_neg (fun h => hg' (cloneOk_iff.1 h))]
    exact ⟨x, rfl⟩

/-- Two states with the same graph and objects keep them under the same operation; the outcomes of all operations
other than reads agree. -/
theorem step_sameObs {h h' : Heap C T V D} (hs : Str h) (hs' : Str h') (x : SameObs h h') (op : Op C T D) :
    SameObs (step s op h).1 (step s op h').1 ∧ (¬ op.IsRead → (step s op h).2 = (step s op h').2) := by
  have hread : op.IsRead → SameObs (step s op h).1 (step s op h').1 := fun ho =>
    ((step_read_frame (s := s) (h := h) ho).sameObs.symm.trans x).trans (step_read_frame (s := s) (h := h') ho).sameObs
  cases op with
  | new cls dnames md ms kws =>
    have hall : (kws.all (·.Old h')) = kws.all (·.Old h) := by
      congr 1; funext kw; exact old_sameObs x kw
    simp only [step, M.map', newObj]
    rw [hall]
    split
    · have hb : ∀ h : Heap C T V D, M.bind (alloc cls dnames md ms) (fun i => orCollect i (setAll s i kws)) h =
        orCollect h.next (setAll s h.next kws) (alloc cls dnames md ms h).1 := fun _ => rfl
      rw [hb, hb, orCollect, orCollect, x.next]
      have n := alloc_post (s := s) (fr := ⟨False, False⟩) hs cls dnames md ms
      have n' := alloc_post (s := s) (fr := ⟨False, False⟩) hs' cls dnames md ms
      obtain ⟨a, b⟩ := setAll_sameObs (s := s) h.next kws n.str n'.str (alloc_sameObs x cls dnames md ms) n.born
      rcases hx : setAll s h.next kws (alloc cls dnames md ms h).1 with ⟨h1, r⟩
      rcases hx' : setAll s h.next kws (alloc cls dnames md ms h').1 with ⟨h1', r'⟩
      rw [hx, hx'] at a b
      dsimp only at b; subst b
      cases r with
      | ok u => exact ⟨a, fun _ => rfl⟩
      | error e => exact ⟨collect_sameObs a h.next, fun _ => rfl⟩
    · exact ⟨x, fun _ => rfl⟩
  | set i kws =>
    simp only [step, M.map', setObj]
    rw [x.alive]
    split
    · obtain ⟨a, b⟩ := setAll_sameObs (s := s) i kws hs hs' x ‹_›
      exact ⟨a, fun _ => by rw [b]⟩
    · exact ⟨x, fun _ => rfl⟩
  | batch ws =>
    have hall : (ws.all fun w => (h'.node w.1).alive) = ws.all fun w => (h.node w.1).alive := by
      congr 1; funext w; exact x.alive w.1
    simp only [step, M.map', batch]
    rw [hall]
    split
    · rename_i ha
      have up : ∀ {h : Heap C T V D}, Str h → Str { h with giter := h.giter + 1 } := fun {h} hs =>
        ⟨hs.links, hs.dead, hs.unborn, hs.dn, hs.keys, fun n t ht => by
          rcases hs.tags n t ht with h | h
          · left; show t ≤ _ + 1; omega
          · exact Or.inr h⟩
      obtain ⟨a, b⟩ := batchLoop_sameObs (s := s) (h.giter + 1) (h'.giter + 1) ws (up hs) (up hs')
        (h := { h with giter := h.giter + 1 }) (h' := { h' with giter := h'.giter + 1 })
        ⟨x.graph, x.next, x.alive⟩ (fun w hw => List.all_eq_true.1 ha w hw) (Or.inl (Nat.le_refl _)) (Or.inl (Nat.le_refl _))
      exact ⟨a, fun _ => by rw [b]⟩
    · exact ⟨x, fun _ => rfl⟩
  | clear i =>
    simp only [step, ifAlive]
    rw [x.alive]
    split
    · obtain ⟨S, hp⟩ := clearCache_spec s h i none (fun n hn => hs.par0 n hn)
      obtain ⟨S', hp'⟩ := clearCache_spec s h' i none (fun n hn => hs'.par0 n hn)
      refine ⟨⟨?_, ?_, fun j => ?_⟩, fun _ => rfl⟩
      · funext j
        show ((clearCache s i none h').node j).toGNode = ((clearCache s i none h).node j).toGNode
        rw [hp.gnode, hp'.gnode]; show h'.graph j = h.graph j; rw [x.graph]
      · show (clearCache s i none h').next = (clearCache s i none h).next
        rw [hp.next, hp'.next, x.next]
      · show ((clearCache s i none h').node j).alive = ((clearCache s i none h).node j).alive
        rw [hp.alive, hp'.alive, x.alive]
    · exact ⟨x, fun _ => rfl⟩
  | readR f i => exact ⟨hread (.r f i), fun h => absurd (.r f i) h⟩
  | readProp f i p => exact ⟨hread (.prop f i p), fun h => absurd (.prop f i p) h⟩
  | readDr f i w => exact ⟨hread (.dr f i w), fun h => absurd (.dr f i w) h⟩
  | readLop td f i w L => exact ⟨hread (.lop td f i w L), fun h => absurd (.lop td f i w L) h⟩
  | readLmult ne f i w L => exact ⟨hread (.lmult ne f i w L), fun h => absurd (.lmult ne f i w L) h⟩
  | gc i =>
    simp only [step]
    have e : (h'.node i).parents = [] ↔ (h.node i).parents = [] := by
      rw [nobody_iff hs, nobody_iff hs', x.graph]
    by_cases hp : (h.node i).parents = []
    · rw [if_pos hp, if_pos (e.2 hp)]; exact ⟨collect_sameObs x i, fun _ => rfl⟩
    · rw [if_neg hp, if_neg (fun h => hp (e.1 h))]; exact ⟨x, fun _ => rfl⟩
  | clone i ls =>
    obtain ⟨a, b⟩ := clone_sameObs (s := s) hs hs' x i ls
    refine ⟨a, fun _ => ?_⟩
    simp only [step, M.map']
    rw [b]
  | addDterm i k kw =>
    simp only [step, ifAlive]
    rw [x.alive]
    split
    · simp only [M.map', addDterm]
      obtain ⟨ns, h1, _, h3⟩ := addDterm_mid (h := h) i k
      obtain ⟨ns', h1', _, h3'⟩ := addDterm_mid (h := h') i k
      have y : SameObs (h.modify i (fun n => { n with dnames := if k ∈ n.dnames then n.dnames else n.dnames ++ [k] }))
          (h'.modify i (fun n => { n with dnames := if k ∈ n.dnames then n.dnames else n.dnames ++ [k] })) := by
        refine ⟨?_, x.next, fun j => ?_⟩
        · funext j
          rw [Heap.graph_apply, Heap.graph_apply, modify_node, modify_node]
          split
          · have e : (h'.node i).toGNode = (h.node i).toGNode := by
              show h'.graph i = h.graph i; rw [x.graph]
            show ({ (h'.node i).toGNode with dnames := (if k ∈ (h'.node i).toGNode.dnames then (h'.node i).toGNode.dnames else (h'.node i).toGNode.dnames ++ [k]) } : GNode C T) = _
            rw [e]
          · show h'.graph j = h.graph j; rw [x.graph]
        · rw [modify_node, modify_node]; split
          · exact x.alive i
          · exact x.alive j
      have sa := dnames_str hs i ns h1
      have sb := dnames_str hs' i ns' h1'
      rw [← h3] at sa; rw [← h3'] at sb
      obtain ⟨a, b⟩ := setattr_sameObs (s := s) sa sb y i none none kw
      exact ⟨a, fun _ => by rw [b]⟩
    · exact ⟨x, fun _ => rfl⟩

theorem run_sameObs (ops : List (Op C T D)) : ∀ {h h' : Heap C T V D}, Str h → Str h' → SameObs h h' →
    SameObs (run s ops h) (run s ops h') := by
  induction ops with
  | nil => intro h h' _ _ x; exact x
  | cons op ops ih => intro h h' hs hs' x; exact ih (step_str hs op) (step_str hs' op) (step_sameObs hs hs' x op).1

end Chumpy
