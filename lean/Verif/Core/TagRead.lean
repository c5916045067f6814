import Verif.Core.Inv
import Verif.Core.Pending
import Verif.Core.SameObs
/-! What a read can fill in, and reads between tagged writes. -/
namespace Chumpy
variable {C T V D α β : Type} {s : Sig C T V D}

/-- `S` contains everything its members refer to. -/
def Closed (g : Graph C T) (S : Id → Prop) : Prop := ∀ j, S j → ∀ k c, (g j).dterms k = some c → S c

/-- `h'` has the graph and the links of `h`, and the caches outside `S`. -/
structure Touch (S : Id → Prop) (h h' : Heap C T V D) : Prop where
  graph : h'.graph = h.graph
  parents : ∀ j, (h'.node j).parents = (h.node j).parents
  itr : ∀ j, (h'.node j).itr = (h.node j).itr
  off : ∀ j, ¬ S j → (h'.node j).cacheR = (h.node j).cacheR ∧ (h'.node j).drs = (h.node j).drs ∧ (h'.node j).props = (h.node j).props

theorem Touch.refl (S : Id → Prop) (h : Heap C T V D) : Touch S h h := ⟨rfl, fun _ => rfl, fun _ => rfl, fun _ _ => ⟨rfl, rfl, rfl⟩⟩
theorem Touch.trans {S : Id → Prop} {a b c : Heap C T V D} (x : Touch S a b) (y : Touch S b c) : Touch S a c :=
  ⟨y.graph.trans x.graph, fun j => (y.parents j).trans (x.parents j), fun j => (y.itr j).trans (x.itr j),
   fun j hj => ⟨(y.off j hj).1.trans (x.off j hj).1, (y.off j hj).2.1.trans (x.off j hj).2.1, (y.off j hj).2.2.trans (x.off j hj).2.2⟩⟩

theorem callOnChanged_touch (S : Id → Prop) (i : Id) (h : Heap C T V D) : Touch S h (callOnChanged i h).1 := by
  unfold callOnChanged
  split
  · exact Touch.refl S h
  · refine ⟨?_, fun j => ?_, fun j => ?_, fun j _ => ?_⟩
    · funext j
      simp only [Heap.graph, Heap.modify]
      split
      · subst_vars; rfl
      · rfl
    · simp only [Heap.modify]; split
      · subst_vars; rfl
      · rfl
    · simp only [Heap.modify]; split
      · subst_vars; rfl
      · rfl
    · simp only [Heap.modify]; split
      · subst_vars; exact ⟨rfl, rfl, rfl⟩
      · exact ⟨rfl, rfl, rfl⟩

theorem modify_touch {S : Id → Prop} {i : Id} (hi : S i) (h : Heap C T V D) (F : Node C T V D → Node C T V D)
    (hg : (F (h.node i)).toGNode = (h.node i).toGNode) (hp : (F (h.node i)).parents = (h.node i).parents)
    (ht : (F (h.node i)).itr = (h.node i).itr) : Touch S h (h.modify i F) := by
  refine ⟨?_, fun j => ?_, fun j => ?_, fun j hj => ?_⟩
  · funext j
    simp only [Heap.graph, Heap.modify]
    split
    · subst_vars; exact hg
    · rfl
  · simp only [Heap.modify]; split
    · subst_vars; exact hp
    · rfl
  · simp only [Heap.modify]; split
    · subst_vars; exact ht
    · rfl
  · have : j ≠ i := fun e => hj (e ▸ hi)
    simp [Heap.modify, this]

theorem bind_touch {S : Id → Prop} {m : M C T V D α} {k : α → M C T V D β} {h : Heap C T V D} (hm : Touch S h (m h).1)
    (hk : ∀ a h', Touch S h h' → Touch S h' (k a h').1) : Touch S h (M.bind m k h).1 := by
  simp only [M.bind]
  rcases hmh : m h with ⟨h1, r⟩
  rw [hmh] at hm
  cases r with
  | error e => exact hm
  | ok a => exact hm.trans (hk a h1 hm)

/-- The object a request is about. -/
def Req.about : Req → Id
  | .r i => i
  | .prop i _ => i

theorem runProg_touch {S : Id → Prop} {g : Graph C T} (hS : Closed g S) {rd : Req → M C T V D V}
    (hrd : ∀ q (h : Heap C T V D), h.graph = g → S q.about → Touch S h (rd q h).1) {i : Id} (hi : S i) (p : Prog T V α) :
    ∀ h : Heap C T V D, h.graph = g → Touch S h (runProg rd i p h).1 := by
  induction p with
  | ret a => intro h _; exact Touch.refl S h
  | raise c => intro h _; exact Touch.refl S h
  | term n k ih => intro h hg; simp only [runProg]; exact ih _ h hg
  | child n k ih =>
    intro h hg
    simp only [runProg]
    cases hc : (h.node i).dterms n with
    | none => exact Touch.refl S h
    | some c =>
      have hc' : (g i).dterms n = some c := by rw [← hg]; exact hc
      exact bind_touch (hrd _ h hg (hS i hi n c hc')) fun a h' ht => ih a h' (ht.graph.trans hg)
  | prop p k ih => intro h hg; exact bind_touch (hrd _ h hg hi) fun a h' ht => ih a h' (ht.graph.trans hg)
  | selfR k ih => intro h hg; exact bind_touch (hrd _ h hg hi) fun a h' ht => ih a h' (ht.graph.trans hg)

/-- A read fills in only caches of the object read and of what it refers to. -/
theorem read_touch {S : Id → Prop} {g : Graph C T} (hS : Closed g S) (f : Nat) : ∀ q (h : Heap C T V D), h.graph = g → S q.about →
    Touch S h (read s f q h).1 := by
  induction f with
  | zero => intro q h _ _; exact Touch.refl S h
  | succ f ih =>
    intro q h hg hq
    cases q with
    | r i =>
      refine bind_touch (callOnChanged_touch S i h) fun _ h1 ht => ?_
      have hg1 := ht.graph.trans hg
      cases hc : (h1.node i).cacheR with
      | some v => exact Touch.refl S h1
      | none =>
        refine bind_touch (m := emit (.ranR i)) ⟨rfl, fun _ => rfl, fun _ => rfl, fun _ _ => ⟨rfl, rfl, rfl⟩⟩ fun _ h2 ht2 => ?_
        exact bind_touch (runProg_touch hS ih hq _ h2 (ht2.graph.trans hg1)) fun v h3 _ => modify_touch (i := i) hq h3 (fun n => { n with cacheR := some v }) rfl rfl rfl
    | prop i p =>
      simp only [read]
      cases s.propDecl (h.node i).cls p with
      | none => exact Touch.refl S h
      | some d =>
        dsimp only
        cases hc : (h.node i).props p with
        | some v => exact Touch.refl S h
        | none =>
          refine bind_touch (m := emit (.ranProp i p)) ⟨rfl, fun _ => rfl, fun _ => rfl, fun _ _ => ⟨rfl, rfl, rfl⟩⟩ fun _ h2 ht2 => ?_
          exact bind_touch (runProg_touch hS ih hq _ h2 (ht2.graph.trans hg)) fun v h3 _ => modify_touch (i := i) hq h3 (fun n => { n with props := fun q => if q = p then some v else n.props q }) rfl rfl rfl

/-- Reads of objects that no tagged object is below keep the tag rule. -/
theorem TagInv.touch {S : Id → Prop} {h h' : Heap C T V D} {itr : Option Nat} (ht : TagInv s h itr) (a : Touch S h h')
    (hS : ∀ n, S n → ¬ h.Tagged itr n) : TagInv s h' itr := by
  have hT : ∀ n, h'.Tagged itr n ↔ h.Tagged itr n := fun n => by unfold Heap.Tagged; rw [a.itr]
  intro n hn
  rw [hT] at hn
  obtain ⟨h1, h2, h3⟩ := ht n hn
  obtain ⟨o1, o2, _⟩ := a.off n (fun hs => hS n hs hn)
  refine ⟨o1.trans h1, fun w => by rw [o2]; exact h2 w, fun q k hr => ?_⟩
  rw [a.parents] at hr
  obtain ⟨h4, h5⟩ := h3 q k hr
  refine ⟨(hT q).2 h4, fun p hp => ?_⟩
  rw [(a.off q (fun hs => hS q hs h4)).2.2]
  refine h5 p ?_
  have : (h'.node q).cls = (h.node q).cls := congrArg GNode.cls (congrFun a.graph q)
  rwa [this] at hp

theorem up_anc {h h2 : Heap C T V D} (hl : Links h2.par h.graph) {itr : Option Nat} {i n : Id} (hu : Up h2 itr i n) : Anc h.graph i n := by
  induction hu with
  | refl => exact .refl
  | @step n q _ _ hreg ih =>
    obtain ⟨ns, hm⟩ := hreg
    obtain ⟨k, hk⟩ : ∃ k, k ∈ ns := by
      exact List.exists_mem_of_ne_nil _ ((hl.ok n).names q ns hm).1
    exact .step k ((hl.exact q k n).2 ⟨ns, hm, hk⟩) ih

/-- Only objects that depend on the assigned one get the tag. -/
theorem setTerm_tagged {h : Heap C T V D} (hs : Str h) (i : Id) (n : Name) (t : T) (itr : Option Nat) (j : Id)
    (hj : (setTerm s i n t itr h).1.Tagged itr j) : h.Tagged itr j ∨ Anc h.graph i j := by
  obtain ⟨h2, w, hpar, _⟩ := setTerm_writing (s := s) h hs i n t itr
  obtain ⟨S, hp⟩ := w.post
  by_cases hS : j ∈ S
  · right
    have hl : Links h2.par h.graph := by
      have : h2.par = h.par := by funext j; exact hpar j
      rw [this]; exact hs.links
    exact up_anc hl (hp.sound j hS).1
  · left
    obtain ⟨h1, h3⟩ := hj
    refine ⟨h1, ?_⟩
    rw [← w.itr2, ← (hp.kept j hS).2.2, ← (w.same4 j).2.2.2.1]; exact h3

theorem Writing.itr_old {h h2 h4 : Heap C T V D} {i : Id} {n : Name} (w : Writing s h h2 h4 i n none) (j : Id) :
    (h4.node j).itr = none ∨ (h4.node j).itr = (h.node j).itr := by
  obtain ⟨S, hp⟩ := w.post
  rw [(w.same4 j).2.2.2.1]
  by_cases hS : j ∈ S
  · exact Or.inl (hp.wiped j hS).2.2
  · right; rw [(hp.kept j hS).2.2, w.itr2]

/-- `obj.k = array` for a differentiable term `k`: a new `Ch` holding the array is linked. -/
theorem wrap_state {h : Heap C T V D} (hs : Str h) {i : Id} (hi : (h.node i).alive = true) {k : Name} (hk : k ∈ (h.graph i).dnames) (v : T) :
    ∃ h', setattr s i none (.wrap k v) h = (h', .ok ()) ∧ h'.next = h.next + 1 ∧ h'.giter = h.giter ∧
      (∀ j, (h'.node j).alive = if j = h.next then true else (h.node j).alive) ∧
      h'.graph h.next = ⟨s.base, fun m => if m = s.xname then some v else none, [], fun _ => none, false, false⟩ ∧
      h'.graph i = { h.graph i with dterms := fun m => if m = k then some h.next else (h.graph i).dterms m } ∧
      (∀ j, j ≠ h.next → j ≠ i → h'.graph j = h.graph j) ∧ k ∈ (h'.node i).dirty ∧
      ∀ j, (h'.node j).itr = none ∨ (h'.node j).itr = (h.node j).itr := by
  have hne : i ≠ h.next := fun e => by subst e; exact absurd (hs.alive_lt hi) (Nat.lt_irrefl _)
  have hs1 := alloc_str hs s.base [] false false
  obtain ⟨_, w1, _, g1⟩ := setTerm_writing (s := s) (alloc s.base [] false false h).1 hs1 h.next s.xname v none
  have hn1 := alloc_node (C := C) (T := T) (V := V) (D := D) s.base [] false false h
  have e1 : (newLeaf s v h).1 = (setTerm s h.next s.xname v none (alloc s.base [] false false h).1).1 := rfl
  obtain ⟨n, _, _, _⟩ := newLeaf_post (s := s) (fr := ⟨False, False⟩) hs v
  obtain ⟨ok2, h2, w2, _, g2⟩ := setDterm_writing (s := s) (newLeaf s v h).1 n.str i k h.next none n.born
  have e : setattr s i none (.wrap k v) h = setDterm s i k h.next none (newLeaf s v h).1 := by
    simp only [setattr]
    rw [if_pos (show k ∈ (h.node i).dnames from hk)]
    exact wrap_eq hs i k v none
  have gN : (newLeaf s v h).1.graph h.next = ⟨s.base, fun m => if m = s.xname then some v else none, [], fun _ => none, false, false⟩ := by
    rw [e1, g1]
    dsimp only
    rw [if_pos rfl, Heap.graph_apply, hn1, if_pos rfl]
    rfl
  have gO : ∀ j, j ≠ h.next → (newLeaf s v h).1.graph j = h.graph j := fun j hj => n.off j hj
  refine ⟨(setDterm s i k h.next none (newLeaf s v h).1).1, ?_, ?_, ?_, ?_, ?_, ?_, ?_, ?_, ?_⟩
  · rw [e]; exact Prod.ext rfl ok2
  · rw [w2.next4, w2.next2, n.next]
  · rw [w2.giter4, w2.giter2, n.giter]
  · intro j
    rw [w2.alive4, e1, w1.alive4, hn1]
    split
    · rfl
    · rfl
  · rw [g2]
    unfold setLink
    rw [if_neg (Ne.symm hne)]; exact gN
  · rw [g2]
    unfold setLink
    rw [if_pos rfl, gO i hne]
  · intro j hj hji
    rw [g2]
    unfold setLink
    rw [if_neg hji]; exact gO j hj
  · have a := w2.assigned
    exact (a.dirty i (n.alive i hi) k).2 (Or.inr (Or.inl ⟨rfl, rfl⟩))
  · intro j
    rcases w2.itr_old j with h3 | h3
    · exact Or.inl h3
    · rw [h3, e1]
      rcases w1.itr_old j with h4 | h4
      · exact Or.inl h4
      · rw [h4, hn1]
        split
        · exact Or.inl rfl
        · exact Or.inr rfl
end Chumpy
