import Verif.AD.Operators
import Verif.Properties.Tags
/-!
# Calling an object with keyword arguments: C72
-/
namespace Chumpy
variable {C T V D : Type} {s : Sig C T V D}

/-- `obj(**kwargs)` (ch.py:837-839): `self.set(**kwargs)`, then `self.r`. -/
def callObj (s : Sig C T V D) (f : Nat) (i : Id) (kws : List (KW T)) : M C T V D V :=
  M.bind (setObj s i kws) fun _ => read s f (.r i)

/-! ## What the call's arguments say -/

/-- In `h'` the object `i` has the arguments `kws`, everything else about it and every other object is as in `h`.  A value for a differentiable
argument has become a new `Ch` of that value. -/
structure Given (s : Sig C T V D) (h h' : Heap C T V D) (i : Id) (kws : List (KW T)) : Prop where
  alive : ∀ j, (h.node j).alive = true → (h'.node j).alive = true
  same : ∀ j, (h.node j).alive = true → j ≠ i → h'.graph j = h.graph j
  cls : (h'.graph i).cls = (h.graph i).cls
  dnames : (h'.graph i).dnames = (h.graph i).dnames
  flags : (h'.graph i).makeDense = (h.graph i).makeDense ∧ (h'.graph i).makeSparse = (h.graph i).makeSparse
  term : ∀ n t, .term n t ∈ kws → (h'.graph i).terms n = some t
  otherTerm : ∀ n, (∀ t, .term n t ∉ kws) → (h'.graph i).terms n = (h.graph i).terms n
  link : ∀ k c, .link k c ∈ kws → (h'.graph i).dterms k = some c
  wrap : ∀ k x, .wrap k x ∈ kws → ∃ l, (h'.graph i).dterms k = some l ∧ (h.node l).alive = false ∧ (h'.node l).alive = true ∧
    h'.graph l = leafNode s x
  otherArg : ∀ k, (∀ c, .link k c ∉ kws) → (∀ x, .wrap k x ∉ kws) → (h'.graph i).dterms k = (h.graph i).dterms k

/-- One assignment. -/
structure GivenOne (s : Sig C T V D) (h h' : Heap C T V D) (i : Id) (kw : KW T) : Prop where
  str : Str h'
  alive : ∀ j, (h.node j).alive = true → (h'.node j).alive = true
  same : ∀ j, (h.node j).alive = true → j ≠ i → h'.graph j = h.graph j
  node : h'.graph i = (h.graph i).assign (match kw with | .wrap k _ => .link k h.next | kw => kw)
  leaf : ∀ k x, kw = .wrap k x → (h'.node h.next).alive = true ∧ h'.graph h.next = leafNode s x

theorem dead_next {h : Heap C T V D} (hs : Str h) : (h.node h.next).alive = false := by
  cases e : (h.node h.next).alive with
  | false => rfl
  | true => exact absurd (hs.alive_lt e) (Nat.lt_irrefl _)

theorem setattr_givenOne {h : Heap C T V D} (hs : Str h) {i : Id} (hi : (h.node i).alive = true) (kw : KW T) {itr : Option Nat}
    (ht : ∀ t, itr = some t → t ≤ h.giter ∨ t = 9999) (hok : (setattr s i itr kw h).2 = .ok ()) :
    GivenOne s h (setattr s i itr kw h).1 i kw := by
  cases kw with
  | term n t =>
    obtain ⟨_, b⟩ := setattr_built (s := s) hs hi (kw := .term n t) trivial ht
    exact ⟨b.str, fun j hj => by rw [b.alive]; exact hj, fun j _ hj => by rw [b.graph, if_neg hj], by rw [b.graph, if_pos rfl], fun _ _ e => by cases e⟩
  | link k c =>
    have hk : k ∈ (h.graph i).dnames ∧ (h.node c).alive = true := by
      simp only [setattr] at hok
      split at hok
      · next e => exact e
      · cases hok
    obtain ⟨_, b⟩ := setattr_built (s := s) hs hi (kw := .link k c) hk ht
    exact ⟨b.str, fun j hj => by rw [b.alive]; exact hj, fun j _ hj => by rw [b.graph, if_neg hj], by rw [b.graph, if_pos rfl], fun _ _ e => by cases e⟩
  | wrap k x =>
    have hk : k ∈ (h.graph i).dnames := by
      simp only [setattr] at hok
      split at hok
      · next e => exact e
      · cases hok
    obtain ⟨_, b⟩ := setattr_wrap (s := s) hs hi hk x ht
    have hd := dead_next hs
    have hne : h.next ≠ i := fun e => by rw [e, hi] at hd; cases hd
    refine ⟨b.str, fun j hj => ?_, fun j ha hj => ?_, by rw [b.graph, if_pos rfl], fun k' x' e => ?_⟩
    · rw [b.alive]; split
      · rfl
      · exact hj
    · have : j ≠ h.next := fun e => by rw [e, hd] at ha; cases ha
      rw [b.graph, if_neg hj, if_neg this]
    · cases e
      exact ⟨by rw [b.alive, if_pos rfl], by rw [b.graph, if_neg hne, if_pos rfl]⟩
  | bad n => cases hok

theorem GivenOne.cons {h h1 h2 : Heap C T V D} {i : Id} {kw : KW T} {kws : List (KW T)} (hs : Str h) (hi : (h.node i).alive = true)
    (a : GivenOne s h h1 i kw) (b : Given s h1 h2 i kws) (hn : ((kw :: kws).map KW.name).Nodup) : Given s h h2 i (kw :: kws) := by
  have hnk : ∀ kw' ∈ kws, kw'.name ≠ kw.name := by
    intro kw' hm e
    rw [List.map_cons, List.nodup_cons] at hn
    exact hn.1 (List.mem_map.2 ⟨kw', hm, e⟩)
  have hd := dead_next hs
  have hne : h.next ≠ i := fun e => by rw [e, hi] at hd; cases hd
  refine ⟨fun j hj => b.alive j (a.alive j hj), fun j hj hji => (b.same j (a.alive j hj) hji).trans (a.same j hj hji), ?_, ?_, ?_, ?_, ?_, ?_, ?_, ?_⟩
  · rw [b.cls, a.node]; cases kw <;> rfl
  · rw [b.dnames, a.node]; cases kw <;> rfl
  · rw [b.flags.1, b.flags.2, a.node]; cases kw <;> exact ⟨rfl, rfl⟩
  · intro n t hm
    rcases List.mem_cons.1 hm with e | hm
    · subst e
      rw [b.otherTerm n fun t' ht => hnk _ ht rfl, a.node]
      simp [GNode.assign]
    · exact b.term n t hm
  · intro n hm
    rw [b.otherTerm n fun t ht => hm t (List.mem_cons_of_mem _ ht), a.node]
    cases kw with
    | term n' t' =>
      have : n ≠ n' := fun e => hm t' (by rw [e]; exact List.mem_cons_self)
      simp [GNode.assign, this]
    | _ => rfl
  · intro k c hm
    rcases List.mem_cons.1 hm with e | hm
    · subst e
      rw [b.otherArg k (fun c' ht => hnk _ ht rfl) (fun c' ht => hnk _ ht rfl), a.node]
      simp [GNode.assign]
    · exact b.link k c hm
  · intro k x hm
    rcases List.mem_cons.1 hm with e | hm
    · subst e
      obtain ⟨l1, l2⟩ := a.leaf k x rfl
      refine ⟨h.next, ?_, hd, b.alive _ l1, (b.same _ l1 hne).trans l2⟩
      rw [b.otherArg k (fun c' ht => hnk _ ht rfl) (fun c' ht => hnk _ ht rfl), a.node]
      simp [GNode.assign]
    · obtain ⟨l, l1, l2, l3⟩ := b.wrap k x hm
      refine ⟨l, l1, ?_, l3⟩
      cases e : (h.node l).alive with
      | false => rfl
      | true => rw [a.alive l e] at l2; cases l2
  · intro k h1 h2
    rw [b.otherArg k (fun c ht => h1 c (List.mem_cons_of_mem _ ht)) (fun c ht => h2 c (List.mem_cons_of_mem _ ht)), a.node]
    cases kw with
    | link k' c' =>
      have : k ≠ k' := fun e => h1 c' (by rw [e]; exact List.mem_cons_self)
      simp [GNode.assign, this]
    | wrap k' x' =>
      have : k ≠ k' := fun e => h2 x' (by rw [e]; exact List.mem_cons_self)
      simp [GNode.assign, this]
    | _ => rfl

theorem setAll_given (i : Id) (kws : List (KW T)) : ∀ {h : Heap C T V D}, Str h → (h.node i).alive = true → (kws.map KW.name).Nodup →
    (setAll s i kws h).2 = .ok () → Given s h (setAll s i kws h).1 i kws := by
  induction kws with
  | nil =>
    intro h _ _ _ _
    refine ⟨fun _ h => h, fun _ _ _ => rfl, rfl, rfl, ⟨rfl, rfl⟩, ?_, fun _ _ => rfl, ?_, ?_, fun _ _ _ => rfl⟩ <;>
      · intro _ _ h; cases h
  | cons kw kws ih =>
    intro h hs hi hn hok
    obtain ⟨itr, hitr, he⟩ : ∃ itr : Option Nat, (∀ t, itr = some t → t = 9999) ∧
        setAll s i (kw :: kws) h = M.bind (setattr s i itr kw) (fun _ => setAll s i kws) h := by
      cases kws with
      | nil =>
        refine ⟨none, (fun t h => by cases h), ?_⟩
        simp only [setAll, M.bind]
        rcases setattr s i none kw h with ⟨h1, r⟩
        cases r <;> rfl
      | cons kw2 kws => exact ⟨some 9999, by intro t h; cases h; rfl, by rw [setAll.eq_3 s i kw (kw2 :: kws) (by simp)]⟩
    rw [he] at hok ⊢
    have one := setattr_givenOne (s := s) hs hi kw (itr := itr) (fun t h => Or.inr (hitr t h))
    simp only [M.bind] at hok ⊢
    rcases hx : setattr s i itr kw h with ⟨h1, r⟩
    rw [hx] at hok one
    cases r with
    | error e => cases hok
    | ok u =>
      have one := one rfl
      exact one.cons hs hi (ih one.str (one.alive i hi) (by rw [List.map_cons, List.nodup_cons] at hn; exact hn.2) hok) hn

/-! ## Values depend only on what is below -/

/-- `R` pairs objects of the same class with the same parameters whose arguments are paired again. -/
def Bisim (R : Id → Id → Prop) (g g' : Graph C T) : Prop :=
  ∀ j j', R j j' → (g' j').cls = (g j).cls ∧ (g' j').terms = (g j).terms ∧
    ∀ k, ((g j).dterms k = none ∧ (g' j').dterms k = none) ∨ ∃ c c', (g j).dterms k = some c ∧ (g' j').dterms k = some c' ∧ R c c'

theorem Bisim.prog {R : Id → Id → Prop} {g g' : Graph C T} (x : Bisim R g g') {ev ev' : Req → Except Err V} {j j' : Id} (hj : R j j')
    (hr : ∀ c c', R c c' → ev' (.r c') = ev (.r c)) (hp : ∀ p, ev' (.prop j' p) = ev (.prop j p)) {α : Type} (p : Prog T V α) :
    evalProg g' ev' j' p = evalProg g ev j p := by
  obtain ⟨_, x2, x3⟩ := x j j' hj
  induction p with
  | ret a => rfl
  | raise c => rfl
  | term n k ih => simp only [evalProg, x2]; exact ih _
  | child n k ih =>
    simp only [evalProg]
    rcases x3 n with ⟨e, e'⟩ | ⟨c, c', e, e', hc⟩
    · rw [e, e']
    · rw [e, e']
      simp only [hr c c' hc]
      cases ev (.r c) with
      | ok v => exact ih v
      | error e => rfl
  | prop p k ih =>
    simp only [evalProg, hp]
    cases ev (.prop j p) with
    | ok v => exact ih v
    | error e => rfl
  | selfR k ih =>
    simp only [evalProg, hr j j' hj]
    cases ev (.r j) with
    | ok v => exact ih v
    | error e => rfl

theorem Bisim.req {R : Id → Id → Prop} {g g' : Graph C T} (x : Bisim R g g') (f : Nat) : ∀ j j', R j j' →
    evalReq s g' f (.r j') = evalReq s g f (.r j) ∧ ∀ p, evalReq s g' f (.prop j' p) = evalReq s g f (.prop j p) := by
  induction f with
  | zero => intro j j' _; exact ⟨rfl, fun _ => rfl⟩
  | succ f ih =>
    intro j j' hj
    have hcong : ∀ p : Prog T V V, evalProg g' (evalReq s g' f) j' p = evalProg g (evalReq s g f) j p :=
      fun p => x.prog hj (fun c c' hc => (ih c c' hc).1) (ih j j' hj).2 p
    refine ⟨?_, fun p => ?_⟩
    · simp only [evalReq, (x j j' hj).1]; exact hcong _
    · simp only [evalReq, (x j j' hj).1]
      cases s.propDecl (g j).cls p with
      | none => rfl
      | some d => exact hcong _

theorem readFresh_agree {h h' : Heap C T V D} {f f' : Nat} {q q' : Req} {o o' : Except Err V} (a : ReadFresh s h f q o) (b : ReadFresh s h' f' q' o')
    (he : ∀ n, evalReq s h'.graph n q' = evalReq s h.graph n q) (ho : o ≠ .error .fuel) (ho' : o' ≠ .error .fuel) : o = o' := by
  have key : ∀ {h : Heap C T V D} {f q} {o : Except Err V}, ReadFresh s h f q o → o ≠ .error .fuel → ∃ n, evalReq s h.graph n q = o := by
    intro h f q o a ho
    cases o with
    | ok v => exact (a.1 v rfl).2
    | error e => exact (a.2.1 e rfl (fun h => ho (by rw [h]))).2
  obtain ⟨n, e⟩ := key a ho
  obtain ⟨n', e'⟩ := key b ho'
  rw [he] at e'
  have e3 := evalReq_mono s h.graph (Nat.le_max_left n n') q (by rw [e]; exact ho)
  have e4 := evalReq_mono s h.graph (Nat.le_max_right n n') q (by rw [e']; exact ho')
  rw [← e, ← e', ← e3, ← e4]

theorem set_reach {h : Heap C T V D} (hr : Reach s ⟨False, False⟩ h) {i : Id} {kws : List (KW T)} (hok : (setObj s i kws h).2 = .ok ()) :
    Reach s ⟨False, False⟩ (setObj s i kws h).1 :=
  .step (.set i kws) hr ⟨fun h => False.elim h, Or.inr (Or.inl (by
    show ((setObj s i kws h).2.map _).isOk = true
    rw [hok]; rfl))⟩

theorem call_eq {h : Heap C T V D} {f : Nat} {i : Id} {kws : List (KW T)} (hok : (setObj s i kws h).2 = .ok ()) :
    callObj s f i kws h = read s f (.r i) (setObj s i kws h).1 := by
  unfold callObj M.bind
  rcases hx : setObj s i kws h with ⟨h1, r⟩
  rw [hx] at hok; dsimp only at hok; subst hok; rfl

theorem setObj_given {h : Heap C T V D} (hs : Str h) {i : Id} {kws : List (KW T)} (hi : (h.node i).alive = true) (hn : (kws.map KW.name).Nodup)
    (hok : (setObj s i kws h).2 = .ok ()) : Given s h (setObj s i kws h).1 i kws := by
  have e : setObj s i kws h = setAll s i kws h := by simp [setObj, hi]
  rw [e] at hok ⊢
  exact setAll_given i kws hs hi hn hok

/-! ## C72 -/

/-- C72 in full: in every state any history leads to, a call either raises what assigning the arguments raises, or returns what an evaluation
from scratch returns for the new arguments. -/
def C72_full (s : Sig C T V D) : Prop :=
  ∀ (ops : List (Op C T D)) (f : Nat) (i : Id) (kws : List (KW T)),
    let h := run s ops (Heap.empty s)
    (h.node i).alive = true → (kws.map KW.name).Nodup →
      (∀ e, (setObj s i kws h).2 = .error e → (callObj s f i kws h).2 = .error e) ∧
      ((setObj s i kws h).2 = .ok () → ∃ h1, Given s h h1 i kws ∧ ReadFresh s h1 f (.r i) (callObj s f i kws h).2)

/-- **C72.**  After every history (legal as in C01): a call raises what assigning its arguments raises; otherwise its result is that of an
evaluation from scratch in a state `h1` in which the object has these arguments and nothing else has changed, and the state it leaves behind has the
objects, attributes and arguments of `h1`.  Missing: histories with repeated failing `set()`s (C01), for which the claim is refuted below. -/
theorem C72_call_returns_value_partial (hp : s.PropsOk) {h : Heap C T V D} (hr : Reach s ⟨False, False⟩ h) (f : Nat) (i : Id) (kws : List (KW T))
    (hi : (h.node i).alive = true) (hn : (kws.map KW.name).Nodup) :
    (∀ e, (setObj s i kws h).2 = .error e → callObj s f i kws h = ((setObj s i kws h).1, .error e)) ∧
    ((setObj s i kws h).2 = .ok () → ∃ h1, Reach s ⟨False, False⟩ h1 ∧ Given s h h1 i kws ∧ ReadFresh s h1 f (.r i) (callObj s f i kws h).2 ∧
      (callObj s f i kws h).1.graph = h1.graph ∧ ∀ j, ((callObj s f i kws h).1.node j).alive = (h1.node j).alive) := by
  refine ⟨fun e he => ?_, fun hok => ?_⟩
  · unfold callObj M.bind
    rcases hx : setObj s i kws h with ⟨h1, r⟩
    rw [hx] at he
    dsimp only at he
    subst he
    rfl
  · have hr1 := set_reach hr hok
    have fr : RFrame _ _ := read_pres (s := s) rframe_rel f (.r i) (setObj s i kws h).1
    rw [call_eq hok]
    exact ⟨_, hr1, setObj_given (reach_str hr) hi hn hok, C01_value_never_stale_partial hp hr1 f i, fr.graph, fr.alive⟩

/-- **C72, without memory.**  If every argument is given, and given as a value, the result is a function of the class and the arguments: whatever
happened before, to whichever objects. -/
theorem C72_call_is_a_function (hp : s.PropsOk) {h h' : Heap C T V D} (hr : Reach s ⟨False, False⟩ h) (hr' : Reach s ⟨False, False⟩ h') (f f' : Nat)
    (i i' : Id) (kws : List (KW T)) (hi : (h.node i).alive = true) (hi' : (h'.node i').alive = true) (hn : (kws.map KW.name).Nodup)
    (hc : (h'.graph i').cls = (h.graph i).cls)
    (hv : ∀ kw ∈ kws, (∃ n t, kw = .term n t) ∨ ∃ k x, kw = .wrap k x)
    (hall : ∀ g ∈ [h.graph i, h'.graph i'], (∀ n, g.terms n ≠ none → ∃ t, .term n t ∈ kws) ∧ ∀ k, g.dterms k ≠ none → ∃ x, .wrap k x ∈ kws)
    (hok : (setObj s i kws h).2 = .ok ()) (hok' : (setObj s i' kws h').2 = .ok ())
    (hf : (callObj s f i kws h).2 ≠ .error .fuel) (hf' : (callObj s f' i' kws h').2 ≠ .error .fuel) :
    (callObj s f i kws h).2 = (callObj s f' i' kws h').2 := by
  obtain ⟨h1, _, g, a, _⟩ := (C72_call_returns_value_partial hp hr f i kws hi hn).2 hok
  obtain ⟨h1', _, g', a', _⟩ := (C72_call_returns_value_partial hp hr' f' i' kws hi' hn).2 hok'
  refine readFresh_agree a a' (fun n => ?_) hf hf'
  let R : Id → Id → Prop := fun j j' => (j = i ∧ j' = i') ∨ ∃ x, h1.graph j = leafNode s x ∧ h1'.graph j' = leafNode s x
  have hb : Bisim R h1.graph h1'.graph := by
    intro j j' hR
    rcases hR with ⟨rfl, rfl⟩ | ⟨x, e, e'⟩
    · refine ⟨by rw [g'.cls, g.cls, hc], funext fun n => ?_, fun k => ?_⟩
      · by_cases ht : ∃ t, .term n t ∈ kws
        · obtain ⟨t, ht⟩ := ht
          rw [g.term n t ht, g'.term n t ht]
        · have n1 : (h.graph j).terms n = none := by_contra fun e => ht ((hall _ (by simp)).1 n e)
          have n2 : (h'.graph j').terms n = none := by_contra fun e => ht ((hall _ (by simp)).1 n e)
          have hno : ∀ t, KW.term n t ∉ kws := fun t h => ht ⟨t, h⟩
          rw [g.otherTerm n hno, g'.otherTerm n hno, n1, n2]
      · by_cases ht : ∃ x, .wrap k x ∈ kws
        · obtain ⟨x, ht⟩ := ht
          obtain ⟨l, l1, _, _, l4⟩ := g.wrap k x ht
          obtain ⟨l', l1', _, _, l4'⟩ := g'.wrap k x ht
          exact Or.inr ⟨l, l', l1, l1', Or.inr ⟨x, l4, l4'⟩⟩
        · have n1 : (h.graph j).dterms k = none := by_contra fun e => ht ((hall _ (by simp)).2 k e)
          have n2 : (h'.graph j').dterms k = none := by_contra fun e => ht ((hall _ (by simp)).2 k e)
          have hno : ∀ x, KW.wrap k x ∉ kws := fun t h => ht ⟨t, h⟩
          have hno' : ∀ c, KW.link k c ∉ kws := fun c h => by
            rcases hv _ h with ⟨_, _, e⟩ | ⟨_, _, e⟩ <;> cases e
          exact Or.inl ⟨by rw [g.otherArg k hno' hno, n1], by rw [g'.otherArg k hno' hno, n2]⟩
    · rw [e, e']
      exact ⟨rfl, rfl, fun k => Or.inl ⟨rfl, rfl⟩⟩
  exact (hb.req n i i' (Or.inl ⟨rfl, rfl⟩)).1

/-- **C72, repeated.**  A call followed by a call with no arguments, or by reading `r`, gives the same value again. -/
theorem C72_call_again (hp : s.PropsOk) {h : Heap C T V D} (hr : Reach s ⟨False, False⟩ h) (f f' : Nat) (i : Id) (kws : List (KW T))
    (hi : (h.node i).alive = true) (hn : (kws.map KW.name).Nodup) (hok : (setObj s i kws h).2 = .ok ())
    (hf : (callObj s f i kws h).2 ≠ .error .fuel) :
    (∀ o, (callObj s f' i [] (callObj s f i kws h).1).2 = o → o ≠ .error .fuel → o = (callObj s f i kws h).2) ∧
    ∀ o, (read s f' (.r i) (callObj s f i kws h).1).2 = o → o ≠ .error .fuel → o = (callObj s f i kws h).2 := by
  have ec := call_eq (f := f) hok
  have hr1 := set_reach hr hok
  have g := setObj_given (reach_str hr) hi hn hok
  have fr : RFrame _ _ := read_pres (s := s) rframe_rel f (.r i) (setObj s i kws h).1
  have hr2 : Reach s ⟨False, False⟩ (callObj s f i kws h).1 := by
    have := Reach.step (.readR f i) hr1 trivial
    have e : (step s (.readR f i) (setObj s i kws h).1).1 = (read s f (.r i) (setObj s i kws h).1).1 := by
      simp only [step, ifAlive, g.alive i hi, if_true, M.map']
    rwa [e, ← ec] at this
  have second : ∀ o, (read s f' (.r i) (callObj s f i kws h).1).2 = o → o ≠ .error .fuel → o = (callObj s f i kws h).2 := by
    intro o ho hne
    subst ho
    refine readFresh_agree (C01_value_never_stale_partial hp hr2 f' i)
      (h' := (setObj s i kws h).1) (f' := f) (q' := .r i) (by rw [ec]; exact C01_value_never_stale_partial hp hr1 f i) (fun n => ?_) hne hf
    rw [ec, fr.graph]
  refine ⟨fun o ho hne => ?_, second⟩
  refine second o ?_ hne
  rw [← ho]
  have al : ((callObj s f i kws h).1.node i).alive = true := by rw [ec, fr.alive]; exact g.alive i hi
  generalize (callObj s f i kws h).1 = hh at al
  simp [callObj, setObj, al, M.bind, setAll, M.pure]

namespace Demo
/-- y = a + b with a = [3], b = [4]. -/
abbrev cl1 : List (Op Cls Arr Jac) := [leaf [3], leaf [4], bin .add 0 1, .readR 9 2]
/-- Another history, with another object of the same class. -/
abbrev cl2 : List (Op Cls Arr Jac) := [leaf [1], bin .add 0 0, .readR 9 1, .set 0 [.term x [5]]]
example : TameRun sig (Heap.empty sig) cl1 ∧ TameRun sig (Heap.empty sig) cl2 :=
  ⟨⟨trivial, trivial, trivial, trivial, trivial⟩, ⟨trivial, trivial, trivial, Or.inl (by decide), trivial⟩⟩
/-- `y(a=[10])`, and a call that raises. -/
example : (callObj sig 9 2 [.wrap a [10]] (hist cl1)).2 = .ok [14] ∧ (callObj sig 9 2 [.wrap a [10], .bad b] (hist cl1)).2 = .error (.user 0) := by
  decide +kernel
/-- The hypotheses of `C72_call_is_a_function`: all arguments given as values. -/
example : (setObj sig 2 [.wrap a [10], .wrap b [20]] (hist cl1)).2 = .ok () ∧ (setObj sig 1 [.wrap a [10], .wrap b [20]] (hist cl2)).2 = .ok () ∧
    (callObj sig 9 2 [.wrap a [10], .wrap b [20]] (hist cl1)).2 = .ok [30] ∧ (callObj sig 9 1 [.wrap a [10], .wrap b [20]] (hist cl2)).2 = .ok [30] := by
  decide +kernel
end Demo

/-- The full claim is false: after two `set()`s that raised (C01), a call without arguments returns the old value. -/
theorem C72_full_refuted : ¬ C72_full Demo.sig := by
  intro h
  obtain ⟨_, h1⟩ := h Demo.ex2 9 2 [] (by decide +kernel) (by simp)
  obtain ⟨h', g, h2⟩ := h1 (by decide +kernel)
  have hb : Bisim (fun j j' => j = j' ∧ ((run Demo.sig Demo.ex2 (Heap.empty Demo.sig)).node j).alive = true)
      (run Demo.sig Demo.ex2 (Heap.empty Demo.sig)).graph h'.graph := by
    rintro j j' ⟨rfl, hj⟩
    have hc : ∀ k, ((run Demo.sig Demo.ex2 (Heap.empty Demo.sig)).graph j).dterms k = none ∨
        ∃ c, ((run Demo.sig Demo.ex2 (Heap.empty Demo.sig)).graph j).dterms k = some c ∧
          ((run Demo.sig Demo.ex2 (Heap.empty Demo.sig)).node c).alive = true := by
      intro k
      cases e : ((run Demo.sig Demo.ex2 (Heap.empty Demo.sig)).graph j).dterms k with
      | none => exact Or.inl rfl
      | some c => exact Or.inr ⟨c, rfl, (run_str (s := Demo.sig) Demo.ex2).child_alive e⟩
    have key : (h'.graph j).cls = ((run Demo.sig Demo.ex2 (Heap.empty Demo.sig)).graph j).cls ∧
        (h'.graph j).terms = ((run Demo.sig Demo.ex2 (Heap.empty Demo.sig)).graph j).terms ∧
        ∀ k, (h'.graph j).dterms k = ((run Demo.sig Demo.ex2 (Heap.empty Demo.sig)).graph j).dterms k := by
      by_cases hj2 : j = 2
      · subst hj2
        exact ⟨g.cls, funext fun n => g.otherTerm n (fun t => by simp), fun k => g.otherArg k (fun t => by simp) (fun t => by simp)⟩
      · rw [g.same j hj hj2]; exact ⟨rfl, rfl, fun _ => rfl⟩
    refine ⟨key.1, key.2.1, fun k => ?_⟩
    rw [key.2.2]
    rcases hc k with e | ⟨c, e, ha⟩
    · exact Or.inl ⟨e, e⟩
    · exact Or.inr ⟨c, c, e, e, rfl, ha⟩
  have h3 := h2.2.2
  rw [(hb.req (s := Demo.sig) 9 2 2 ⟨rfl, by decide +kernel⟩).1] at h3
  have h4 : evalReq Demo.sig (run Demo.sig Demo.ex2 (Heap.empty Demo.sig)).graph 9 (.r 2) = .ok [24] := by decide +kernel
  have h5 : (callObj Demo.sig 9 2 [] (run Demo.sig Demo.ex2 (Heap.empty Demo.sig))).2 = .ok [14] := by decide +kernel
  rw [h4, h5] at h3
  have := h3 (by simp)
  injection this with this
  revert this; decide
end Chumpy
