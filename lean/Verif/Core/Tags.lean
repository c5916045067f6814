import Verif.Core.TagRead
/-!
# Iteration tags stay below the global counter

The tag 9999 that `Ch.set` gives to all but its last keyword is a small number like any other tag of the global counter.  It is harmless as
long as no `set` of several keywords has raised: the last keyword, assigned without a tag, takes the tag away again from every object that
got it.
-/
namespace Chumpy
variable {C T V D : Type} {s : Sig C T V D}

/-- Every tag on an object is a value the global counter has had. -/
def TagsLe (h : Heap C T V D) : Prop := ∀ n t, (h.node n).itr = some t → t ≤ h.giter

/-- What an assignment on `i` with tag `itr` does to the tags. -/
structure TagPost (h h' : Heap C T V D) (i : Id) (itr : Option Nat) (ok : Prop) : Prop where
  tag : ∀ j, (h'.node j).itr = none ∨ (h'.node j).itr = (h.node j).itr ∨ ((h'.node j).itr = itr ∧ Anc h.graph i j)
  anc : ∀ j, Anc h'.graph i j ↔ Anc h.graph i j
  wiped : ok → itr = none → ∀ j, Anc h.graph i j → (h'.node j).itr = none

theorem Writing.tagPost {h h2 h4 : Heap C T V D} {i : Id} {n : Name} {itr : Option Nat} {ok : Prop} (w : Writing s h h2 h4 i n itr) :
    TagPost h h4 i itr ok := by
  obtain ⟨S, hp⟩ := w.post
  refine ⟨fun j => ?_, w.off.anc_iff, ?_⟩
  · rw [(w.same4 j).2.2.2.1]
    by_cases hS : j ∈ S
    · exact Or.inr (Or.inr ⟨(hp.wiped j hS).2.2, (w.off.anc_iff j).1 (up_anc w.links (hp.sound j hS).1)⟩)
    · exact Or.inr (Or.inl ((hp.kept j hS).2.2.trans (w.itr2 j)))
  · rintro _ rfl j hj
    have key : ∀ c, Anc h4.graph i c → c ∈ S := by
      intro c hc
      induction hc with
      | refl => exact hp.start.resolve_right (not_tagged_none h2 i)
      | @step q c k hk _ ih =>
        have hr : Reg (h2.node c).parents q k := (w.links.exact q k c).1 hk
        obtain ⟨ns, hm, _⟩ := hr
        exact (hp.closed c ih q ⟨ns, hm⟩).resolve_right (not_tagged_none h2 q)
    rw [(w.same4 j).2.2.2.1]
    exact (hp.wiped j (key j ((w.off.anc_iff j).2 hj))).2.2

theorem TagPost.same (h : Heap C T V D) (i : Id) (itr : Option Nat) {ok : Prop} (hn : ¬ ok) : TagPost h h i itr ok :=
  ⟨fun _ => Or.inr (Or.inl rfl), fun _ => Iff.rfl, fun h => absurd h hn⟩

theorem setattr_tags {h : Heap C T V D} (hs : Str h) {i : Id} (hi : (h.node i).alive = true) (kw : KW T) (itr : Option Nat) :
    TagPost h (setattr s i itr kw h).1 i itr ((setattr s i itr kw h).2 = .ok ()) := by
  cases kw with
  | term n t =>
    obtain ⟨h2, w, _⟩ := setTerm_writing (s := s) h hs i n t itr
    exact w.tagPost
  | link k c =>
    simp only [setattr]
    split
    · rename_i hg
      obtain ⟨_, h2, w, _⟩ := setDterm_writing (s := s) h hs i k c itr hg.2
      exact w.tagPost
    · exact TagPost.same h i itr (by simp)
  | bad n => exact TagPost.same h i itr (by simp [setattr, M.throw])
  | wrap k x =>
    simp only [setattr]
    split
    · obtain ⟨n, hok, hdn, _⟩ := newLeaf_post (s := s) (fr := ⟨False, False⟩) hs x
      have hb : M.bind (newLeaf s x) (fun l => setDterm s i k l itr) h =
          setDterm s i k h.next itr (newLeaf s x h).1 := by
        simp only [M.bind]
        rcases hx : newLeaf s x h with ⟨h', r⟩
        rw [hx] at hok; dsimp only at hok; subst hok; rfl
      rw [hb]
      have hs1 := alloc_str hs s.base [] false false
      obtain ⟨_, w1, _, g1⟩ := setTerm_writing (s := s) (alloc s.base [] false false h).1 hs1 h.next s.xname x none
      have hn1 := alloc_node (C := C) (T := T) (V := V) (D := D) s.base [] false false h
      have e1 : (newLeaf s x h).1 = (setTerm s h.next s.xname x none (alloc s.base [] false false h).1).1 := rfl
      have hitr : ∀ j, ((newLeaf s x h).1.node j).itr = none ∨ ((newLeaf s x h).1.node j).itr = (h.node j).itr := by
        intro j
        rw [e1]
        rcases w1.itr_old j with h4 | h4
        · exact Or.inl h4
        · rw [h4, hn1]
          split
          · exact Or.inl rfl
          · exact Or.inr rfl
      have hdt : ∀ m, ((newLeaf s x h).1.graph h.next).dterms m = none := by
        intro m
        rw [e1, g1]
        dsimp only
        rw [if_pos rfl, Heap.graph_apply, hn1, if_pos rfl]
        rfl
      obtain ⟨_, h2, w, _⟩ := setDterm_writing (s := s) (newLeaf s x h).1 n.str i k h.next itr n.born
      have p : TagPost (newLeaf s x h).1 (setDterm s i k h.next itr (newLeaf s x h).1).1 i itr True := w.tagPost
      generalize (newLeaf s x h).1 = h1 at *
      have hX : ∀ j, Anc h1.graph i j ↔ Anc h.graph i j := by
        intro j
        constructor
        · intro hj
          induction hj with
          | refl => exact Anc.refl
          | @step j c k hk _ ih =>
            by_cases hjn : j = h.next
            · subst hjn; rw [hdt] at hk; cases hk
            · exact Anc.step k (by rw [← n.off j hjn]; exact hk) ih
        · intro hj
          induction hj with
          | refl => exact Anc.refl
          | @step j c k hk _ ih =>
            have hjn : j ≠ h.next := by
              rintro rfl
              have := (hs.dead h.next (hs.unborn h.next (Nat.le_refl _))).2.1 k
              rw [Heap.graph_apply, this] at hk; cases hk
            exact Anc.step k (by rw [n.off j hjn]; exact hk) ih
      refine ⟨fun j => ?_, fun j => (p.anc j).trans (hX j), fun _ hn j hj => p.wiped trivial hn j ((hX j).2 hj)⟩
      rcases p.tag j with a | a | ⟨a, b⟩
      · exact Or.inl a
      · rw [a]
        exact (hitr j).imp id Or.inl
      · exact Or.inr (Or.inr ⟨a, (hX j).1 b⟩)
    · exact TagPost.same h i itr (by simp)

/-- `Ch.set`: meanwhile only the dependants of the object may carry 9999; after the last keyword nobody carries it because of this call. -/
theorem setAll_tags (i : Id) (A : Id → Prop) (kws : List (KW T)) : ∀ {h : Heap C T V D}, Str h → (h.node i).alive = true →
    (∀ j, Anc h.graph i j ↔ A j) → (∀ n t, (h.node n).itr = some t → t ≤ h.giter ∨ A n) →
    (∀ n t, ((setAll s i kws h).1.node n).itr = some t → t ≤ h.giter ∨ A n) ∧ (setAll s i kws h).1.giter = h.giter ∧
      (kws ≠ [] → (setAll s i kws h).2 = .ok () → ∀ n t, ((setAll s i kws h).1.node n).itr = some t → t ≤ h.giter) := by
  induction kws with
  | nil => intro h _ _ _ ht; exact ⟨ht, rfl, fun h => absurd rfl h⟩
  | cons kw kws ih =>
    intro h hs hi hA ht
    cases kws with
    | nil =>
      have p := setattr_tags (s := s) hs hi kw none
      have q := (setattr_post (s := s) (fr := ⟨False, False⟩) hs hi kw (itr := none) (by intro t h; cases h)).1
      refine ⟨?_, q.giter, ?_⟩
      · intro n t e
        change ((setattr s i none kw h).1.node n).itr = some t at e
        rcases p.tag n with a | a | ⟨a, b⟩
        · rw [a] at e; cases e
        · rw [a] at e; exact ht n t e
        · rw [a] at e; cases e
      · intro _ hok n t e
        change ((setattr s i none kw h).1.node n).itr = some t at e
        rcases p.tag n with a | a | ⟨a, b⟩
        · rw [a] at e; cases e
        · have e' := e
          rw [a] at e
          rcases ht n t e with h1 | h1
          · exact h1
          · rw [p.wiped hok rfl n ((hA n).2 h1)] at e'; cases e'
        · rw [a] at e; cases e
    | cons kw' kws' =>
      have p := setattr_tags (s := s) hs hi kw (some 9999)
      have q := (setattr_post (s := s) (fr := ⟨False, False⟩) hs hi kw (itr := some 9999)
        (by intro t h; cases h; exact Or.inr rfl)).1
      have hstep : ∀ n t, ((setattr s i (some 9999) kw h).1.node n).itr = some t → t ≤ h.giter ∨ A n := by
        intro n t e
        rcases p.tag n with a | a | ⟨_, b⟩
        · rw [a] at e; cases e
        · rw [a] at e; exact ht n t e
        · exact Or.inr ((hA n).1 b)
      have he : setAll s i (kw :: kw' :: kws') h = M.bind (setattr s i (some 9999) kw) (fun _ => setAll s i (kw' :: kws')) h := rfl
      rw [he]
      simp only [M.bind]
      rcases hx : setattr s i (some 9999) kw h with ⟨h1, r⟩
      rw [hx] at p q hstep
      dsimp only at p q hstep
      cases r with
      | error e => exact ⟨hstep, q.giter, fun _ h => by cases h⟩
      | ok u =>
        dsimp only
        obtain ⟨a, b, c⟩ := ih q.str (q.alive i hi) (fun j => (p.anc j).trans (hA j)) (by rw [q.giter]; exact hstep)
        rw [q.giter] at a b c
        exact ⟨a, b, fun _ => c (by simp)⟩

theorem TagsLe.set {h : Heap C T V D} (ht : TagsLe h) (hs : Str h) {i : Id} (hi : (h.node i).alive = true) (kws : List (KW T))
    (hok : kws.length ≤ 1 ∨ (setAll s i kws h).2 = .ok ()) : TagsLe (setAll s i kws h).1 := by
  obtain ⟨_, b, c⟩ := setAll_tags (s := s) i (Anc h.graph i) kws hs hi (fun _ => Iff.rfl) (fun n t e => Or.inl (ht n t e))
  intro n t e
  rw [b]
  match kws, hok with
  | [], _ => exact ht n t e
  | [kw], _ =>
    have p := setattr_tags (s := s) hs hi kw none
    change ((setattr s i none kw h).1.node n).itr = some t at e
    rcases p.tag n with a | a | ⟨a, _⟩
    · rw [a] at e; cases e
    · rw [a] at e; exact ht n t e
    · rw [a] at e; cases e
  | kw :: kw' :: kws, hok =>
    exact c (by simp) (hok.resolve_left (by simp)) n t e

theorem TagsLe.new {h : Heap C T V D} (ht : TagsLe h) (hs : Str h) (cls : C) (dnames : List Name) (md ms : Bool) (kws : List (KW T)) :
    TagsLe (newObj s cls dnames md ms kws h).1 := by
  unfold newObj
  split
  · have n := alloc_post (s := s) (fr := ⟨False, False⟩) hs cls dnames md ms
    have hn := alloc_node (C := C) (T := T) (V := V) (D := D) cls dnames md ms h
    have hb : M.bind (alloc cls dnames md ms) (fun i => orCollect i (setAll s i kws)) h =
      orCollect h.next (setAll s h.next kws) (alloc cls dnames md ms h).1 := rfl
    rw [hb, orCollect]
    have hA : ∀ j, Anc (alloc cls dnames md ms h).1.graph h.next j ↔ j = h.next := by
      intro j
      constructor
      · intro hj
        induction hj with
        | refl => rfl
        | @step j c k hk _ ih =>
          subst ih
          have := n.str.links
          by_cases hjn : j = h.next
          · exact hjn
          · rw [n.off j hjn] at hk
            have := hs.child_alive hk
            rw [hs.unborn _ (Nat.le_refl _)] at this; cases this
      · rintro rfl; exact .refl
    have ht1 : ∀ m t, ((alloc cls dnames md ms h).1.node m).itr = some t → t ≤ (alloc cls dnames md ms h).1.giter := by
      intro m t e
      rw [hn] at e
      split at e
      · cases e
      · exact ht m t e
    obtain ⟨a, b, c⟩ := setAll_tags (s := s) h.next (· = h.next) kws n.str n.born hA (fun m t e => Or.inl (ht1 m t e))
    have c0 := TagsLe.set (s := s) (h := (alloc cls dnames md ms h).1) ht1 n.str n.born kws
    rcases hx : setAll s h.next kws (alloc cls dnames md ms h).1 with ⟨h', r⟩
    rw [hx] at a b c c0
    dsimp only at a b c c0
    cases r with
    | ok u => exact c0 (Or.inr rfl)
    | error e =>
      intro m t e
      dsimp only at e ⊢
      rw [collect_node] at e
      show t ≤ h'.giter
      rw [b]
      split at e
      · cases e
      · rename_i hm
        exact (a m t e).resolve_right hm
  · exact ht

theorem TagsLe.batchLoop (t : Nat) (ws : List (Id × KW T)) : ∀ {h : Heap C T V D}, TagsLe h → Str h →
    (∀ w ∈ ws, (h.node w.1).alive = true) → t ≤ h.giter → TagsLe (batchLoop s t ws h).1 := by
  induction ws with
  | nil => intro h ht _ _ _; exact ht
  | cons w ws ih =>
    intro h ht hs ha hle
    have p := setattr_tags (s := s) hs (ha w (by simp)) w.2 (some t)
    have q := (setattr_post (s := s) (fr := ⟨False, False⟩) hs (ha w (by simp)) w.2 (itr := some t)
      (by intro t h; cases h; exact Or.inl hle)).1
    have ht1 : TagsLe (setattr s w.1 (some t) w.2 h).1 := by
      intro n t' e
      rw [q.giter]
      rcases p.tag n with a | a | ⟨a, _⟩
      · rw [a] at e; cases e
      · rw [a] at e; exact ht n t' e
      · rw [a] at e; cases e; exact hle
    simp only [Chumpy.batchLoop, M.bind]
    rcases hx : setattr s w.1 (some t) w.2 h with ⟨h1, r⟩
    rw [hx] at q ht1
    dsimp only at q ht1
    cases r with
    | error e => exact ht1
    | ok u => exact ih ht1 q.str (fun w' hw' => q.alive _ (ha w' (by simp [hw']))) (by rw [q.giter]; exact hle)

theorem TagsLe.linkAll (i : Id) (ls : List (Name × Id)) : ∀ {h : Heap C T V D}, TagsLe h → Str h → (h.node i).alive = true →
    (∀ l ∈ ls, l.1 ∈ (h.node i).dnames ∧ (h.node l.2).alive = true) → TagsLe (linkAll s i ls h).1 := by
  induction ls with
  | nil => intro h ht _ _ _; exact ht
  | cons l ls ih =>
    intro h ht hs ha hl
    obtain ⟨hk, hc⟩ := hl l (by simp)
    obtain ⟨a, hok, hpar⟩ := setDterm_post (s := s) (fr := ⟨False, False⟩) hs ha hk hc (itr := none) (by intro t h; cases h) True
    obtain ⟨_, _, w, _, hg4⟩ := setDterm_writing (s := s) h hs i l.1 l.2 none hc
    have he : Chumpy.linkAll s i (l :: ls) h = Chumpy.linkAll s i ls (setDterm s i l.1 l.2 none h).1 := by
      simp only [Chumpy.linkAll, M.bind]
      rcases hx : setDterm s i l.1 l.2 none h with ⟨h1, r⟩
      rw [hx] at hok; dsimp only at hok; subst hok; rfl
    rw [he]
    refine ih ?_ a.str (a.alive i ha) (fun l' hl' => ?_)
    · intro n t e
      rw [a.giter]
      rcases w.itr_old n with h4 | h4
      · rw [h4] at e; cases e
      · rw [h4] at e; exact ht n t e
    · obtain ⟨x, y⟩ := hl l' (by simp [hl'])
      refine ⟨?_, a.alive _ y⟩
      show l'.1 ∈ ((setDterm s i l.1 l.2 none h).1.graph i).dnames
      rw [w.dn]; exact x

theorem TagsLe.clone {h : Heap C T V D} (ht : TagsLe h) (hs : Str h) (j : Id) (ls : List (Name × Id)) : TagsLe (clone s j ls h).1 := by
  by_cases hg : CloneGuard h j ls
  · have a := clone_spec (s := s) hs hg
    by_cases hnd : (ls.map (·.2)).Nodup
    · rw [if_pos hnd] at a
      obtain ⟨h', e1, e2⟩ := a
      rw [e2]
      have hn := cloneBase_node (s := s) j (ls.map (·.1)) h
      have : TagsLe (Chumpy.linkAll s h.next ls (cloneBase s j (ls.map (·.1)) h)).1 := by
        refine TagsLe.linkAll h.next ls ?_ (cloneBase_str hs _) ?_ ?_
        · intro n t e
          have hgi : (cloneBase s j (ls.map (·.1)) h).giter = h.giter := rfl
          rw [hgi]
          rw [hn] at e
          split at e
          · change (cloneNode s (h.node j) []).itr = some t at e
            unfold cloneNode at e
            dsimp only at e
            split at e
            · cases e
            · exact ht j t e
          · exact ht n t e
        · rw [hn, if_pos rfl]; rfl
        · intro l hl
          obtain ⟨x, y, _⟩ := hg.link l hl
          have hne : l.2 ≠ h.next := by
            intro e
            rw [e, hs.unborn h.next (Nat.le_refl _)] at x; cases x
          refine ⟨?_, by rw [hn, if_neg hne]; exact x⟩
          rw [hn, if_pos rfl]; exact y
      rw [e1] at this
      exact this
    · rw [if_neg hnd] at a
      rw [a]
      intro n t e
      dsimp only at e ⊢
      rw [collect_node] at e
      split at e
      · cases e
      · rename_i hne
        dsimp only at e
        rw [alloc_node, if_neg hne] at e
        exact ht n t e
  · have : Chumpy.clone s j ls h = (h, .error .attr) := by
      unfold Chumpy.clone
      rw [if_neg (by rw [cloneOk_iff]; exact hg)]
    rw [this]; exact ht

/-- `op` in state `h` is not a `set` of several keywords that raises. -/
def NoFailingSet (s : Sig C T V D) (h : Heap C T V D) : Op C T D → Prop
  | .set i kws => kws.length ≤ 1 ∨ (step s (.set i kws) h).2.isOk = true
  | _ => True

theorem TagsLe.rframe {h h' : Heap C T V D} (ht : TagsLe h) (r : RFrame h h') : TagsLe h' := by
  intro n t e
  rw [r.itr] at e
  rw [r.giter]
  exact ht n t e

theorem TagsLe.step {h : Heap C T V D} (ht : TagsLe h) (hs : Str h) {op : Op C T D} (hop : NoFailingSet s h op) : TagsLe (step s op h).1 := by
  cases op with
  | new cls dnames md ms kws => exact ht.new hs cls dnames md ms kws
  | set i kws =>
    simp only [NoFailingSet, Chumpy.step, M.map', setObj] at hop ⊢
    split
    · rename_i ha
      rw [if_pos ha] at hop
      refine ht.set hs ha kws (hop.imp id fun h1 => ?_)
      cases hx : (setAll s i kws h).2 with
      | ok u => rfl
      | error e => rw [hx] at h1; cases h1
    · exact ht
  | batch ws =>
    simp only [Chumpy.step, M.map', batch]
    split
    · rename_i ha
      refine TagsLe.batchLoop _ ws ?_ ?_ ?_ (Nat.le_refl _)
      · intro n t e; exact Nat.le_succ_of_le (ht n t e)
      · exact ⟨hs.links, hs.dead, hs.unborn, hs.dn, hs.keys, fun n t ht => by
          rcases hs.tags n t ht with h | h
          · left; show t ≤ _ + 1; omega
          · exact Or.inr h⟩
      · intro w hw; exact List.all_eq_true.1 ha w hw
    · exact ht
  | clear i =>
    simp only [Chumpy.step, ifAlive]
    split
    · obtain ⟨S, hp⟩ := clearCache_spec s h i none hs.par0
      intro n t e
      dsimp only at e ⊢
      rw [hp.giter]
      by_cases hS : n ∈ S
      · rw [(hp.wiped n hS).2.2] at e; cases e
      · rw [(hp.kept n hS).2.2] at e; exact ht n t e
    · exact ht
  | readR f i =>
    simp only [Chumpy.step, ifAlive]
    split
    · exact ht.rframe (read_pres rframe_rel f (.r i) h)
    · exact ht
  | readProp f i p =>
    simp only [Chumpy.step, ifAlive]
    split
    · exact ht.rframe (read_pres rframe_rel f (.prop i p) h)
    · exact ht
  | readDr f i w =>
    simp only [Chumpy.step, ifAlive]
    split
    · split
      · exact ht.rframe (drWrt_pres rframe_rel f i w h)
      · exact ht
    · exact ht
  | readLop td f i w L =>
    simp only [Chumpy.step, ifAlive]
    split
    · split
      · exact ht.rframe (leftMul_pres rframe_rel _ f i w L h)
      · exact ht
    · exact ht
  | readLmult ne f i w L =>
    simp only [Chumpy.step, ifAlive]
    split
    · split
      · exact ht.rframe (leftMul_pres rframe_rel _ f i w L h)
      · exact ht
    · exact ht
  | gc i =>
    simp only [Chumpy.step]
    split
    · intro n t e
      dsimp only at e ⊢
      rw [collect_node] at e
      split at e
      · cases e
      · exact ht n t e
    · exact ht
  | clone j ls => exact ht.clone hs j ls
  | addDterm i k kw =>
    simp only [Chumpy.step, ifAlive]
    split
    · rename_i ha
      simp only [M.map', addDterm]
      obtain ⟨ns, h1, _, h3⟩ := addDterm_mid (h := h) i k
      rw [h3]
      have hs' := dnames_str hs i ns h1
      have ha' : ((h.modify i (fun n => { n with dnames := ns })).node i).alive = true := by
        rw [modify_node_self]; exact ha
      have ht' : TagsLe (h.modify i (fun n => { n with dnames := ns })) := by
        intro n t e
        rw [modify_node] at e
        split at e
        · subst_vars; exact ht _ t e
        · exact ht n t e
      exact ht'.set (s := s) hs' ha' [kw] (Or.inl (Nat.le_refl _))
    · exact ht

/-- A history in which no `set` of several keywords raises. -/
def NoFailingSets (s : Sig C T V D) : Heap C T V D → List (Op C T D) → Prop
  | _, [] => True
  | h, op :: ops => NoFailingSet s h op ∧ NoFailingSets s (step s op h).1 ops

end Chumpy
