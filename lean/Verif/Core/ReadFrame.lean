import Verif.Core.Clear
/-! What reads can change, whatever the state. -/
namespace Chumpy
variable {C T V D α β : Type}

/-- A relation between the states before and after that every read respects: it is enough to check the
primitive effects of reads. -/
structure ReadRel (R : Heap C T V D → Heap C T V D → Prop) : Prop where
  refl : ∀ h, R h h
  trans : ∀ {a b c}, R a b → R b c → R a c
  onChanged : ∀ i h, R h (callOnChanged i h).1
  storeR : ∀ i v h, R h (storeR i v h).1
  storeProp : ∀ i p v h, R h (storeProp i p v h).1
  storeDr : ∀ i w d h, R h (storeDr i w d h).1
  nil : ∀ {a b}, R a b → ∀ i, (a.node i).dirty = [] → (b.node i).dirty = []
  ranR : ∀ i h, (h.node i).dirty = [] → (h.node i).cacheR = none → R h (emit (.ranR i) h).1
  ranProp : ∀ i p h, (h.node i).props p = none → R h (emit (.ranProp i p) h).1
  ranDr : ∀ i w h, (h.node i).dirty = [] → R h (emit (.ranDr i w) h).1

/-- `m` respects `R`. -/
def Pres (R : Heap C T V D → Heap C T V D → Prop) (m : M C T V D α) : Prop := ∀ h, R h (m h).1

variable {R : Heap C T V D → Heap C T V D → Prop} {s : Sig C T V D}

theorem Pres.bind (hR : ReadRel R) {m : M C T V D α} {k : α → M C T V D β} (hm : Pres R m)
    (hk : ∀ a, Pres R (k a)) : Pres R (M.bind m k) := by
  intro h
  simp only [M.bind]
  have := hm h
  rcases hmh : m h with ⟨h1, r⟩
  rw [hmh] at this
  cases r with
  | error e => exact this
  | ok a => exact hR.trans this (hk a h1)

/-- As `Pres.bind`, with a condition on the state that every read maintains. -/
theorem Pres.bindOn (hR : ReadRel R) {Q : Heap C T V D → Prop} (hQ : ∀ a b, R a b → Q a → Q b)
    {m : M C T V D α} {k : α → M C T V D β} {h : Heap C T V D} (hq : Q h) (hm : R h (m h).1)
    (hk : ∀ a h', Q h' → R h' (k a h').1) : R h (M.bind m k h).1 := by
  simp only [M.bind]
  rcases hmh : m h with ⟨h1, r⟩
  rw [hmh] at hm
  cases r with
  | error e => exact hm
  | ok a => exact hR.trans hm (hk a h1 (hQ _ _ hm hq))

theorem callOnChanged_clean (i : Id) (h : Heap C T V D) : ((callOnChanged i h).1.node i).dirty = [] := by
  unfold callOnChanged
  split
  · rename_i hd; simpa using hd
  · simp [Heap.modify]

/-- After `_call_on_changed`, nothing is pending for `i`. -/
theorem Pres.onChanged (hR : ReadRel R) (i : Id) {k : Unit → M C T V D β}
    (hk : ∀ h, (h.node i).dirty = [] → R h (k () h).1) : Pres R (M.bind (callOnChanged i) k) := by
  intro h
  have h1 := hR.onChanged i h
  have h2 := callOnChanged_clean i h
  simp only [M.bind]
  rcases hmh : callOnChanged i h with ⟨h', r⟩
  rw [hmh] at h1 h2
  cases r with
  | error e => exact h1
  | ok a => exact hR.trans h1 (hk h' h2)

theorem Pres.const (hR : ReadRel R) {m : M C T V D α} (hm : ∀ h, (m h).1 = h) : Pres R m := by
  intro h; rw [hm]; exact hR.refl h

theorem runProg_pres (hR : ReadRel R) {rd : Req → M C T V D V} (hrd : ∀ q, Pres R (rd q)) (i : Id)
    (p : Prog T V α) : Pres R (runProg rd i p) := by
  induction p with
  | ret a => exact Pres.const hR (fun _ => rfl)
  | raise c => exact Pres.const hR (fun _ => rfl)
  | term n k ih => intro h; simp only [runProg]; exact ih _ h
  | child n k ih =>
    intro h
    simp only [runProg]
    cases (h.node i).dterms n with
    | none => exact hR.refl h
    | some c => exact Pres.bind hR (hrd _) ih h
  | prop p k ih => exact Pres.bind hR (hrd _) ih
  | selfR k ih => exact Pres.bind hR (hrd _) ih

theorem read_pres (hR : ReadRel R) (f : Nat) : ∀ q, Pres R (read s f q) := by
  induction f with
  | zero => intro q; exact Pres.const hR (fun _ => rfl)
  | succ f ih =>
    intro q
    cases q with
    | r i =>
      refine Pres.onChanged hR i (fun h hd => ?_)
      cases hc : (h.node i).cacheR with
      | some v => exact hR.refl h
      | none =>
        refine hR.trans (hR.ranR i h hd hc) ?_
        exact Pres.bind hR (runProg_pres hR ih i _) (fun v => hR.storeR i v) _
    | prop i p =>
      intro h
      simp only [read]
      cases s.propDecl (h.node i).cls p with
      | none => exact hR.refl h
      | some d =>
        dsimp only
        cases hc : (h.node i).props p with
        | some v => exact hR.refl h
        | none =>
          refine hR.trans (hR.ranProp i p h hc) ?_
          exact Pres.bind hR (runProg_pres hR ih i _) (fun v => hR.storeProp i p v) _

theorem runCompDr_pres (hR : ReadRel R) (f : Nat) (i w : Id) (h : Heap C T V D)
    (hd : (h.node i).dirty = []) : R h (runCompDr s f i w h).1 :=
  hR.trans (hR.ranDr i w h hd) (runProg_pres hR (read_pres hR f) i _ _)

theorem sliceLoop_pres (hR : ReadRel R) (f : Nat) (i : Id) : ∀ n x (h : Heap C T V D), (h.node i).dirty = [] →
    R h (sliceLoop s f i n x h).1 := by
  intro n
  induction n with
  | zero => intro x h _; exact hR.refl h
  | succ n ih =>
    intro x h hd
    simp only [sliceLoop]
    split
    · cases (h.node x).dterms s.permArg with
      | none => exact hR.refl h
      | some y =>
        dsimp only
        split
        · exact hR.refl h
        · refine Pres.bindOn hR (fun _ _ r q => hR.nil r i q) hd (runCompDr_pres hR f i y h hd) (fun o h' hd' => ?_)
          cases o with
          | some d => exact hR.refl h'
          | none => exact ih y h' hd'
    · exact hR.refl h

theorem drSliced_pres (hR : ReadRel R) (f : Nat) (i w : Id) : Pres R (drSliced s f i w) := by
  refine Pres.onChanged hR i (fun h hd => ?_)
  refine Pres.bindOn hR (fun _ _ r q => hR.nil r i q) hd (runCompDr_pres hR f i w h hd) (fun o h hd => ?_)
  cases o with
  | some d => exact hR.refl h
  | none =>
    refine Pres.bindOn hR (fun _ _ r q => hR.nil r i q) hd (sliceLoop_pres hR f i f w h hd) (fun o h _ => ?_)
    cases o with
    | none => exact hR.refl h
    | some p =>
      obtain ⟨inner, d⟩ := p
      refine Pres.onChanged hR w (fun h hd => ?_) h
      refine Pres.bindOn hR (fun _ _ r q => hR.nil r w q) hd (runCompDr_pres hR f w inner h hd) (fun o h _ => ?_)
      cases o with
      | none => exact hR.refl h
      | some j => exact hR.refl h

theorem drTerms_pres (hR : ReadRel R) (f : Nat) (i w : Id) {rec : Id → M C T V D (Option D)}
    (hrec : ∀ p, Pres R (rec p)) : ∀ ks acc, Pres R (drTerms s f i w rec ks acc) := by
  intro ks
  induction ks with
  | nil => intro acc; exact Pres.const hR (fun _ => rfl)
  | cons k ks ih =>
    intro acc h
    simp only [drTerms]
    cases (h.node i).dterms k with
    | none => exact ih acc h
    | some p =>
      dsimp only
      split
      · exact ih acc h
      · refine Pres.bind hR (hrec p) (fun o => ?_) h
        cases o with
        | none => exact ih acc
        | some d2 =>
          refine Pres.bind hR (drSliced_pres hR f i p) (fun o => ?_)
          cases o with
          | none => exact ih acc
          | some d => exact Pres.bind hR (Pres.const hR (fun _ => rfl)) (fun x => ih _)

theorem drWrt_pres (hR : ReadRel R) (f : Nat) : ∀ i w, Pres R (drWrt s f i w) := by
  induction f with
  | zero => intro i w; exact Pres.const hR (fun _ => rfl)
  | succ f ih =>
    intro i w
    refine Pres.bind hR (hR.onChanged i) (fun _ h => ?_)
    cases (h.node i).drs w with
    | some d => exact hR.refl h
    | none =>
      refine Pres.bind hR (drSliced_pres hR f i w) (fun direct => ?_) h
      refine Pres.bind hR (fun h => drTerms_pres hR f i w (fun p => ih p w) _ _ h) (fun ds => ?_)
      refine Pres.bind hR (Pres.const hR (fun _ => rfl)) (fun r => ?_)
      exact Pres.bind hR (hR.storeDr i w _) (fun _ => Pres.const hR (fun _ => rfl))

/-- The event is the start of a body of object `i` that must see all changes. -/
def Event.Computes (i : Id) : Event → Prop
  | .ranR j => j = i
  | .ranDr j _ => j = i
  | _ => False

/-- What can be said about the calls `l` made by a read that started in `h` and ended in `h'`. -/
structure LogOk (h h' : Heap C T V D) (l : List Event) : Prop where
  /-- `on_changed` is called with exactly the pending names -/
  changed : ∀ i ns, .changed i ns ∈ l → ns = (h.node i).dirty ∧ ns ≠ []
  /-- pending names disappear only by being delivered -/
  drained : ∀ i, (h'.node i).dirty = (h.node i).dirty ∨
    ((h'.node i).dirty = [] ∧ .changed i (h.node i).dirty ∈ l)
  /-- they are delivered before the body runs -/
  before : ∀ i l1 e l2, l = l1 ++ e :: l2 → e.Computes i →
    (h.node i).dirty = [] ∨ .changed i (h.node i).dirty ∈ l1
  /-- a value that is cached is not computed -/
  onceR : ∀ i, (h.node i).cacheR.isSome = true → .ranR i ∉ l
  onceP : ∀ i p, (h.node i).props p ≠ none → .ranProp i p ∉ l

/-- What any read leaves alone, in any state. -/
structure RFrame (h h' : Heap C T V D) : Prop where
  graph : h'.graph = h.graph
  parents : ∀ i, (h'.node i).parents = (h.node i).parents
  itr : ∀ i, (h'.node i).itr = (h.node i).itr
  alive : ∀ i, (h'.node i).alive = (h.node i).alive
  next : h'.next = h.next
  giter : h'.giter = h.giter
  keepR : ∀ i, (h.node i).cacheR.isSome = true → (h'.node i).cacheR.isSome = true
  keepP : ∀ i p, (h.node i).props p ≠ none → (h'.node i).props p ≠ none
  keepD : ∀ i w, (h.node i).drs w ≠ none → (h'.node i).drs w ≠ none
  keys : ∀ i w d, (h'.node i).drs w = some d → (h.node i).drs w = some d ∨ (h.node w).alive = true
  log : ∃ l, h'.log = h.log ++ l ∧ LogOk h h' l

theorem LogOk.nil {h h' : Heap C T V D} (hd : ∀ i, (h'.node i).dirty = (h.node i).dirty) : LogOk h h' [] :=
  ⟨fun _ _ h => by simp at h, fun i => Or.inl (hd i), fun _ l1 e l2 h => by simp at h, fun _ _ h => by simp at h,
   fun _ _ _ h => by simp at h⟩

theorem LogOk.one {h h' : Heap C T V D} {e : Event} (hd : ∀ i, (h'.node i).dirty = (h.node i).dirty)
    (hc : ∀ i ns, e ≠ .changed i ns) (hb : ∀ i, e.Computes i → (h.node i).dirty = [])
    (hr : ∀ i, e = .ranR i → (h.node i).cacheR = none) (hp : ∀ i p, e = .ranProp i p → (h.node i).props p = none) :
    LogOk h h' [e] where
  changed i ns he := by simp only [List.mem_singleton] at he; exact absurd he.symm (hc i ns)
  drained i := Or.inl (hd i)
  before i l1 e' l2 hl he := by
    left
    cases l1 with
    | nil => simp only [List.nil_append, List.cons.injEq] at hl; rw [← hl.1] at he; exact hb i he
    | cons x xs =>
      simp only [List.cons_append, List.cons.injEq] at hl
      have := hl.2; simp at this
  onceR i hi he := by
    simp only [List.mem_singleton] at he
    rw [hr i he.symm] at hi; cases hi
  onceP i p hi he := by
    simp only [List.mem_singleton] at he
    exact hi (hp i p he.symm)

theorem LogOk.append {h1 h2 h3 : Heap C T V D} {a b : List Event} (x : LogOk h1 h2 a) (y : LogOk h2 h3 b)
    (kr : ∀ i, (h1.node i).cacheR.isSome = true → (h2.node i).cacheR.isSome = true)
    (kp : ∀ i p, (h1.node i).props p ≠ none → (h2.node i).props p ≠ none) : LogOk h1 h3 (a ++ b) where
  changed i ns he := by
    rcases List.mem_append.1 he with he | he
    · exact x.changed i ns he
    · obtain ⟨q1, q2⟩ := y.changed i ns he
      refine ⟨?_, q2⟩
      rcases x.drained i with h | h
      · rw [q1, h]
      · rw [h.1] at q1; exact absurd q1 q2
  drained i := by
    rcases x.drained i with h | h
    · rcases y.drained i with h' | h'
      · exact Or.inl (h'.trans h)
      · right; rw [h] at h'; exact ⟨h'.1, List.mem_append_right _ h'.2⟩
    · right
      refine ⟨?_, List.mem_append_left _ h.2⟩
      rcases y.drained i with h' | h'
      · rw [h']; exact h.1
      · exact h'.1
  before i l1 e l2 hl he := by
    rcases List.append_eq_append_iff.1 hl with ⟨c, h1', h2'⟩ | ⟨c, h1', h2'⟩
    · rcases y.before i c e l2 h2' he with h | h
      · rcases x.drained i with h' | h'
        · left; rw [← h', h]
        · right; rw [h1']; exact List.mem_append_left _ h'.2
      · rcases x.drained i with h' | h'
        · right; rw [h1', ← h']; exact List.mem_append_right _ h
        · right; rw [h1']; exact List.mem_append_left _ h'.2
    · cases c with
      | nil =>
        rw [List.append_nil] at h1'
        rw [List.nil_append] at h2'
        rcases y.before i [] e l2 h2'.symm he with h | h
        · rcases x.drained i with h' | h'
          · left; rw [← h', h]
          · right; rw [← h1']; exact h'.2
        · simp at h
      | cons z zs =>
        simp only [List.cons_append, List.cons.injEq] at h2'
        exact x.before i l1 e zs (by rw [h1', h2'.1]) he
  onceR i hi he := by
    rcases List.mem_append.1 he with he | he
    · exact x.onceR i hi he
    · exact y.onceR i (kr i hi) he
  onceP i p hi he := by
    rcases List.mem_append.1 he with he | he
    · exact x.onceP i p hi he
    · exact y.onceP i p (kp i p hi) he

theorem RFrame.dirty {h h' : Heap C T V D} (x : RFrame h h') (i : Id) :
    (h'.node i).dirty = (h.node i).dirty ∨ (h'.node i).dirty = [] := by
  obtain ⟨_, _, hl⟩ := x.log
  exact (hl.drained i).imp id (·.1)

theorem RFrame.emit {h : Heap C T V D} {e : Event}
    (hc : ∀ i ns, e ≠ .changed i ns) (hb : ∀ i, e.Computes i → (h.node i).dirty = [])
    (hr : ∀ i, e = .ranR i → (h.node i).cacheR = none) (hp : ∀ i p, e = .ranProp i p → (h.node i).props p = none) :
    RFrame h (emit e h).1 :=
  ⟨rfl, fun _ => rfl, fun _ => rfl, fun _ => rfl, rfl, rfl, fun _ h => h, fun _ _ h => h, fun _ _ h => h,
   fun _ _ _ h => Or.inl h, ⟨[e], rfl, LogOk.one (fun _ => rfl) hc hb hr hp⟩⟩

theorem RFrame.refl (h : Heap C T V D) : RFrame h h :=
  ⟨rfl, fun _ => rfl, fun _ => rfl, fun _ => rfl, rfl, rfl, fun _ h => h, fun _ _ h => h, fun _ _ h => h,
   fun _ _ _ h => Or.inl h, ⟨[], by simp, LogOk.nil (fun _ => rfl)⟩⟩

theorem rframe_modify {h : Heap C T V D} (i : Id) (f : Node C T V D → Node C T V D)
    (h1 : (f (h.node i)).toGNode = (h.node i).toGNode) (h2 : (f (h.node i)).parents = (h.node i).parents)
    (h3 : (f (h.node i)).itr = (h.node i).itr) (h4 : (f (h.node i)).alive = (h.node i).alive)
    (h5 : (f (h.node i)).dirty = (h.node i).dirty)
    (h6 : (h.node i).cacheR.isSome = true → (f (h.node i)).cacheR.isSome = true)
    (h7 : ∀ p, (h.node i).props p ≠ none → (f (h.node i)).props p ≠ none)
    (h8 : ∀ p, (h.node i).drs p ≠ none → (f (h.node i)).drs p ≠ none)
    (h9 : ∀ w d, (f (h.node i)).drs w = some d → (h.node i).drs w = some d ∨ (h.node w).alive = true) :
    RFrame h (h.modify i f) := by
  have key : ∀ j, j ≠ i → (h.modify i f).node j = h.node j := fun j hj => modify_node_ne h f hj
  have self : (h.modify i f).node i = f (h.node i) := modify_node_self h i f
  have hdirty : ∀ j, ((h.modify i f).node j).dirty = (h.node j).dirty := by
    intro j
    by_cases hj : j = i
    · subst hj; rw [self]; exact h5
    · rw [key j hj]
  refine ⟨?_, ?_, ?_, ?_, rfl, rfl, ?_, ?_, ?_, ?_, ⟨[], by simp [Heap.modify], LogOk.nil hdirty⟩⟩
  · funext j
    by_cases hj : j = i
    · subst hj; show ((h.modify j f).node j).toGNode = _; rw [self]; exact h1
    · show ((h.modify i f).node j).toGNode = _; rw [key j hj]; rfl
  all_goals intro j
  · by_cases hj : j = i
    · subst hj; rw [self]; exact h2
    · rw [key j hj]
  · by_cases hj : j = i
    · subst hj; rw [self]; exact h3
    · rw [key j hj]
  · by_cases hj : j = i
    · subst hj; rw [self]; exact h4
    · rw [key j hj]
  · by_cases hj : j = i
    · subst hj; rw [self]; exact h6
    · rw [key j hj]; exact id
  · by_cases hj : j = i
    · subst hj; rw [self]; exact h7
    · rw [key j hj]; exact fun _ h => h
  · by_cases hj : j = i
    · subst hj; rw [self]; exact h8
    · rw [key j hj]; exact fun _ h => h
  · by_cases hj : j = i
    · subst hj; rw [self]; exact h9
    · rw [key j hj]; exact fun w d h => Or.inl h

theorem rframe_rel : ReadRel (RFrame (C := C) (T := T) (V := V) (D := D)) where
  refl := RFrame.refl
  trans {a b c} x y :=
    { graph := y.graph.trans x.graph
      parents := fun i => (y.parents i).trans (x.parents i)
      itr := fun i => (y.itr i).trans (x.itr i)
      alive := fun i => (y.alive i).trans (x.alive i)
      next := y.next.trans x.next
      giter := y.giter.trans x.giter
      keepR := fun i h => y.keepR i (x.keepR i h)
      keepP := fun i p h => y.keepP i p (x.keepP i p h)
      keepD := fun i p h => y.keepD i p (x.keepD i p h)
      keys := fun i w d h => by
        rcases y.keys i w d h with h | h
        · exact x.keys i w d h
        · right; rw [← x.alive]; exact h
      log := by
        obtain ⟨l1, e1, p1⟩ := x.log
        obtain ⟨l2, e2, p2⟩ := y.log
        exact ⟨l1 ++ l2, by rw [e2, e1, List.append_assoc], p1.append p2 x.keepR x.keepP⟩ }
  nil {a b} r i hi := by
    rcases r.dirty i with h | h
    · rw [h, hi]
    · exact h
  ranR i h hd hc := RFrame.emit (fun _ _ h => by cases h) (fun j hj => by cases hj; exact hd)
    (fun j hj => by cases hj; exact hc) (fun _ _ h => by cases h)
  ranProp i p h hc := RFrame.emit (fun _ _ h => by cases h) (fun j hj => by cases hj)
    (fun j hj => by cases hj) (fun _ _ h => by cases h; exact hc)
  ranDr i w h hd := RFrame.emit (fun _ _ h => by cases h) (fun j hj => by cases hj; exact hd)
    (fun j hj => by cases hj) (fun _ _ h => by cases h)
  onChanged i h := by
    unfold callOnChanged
    split
    · exact RFrame.refl h
    · rename_i hne
      have key : ∀ j, j ≠ i → (h.modify i (fun n => { n with dirty := [] })).node j = h.node j :=
        fun j hj => modify_node_ne h _ hj
      have self : (h.modify i (fun n => { n with dirty := [] })).node i = { h.node i with dirty := [] } :=
        modify_node_self h i _
      have all : ∀ j, let n' := (h.modify i (fun n => { n with dirty := [] })).node j
          n'.toGNode = (h.node j).toGNode ∧ n'.parents = (h.node j).parents ∧ n'.itr = (h.node j).itr ∧
          n'.alive = (h.node j).alive ∧ n'.cacheR = (h.node j).cacheR ∧ n'.props = (h.node j).props ∧
          n'.drs = (h.node j).drs := by
        intro j
        by_cases hj : j = i
        · subst hj; dsimp only; rw [self]; exact ⟨rfl, rfl, rfl, rfl, rfl, rfl, rfl⟩
        · dsimp only; rw [key j hj]; exact ⟨rfl, rfl, rfl, rfl, rfl, rfl, rfl⟩
      refine ⟨funext fun j => (all j).1, fun j => (all j).2.1, fun j => (all j).2.2.1, fun j => (all j).2.2.2.1,
        rfl, rfl, fun j hj => ?_, fun j p hj => ?_, fun j p hj => ?_, fun j w d hj => ?_,
        ⟨[.changed i (h.node i).dirty], rfl, ?_⟩⟩
      · have := (all j).2.2.2.2.1; dsimp only at this ⊢; rw [this]; exact hj
      · have := (all j).2.2.2.2.2.1; dsimp only at this ⊢; rw [this]; exact hj
      · have := (all j).2.2.2.2.2.2; dsimp only at this ⊢; rw [this]; exact hj
      · have := (all j).2.2.2.2.2.2; dsimp only at this hj; rw [this] at hj; exact Or.inl hj
      · refine ⟨fun j ns he => ?_, fun j => ?_, fun j l1 e l2 hl he => ?_, fun j _ he => ?_, fun j p _ he => ?_⟩
        · simp only [List.mem_singleton, Event.changed.injEq] at he
          obtain ⟨rfl, rfl⟩ := he
          exact ⟨rfl, by simpa using hne⟩
        · by_cases hj : j = i
          · subst hj; right
            exact ⟨by dsimp only; rw [self], by simp⟩
          · left; dsimp only; rw [key j hj]
        · cases l1 with
          | nil => simp only [List.nil_append, List.cons.injEq] at hl; rw [← hl.1] at he; exact he.elim
          | cons x xs =>
            simp only [List.cons_append, List.cons.injEq] at hl
            have := hl.2; simp at this
        · simp at he
        · simp at he
  storeR i v h := rframe_modify (h := h) i (fun n => { n with cacheR := some v }) rfl rfl rfl rfl rfl (fun _ => rfl) (fun _ h => h) (fun _ h => h)
    (fun _ _ h => Or.inl h)
  storeProp i p v h := by
    refine rframe_modify (h := h) i (fun n => { n with props := fun q => if q = p then some v else n.props q })
      rfl rfl rfl rfl rfl id ?_ (fun _ h => h) (fun _ _ h => Or.inl h)
    intro q hq
    dsimp only
    split
    · simp
    · exact hq
  storeDr i w d h := by
    unfold storeDr
    split
    · exact RFrame.refl h
    · rename_i hne
      refine rframe_modify (h := h) i (fun n => { n with drs := fun x => if x = w then some d else n.drs x })
        rfl rfl rfl rfl rfl id (fun _ h => h) ?_ ?_
      · intro q hq
        dsimp only
        split
        · simp
        · exact hq
      · intro x d' hx
        dsimp only at hx
        split at hx
        · rename_i hxw; subst hxw
          right
          cases ha : (h.node x).alive with
          | true => rfl
          | false => exact absurd (Or.inr ha) hne
        · exact Or.inl hx

end Chumpy
