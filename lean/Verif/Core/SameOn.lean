import Verif.Core.Heap
/-! Two states that agree on a set of objects closed under links give the same value reads there. -/
namespace Chumpy
variable {C T V D α β : Type} {s : Sig C T V D}

/-- Agreement on the objects in `A`. -/
structure SameOn (A : Id → Prop) (h h' : Heap C T V D) : Prop where
  same : ∀ j, A j → (h'.node j).toGNode = (h.node j).toGNode ∧ (h'.node j).cacheR = (h.node j).cacheR ∧
    (h'.node j).props = (h.node j).props
  closed : ∀ j, A j → ∀ k c, (h.node j).dterms k = some c → A c

/-- `m` and `m'` give the same outcome and keep the agreement. -/
def Same2 (A : Id → Prop) (m m' : M C T V D α) : Prop :=
  ∀ h h', SameOn A h h' → (m h).2 = (m' h').2 ∧ SameOn A (m h).1 (m' h').1

variable {A : Id → Prop}

theorem Same2.bind {m m' : M C T V D α} {k k' : α → M C T V D β} (hm : Same2 A m m') (hk : ∀ a, Same2 A (k a) (k' a)) :
    Same2 A (M.bind m k) (M.bind m' k') := by
  intro h h' hs
  obtain ⟨a, b⟩ := hm h h' hs
  simp only [M.bind]
  rcases e1 : m h with ⟨h1, r1⟩
  rcases e2 : m' h' with ⟨h2, r2⟩
  rw [e1, e2] at a b
  dsimp only at a; subst a
  cases r1 with
  | error e => exact ⟨rfl, b⟩
  | ok x => exact hk x h1 h2 b

theorem SameOn.modify {h h' : Heap C T V D} (hs : SameOn A h h') (i : Id) (f f' : Node C T V D → Node C T V D)
    (hf : A i → (f' (h'.node i)).toGNode = (f (h.node i)).toGNode ∧ (f' (h'.node i)).cacheR = (f (h.node i)).cacheR ∧
      (f' (h'.node i)).props = (f (h.node i)).props) (hg : (f (h.node i)).toGNode = (h.node i).toGNode) :
    SameOn A (h.modify i f) (h'.modify i f') where
  same j hj := by
    simp only [Heap.modify]
    by_cases hji : j = i
    · subst hji; rw [if_pos rfl, if_pos rfl]; exact hf hj
    · rw [if_neg hji, if_neg hji]; exact hs.same j hj
  closed j hj k c hk := by
    simp only [Heap.modify] at hk
    by_cases hji : j = i
    · subst hji
      rw [if_pos rfl, hg] at hk
      exact hs.closed j hj k c hk
    · rw [if_neg hji] at hk; exact hs.closed j hj k c hk

theorem SameOn.logs {h h' : Heap C T V D} (hs : SameOn A h h') (l l' : List Event) :
    SameOn A { h with log := l } { h' with log := l' } := ⟨hs.same, hs.closed⟩

theorem callOnChanged_same (i : Id) : Same2 A (callOnChanged (C := C) (T := T) (V := V) (D := D) i) (callOnChanged i) := by
  intro h h' hs
  have key : ∀ h : Heap C T V D, ∃ l, callOnChanged i h =
      ({ h.modify i (fun n => { n with dirty := [] }) with log := l }, .ok ()) := by
    intro h
    unfold callOnChanged
    split
    · rename_i hd
      refine ⟨h.log, ?_⟩
      have : h.modify i (fun n => { n with dirty := [] }) = h := by
        simp only [Heap.modify]
        have : (fun j => if j = i then { h.node i with dirty := [] } else h.node j) = h.node := by
          funext j
          split
          · rename_i hj; subst hj
            have : (h.node j).dirty = [] := by simpa using hd
            rw [← this]
          · rfl
        rw [this]
      rw [this]
    · exact ⟨_, rfl⟩
  obtain ⟨l, e⟩ := key h
  obtain ⟨l', e'⟩ := key h'
  rw [e, e']
  refine ⟨rfl, SameOn.logs (hs.modify i _ _ (fun ha => ?_) rfl) _ _⟩
  obtain ⟨a, b, c⟩ := hs.same i ha
  exact ⟨a, b, c⟩

theorem emit_same (e : Event) : Same2 A (emit (C := C) (T := T) (V := V) (D := D) e) (emit e) :=
  fun _ _ hs => ⟨rfl, hs.logs _ _⟩

theorem runProg_same {rd : Req → M C T V D V} {i : Id} (hi : A i) (hr : ∀ j, A j → Same2 A (rd (.r j)) (rd (.r j)))
    (hp : ∀ j p, A j → Same2 A (rd (.prop j p)) (rd (.prop j p))) (p : Prog T V α) :
    Same2 A (runProg rd i p) (runProg rd i p) := by
  induction p with
  | ret a => exact fun _ _ hs => ⟨rfl, hs⟩
  | raise c => exact fun _ _ hs => ⟨rfl, hs⟩
  | term n k ih =>
    intro h h' hs
    simp only [runProg, (hs.same i hi).1]
    exact ih _ h h' hs
  | child n k ih =>
    intro h h' hs
    simp only [runProg, (hs.same i hi).1]
    cases hc : (h.node i).dterms n with
    | none => exact ⟨rfl, hs⟩
    | some c => exact Same2.bind (hr c (hs.closed i hi n c hc)) ih h h' hs
  | prop p k ih => exact Same2.bind (hp i p hi) ih
  | selfR k ih => exact Same2.bind (hr i hi) ih

theorem storeR_same (i : Id) (v : V) : Same2 A (storeR (C := C) (T := T) (D := D) i v) (storeR i v) := by
  intro h h' hs
  unfold storeR; dsimp only
  refine ⟨rfl, hs.modify i _ _ (fun ha => ?_) rfl⟩
  obtain ⟨a, b, c⟩ := hs.same i ha
  exact ⟨a, rfl, c⟩

theorem storeProp_same (i : Id) (p : Name) (v : V) : Same2 A (storeProp (C := C) (T := T) (D := D) i p v) (storeProp i p v) := by
  intro h h' hs
  unfold storeProp; dsimp only
  refine ⟨rfl, hs.modify i _ _ (fun ha => ?_) rfl⟩
  obtain ⟨a, b, c⟩ := hs.same i ha
  refine ⟨a, b, ?_⟩
  dsimp only
  rw [c]

theorem read_same (f : Nat) : (∀ j, A j → Same2 A (read s f (.r j)) (read s f (.r j))) ∧
    ∀ j p, A j → Same2 A (read s f (.prop j p)) (read s f (.prop j p)) := by
  induction f with
  | zero => exact ⟨fun _ _ _ _ hs => ⟨rfl, hs⟩, fun _ _ _ _ _ hs => ⟨rfl, hs⟩⟩
  | succ f ih =>
    constructor
    · intro j hj
      refine Same2.bind (callOnChanged_same j) (fun _ h h' hs => ?_)
      obtain ⟨a, b, c⟩ := hs.same j hj
      rw [b, a]
      cases (h.node j).cacheR with
      | some v => exact ⟨rfl, hs⟩
      | none =>
        refine Same2.bind (emit_same _) (fun _ => Same2.bind (runProg_same hj ih.1 ih.2 _) (storeR_same j)) h h' hs
    · intro j p hj h h' hs
      obtain ⟨a, b, c⟩ := hs.same j hj
      simp only [read]
      rw [a, c]
      cases s.propDecl (h.node j).cls p with
      | none => exact ⟨rfl, hs⟩
      | some d =>
        dsimp only
        cases (h.node j).props p with
        | some v => exact ⟨rfl, hs⟩
        | none =>
          exact Same2.bind (emit_same _) (fun _ => Same2.bind (runProg_same hj ih.1 ih.2 _) (storeProp_same j p)) h h' hs

/-- The object a request is about. -/
def Req.obj : Req → Id
  | .r i => i
  | .prop i _ => i

theorem read_sameOn (f : Nat) (q : Req) (hq : A q.obj) {h h' : Heap C T V D} (hs : SameOn A h h') :
    (read s f q h).2 = (read s f q h').2 ∧ SameOn A (read s f q h).1 (read s f q h').1 := by
  cases q with
  | r i => exact (read_same f).1 i hq h h' hs
  | prop i p => exact (read_same f).2 i p hq h h' hs

end Chumpy
