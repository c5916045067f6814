import Verif.Core.SameObs
import Verif.Core.Inv
/-! Objects an operation is not applied to keep their attributes. -/
namespace Chumpy
variable {C T V D : Type} {s : Sig C T V D}

/-- The operation neither assigns to nor collects an object of `A`.  (Objects of `A` may be read, and used as values in
assignments to others.) -/
def Op.Avoids (A : Id → Prop) : Op C T D → Prop
  | .set i _ => ¬ A i
  | .batch ws => ∀ w ∈ ws, ¬ A w.1
  | .gc i => ¬ A i
  | .addDterm i _ _ => ¬ A i
  | _ => True

/-- The objects of `A` exist and have the attributes they had. -/
def Kept (A : Id → Prop) (h h' : Heap C T V D) : Prop :=
  ∀ j, A j → h'.graph j = h.graph j ∧ ((h.node j).alive = true → (h'.node j).alive = true)

theorem Kept.refl (A : Id → Prop) (h : Heap C T V D) : Kept A h h := fun _ _ => ⟨rfl, id⟩
theorem Kept.trans {A : Id → Prop} {a b c : Heap C T V D} (x : Kept A a b) (y : Kept A b c) : Kept A a c :=
  fun j hj => ⟨(y j hj).1.trans (x j hj).1, fun h => (y j hj).2 ((x j hj).2 h)⟩

theorem setattr_kept {A : Id → Prop} {h : Heap C T V D} (hs : Str h) {i : Id} (hi : (h.node i).alive = true) (hA : ¬ A i)
    (hal : ∀ j, A j → (h.node j).alive = true) (kw : KW T) {itr : Option Nat} (ht : ∀ t, itr = some t → t ≤ h.giter ∨ t = 9999) :
    Kept A h (setattr s i itr kw h).1 := by
  have a := (setattr_post (s := s) (fr := ⟨False, False⟩) hs hi kw ht).1
  intro j hj
  refine ⟨?_, a.alive j⟩
  have hji : j ≠ i := fun e => hA (e ▸ hj)
  cases kw with
  | term n t => obtain ⟨_, w, _, _⟩ := setTerm_writing (s := s) h hs i n t itr; exact w.off j hji
  | bad n => rfl
  | link k c =>
    simp only [setattr]
    split
    · rename_i hg
      obtain ⟨_, _, w, _, _⟩ := setDterm_writing (s := s) h hs i k c itr hg.2; exact w.off j hji
    · rfl
  | wrap k v =>
    simp only [setattr]
    split
    · rw [wrap_eq hs]
      obtain ⟨n, _⟩ := newLeaf_post (s := s) (fr := ⟨False, False⟩) hs v
      obtain ⟨_, _, w, _, _⟩ := setDterm_writing (s := s) (newLeaf s v h).1 n.str i k h.next itr n.born
      rw [w.off j hji, n.off j]
      rintro rfl
      have := hal _ hj
      rw [hs.unborn h.next (Nat.le_refl _)] at this; cases this
    · rfl

theorem setAll_kept {A : Id → Prop} (i : Id) (hA : ¬ A i) (kws : List (KW T)) : ∀ {h : Heap C T V D}, Str h → (h.node i).alive = true →
    (∀ j, A j → (h.node j).alive = true) → Kept A h (setAll s i kws h).1 := by
  induction kws with
  | nil => intro h _ _ _; exact Kept.refl A h
  | cons kw kws ih =>
    intro h hs hi hal
    cases kws with
    | nil => simp only [setAll]; exact setattr_kept hs hi hA hal kw (by intro t h; cases h)
    | cons kw2 kws =>
      rw [setAll.eq_3 s i kw (kw2 :: kws) (by simp)]
      have a := setattr_kept (s := s) hs hi hA hal kw (itr := some 9999) (by intro t h; cases h; simp)
      obtain ⟨c, d⟩ := setattr_str (s := s) hs hi kw (itr := some 9999) (by intro t h; cases h; simp)
      simp only [M.bind]
      rcases hx : setattr s i (some 9999) kw h with ⟨h1, r⟩
      rw [hx] at a c d
      cases r with
      | error e => exact a
      | ok u => exact a.trans (ih c d (fun j hj => (a j hj).2 (hal j hj)))

theorem batchLoop_kept {A : Id → Prop} (t : Nat) (ws : List (Id × KW T)) : ∀ {h : Heap C T V D}, Str h →
    (∀ w ∈ ws, (h.node w.1).alive = true) → (∀ w ∈ ws, ¬ A w.1) → (t ≤ h.giter ∨ t = 9999) →
    (∀ j, A j → (h.node j).alive = true) → Kept A h (batchLoop s t ws h).1 := by
  induction ws with
  | nil => intro h _ _ _ _ _; exact Kept.refl A h
  | cons w ws ih =>
    intro h hs ha hA ht hal
    have hi := ha w (by simp)
    rw [batchLoop]
    have a := setattr_kept (s := s) hs hi (hA w (by simp)) hal w.2 (itr := some t) (by intro t h; cases h; exact ht)
    have p := (setattr_post (s := s) (fr := ⟨False, False⟩) hs hi w.2 (itr := some t) (by intro t h; cases h; exact ht)).1
    simp only [M.bind]
    rcases hx : setattr s w.1 (some t) w.2 h with ⟨h1, r⟩
    rw [hx] at a p
    cases r with
    | error e => exact a
    | ok u => exact a.trans (ih p.str (fun w' hw' => p.alive _ (ha w' (by simp [hw']))) (fun w' hw' => hA w' (by simp [hw']))
        (by rw [p.giter]; exact ht) (fun j hj => (a j hj).2 (hal j hj)))

theorem collect_kept {A : Id → Prop} {h : Heap C T V D} {i : Id} (hA : ¬ A i) : Kept A h (collect i h) := by
  intro j hj
  have hji : j ≠ i := fun e => hA (e ▸ hj)
  rw [Heap.graph_apply, collect_node, if_neg hji]
  exact ⟨rfl, id⟩

theorem alloc_kept (s : Sig C T V D) {A : Id → Prop} {h : Heap C T V D} (hs : Str h) (hA : ¬ A h.next) (cls : C) (dn : List Name) (md ms : Bool) :
    Kept A h (alloc cls dn md ms h).1 := by
  intro j hj
  have n := alloc_post (s := s) (fr := ⟨False, False⟩) hs cls dn md ms
  exact ⟨n.off j (fun e => hA (e ▸ hj)), n.alive j⟩

theorem clone_kept {A : Id → Prop} {h : Heap C T V D} (hs : Str h) (hA : ¬ A h.next) (i : Id) (ls : List (Name × Id)) :
    Kept A h (clone s i ls h).1 := by
  by_cases hg : CloneGuard h i ls
  · by_cases hnd : (ls.map (·.2)).Nodup
    · have b := (clone_ok (s := s) (fr := ⟨False, False⟩) hs hg hnd).2
      intro j hj
      have hjn : j ≠ h.next := fun e => hA (e ▸ hj)
      refine ⟨?_, fun ha => ?_⟩
      · rw [b.graph]
        simp only [if_neg hjn]
        rw [Heap.graph_apply, cloneBase_node, if_neg hjn]; rfl
      · rw [b.aliveEq, cloneBase_node, if_neg hjn]; exact ha
    · have a := clone_spec (s := s) hs hg
      rw [if_neg hnd] at a
      rw [a]
      exact (alloc_kept s hs hA _ _ _ _).trans (collect_kept hA)
  · rw [clone, if_neg (fun h => hg (cloneOk_iff.1 h))]; exact Kept.refl A h

theorem step_kept {A : Id → Prop} {h : Heap C T V D} (hs : Str h) (hal : ∀ j, A j → (h.node j).alive = true) (op : Op C T D)
    (ho : op.Avoids A) : Kept A h (step s op h).1 := by
  have hn : ¬ A h.next := fun h1 => by
    have := hal _ h1
    rw [hs.unborn h.next (Nat.le_refl _)] at this; cases this
  have hread : op.IsRead → Kept A h (step s op h).1 := fun hr j _ => by
    have f := step_read_frame (s := s) (h := h) hr
    exact ⟨by rw [f.graph], by rw [f.alive]; exact id⟩
  cases op with
  | new cls dnames md ms kws =>
    simp only [step, M.map', newObj]
    split
    · have hb : M.bind (alloc cls dnames md ms) (fun i => orCollect i (setAll s i kws)) h =
        orCollect h.next (setAll s h.next kws) (alloc cls dnames md ms h).1 := rfl
      rw [hb, orCollect]
      have n := alloc_post (s := s) (fr := ⟨False, False⟩) hs cls dnames md ms
      have a := (alloc_kept s hs hn cls dnames md ms).trans
        (setAll_kept (s := s) h.next hn kws n.str n.born (fun j hj => n.alive j (hal j hj)))
      rcases hx : setAll s h.next kws (alloc cls dnames md ms h).1 with ⟨h1, r⟩
      rw [hx] at a
      cases r with
      | ok u => exact a
      | error e => exact a.trans (collect_kept hn)
    · exact Kept.refl A h
  | set i kws =>
    simp only [step, M.map', setObj]
    split
    · exact setAll_kept i ho kws hs ‹_› hal
    · exact Kept.refl A h
  | batch ws =>
    simp only [step, M.map', batch]
    split
    · rename_i ha
      have hs' : Str { h with giter := h.giter + 1 } := ⟨hs.links, hs.dead, hs.unborn, hs.dn, hs.keys, fun n t ht => by
          rcases hs.tags n t ht with h | h
          · left; show t ≤ _ + 1; omega
          · exact Or.inr h⟩
      exact batchLoop_kept (h := { h with giter := h.giter + 1 }) _ ws hs' (fun w hw => List.all_eq_true.1 ha w hw) ho
        (Or.inl (Nat.le_refl _)) hal
    · exact Kept.refl A h
  | clear i =>
    simp only [step, ifAlive]
    split
    · obtain ⟨S, hp⟩ := clearCache_spec s h i none (fun n hn => hs.par0 n hn)
      intro j _
      exact ⟨hp.gnode j, fun h => by dsimp only; rw [hp.alive]; exact h⟩
    · exact Kept.refl A h
  | readR f i => exact hread (.r f i)
  | readProp f i p => exact hread (.prop f i p)
  | readDr f i w => exact hread (.dr f i w)
  | readLop td f i w L => exact hread (.lop td f i w L)
  | readLmult ne f i w L => exact hread (.lmult ne f i w L)
  | gc i =>
    simp only [step]
    split
    · exact collect_kept ho
    · exact Kept.refl A h
  | clone i ls => exact clone_kept hs hn i ls
  | addDterm i k kw =>
    simp only [step, ifAlive]
    split
    · rename_i ha
      simp only [M.map', addDterm]
      obtain ⟨ns, h1, _, h3⟩ := addDterm_mid (h := h) i k
      rw [h3]
      have hs' := dnames_str hs i ns h1
      have k0 : Kept A h (h.modify i (fun n => { n with dnames := ns })) := by
        intro j hj
        have hji : j ≠ i := fun e => ho (e ▸ hj)
        rw [Heap.graph_apply, modify_node_ne _ _ hji]
        exact ⟨rfl, id⟩
      refine k0.trans (setattr_kept hs' ?_ ho (fun j hj => (k0 j hj).2 (hal j hj)) kw (by intro t h; cases h))
      rw [modify_node_self]; exact ha
    · exact Kept.refl A h

/-- Any history none of whose assignments is to an object of `A` leaves `A` as it is. -/
theorem run_kept {A : Id → Prop} (ops : List (Op C T D)) : ∀ {h : Heap C T V D}, Str h → (∀ j, A j → (h.node j).alive = true) →
    (∀ op ∈ ops, op.Avoids A) → Kept A h (run s ops h) := by
  induction ops with
  | nil => intro h _ _ _; exact Kept.refl A h
  | cons op ops ih =>
    intro h hs hal ho
    have a := step_kept (s := s) hs hal op (ho op (by simp))
    exact a.trans (ih (step_str hs op) (fun j hj => (a j hj).2 (hal j hj)) (fun o h => ho o (by simp [h])))

end Chumpy
