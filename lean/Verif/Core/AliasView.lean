import Verif.Core.Alias
import Verif.Core.Sim
/-! Reading with aliases is reading without them in the graph where every name leads where `getattr` leads. -/
namespace Chumpy
variable {C T V D α β : Type} {s : Sig C T V D} {al : Aliases C}

/-- The heap in which every name leads where `getattr` leads; caches, links and marks as they are. -/
def Heap.view (al : Aliases C) (h : Heap C T V D) : Heap C T V D :=
  { h with node := fun i => { h.node i with dterms := h.look al i } }

theorem Heap.view_graph (h : Heap C T V D) : (h.view al).graph = h.graph.view al := rfl

/-- `m` on a heap does what `mv` does on its view, and leaves the graph alone. -/
def Seen (al : Aliases C) (m mv : M C T V D α) : Prop :=
  ∀ h, mv (h.view al) = ((m h).1.view al, (m h).2) ∧ (m h).1.graph = h.graph

theorem Seen.pure (a : α) : Seen (C := C) (T := T) (V := V) (D := D) al (M.pure a) (M.pure a) := fun _ => ⟨rfl, rfl⟩
theorem Seen.throw (e : Err) : Seen (C := C) (T := T) (V := V) (D := D) (α := α) al (M.throw e) (M.throw e) := fun _ => ⟨rfl, rfl⟩
theorem Seen.lift (r : Except Err α) : Seen (C := C) (T := T) (V := V) (D := D) al (M.lift r) (M.lift r) := fun _ => ⟨rfl, rfl⟩

theorem Seen.bind {m mv : M C T V D α} {k kv : α → M C T V D β} (hm : Seen al m mv) (hk : ∀ a, Seen al (k a) (kv a)) :
    Seen al (M.bind m k) (M.bind mv kv) := by
  intro h
  obtain ⟨e, g⟩ := hm h
  simp only [M.bind]
  rw [e]
  rcases hx : m h with ⟨h', r⟩
  rw [hx] at g
  cases r with
  | ok a => exact ⟨(hk a h').1, (hk a h').2.trans g⟩
  | error _ => exact ⟨rfl, g⟩

/-- Change of one object that leaves its graph part alone. -/
theorem view_modify (h : Heap C T V D) (i : Id) (f : Node C T V D → Node C T V D)
    (hf : ∀ n, (f n).toGNode = n.toGNode) (hv : ∀ n d, f { n with dterms := d } = { f n with dterms := d }) :
    (h.view al).modify i f = (h.modify i f).view al ∧ (h.modify i f).graph = h.graph := by
  have g : (h.modify i f).graph = h.graph := by
    funext j
    show ((h.modify i f).node j).toGNode = (h.node j).toGNode
    simp only [Heap.modify]
    split
    · next e => rw [hf, e]
    · rfl
  refine ⟨?_, g⟩
  have : ∀ j, ((h.view al).modify i f).node j = ((h.modify i f).view al).node j := by
    intro j
    show (if j = i then f ((h.view al).node i) else (h.view al).node j) =
      { (h.modify i f).node j with dterms := (h.modify i f).graph.look al j }
    rw [g]
    by_cases hj : j = i
    · subst hj
      have e : (h.modify j f).node j = f (h.node j) := if_pos rfl
      rw [if_pos rfl, e]
      exact hv _ _
    · have e : (h.modify i f).node j = h.node j := if_neg hj
      rw [if_neg hj, e]; rfl
  show ({ h.view al with node := ((h.view al).modify i f).node } : Heap C T V D) = _
  rw [show ((h.view al).modify i f).node = ((h.modify i f).view al).node from funext this]
  rfl

theorem seen_onChanged (i : Id) : Seen (T := T) (V := V) (D := D) al (callOnChanged i) (callOnChanged i) := by
  intro h
  obtain ⟨a, b⟩ := view_modify (al := al) h i (fun n => { n with dirty := [] }) (fun _ => rfl) (fun _ _ => rfl)
  unfold callOnChanged
  have e : ((h.view al).node i).dirty = (h.node i).dirty := rfl
  rw [e]
  split
  · exact ⟨rfl, rfl⟩
  · dsimp only
    refine ⟨?_, b⟩
    rw [a]; rfl

theorem seen_emit (e : Event) : Seen (C := C) (T := T) (V := V) (D := D) al (emit e) (emit e) := fun _ => ⟨rfl, rfl⟩

theorem seen_storeR (i : Id) (v : V) : Seen (T := T) (D := D) al (storeR i v) (storeR i v) := by
  intro h
  obtain ⟨a, b⟩ := view_modify (al := al) h i (fun n => { n with cacheR := some v }) (fun _ => rfl) (fun _ _ => rfl)
  unfold storeR
  exact ⟨by rw [a], b⟩

theorem seen_storeProp (i : Id) (p : Name) (v : V) : Seen (T := T) (D := D) al (storeProp i p v) (storeProp i p v) := by
  intro h
  obtain ⟨a, b⟩ := view_modify (al := al) h i (fun n => { n with props := fun q => if q = p then some v else n.props q })
    (fun _ => rfl) (fun _ _ => rfl)
  unfold storeProp
  exact ⟨by rw [a], b⟩

theorem seen_storeDr (i w : Id) (d : Option D) : Seen (T := T) (V := V) al (storeDr i w d) (storeDr i w d) := by
  intro h
  obtain ⟨a, b⟩ := view_modify (al := al) h i (fun n => { n with drs := fun x => if x = w then some d else n.drs x })
    (fun _ => rfl) (fun _ _ => rfl)
  unfold storeDr
  have e1 : ((h.view al).node i).parents = (h.node i).parents := rfl
  have e2 : ((h.view al).node w).alive = (h.node w).alive := rfl
  rw [e1, e2]
  split
  · exact ⟨rfl, rfl⟩
  · dsimp only
    exact ⟨by rw [a], b⟩

theorem seen_runProg {rd rv : Req → M C T V D V} (hr : ∀ q, Seen al (rd q) (rv q)) (i : Id) (p : Prog T V α) :
    Seen al (runProgA al rd i p) (runProg rv i p) := by
  induction p with
  | ret a => exact Seen.pure a
  | raise c => exact Seen.throw _
  | term n k ih => intro h; exact ih _ h
  | child n k ih =>
    intro h
    simp only [runProgA, runProg]
    have e : ((h.view al).node i).dterms n = h.look al i n := rfl
    rw [e]
    cases h.look al i n with
    | none => exact ⟨rfl, rfl⟩
    | some c => exact (hr (.r c)).bind (fun v => ih v) h
  | prop p k ih => exact (hr (.prop i p)).bind (fun v => ih v)
  | selfR k ih => exact (hr (.r i)).bind (fun v => ih v)

/-- **Reading through aliases is reading the view.** -/
theorem seen_read (f : Nat) : ∀ q, Seen al (readA s al f q) (read s f q) := by
  induction f with
  | zero => intro q; exact Seen.throw _
  | succ f ih =>
    intro q
    cases q with
    | r i =>
      rw [readA, read]
      refine (seen_onChanged i).bind (fun _ => ?_)
      intro h
      dsimp only
      have e : ((h.view al).node i).cacheR = (h.node i).cacheR := rfl
      rw [e]
      cases (h.node i).cacheR with
      | some v => exact ⟨rfl, rfl⟩
      | none => exact (seen_emit _).bind (fun _ => (seen_runProg ih i _).bind (fun v => seen_storeR i v)) h
    | prop i p =>
      rw [readA, read]
      intro h
      dsimp only
      have e : ((h.view al).node i).cls = (h.node i).cls := rfl
      have e2 : ((h.view al).node i).props = (h.node i).props := rfl
      rw [e, e2]
      cases s.propDecl (h.node i).cls p with
      | none => exact ⟨rfl, rfl⟩
      | some d =>
        dsimp only
        cases (h.node i).props p with
        | some v => exact ⟨rfl, rfl⟩
        | none => exact (seen_emit _).bind (fun _ => (seen_runProg ih i _).bind (fun v => seen_storeProp i p v)) h

theorem seen_compDr (f : Nat) (i w : Id) : Seen al (runCompDrA s al f i w) (runCompDr s f i w) := by
  refine (seen_emit _).bind (fun _ => ?_)
  intro h
  exact seen_runProg (seen_read f) i _ h

theorem seen_sliceLoop (f : Nat) (i : Id) : ∀ n x, Seen al (sliceLoopA s al f i n x) (sliceLoop s f i n x) := by
  intro n
  induction n with
  | zero => intro x; exact Seen.throw _
  | succ n ih =>
    intro x
    rw [sliceLoopA, sliceLoop]
    intro h
    dsimp only
    have e : ((h.view al).node x).cls = (h.node x).cls := rfl
    have e2 : ((h.view al).node x).dterms s.permArg = h.look al x s.permArg := rfl
    rw [e, e2]
    split
    · cases h.look al x s.permArg with
      | none => exact ⟨rfl, rfl⟩
      | some y =>
        dsimp only
        split
        · exact ⟨rfl, rfl⟩
        · refine (seen_compDr f i y).bind (fun o => ?_) h
          cases o with
          | none => exact ih y
          | some d => exact Seen.pure _
    · exact ⟨rfl, rfl⟩

theorem seen_sliced (f : Nat) (i w : Id) : Seen al (drSlicedA s al f i w) (drSliced s f i w) := by
  refine (seen_onChanged i).bind (fun _ => (seen_compDr f i w).bind (fun o => ?_))
  cases o with
  | some d => exact Seen.pure _
  | none =>
    refine (seen_sliceLoop f i f w).bind (fun o => ?_)
    rcases o with _ | ⟨inner, d⟩
    · exact Seen.pure _
    · refine (seen_onChanged w).bind (fun _ => (seen_compDr f w inner).bind (fun o => ?_))
      cases o with
      | none => exact Seen.throw _
      | some j => exact Seen.lift _

theorem seen_terms (f : Nat) (i w : Id) {rec recv : Id → M C T V D (Option D)} (hr : ∀ p, Seen al (rec p) (recv p)) (ks : List Name) :
    ∀ acc, Seen al (drTermsA s al f i w rec ks acc) (drTerms s f i w recv ks acc) := by
  induction ks with
  | nil => intro acc; exact Seen.pure _
  | cons k ks ih =>
    intro acc
    rw [drTermsA, drTerms]
    intro h
    dsimp only
    have e : ((h.view al).node i).dterms k = h.look al i k := rfl
    rw [e]
    cases h.look al i k with
    | none => exact ih acc h
    | some p =>
      dsimp only
      split
      · exact ih acc h
      · refine (hr p).bind (fun o => ?_) h
        cases o with
        | none => exact ih acc
        | some d2 =>
          refine (seen_sliced f i p).bind (fun o => ?_)
          cases o with
          | none => exact ih acc
          | some d => exact (Seen.lift _).bind (fun x => ih _)

/-- **The chain rule through aliases is the chain rule on the view.** -/
theorem seen_dr (f : Nat) : ∀ i w, Seen al (drWrtA s al f i w) (drWrt s f i w) := by
  induction f with
  | zero => intro i w; exact Seen.throw _
  | succ f ih =>
    intro i w
    rw [drWrtA, drWrt]
    refine (seen_onChanged i).bind (fun _ => ?_)
    intro h
    dsimp only
    have e : ((h.view al).node i).drs = (h.node i).drs := rfl
    rw [e]
    cases (h.node i).drs w with
    | some d => exact ⟨rfl, rfl⟩
    | none =>
      refine (seen_sliced f i w).bind (fun o => ?_) h
      refine Seen.bind (m := fun h => drTermsA s al f i w (fun p => drWrtA s al f p w) (h.node i).dnames o.toList h)
        (mv := fun h => drTerms s f i w (fun p => drWrt s f p w) (h.node i).dnames o.toList h) ?_ (fun ds => ?_)
      · intro h; exact seen_terms f i w (fun p => ih p w) _ _ h
      · refine (Seen.lift _).bind (fun r => (seen_storeDr i w _).bind (fun _ => ?_))
        intro h; exact ⟨rfl, rfl⟩

end Chumpy
