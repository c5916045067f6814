import Verif.Core.Sim
/-! `Ch.clear_cache_wrt` (ch.py:438-452). -/
namespace Chumpy
variable {C T V D : Type}

/-- The loop over `self._parents` (ch.py:446-450): `go` is the conditional recursive call on a parent,
after which the parent gets the names and its properties depending on them are invalidated. -/
def wrtParents (s : Sig C T V D) (go : Id → M C T V D Unit) : List (Id × List Name) → M C T V D Unit
  | [] => M.pure ()
  | p :: ps => M.bind (go p.1) fun _ => fun h =>
      wrtParents s go ps (h.modify p.1 (fun n => (n.addDirty p.2).invalidate s p.2))

/-- `self._cache['drs'][wrt] = None` when `wrt` is a key (ch.py:439-440).  Not modelled: the attribute
`dr_cached` (ch.py:442-443), which only `Concatenate` objects have. -/
def Node.dropWrt (n : Node C T V D) (w : Id) : Node C T V D :=
  { n with drs := fun u => if u = w ∧ (n.drs u).isSome then some none else n.drs u }

/-- `x.clear_cache_wrt(wrt, itr)` (ch.py:438-452).  The fuel bounds the depth of the recursion. -/
def clearWrt (s : Sig C T V D) (w : Id) (itr : Option Nat) : Nat → Id → M C T V D Unit
  | 0, _ => M.throw .fuel
  | f + 1, i => fun h =>
    let h1 := h.modify i (fun n => n.dropWrt w)
    M.bind
      (if itr = none ∨ itr ≠ (h1.node i).itr then
        wrtParents s (fun p h => if ((h.node p).drs w).isSome then clearWrt s w itr f p h else (h, .ok ()))
          (h1.node i).parents
       else M.pure ())
      (fun _ h => (h.modify i (fun n => { n with itr := itr }), .ok ())) h1

/-- What `clear_cache_wrt(w)` may do to a heap. -/
structure Dropped (w : Id) (h h' : Heap C T V D) : Prop where
  graph : h'.graph = h.graph
  parents : ∀ j, (h'.node j).parents = (h.node j).parents
  alive : ∀ j, (h'.node j).alive = (h.node j).alive
  r : ∀ j, (h'.node j).cacheR = (h.node j).cacheR
  p : ∀ j q v, (h'.node j).props q = some v → (h.node j).props q = some v
  d : ∀ j u, u ≠ w → (h'.node j).drs u = (h.node j).drs u
  dw : ∀ j, (h'.node j).drs w = (h.node j).drs w ∨ ((h.node j).drs w).isSome ∧ (h'.node j).drs w = some none

variable {s : Sig C T V D} {w : Id}

theorem Dropped.refl (h : Heap C T V D) : Dropped w h h :=
  ⟨rfl, fun _ => rfl, fun _ => rfl, fun _ => rfl, fun _ _ _ h => h, fun _ _ _ => rfl, fun _ => Or.inl rfl⟩

theorem Dropped.trans {h h' h'' : Heap C T V D} (a : Dropped w h h') (b : Dropped w h' h'') : Dropped w h h'' where
  graph := b.graph.trans a.graph
  parents j := (b.parents j).trans (a.parents j)
  alive j := (b.alive j).trans (a.alive j)
  r j := (b.r j).trans (a.r j)
  p j q v hv := a.p j q v (b.p j q v hv)
  d j u hu := (b.d j u hu).trans (a.d j u hu)
  dw j := by
    rcases b.dw j with hb | ⟨hb1, hb2⟩
    · rcases a.dw j with ha | ⟨ha1, ha2⟩
      · exact Or.inl (hb.trans ha)
      · exact Or.inr ⟨ha1, hb.trans ha2⟩
    · rcases a.dw j with ha | ⟨ha1, ha2⟩
      · exact Or.inr ⟨ha ▸ hb1, hb2⟩
      · exact Or.inr ⟨ha1, hb2⟩

theorem Dropped.modify (h : Heap C T V D) (i : Id) (f : Node C T V D → Node C T V D)
    (hg : ∀ n, (f n).toGNode = n.toGNode) (hp : ∀ n, (f n).parents = n.parents) (ha : ∀ n, (f n).alive = n.alive)
    (hr : ∀ n, (f n).cacheR = n.cacheR) (hpr : ∀ n q v, (f n).props q = some v → n.props q = some v)
    (hd : ∀ n u, u ≠ w → (f n).drs u = n.drs u)
    (hw : ∀ n, (f n).drs w = n.drs w ∨ (n.drs w).isSome ∧ (f n).drs w = some none) :
    Dropped w h (h.modify i f) where
  graph := by
    funext j
    show ((h.modify i f).node j).toGNode = (h.node j).toGNode
    rw [modify_node]; split
    · next e => rw [hg, e]
    · rfl
  parents j := by rw [modify_node]; split <;> simp_all
  alive j := by rw [modify_node]; split <;> simp_all
  r j := by rw [modify_node]; split <;> simp_all
  p j q v := by
    rw [modify_node]; split
    · next e => subst e; exact hpr _ q v
    · exact fun h => h
  d j u hu := by
    rw [modify_node]; split
    · next e => subst e; exact hd _ u hu
    · rfl
  dw j := by
    rw [modify_node]; split
    · next e => subst e; exact hw _
    · exact Or.inl rfl

theorem dropped_touch (h : Heap C T V D) (i : Id) (ns : List Name) :
    Dropped w h (h.modify i (fun n => (n.addDirty ns).invalidate s ns)) := by
  refine Dropped.modify h i _ (fun _ => rfl) (fun _ => rfl) (fun _ => rfl) (fun _ => rfl) ?_
    (fun _ _ _ => rfl) (fun _ => Or.inl rfl)
  intro n q v hv
  simp only [Node.invalidate, Node.addDirty] at hv
  split at hv
  · exact hv
  · split at hv
    · cases hv
    · exact hv

theorem dropped_wipe (h : Heap C T V D) (i : Id) : Dropped w h (h.modify i (fun n => n.dropWrt w)) := by
  refine Dropped.modify h i _ (fun _ => rfl) (fun _ => rfl) (fun _ => rfl) (fun _ => rfl) (fun _ _ _ h => h) ?_ ?_
  · intro n u hu; simp [Node.dropWrt, hu]
  · intro n
    by_cases hn : (n.drs w).isSome
    · exact Or.inr ⟨hn, by simp [Node.dropWrt, hn]⟩
    · exact Or.inl (by simp [Node.dropWrt, hn])

theorem wrtParents_dropped (go : Id → M C T V D Unit) (hgo : ∀ p h, Dropped w h (go p h).1) :
    ∀ ps h, Dropped w h (wrtParents s go ps h).1 := by
  intro ps
  induction ps with
  | nil => intro h; exact Dropped.refl h
  | cons p ps ih =>
    intro h
    have h1 := hgo p.1 h
    simp only [wrtParents, M.bind]
    split
    · next e => rw [e] at h1; exact h1.trans ((dropped_touch _ _ _).trans (ih _))
    · next e => rw [e] at h1; exact h1

theorem clearWrt_dropped (itr : Option Nat) (f : Nat) : ∀ i (h : Heap C T V D),
    Dropped w h (clearWrt s w itr f i h).1 := by
  induction f with
  | zero => intro i h; exact Dropped.refl h
  | succ f ih =>
    intro i h
    have h1 := dropped_wipe (w := w) h i
    have hit : ∀ h : Heap C T V D, Dropped w h (h.modify i (fun n => { n with itr := itr })) := fun h =>
      Dropped.modify h i _ (fun _ => rfl) (fun _ => rfl) (fun _ => rfl) (fun _ => rfl) (fun _ _ _ h => h)
        (fun _ _ _ => rfl) (fun _ => Or.inl rfl)
    simp only [clearWrt]
    split
    · have h2 := wrtParents_dropped (s := s) (w := w)
        (fun p h => if ((h.node p).drs w).isSome then clearWrt s w itr f p h else (h, .ok ()))
        (by intro p h; split; exact ih p h; exact Dropped.refl h)
        (((h.modify i (fun n => n.dropWrt w)).node i).parents) (h.modify i (fun n => n.dropWrt w))
      simp only [M.bind]
      split
      · next e => rw [e] at h2; exact (h1.trans h2).trans (hit _)
      · next e => rw [e] at h2; exact h1.trans h2
    · exact h1.trans (hit _)

/-- The object itself loses the derivative it holds. -/
theorem clearWrt_self (itr : Option Nat) (f : Nat) (i : Id) (h : Heap C T V D) (hd : ((h.node i).drs w).isSome) :
    ((clearWrt s w itr (f + 1) i h).1.node i).drs w = some none := by
  have hw : ((h.modify i (fun n => n.dropWrt w)).node i).drs w = some none := by
    rw [modify_node_self]; simp [Node.dropWrt, hd]
  have stable : ∀ {h' h'' : Heap C T V D}, Dropped w h' h'' → (h'.node i).drs w = some none →
      (h''.node i).drs w = some none := by
    intro h' h'' hdr hh
    rcases hdr.dw i with e | ⟨_, e⟩
    · exact e.trans hh
    · exact e
  have hit : ∀ h : Heap C T V D, Dropped w h (h.modify i (fun n => { n with itr := itr })) := fun h =>
    Dropped.modify h i _ (fun _ => rfl) (fun _ => rfl) (fun _ => rfl) (fun _ => rfl) (fun _ _ _ h => h)
      (fun _ _ _ => rfl) (fun _ => Or.inl rfl)
  simp only [clearWrt]
  split
  · have h2 := wrtParents_dropped (s := s) (w := w)
      (fun p h => if ((h.node p).drs w).isSome then clearWrt s w itr f p h else (h, .ok ()))
      (by intro p h; split; exact clearWrt_dropped itr f p h; exact Dropped.refl h)
      (((h.modify i (fun n => n.dropWrt w)).node i).parents) (h.modify i (fun n => n.dropWrt w))
    simp only [M.bind]
    split
    · next e => rw [e] at h2; exact stable (h2.trans (hit _)) hw
    · next e => rw [e] at h2; exact stable h2 hw
  · exact stable (hit _) hw

/-- When neither the object nor any of its parents holds a derivative with respect to `w`, none is lost
anywhere. -/
theorem wrtParents_none (itr : Option Nat) (f : Nat) : ∀ (ps : List (Id × List Name)) (h : Heap C T V D),
    (∀ p ∈ ps, (h.node p.1).drs w = none) →
    let r := wrtParents s (fun p h => if ((h.node p).drs w).isSome then clearWrt s w itr f p h else (h, .ok ())) ps h
    r.2 = .ok () ∧ ∀ j, (r.1.node j).drs w = (h.node j).drs w := by
  intro ps
  induction ps with
  | nil => intro h _; exact ⟨rfl, fun _ => rfl⟩
  | cons p ps ih =>
    intro h hp
    have h0 : (h.node p.1).drs w = none := hp p (by simp)
    dsimp only
    simp only [wrtParents, M.bind, h0]
    have hn : ∀ j, ((h.modify p.1 (fun n => (n.addDirty p.2).invalidate s p.2)).node j).drs w = (h.node j).drs w := by
      intro j; rw [modify_node]; split
      · next e => subst e; rfl
      · rfl
    obtain ⟨h1, h2⟩ := ih (h.modify p.1 (fun n => (n.addDirty p.2).invalidate s p.2))
      (fun q hq => (hn q.1).trans (hp q (by simp [hq])))
    exact ⟨h1, fun j => (h2 j).trans (hn j)⟩

theorem clearWrt_none (itr : Option Nat) (f : Nat) (i : Id) (h : Heap C T V D)
    (hi : (h.node i).drs w = none) (hp : ∀ p ∈ (h.node i).parents, (h.node p.1).drs w = none) (j : Id) :
    ((clearWrt s w itr (f + 1) i h).1.node j).drs w = (h.node j).drs w := by
  have hn : ∀ j, ((h.modify i (fun n => n.dropWrt w)).node j).drs w = (h.node j).drs w := by
    intro j; rw [modify_node]; split
    · next e => subst e; simp [Node.dropWrt, hi]
    · rfl
  have hps : ((h.modify i (fun n => n.dropWrt w)).node i).parents = (h.node i).parents := by
    rw [modify_node_self]; rfl
  have hit : ∀ h : Heap C T V D, ((h.modify i (fun n => { n with itr := itr })).node j).drs w = (h.node j).drs w := by
    intro h; rw [modify_node]; split
    · next e => subst e; rfl
    · rfl
  simp only [clearWrt]
  split
  · have h2 := wrtParents_none (s := s) (w := w) itr f (((h.modify i (fun n => n.dropWrt w)).node i).parents)
      (h.modify i (fun n => n.dropWrt w)) (by rw [hps]; exact fun p hq => (hn p.1).trans (hp p hq))
    obtain ⟨e1, e2⟩ := h2
    simp only [M.bind]
    split
    · next e => rw [e] at e2; exact (hit _).trans ((e2 j).trans (hn j))
    · next e => rw [e] at e2; exact (e2 j).trans (hn j)
  · exact (hit _).trans (hn j)

theorem Dropped.coh {W : Graph C T → Id → Prop} {h h' : Heap C T V D} (hd : Dropped w h h') (hc : Coh s (Fresh s) W h) :
    Coh s (Fresh s) (fun g u => W g u ∧ (u = w → ∀ j, (h'.node j).drs w = (h.node j).drs w)) h' where
  r i v hv := by rw [hd.graph]; exact hc.r i v (hd.r i ▸ hv)
  p i q v hv := by rw [hd.graph]; exact hc.p i q v (hd.p i q v hv)
  d hpl i u d hu hdu := by
    rw [hd.graph] at hpl hu ⊢
    refine hc.d hpl i u d hu.1 ?_
    by_cases huw : u = w
    · subst huw; rw [← hu.2 rfl i]; exact hdu
    · rw [← hd.d i u huw]; exact hdu
  k i u d hdu := by
    rw [hd.alive]
    by_cases huw : u = w
    · subst huw
      rcases hd.dw i with e | ⟨e, _⟩
      · exact hc.k i u d (e ▸ hdu)
      · obtain ⟨d', hd'⟩ := Option.isSome_iff_exists.1 e
        exact hc.k i u d' hd'
    · exact hc.k i u d (hd.d i u huw ▸ hdu)
end Chumpy
