import Verif.Core.LambdaInv
/-! Reads of programs with lambdas simulate the cache-free evaluator on the graph `applied`. -/
namespace Chumpy
variable {C T V D α β : Type} {s : Sig C T V D} {L : Lam} {h : Heap C T V D} {S : Id → Name → Prop}

/-- A change of caches and of the sets of changed names only. -/
structure CacheOnly (h h' : Heap C T V D) : Prop where
  graph : h'.graph = h.graph
  parents : ∀ i, (h'.node i).parents = (h.node i).parents
  itr : ∀ i, (h'.node i).itr = (h.node i).itr
  alive : ∀ i, (h'.node i).alive = (h.node i).alive
  next : h'.next = h.next
  giter : h'.giter = h.giter

theorem LStr.cacheOnly (hl : LStr s L h S) {h' : Heap C T V D} (c : CacheOnly h h')
    (hk : ∀ i w d, (h'.node i).drs w = some d → (h'.node w).alive = true)
    (hd : ∀ F a, S F a → a ∈ (h'.node F).dirty) : LStr s L h' S where
  str := by
    have hn : ∀ n, (h'.node n).toGNode = (h.node n).toGNode := fun n => congrFun c.graph n
    refine ⟨?_, ?_, ?_, ?_, hk, ?_⟩
    · have : h'.par = h.par := by funext n; exact c.parents n
      rw [this, c.graph]; exact hl.str.links
    · intro n hn'
      rw [c.alive] at hn'
      rw [hn, c.parents]; exact hl.str.dead n hn'
    · intro n hn'; rw [c.alive]; rw [c.next] at hn'; exact hl.str.unborn n hn'
    · intro q k x; rw [hn]; exact hl.str.dn q k x
    · intro n t; rw [c.itr, c.giter]; exact hl.str.tags n t
  flags := by intro n; rw [c.graph]; exact hl.flags n
  enc := by rw [c.graph]; exact hl.enc
  ofIff := hl.ofIff
  uniq := hl.uniq
  lam F a hd hm := by
    have ok := hl.lam F a hd hm
    refine ⟨by rw [c.alive]; exact ok.liveF, by rw [c.alive]; exact ok.liveH, ok.own, ok.sub, ?_, ?_, ?_, ?_, ?_, ?_, ok.notH⟩
      <;> rw [c.graph]
    · exact ok.cls
    · exact ok.xn
    · exact ok.npH
    · exact ok.npF
    · exact ok.arg
    · exact ok.sync
  stale F a hS := ⟨(hl.stale F a hS).1, hd F a hS⟩
  born j hj := hl.born j (by rw [c.next] at hj; exact hj)

theorem CohX.cacheOnly {h' : Heap C T V D} {X : Id → Prop} (c : CacheOnly h h')
    (hc : CohX s (Fresh s) (NotSlice s) (h.applied s L) X)
    (hr : ∀ j v, (h'.node j).cacheR = some v → (h.node j).cacheR = some v ∨ Means s (applied s L h.graph) (.r j) (.ok v))
    (hp : ∀ j p v, (h'.node j).props p = some v → (h.node j).props p = some v ∨ Means s (applied s L h.graph) (.prop j p) (.ok v))
    (hd : ∀ j w d, (h'.node j).drs w = some d → (h.node j).drs w = some d ∨ ((h.node w).alive = true ∧
      (Plain s (applied s L h.graph) → NotSlice s (applied s L h.graph) w → MeansDr s (applied s L h.graph) j w (.ok d)))) :
    CohX s (Fresh s) (NotSlice s) (h'.applied s L) X := by
  have hg : (h'.applied s L).graph = (h.applied s L).graph := by rw [Heap.applied_graph, Heap.applied_graph, c.graph]
  refine ⟨?_, ?_, ?_, ?_⟩
  · intro j v hj e
    rw [hg]
    rcases hr j v e with h1 | h1
    · exact hc.r j v hj h1
    · exact h1
  · intro j p v e h0
    rw [hg] at h0 ⊢
    rcases hp j p v e with h1 | h1
    · exact hc.p j p v h1 h0
    · exact h1
  · intro hpl j w d hj hW e
    rw [hg] at hpl hW ⊢
    rcases hd j w d e with h1 | h1
    · exact hc.d hpl j w d hj hW h1
    · exact h1.2 hpl hW
  · intro j w d e
    show (h'.node w).alive = true
    rw [c.alive]
    rcases hd j w d e with h1 | h1
    · exact hc.k j w d h1
    · exact h1.1

theorem LInv.cacheOnly (hl : LInv s L h S) {h' : Heap C T V D} (c : CacheOnly h h')
    (hdirty : ∀ F a, S F a → a ∈ (h'.node F).dirty)
    (hr : ∀ j v, (h'.node j).cacheR = some v → (h.node j).cacheR = some v ∨ Means s (applied s L h.graph) (.r j) (.ok v))
    (hp : ∀ j p v, (h'.node j).props p = some v → (h.node j).props p = some v ∨ Means s (applied s L h.graph) (.prop j p) (.ok v))
    (hd : ∀ j w d, (h'.node j).drs w = some d → (h.node j).drs w = some d ∨ ((h.node w).alive = true ∧
      (Plain s (applied s L h.graph) → NotSlice s (applied s L h.graph) w → MeansDr s (applied s L h.graph) j w (.ok d)))) :
    LInv s L h' S := by
  have hc := hl.coh.cacheOnly c hr hp hd
  refine ⟨hl.toLStr.cacheOnly c (fun i w d e => hc.k i w d e) hdirty, ?_⟩
  rw [c.graph]; exact hc

theorem cacheOnly_modify (h : Heap C T V D) (i : Id) (f : Node C T V D → Node C T V D) (l : List Event)
    (h1 : (f (h.node i)).toGNode = (h.node i).toGNode) (h2 : (f (h.node i)).parents = (h.node i).parents)
    (h3 : (f (h.node i)).itr = (h.node i).itr) (h4 : (f (h.node i)).alive = (h.node i).alive) :
    CacheOnly h { h.modify i f with log := l } := by
  have key : ∀ j, j ≠ i → (h.modify i f).node j = h.node j := fun j hj => modify_node_ne h f hj
  have self : (h.modify i f).node i = f (h.node i) := modify_node_self h i f
  refine ⟨?_, ?_, ?_, ?_, rfl, rfl⟩
  · funext j
    show ((h.modify i f).node j).toGNode = _
    by_cases hj : j = i
    · subst hj; rw [self, h1]; rfl
    · rw [key j hj]; rfl
  all_goals
    intro j
    dsimp only
    by_cases hj : j = i
    · subst hj; rw [self]; assumption
    · rw [key j hj]

theorem modify_cases (h : Heap C T V D) (i : Id) (f : Node C T V D → Node C T V D) (j : Id) :
    (j = i ∧ (h.modify i f).node j = f (h.node i)) ∨ (j ≠ i ∧ (h.modify i f).node j = h.node j) := by
  by_cases hj : j = i
  · subst hj; exact Or.inl ⟨rfl, modify_node_self h j f⟩
  · exact Or.inr ⟨hj, modify_node_ne h f hj⟩

theorem LInv.clean (hl : LInv s L h S) {i : Id} (hi : ∀ b, ¬ S i b) (l : List Event) :
    LInv s L { h.modify i (fun n => { n with dirty := [] }) with log := l } S := by
  have mc := modify_cases h i (fun n => { n with dirty := [] })
  refine hl.cacheOnly (cacheOnly_modify h i _ l rfl rfl rfl rfl) ?_ ?_ ?_ ?_
  · intro F a hS
    have hF : F ≠ i := by rintro rfl; exact hi a hS
    dsimp only
    rw [modify_node_ne _ _ hF]; exact (hl.stale F a hS).2
  · intro j v e; dsimp only at e
    rcases mc j with ⟨rfl, e'⟩ | ⟨_, e'⟩ <;> rw [e'] at e <;> exact Or.inl e
  · intro j p v e; dsimp only at e
    rcases mc j with ⟨rfl, e'⟩ | ⟨_, e'⟩ <;> rw [e'] at e <;> exact Or.inl e
  · intro j w d e; dsimp only at e
    rcases mc j with ⟨rfl, e'⟩ | ⟨_, e'⟩ <;> rw [e'] at e <;> exact Or.inl e

theorem LInv.emit (hl : LInv s L h S) (e : Event) : LInv s L (emit e h).1 S :=
  hl.cacheOnly ⟨rfl, fun _ => rfl, fun _ => rfl, fun _ => rfl, rfl, rfl⟩ (fun F a hS => (hl.stale F a hS).2)
    (fun _ _ e => Or.inl e) (fun _ _ _ e => Or.inl e) (fun _ _ _ e => Or.inl e)

theorem LInv.storeR (hl : LInv s L h S) {i : Id} {v : V} (hv : Means s (applied s L h.graph) (.r i) (.ok v)) :
    LInv s L (storeR i v h).1 S := by
  have mc := modify_cases h i (fun n => { n with cacheR := some v })
  refine hl.cacheOnly (cacheOnly_modify h i (fun n => { n with cacheR := some v }) h.log rfl rfl rfl rfl) ?_ ?_ ?_ ?_
  · intro F a hS; have := (hl.stale F a hS).2
    simp only [Chumpy.storeR]
    rcases mc F with ⟨rfl, e'⟩ | ⟨_, e'⟩ <;> rw [e'] <;> exact this
  · intro j v' e
    simp only [Chumpy.storeR] at e
    rcases mc j with ⟨rfl, e'⟩ | ⟨_, e'⟩ <;> rw [e'] at e
    · injection e with e; subst e; exact Or.inr hv
    · exact Or.inl e
  · intro j p v' e
    simp only [Chumpy.storeR] at e
    rcases mc j with ⟨rfl, e'⟩ | ⟨_, e'⟩ <;> rw [e'] at e <;> exact Or.inl e
  · intro j w d e
    simp only [Chumpy.storeR] at e
    rcases mc j with ⟨rfl, e'⟩ | ⟨_, e'⟩ <;> rw [e'] at e <;> exact Or.inl e

theorem LInv.storeProp (hl : LInv s L h S) {i : Id} {p : Name} {v : V} (hv : Means s (applied s L h.graph) (.prop i p) (.ok v)) :
    LInv s L (storeProp i p v h).1 S := by
  have mc := modify_cases h i (fun n => { n with props := fun q => if q = p then some v else n.props q })
  refine hl.cacheOnly (cacheOnly_modify h i (fun n => { n with props := fun q => if q = p then some v else n.props q }) h.log rfl rfl rfl rfl) ?_ ?_ ?_ ?_
  · intro F a hS; have := (hl.stale F a hS).2
    simp only [Chumpy.storeProp]
    rcases mc F with ⟨rfl, e'⟩ | ⟨_, e'⟩ <;> rw [e'] <;> exact this
  · intro j v' e
    simp only [Chumpy.storeProp] at e
    rcases mc j with ⟨rfl, e'⟩ | ⟨_, e'⟩ <;> rw [e'] at e <;> exact Or.inl e
  · intro j q v' e
    simp only [Chumpy.storeProp] at e
    rcases mc j with ⟨rfl, e'⟩ | ⟨_, e'⟩ <;> rw [e'] at e
    · dsimp only at e
      split at e
      · subst_vars; injection e with e; subst e; exact Or.inr hv
      · exact Or.inl e
    · exact Or.inl e
  · intro j w d e
    simp only [Chumpy.storeProp] at e
    rcases mc j with ⟨rfl, e'⟩ | ⟨_, e'⟩ <;> rw [e'] at e <;> exact Or.inl e

theorem LInv.storeDr (hl : LInv s L h S) {i w : Id} {d : Option D}
    (hv : Plain s (applied s L h.graph) → NotSlice s (applied s L h.graph) w → MeansDr s (applied s L h.graph) i w (.ok d)) :
    LInv s L (storeDr i w d h).1 S ∧ (Chumpy.storeDr i w d h).1.graph = h.graph := by
  have mc := modify_cases h i (fun n => { n with drs := fun x => if x = w then some d else n.drs x })
  unfold Chumpy.storeDr
  split
  · exact ⟨hl, rfl⟩
  · rename_i hal
    have hw : (h.node w).alive = true := by
      rw [not_or] at hal; simpa using hal.2
    have co := cacheOnly_modify h i (fun n => { n with drs := fun x => if x = w then some d else n.drs x }) h.log rfl rfl rfl rfl
    refine ⟨hl.cacheOnly co ?_ ?_ ?_ ?_, co.graph⟩
    · intro F a hS; have := (hl.stale F a hS).2
      dsimp only
      rcases mc F with ⟨rfl, e'⟩ | ⟨_, e'⟩ <;> rw [e'] <;> exact this
    · intro j v' e
      dsimp only at e
      rcases mc j with ⟨rfl, e'⟩ | ⟨_, e'⟩ <;> rw [e'] at e <;> exact Or.inl e
    · intro j q v' e
      dsimp only at e
      rcases mc j with ⟨rfl, e'⟩ | ⟨_, e'⟩ <;> rw [e'] at e <;> exact Or.inl e
    · intro j x d' e
      dsimp only at e
      rcases mc j with ⟨rfl, e'⟩ | ⟨_, e'⟩ <;> rw [e'] at e
      · dsimp only at e
        split at e
        · subst_vars; injection e with e; subst e; exact Or.inr ⟨hw, hv⟩
        · exact Or.inl e
      · exact Or.inl e

/-! ### `on_changed` -/

theorem syncLoop_ok (F : Id) (which : List Name) : ∀ (l : List (Name × Id)) (h : Heap C T V D) (S : Id → Name → Prop),
    LInv s L h S → (∀ p ∈ l, p ∈ L.args F) →
    (syncLoop s F which l h).2 = .ok () ∧ ∃ S', (∀ K b, S' K b → S K b) ∧ LInv s L (syncLoop s F which l h).1 S' ∧
      applied s L (syncLoop s F which l h).1.graph = applied s L h.graph ∧
      (∀ j, ((syncLoop s F which l h).1.node j).alive = (h.node j).alive) ∧
      ∀ p ∈ l, p.1 ∈ which → ¬ S' F p.1 := by
  intro l
  induction l with
  | nil => intro h S hl _; exact ⟨rfl, S, fun _ _ h => h, hl, rfl, fun _ => rfl, by simp⟩
  | cons x l ih =>
    intro h S hl hsub
    obtain ⟨a, hd⟩ := x
    have hm : (a, hd) ∈ L.args F := hsub _ (by simp)
    have hsub' : ∀ p ∈ l, p ∈ L.args F := fun p hp => hsub p (by simp [hp])
    simp only [syncLoop]
    by_cases ha : a ∈ which
    · rw [if_pos ha]
      have ok := hl.lam F a hd hm
      obtain ⟨y, hy, _⟩ := ok.arg
      have hy' : (h.node F).dterms a = some y := hy
      have hyl := hl.str.child_alive hy'
      rw [hy']
      dsimp only
      have hset : setattr s hd none (.link s.xname y) h = setDterm s hd s.xname y none h := by
        simp only [setattr]; rw [if_pos ⟨ok.xn, hyl⟩]
      obtain ⟨hok, h2, w, _, hg4⟩ := setDterm_writing (s := s) h hl.str hd s.xname y none hyl
      have hs4 := (setDterm_post (s := s) (fr := ⟨False, False⟩) hl.str ok.liveH ok.xn hyl (itr := none) (by intro t h; cases h) True).1.str
      obtain ⟨hl4, happ⟩ := hl.sync hm hy w hs4 hg4
      have hal := w.alive4
      simp only [M.bind, hset]
      rcases hst : setDterm s hd s.xname y none h with ⟨h4, r⟩
      rw [hst] at hok hl4 happ hal
      dsimp only at hok hl4 happ hal
      subst hok
      dsimp only
      obtain ⟨i1, S', i2, i3, i4, i4', i5⟩ := ih h4 _ hl4 hsub'
      refine ⟨i1, S', fun K b hb => (i2 K b hb).1, i3, i4.trans happ, fun j => (i4' j).trans (hal j), ?_⟩
      intro p hp hw
      rcases List.mem_cons.1 hp with rfl | hp
      · intro hS; exact (i2 _ _ hS).2 ⟨rfl, rfl⟩
      · exact i5 p hp hw
    · rw [if_neg ha]
      obtain ⟨i1, S', i2, i3, i4, i4', i5⟩ := ih h S hl hsub'
      refine ⟨i1, S', i2, i3, i4, i4', ?_⟩
      intro p hp hw
      rcases List.mem_cons.1 hp with rfl | hp
      · exact absurd hw ha
      · exact i5 p hp hw

theorem callOnChangedL_ok (hl : LInv s L h S) (i : Id) :
    (callOnChangedL s L i h).2 = .ok () ∧ ∃ S', (∀ K b, S' K b → S K b) ∧ LInv s L (callOnChangedL s L i h).1 S' ∧
      applied s L (callOnChangedL s L i h).1.graph = applied s L h.graph ∧
      (∀ j, ((callOnChangedL s L i h).1.node j).alive = (h.node j).alive) ∧ ∀ b, ¬ S' i b := by
  unfold callOnChangedL
  split
  · rename_i hd
    refine ⟨rfl, S, fun _ _ h => h, hl, rfl, fun _ => rfl, fun b hS => ?_⟩
    have := (hl.stale i b hS).2
    have hnil : (h.node i).dirty = [] := by simpa using hd
    rw [hnil] at this; simp at this
  · obtain ⟨i1, S', i2, i3, i4, i4', i5⟩ := syncLoop_ok (s := s) (L := L) i (h.node i).dirty (L.args i) h S hl (fun _ h => h)
    simp only [M.bind]
    rcases hst : syncLoop s i (h.node i).dirty (L.args i) h with ⟨h4, r⟩
    rw [hst] at i1 i3 i4 i4'
    dsimp only at i1 i3 i4 i4'
    subst i1
    dsimp only
    have hno : ∀ b, ¬ S' i b := by
      intro b hS
      obtain ⟨⟨hd, hm⟩, hdirty⟩ := hl.stale i b (i2 i b hS)
      exact i5 (b, hd) hm hdirty hS
    have co := cacheOnly_modify h4 i (fun n => { n with dirty := [] }) (h4.log ++ [Event.changed i (h.node i).dirty]) rfl rfl rfl rfl
    exact ⟨rfl, S', i2, i3.clean hno _, by rw [co.graph]; exact i4, fun j => (co.alive j).trans (i4' j), hno⟩

/-! ### Simulation -/

/-- `m` keeps the invariant, hands arguments on but makes none stale, and (under `P`) agrees with `q`, when run in a state where at
most the arguments in `S0` are stale. -/
def SimL (s : Sig C T V D) (L : Lam) (P : Prop) (g : Graph C T) (S0 : Id → Name → Prop)
    (m : M C T V D α) (q : Nat → Except Err α) (f : Nat) : Prop :=
  ∀ h S, (∀ K b, S K b → S0 K b) → LInv s L h S → applied s L h.graph = g →
    ∃ S', (∀ K b, S' K b → S K b) ∧ LInv s L (m h).1 S' ∧ applied s L (m h).1.graph = g ∧
      (∀ j, ((m h).1.node j).alive = (h.node j).alive) ∧ (P → Agree (m h).2 q f)

variable {P : Prop} {g : Graph C T} {S0 : Id → Name → Prop}

theorem SimL.mono {S1 : Id → Name → Prop} {m : M C T V D α} {q : Nat → Except Err α} {f : Nat} (hm : SimL s L P g S0 m q f)
    (hs : ∀ K b, S1 K b → S0 K b) : SimL s L P g S1 m q f :=
  fun h S hS => hm h S (fun K b hb => hs K b (hS K b hb))

theorem SimL.const {r : Except Err α} {q : Nat → Except Err α} {f : Nat}
    (hq : q f = r) {m : M C T V D α} (hm : ∀ h, m h = (h, r)) : SimL s L P g S0 m q f := by
  intro h S _ hl hg
  rw [hm]
  exact ⟨S, fun _ _ h => h, hl, hg, fun _ => rfl, fun _ => ⟨fun _ => hq.symm, fun _ => ⟨f, hq⟩⟩⟩

theorem SimL.fuel {q : Nat → Except Err α} {f : Nat} (hq : q f = .error .fuel) :
    SimL s L P g S0 (M.throw .fuel) q f := by
  intro h S _ hl hg
  exact ⟨S, fun _ _ h => h, hl, hg, fun _ => rfl, fun _ => ⟨fun h => absurd hq h, fun h => absurd rfl h⟩⟩

/-- Outcomes agree when the parts do. -/
theorem Agree.bind_error {q : Nat → Except Err α} {qk : Nat → α → Except Err β} {Q : Nat → Except Err β} {f : Nat} {e : Err}
    (mq : Mono q) (hQ : ∀ f', f ≤ f' → Q f' = match q f' with | .ok a => qk f' a | .error e => .error e)
    (ha : Agree (.error e) q f) : Agree (.error e) Q f := by
  have hQ0 := hQ f (Nat.le_refl f)
  obtain ⟨a1, a2⟩ := ha
  constructor
  · intro hne
    rw [hQ0] at hne ⊢
    have : q f ≠ .error .fuel := by intro hq; rw [hq] at hne; exact hne rfl
    have := a1 this
    rw [← this]
  · intro hne
    obtain ⟨f', hf'⟩ := a2 (by simpa using hne)
    refine ⟨max f' f, ?_⟩
    rw [hQ _ (Nat.le_max_right f' f), mq (Nat.le_max_left f' f) (by rw [hf']; simpa using hne), hf']

theorem Agree.bind_ok' {q : Nat → Except Err α} {qk : Nat → α → Except Err β} {Q : Nat → Except Err β} {f : Nat} {a : α}
    {r : Except Err β} (mq : Mono q) (mk : ∀ a, Mono (fun f => qk f a))
    (hQ : ∀ f', f ≤ f' → Q f' = match q f' with | .ok a => qk f' a | .error e => .error e)
    (ha : Agree (.ok a) q f) (hb : Agree r (fun f => qk f a) f) : Agree r Q f := by
  have hQ0 := hQ f (Nat.le_refl f)
  obtain ⟨a1, a2⟩ := ha
  obtain ⟨b1, b2⟩ := hb
  constructor
  · intro hne
    rw [hQ0] at hne ⊢
    have : q f ≠ .error .fuel := by intro hq; rw [hq] at hne; exact hne rfl
    have := a1 this
    rw [← this] at hne ⊢
    exact b1 hne
  · intro hne
    obtain ⟨f1, hf1⟩ := a2 (by simp)
    obtain ⟨f2, hf2⟩ := b2 hne
    refine ⟨max (max f1 f2) f, ?_⟩
    have h1 : f1 ≤ max (max f1 f2) f := by omega
    have h2 : f2 ≤ max (max f1 f2) f := by omega
    rw [hQ _ (Nat.le_max_right _ f), mq h1 (by rw [hf1]; simp), hf1]
    exact (mk a h2 (by dsimp only at hf2 ⊢; rw [hf2]; exact hne)).trans hf2

theorem SimL.bind {m : M C T V D α} {k : α → M C T V D β} {q : Nat → Except Err α}
    {qk : Nat → α → Except Err β} {Q : Nat → Except Err β} {f : Nat}
    (hm : SimL s L P g S0 m q f) (hk : ∀ a, SimL s L P g S0 (k a) (fun f => qk f a) f)
    (mq : Mono q) (mk : ∀ a, Mono (fun f => qk f a))
    (hQ : ∀ f', f ≤ f' → Q f' = match q f' with | .ok a => qk f' a | .error e => .error e) :
    SimL s L P g S0 (M.bind m k) Q f := by
  intro h S hS hl hg
  obtain ⟨S1, s1, hl1, hg1, hv1, ha1⟩ := hm h S hS hl hg
  simp only [M.bind]
  rcases hmh : m h with ⟨h1, r⟩
  rw [hmh] at hl1 hg1 ha1 hv1
  dsimp only at hl1 hg1 ha1 hv1
  cases r with
  | error e =>
    exact ⟨S1, s1, hl1, hg1, hv1, fun hp => (ha1 hp).bind_error mq hQ⟩
  | ok a =>
    dsimp only
    obtain ⟨S2, s2, hl2, hg2, hv2, ha2⟩ := hk a h1 S1 (fun K b hb => hS K b (s1 K b hb)) hl1 hg1
    exact ⟨S2, fun K b hb => s1 K b (s2 K b hb), hl2, hg2, fun j => (hv2 j).trans (hv1 j),
      fun hp => (ha1 hp).bind_ok' mq mk hQ (ha2 hp)⟩

/-- The objects whose body is up to date, as far as they are part of one. -/
def Ok (L : Lam) (S0 : Id → Name → Prop) (i : Id) : Prop := ∀ K ∈ L.owners i, ∀ b, ¬ S0 K b

/-- Moreover, if it is a lambda, its arguments have been handed on. -/
def OkS (L : Lam) (S0 : Id → Name → Prop) (i : Id) : Prop := Ok L S0 i ∧ ∀ b, ¬ S0 i b

theorem SimL.graph {m m' : M C T V D α} {q : Nat → Except Err α} {f : Nat} {i : Id} (hi : Ok L S0 i)
    (hm : SimL s L P g S0 m' q f) (he : ∀ h : Heap C T V D, (h.node i).toGNode = g i → m h = m' h) : SimL s L P g S0 m q f := by
  intro h S hS hl hg
  rw [he h ?_]
  · exact hm h S hS hl hg
  · rw [← hg, ← hl.node_eq (fun K hK b hb => hi K hK b (hS K b hb))]; rfl

/-- As `SimL.graph`, for an object that is a slice: handles are not. -/
theorem SimL.graphP {m m' : M C T V D α} {q : Nat → Except Err α} {f : Nat} {i : Id} 
    (hm : SimL s L P g S0 m' q f) (he : ∀ h : Heap C T V D, (h.node i).cls = (g i).cls →
      (s.isPermute (g i).cls = true → (h.node i).toGNode = g i) → m h = m' h) : SimL s L P g S0 m q f := by
  intro h S hS hl hg
  have hcls : (h.node i).cls = (g i).cls := by rw [← hg, applied_cls]; rfl
  rw [he h hcls ?_]
  · exact hm h S hS hl hg
  · intro hp
    have ho : L.of i = none := by
      cases ho : L.of i with
      | none => rfl
      | some q =>
        have := (hl.argOf (F := q.1) (a := q.2) ho).cls
        rw [← hcls] at hp
        have hp' : s.isPermute (h.graph i).cls = true := hp
        rw [this] at hp'; cases hp'
    rw [← hg, applied_none ho]; rfl

/-- What may be stale once `on_changed` of `i` has been called. -/
def without (S0 : Id → Name → Prop) (i : Id) : Id → Name → Prop := fun K b => S0 K b ∧ K ≠ i

theorem SimL.onChanged_bind {i : Id} {k : Unit → M C T V D α} {q : Nat → Except Err α} {f : Nat}
    (hk : SimL s L P g (without S0 i) (k ()) q f) : SimL s L P g S0 (M.bind (callOnChangedL s L i) k) q f := by
  intro h S hS hl hg
  obtain ⟨hok, S1, s1, hl1, hg1, hv1, hno⟩ := callOnChangedL_ok hl i
  simp only [M.bind]
  rcases hmh : callOnChangedL s L i h with ⟨h1', r⟩
  rw [hmh] at hok hl1 hg1 hv1
  dsimp only at hok hl1 hg1 hv1
  subst hok
  dsimp only
  obtain ⟨S2, s2, hl2, hg2, hv2, ha2⟩ := hk h1' S1
    (fun K b hb => ⟨hS K b (s1 K b hb), by rintro rfl; exact hno b hb⟩) hl1 (hg1.trans hg)
  exact ⟨S2, fun K b hb => s1 K b (s2 K b hb), hl2, hg2, fun j => (hv2 j).trans (hv1 j), ha2⟩

theorem SimL.emit_bind {e : Event} {k : Unit → M C T V D α} {q : Nat → Except Err α} {f : Nat}
    (hk : SimL s L P g S0 (k ()) q f) : SimL s L P g S0 (M.bind (emit e) k) q f := by
  intro h S hS hl hg
  exact hk (emit e h).1 S hS (hl.emit e) hg

theorem SimL.weaken {m : M C T V D α} {q : Nat → Except Err α} {f : Nat}
    (hm : SimL s L True g S0 m q f) : SimL s L P g S0 m q f :=
  fun h S hS hl hg => let ⟨S', a, b, c, d, e⟩ := hm h S hS hl hg; ⟨S', a, b, c, d, fun _ => e trivial⟩

/-- Requests that may be made when at most `S0` is stale. -/
def OkReq (s : Sig C T V D) (L : Lam) (g : Graph C T) (S0 : Id → Name → Prop) : Req → Prop
  | .r i => Ok L S0 i
  | .prop i _ => Ok L S0 i ∧ ((∀ b, ¬ S0 i b) ∨ ∀ p, s.propDecl (g i).cls p = none)

/-- Links lead out of a lambda's body, not into it. -/
def EncG (L : Lam) (g : Graph C T) : Prop := ∀ i k c, (g i).dterms k = some c → ∀ K ∈ L.owners c, K = i ∨ K ∈ L.owners i

theorem OkS.child (he : EncG L g) {i c : Id} {k : Name} (hi : OkS L S0 i) (hk : (g i).dterms k = some c) : Ok L S0 c := by
  intro K hK b hb
  rcases he i k c hk K hK with h | h
  · subst h; exact hi.2 b hb
  · exact hi.1 K h b hb

theorem OkS.without {i j : Id} (hi : OkS L S0 i) : OkS L (without S0 j) i :=
  ⟨fun K hK b hb => hi.1 K hK b hb.1, fun b hb => hi.2 b hb.1⟩

theorem Ok.without {i j : Id} (hi : Ok L S0 i) : Ok L (without S0 j) i := fun K hK b hb => hi K hK b hb.1

theorem Ok.okS {i : Id} (hi : Ok L S0 i) : OkS L (Chumpy.without S0 i) i := ⟨hi.without, fun _ hb => hb.2 rfl⟩

theorem runProg_simL {f : Nat} {rd : Req → M C T V D V} (he : EncG L g) {i : Id} (hi : OkS L S0 i)
    (hrd : ∀ q, OkReq s L g S0 q → SimL s L P g S0 (rd q) (fun f => evalReq s g f q) f) (p : Prog T V α) :
    SimL s L P g S0 (runProg rd i p) (fun f => evalProg g (evalReq s g f) i p) f := by
  induction p with
  | ret a => exact SimL.const (r := .ok a) rfl (fun _ => rfl)
  | raise c => exact SimL.const (r := .error (.user c)) rfl (fun _ => rfl)
  | term n k ih =>
    refine SimL.graph hi.1 (ih ((g i).terms n)) ?_
    intro h hg
    simp only [runProg, hg]
  | child n k ih =>
    cases hd : (g i).dterms n with
    | none =>
      refine SimL.graph (m' := M.throw .attr) hi.1 (SimL.const (r := .error .attr) ?_ (fun _ => rfl)) ?_
      · simp only [evalProg, hd]
      · intro h hg
        simp only [runProg, hg, hd]; rfl
    | some c =>
      refine SimL.graph (m' := M.bind (rd (.r c)) (fun v => runProg rd i (k v))) hi.1
        (SimL.bind (q := fun f => evalReq s g f (.r c)) (qk := fun f v => evalProg g (evalReq s g f) i (k v))
          (hrd _ (hi.child he hd)) ih (mono_evalReq s g _) (fun a => mono_evalProg s g i _) ?_) ?_
      · intro f _
        simp only [evalProg, hd]
        cases evalReq s g f (.r c) <;> rfl
      · intro h hg
        simp only [runProg, hg, hd]
  | prop p k ih =>
    refine SimL.bind (q := fun f => evalReq s g f (.prop i p)) (qk := fun f v => evalProg g (evalReq s g f) i (k v))
          (hrd _ ⟨hi.1, Or.inl hi.2⟩) ih (mono_evalReq s g _) (fun a => mono_evalProg s g i _) ?_
    intro f _
    simp only [evalProg]
    cases evalReq s g f (.prop i p) <;> rfl
  | selfR k ih =>
    refine SimL.bind (q := fun f => evalReq s g f (.r i)) (qk := fun f v => evalProg g (evalReq s g f) i (k v))
          (hrd _ hi.1) ih (mono_evalReq s g _) (fun a => mono_evalProg s g i _) ?_
    intro f _
    simp only [evalProg]
    cases evalReq s g f (.r i) <;> rfl

/-- Cached values of objects whose body is up to date are claimed to be right. -/
theorem not_exempt {i : Id} (hi : Ok L S0 i) (hS : ∀ K b, S K b → S0 K b) : ¬ Exempt L h.graph S i := by
  rintro ⟨K, b, _, hb, _, hK, _⟩
  exact hi K hK b (hS K b hb)

theorem readL_sim_true (he : EncG L g) (f : Nat) : ∀ q S0, OkReq s L g S0 q →
    SimL s L True g S0 (readL s L f q) (fun f => evalReq s g f q) f := by
  induction f with
  | zero => intro q S0 _; exact SimL.fuel (by cases q <;> rfl)
  | succ f ih =>
    intro q S0 hq
    cases q with
    | r i =>
      refine SimL.onChanged_bind ?_
      have hiS : OkS L (without S0 i) i := Ok.okS hq
      intro h S hS hl hg
      dsimp only
      cases hcr : (h.node i).cacheR with
      | some v =>
        refine ⟨S, fun _ _ h => h, hl, hg, fun _ => rfl, fun _ => ?_⟩
        obtain ⟨hne, f', hf'⟩ := hl.coh.r i v (not_exempt hiS.1 hS) hcr
        rw [Heap.applied_graph, hg] at hf'
        exact Agree.of_known (mono_evalReq s g (.r i)) hne hf'
      | none =>
        dsimp only
        have hcls : (h.node i).cls = (g i).cls := by rw [← hg, applied_cls]; rfl
        rw [hcls]
        refine SimL.emit_bind ?_ h S hS hl hg
        intro h S hS hl hg
        obtain ⟨S1, s1, hl1, hg1, hv1, ha⟩ := runProg_simL (α := V) he hiS (fun q hq => ih q _ hq) (s.computeR (g i).cls) h S hS hl hg
        simp only [M.bind]
        rcases hm : runProg (readL s L f) i (s.computeR (g i).cls) h with ⟨h1, r⟩
        rw [hm] at hl1 hg1 ha hv1
        dsimp only at hl1 hg1 ha hv1
        obtain ⟨a1, a2⟩ := ha trivial
        cases r with
        | error e =>
          refine ⟨S1, s1, hl1, hg1, hv1, fun _ => ⟨a1, fun hne => ?_⟩⟩
          obtain ⟨f', hf'⟩ := a2 hne
          exact ⟨f' + 1, hf'⟩
        | ok v =>
          dsimp only
          have hmv : Means s (applied s L h1.graph) (.r i) (.ok v) := by
            obtain ⟨f', hf'⟩ := a2 (by simp)
            refine ⟨by simp, f' + 1, ?_⟩
            rw [hg1]; exact hf'
          have co := cacheOnly_modify h1 i (fun n => { n with cacheR := some v }) h1.log rfl rfl rfl rfl
          refine ⟨S1, s1, hl1.storeR hmv, ?_, ?_, fun _ => ⟨a1, fun hne => ?_⟩⟩
          · have : (Chumpy.storeR i v h1).1.graph = h1.graph := co.graph
            rw [this]; exact hg1
          · intro j; exact (co.alive j).trans (hv1 j)
          · obtain ⟨f', hf'⟩ := a2 (by simp)
            exact ⟨f' + 1, hf'⟩
    | prop i p =>
      intro h S hS hl hg
      have hcls : (h.node i).cls = (g i).cls := by rw [← hg, applied_cls]; rfl
      simp only [readL, hcls]
      cases hpd : s.propDecl (g i).cls p with
      | none =>
        exact ⟨S, fun _ _ h => h, hl, hg, fun _ => rfl, fun _ => ⟨fun _ => by simp [evalReq, hpd], fun _ => ⟨1, by simp [evalReq, hpd]⟩⟩⟩
      | some dd =>
        dsimp only
        have hiS : OkS L S0 i := by
          refine ⟨hq.1, ?_⟩
          rcases hq.2 with h1 | h1
          · exact h1
          · rw [h1 p] at hpd; cases hpd
        cases hcr : (h.node i).props p with
        | some v =>
          refine ⟨S, fun _ _ h => h, hl, hg, fun _ => rfl, fun _ => ?_⟩
          have := hl.coh.p i p v hcr ?_
          · obtain ⟨hne, f', hf'⟩ := this
            rw [Heap.applied_graph, hg] at hf'
            exact Agree.of_known (mono_evalReq s g (.prop i p)) hne hf'
          · intro d _ k _ c hc
            rw [Heap.applied_graph, hg] at hc
            exact not_exempt (hiS.child he hc) hS
        | none =>
          dsimp only
          refine SimL.emit_bind ?_ h S hS hl hg
          intro h S hS hl hg
          obtain ⟨S1, s1, hl1, hg1, hv1, ha⟩ := runProg_simL (α := V) he hiS (fun q hq => ih q _ hq) dd.2 h S hS hl hg
          have hev : ∀ f, evalReq s g (f + 1) (.prop i p) = evalProg g (evalReq s g f) i dd.2 := by
            intro f; simp [evalReq, hpd]
          simp only [M.bind]
          rcases hm : runProg (readL s L f) i dd.2 h with ⟨h1, r⟩
          rw [hm] at hl1 hg1 ha hv1
          dsimp only at hl1 hg1 ha hv1
          obtain ⟨a1, a2⟩ := ha trivial
          have a1' : evalReq s g (f + 1) (.prop i p) ≠ .error .fuel → r = evalReq s g (f + 1) (.prop i p) := by
            rw [hev]; exact a1
          cases r with
          | error e =>
            refine ⟨S1, s1, hl1, hg1, hv1, fun _ => ⟨a1', fun hne => ?_⟩⟩
            obtain ⟨f', hf'⟩ := a2 hne
            exact ⟨f' + 1, (hev f').trans hf'⟩
          | ok v =>
            dsimp only
            have hmv : Means s (applied s L h1.graph) (.prop i p) (.ok v) := by
              obtain ⟨f', hf'⟩ := a2 (by simp)
              refine ⟨by simp, f' + 1, ?_⟩
              rw [hg1, hev]; exact hf'
            have co := cacheOnly_modify h1 i (fun n => { n with props := fun q => if q = p then some v else n.props q }) h1.log rfl rfl rfl rfl
            refine ⟨S1, s1, hl1.storeProp hmv, ?_, ?_, fun _ => ⟨a1', fun hne => ?_⟩⟩
            · have : (Chumpy.storeProp i p v h1).1.graph = h1.graph := co.graph
              rw [this]; exact hg1
            · intro j; exact (co.alive j).trans (hv1 j)
            · obtain ⟨f', hf'⟩ := a2 (by simp)
              exact ⟨f' + 1, (hev f').trans hf'⟩

theorem readL_sim (he : EncG L g) (f : Nat) (q : Req) (hq : OkReq s L g S0 q) :
    SimL s L P g S0 (readL s L f q) (fun f => evalReq s g f q) f :=
  (readL_sim_true he f q S0 hq).weaken

/-! ### Derivatives -/

theorem runCompDrL_sim (he : EncG L g) (f : Nat) {i : Id} (hi : OkS L S0 i) (w : Id) :
    SimL s L P g S0 (runCompDrL s L f i w) (fun f => evalCompDr s g f i w) f := by
  refine SimL.emit_bind ?_
  refine SimL.graph hi.1 (runProg_simL he hi (readL_sim he f)
    (s.computeDr (g i).cls (i == w) ((g i).namesOf w))) ?_
  intro h hg
  simp only [hg]

theorem sliceLoopL_sim (he : EncG L g) (f : Nat) {i : Id} (hi : OkS L S0 i) : ∀ (n c : Nat) (x : Id), n = f - c →
    SimL s L P g S0 (sliceLoopL s L f i n x) (fun f' => evalSlice s g f' i (f' - c) x) f := by
  intro n
  induction n with
  | zero => intro c x hn; exact SimL.fuel (by rw [← hn]; rfl)
  | succ n ih =>
    intro c x hn
    have hsucc : ∀ f', f ≤ f' → f' - c = (f' - (c + 1)) + 1 := by intro f' hf'; omega
    by_cases hp : s.isPermute (g x).cls = true
    · cases hd : (g x).dterms s.permArg with
      | none =>
        refine SimL.graphP (m' := M.throw .attr) (i := x) (SimL.const (r := .error .attr) ?_ (fun _ => rfl)) ?_
        · rw [hsucc f (Nat.le_refl f)]; simp [evalSlice, hp, hd]
        · intro h h1 h2
          simp [sliceLoopL, h2 hp, hp, hd, M.throw]
      | some y =>
        by_cases hy : y = i
        · refine SimL.graphP (m' := M.pure none) (i := x) (SimL.const (r := .ok none) ?_ (fun _ => rfl)) ?_
          · rw [hsucc f (Nat.le_refl f)]; simp [evalSlice, hp, hd, hy]
          · intro h h1 h2
            simp [sliceLoopL, h2 hp, hp, hd, hy, M.pure]
        · refine SimL.graphP (i := x) (m' := M.bind (runCompDrL s L f i y) (fun
            | some d => M.pure (some (y, d))
            | none => sliceLoopL s L f i n y))
            (SimL.bind (q := fun f => evalCompDr s g f i y)
              (qk := fun f' o => match o with
                | some d => .ok (some (y, d))
                | none => evalSlice s g f' i (f' - (c + 1)) y)
              (runCompDrL_sim he f hi y) ?_ (mono_evalCompDr s g i y) ?_ ?_) ?_
          · intro o
            cases o with
            | some d => exact SimL.const (r := .ok (some (y, d))) rfl (fun _ => rfl)
            | none => exact ih (c + 1) y (by omega)
          · intro o
            cases o with
            | some d => intro _ _ _ _; rfl
            | none => exact mono_evalSlice s g i (c + 1) y
          · intro f' hf'
            rw [hsucc f' hf']
            simp only [evalSlice, hp, hd, hy, if_true, if_false]
            cases evalCompDr s g f' i y with
            | error e => rfl
            | ok o => cases o <;> rfl
          · intro h h1 h2
            have h3 : (h.node x).dterms = (g x).dterms := by rw [h2 hp]
            simp only [sliceLoopL, h1, h3, hp, hd, hy, if_true, if_false]
            rfl
    · refine SimL.graphP (i := x) (m' := M.pure none) (SimL.const (r := .ok none) ?_ (fun _ => rfl)) ?_
      · rw [hsucc f (Nat.le_refl f)]; simp [evalSlice, hp]
      · intro h h1 _
        simp [sliceLoopL, h1, hp, M.pure]

theorem drSlicedL_sim (he : EncG L g) (f : Nat) {i w : Id} (hi : Ok L S0 i) (hw : Ok L S0 w) :
    SimL s L P g S0 (drSlicedL s L f i w) (fun f => evalSliced s g f i w) f := by
  refine SimL.onChanged_bind ?_
  have hiS : OkS L (without S0 i) i := Ok.okS hi
  refine SimL.bind (q := fun f => evalCompDr s g f i w)
    (qk := fun f o => match o with
      | some d => .ok (some d)
      | none => match evalSlice s g f i f w with
        | .error e => .error e
        | .ok o => sliceTail s g f w o)
    (runCompDrL_sim he f hiS w) ?_ (mono_evalCompDr s g i w) ?_ ?_
  · intro o
    cases o with
    | some d => exact SimL.const (r := .ok (some d)) rfl (fun _ => rfl)
    | none =>
      refine SimL.bind (q := fun f => evalSlice s g f i (f - 0) w) (qk := fun f o => sliceTail s g f w o)
        (sliceLoopL_sim he f hiS f 0 w (by omega)) ?_ (mono_evalSlice s g i 0 w) (mono_sliceTail s g w) ?_
      · intro o
        cases o with
        | none => exact SimL.const (r := .ok none) rfl (fun _ => rfl)
        | some x =>
          obtain ⟨inner, d⟩ := x
          refine SimL.onChanged_bind ?_
          refine SimL.bind (q := fun f => evalCompDr s g f w inner)
            (qk := fun _ o => match o with
              | none => .error .attr
              | some j => (s.superdot d (s.transp j)).map some)
            (runCompDrL_sim he f (Ok.okS hw.without) inner) ?_ (mono_evalCompDr s g w inner) ?_ ?_
          · intro o
            cases o with
            | none => exact SimL.const (r := .error .attr) rfl (fun _ => rfl)
            | some j => exact SimL.const (r := (s.superdot d (s.transp j)).map some) rfl (fun _ => rfl)
          · intro o; exact mono_const _
          · intro f' _
            simp only [sliceTail]
            cases evalCompDr s g f' w inner with
            | error e => rfl
            | ok o => cases o <;> rfl
      · intro f' _
        simp only [Nat.sub_zero]
        cases evalSlice s g f' i f' w <;> rfl
  · intro o
    cases o with
    | some d => exact mono_const _
    | none =>
      intro f f' h
      have hs := evalSlice_mono s g h i h w
      dsimp only
      cases h2 : evalSlice s g f i f w with
      | error e => intro hne; rw [h2] at hs; rw [hs (by simpa using hne)]
      | ok o => rw [h2] at hs; rw [hs (by simp)]; exact mono_sliceTail s g w o h
  · intro f' _
    simp only [evalSliced]
    cases evalCompDr s g f' i w with
    | error e => rfl
    | ok o =>
      cases o with
      | some d => rfl
      | none =>
        dsimp only
        cases evalSlice s g f' i f' w with
        | error e => rfl
        | ok o => cases o <;> rfl

theorem drTermsL_sim (he : EncG L g) (f : Nat) {i : Id} (hi : OkS L S0 i) (w : Id) {rec : Id → M C T V D (Option D)}
    {ev : Nat → Id → Except Err (Option D)}
    (hrec : ∀ p, Ok L S0 p → SimL s L P g S0 (rec p) (fun f => ev f p) f) (mev : ∀ p, Mono (fun f => ev f p))
    (ks : List Name) : ∀ acc,
    SimL s L P g S0 (drTermsL s L f i w rec ks acc) (fun f => evalTerms s g f i w (ev f) ks acc) f := by
  induction ks with
  | nil => intro acc; exact SimL.const (r := .ok acc) rfl (fun _ => rfl)
  | cons k ks ih =>
    intro acc
    have mt : ∀ acc, Mono (fun f => evalTerms s g f i w (ev f) ks acc) :=
      fun acc _ _ h => evalTerms_mono s g h i w (fun p => mev p h) ks acc
    cases hd : (g i).dterms k with
    | none =>
      refine SimL.graph (m' := drTermsL s L f i w rec ks acc) hi.1 (by simpa only [evalTerms, hd] using ih acc) ?_
      intro h hg
      simp only [drTermsL, hg, hd]
    | some p =>
      by_cases hp : p = w
      · refine SimL.graph (m' := drTermsL s L f i w rec ks acc) hi.1 (by simpa only [evalTerms, hd, hp, if_true] using ih acc) ?_
        intro h hg
        simp only [drTermsL, hg, hd, hp, if_true]
      · refine SimL.graph (m' := M.bind (rec p) (fun
          | none => drTermsL s L f i w rec ks acc
          | some d2 =>
            M.bind (drSlicedL s L f i p) (fun
              | none => drTermsL s L f i w rec ks acc
              | some d =>
                M.bind (M.lift (s.superdot d d2)) (fun x =>
                  drTermsL s L f i w rec ks (acc ++ [x]))))) hi.1 ?_ ?_
        · have m3 : ∀ (d2 : D) (o : Option D), Mono (fun f => match o with
              | none => evalTerms s g f i w (ev f) ks acc
              | some d => match s.superdot d d2 with
                | .error e => .error e
                | .ok x => evalTerms s g f i w (ev f) ks (acc ++ [x])) := by
            intro d2 o
            cases o with
            | none => exact mt acc
            | some d =>
              dsimp only
              cases s.superdot d d2 with
              | error e => exact mono_const _
              | ok x => exact mt _
          have m2 : ∀ o : Option D, Mono (fun f => match o with
            | none => evalTerms s g f i w (ev f) ks acc
            | some d2 =>
              match evalSliced s g f i p with
              | .error e => .error e
              | .ok o => match o with
                | none => evalTerms s g f i w (ev f) ks acc
                | some d => match s.superdot d d2 with
                  | .error e => .error e
                  | .ok x => evalTerms s g f i w (ev f) ks (acc ++ [x])) := by
            intro o
            cases o with
            | none => exact mt acc
            | some d2 =>
              intro f f' h
              dsimp only
              have hs := evalSliced_mono s g h i p
              cases h2 : evalSliced s g f i p with
              | error e => intro hne; rw [h2] at hs; rw [hs (by simpa using hne)]
              | ok o => rw [h2] at hs; rw [hs (by simp)]; exact m3 d2 o h
          refine SimL.bind (q := fun f => ev f p) (qk := fun f o => match o with
            | none => evalTerms s g f i w (ev f) ks acc
            | some d2 =>
              match evalSliced s g f i p with
              | .error e => .error e
              | .ok o => match o with
                | none => evalTerms s g f i w (ev f) ks acc
                | some d => match s.superdot d d2 with
                  | .error e => .error e
                  | .ok x => evalTerms s g f i w (ev f) ks (acc ++ [x]))
            (hrec p (hi.child he hd)) ?_ (mev p) m2 ?_
          · intro o
            cases o with
            | none => exact ih acc
            | some d2 =>
              refine SimL.bind (q := fun f => evalSliced s g f i p) (qk := fun f o => match o with
                | none => evalTerms s g f i w (ev f) ks acc
                | some d => match s.superdot d d2 with
                  | .error e => .error e
                  | .ok x => evalTerms s g f i w (ev f) ks (acc ++ [x]))
                (drSlicedL_sim he f hi.1 (hi.child he hd)) ?_ (mono_evalSliced s g i p) (m3 d2) ?_
              · intro o
                cases o with
                | none => exact ih acc
                | some d =>
                  refine SimL.bind (q := fun _ => s.superdot d d2)
                    (qk := fun f x => evalTerms s g f i w (ev f) ks (acc ++ [x]))
                    (SimL.const (r := s.superdot d d2) rfl (fun _ => rfl)) (fun x => ih _) (mono_const _)
                    (fun x => mt _) ?_
                  intro f' _
                  dsimp only
                  cases s.superdot d d2 <;> rfl
              · intro f' _
                dsimp only
                cases evalSliced s g f' i p <;> rfl
          · intro f' _
            simp only [evalTerms, hd, hp, if_false]
            cases ev f' p with
            | error e => rfl
            | ok o =>
              cases o with
              | none => rfl
              | some d2 =>
                dsimp only
                cases evalSliced s g f' i p with
                | error e => rfl
                | ok o => cases o <;> rfl
        · intro h hg
          simp only [drTermsL, hg, hd, hp, if_false]
          rfl

/-- The central lemma for derivatives. -/
theorem drWrtL_sim (he : EncG L g) (f : Nat) : ∀ i w S0, Ok L S0 i → Ok L S0 w →
    SimL s L (Plain s g ∧ NotSlice s g w) g S0 (drWrtL s L f i w) (fun f => evalDr s g f i w) f := by
  induction f with
  | zero => intro i w S0 _ _; exact SimL.fuel rfl
  | succ f ih =>
    intro i w S0 hi hw
    refine SimL.onChanged_bind ?_
    have hiS : OkS L (without S0 i) i := Ok.okS hi
    have hw' : Ok L (without S0 i) w := hw.without
    intro h S hS hl hg
    dsimp only
    cases hcd : (h.node i).drs w with
    | some d =>
      refine ⟨S, fun _ _ h => h, hl, hg, fun _ => rfl, fun hP => ?_⟩
      obtain ⟨hne, f', hf'⟩ := hl.coh.d (by rw [Heap.applied_graph, hg]; exact hP.1) i w d (not_exempt hiS.1 hS)
        (by rw [Heap.applied_graph, hg]; exact hP.2) hcd
      rw [Heap.applied_graph, hg] at hf'
      exact Agree.of_known (fun h => evalDr_mono s g h i w) hne hf'
    | none =>
      dsimp only
      have hsum : SimL s L (Plain s g ∧ NotSlice s g w) g (without S0 i)
          (M.bind (drSlicedL s L f i w) fun direct =>
            M.bind (fun h => drTermsL s L f i w (fun p => drWrtL s L f p w) (h.node i).dnames direct.toList h)
              fun ds => M.lift (sumD s ds))
          (evalSum s g i w) f := by
        have mt : ∀ o : Option D, Mono (fun f =>
            evalTerms s g f i w (fun p => evalDr s g f p w) (g i).dnames o.toList) :=
          fun o _ _ h => evalTerms_mono s g h i w (fun p => evalDr_mono s g h p w) _ _
        refine SimL.bind (q := fun f => evalSliced s g f i w) (qk := fun f direct =>
              match evalTerms s g f i w (fun p => evalDr s g f p w) (g i).dnames direct.toList with
              | .error e => .error e
              | .ok ds => sumD s ds)
          (drSlicedL_sim he f hiS.1 hw') ?_ (mono_evalSliced s g i w) ?_ ?_
        · intro o
          refine SimL.bind (q := fun f => evalTerms s g f i w (fun p => evalDr s g f p w) (g i).dnames o.toList)
            (qk := fun _ ds => sumD s ds) ?_ ?_ (mt o) (fun _ => mono_const _) ?_
          · refine SimL.graph hiS.1 (drTermsL_sim he f hiS w (ev := fun f p => evalDr s g f p w) (fun p hp => ih p w _ hp hw')
              (fun p _ _ h => evalDr_mono s g h p w) (g i).dnames o.toList) ?_
            intro h hg; simp only [hg]
          · intro ds; exact SimL.const (r := sumD s ds) rfl (fun _ => rfl)
          · intro f' _
            cases evalTerms s g f' i w (fun p => evalDr s g f' p w) (g i).dnames o.toList <;> rfl
        · intro o f f' h
          have ht := mt o h
          dsimp only at ht ⊢
          cases h2 : evalTerms s g f i w (fun p => evalDr s g f p w) (g i).dnames o.toList with
          | error e => intro hne; rw [h2] at ht; rw [ht (by simpa using hne)]
          | ok ds => rw [h2] at ht; rw [ht (by simp)]; exact Le.rfl
        · intro f' _
          simp only [evalSum]
          cases evalSliced s g f' i w <;> rfl
      have hassoc : (M.bind (drSlicedL s L f i w) (fun direct =>
          M.bind (fun h => drTermsL s L f i w (fun p => drWrtL s L f p w) (h.node i).dnames direct.toList h) fun ds =>
          M.bind (M.lift (sumD s ds)) fun r =>
          M.bind (storeDr i w (r.map s.finish)) fun _ => fun h =>
            (h, .ok ((r.map s.finish).map (s.outForm (h.node i).makeDense (h.node i).makeSparse))))) h
        = M.bind (M.bind (drSlicedL s L f i w) fun direct =>
            M.bind (fun h => drTermsL s L f i w (fun p => drWrtL s L f p w) (h.node i).dnames direct.toList h)
              fun ds => M.lift (sumD s ds)) (fun r =>
          M.bind (storeDr i w (r.map s.finish)) fun _ => fun h =>
            (h, .ok ((r.map s.finish).map (s.outForm (h.node i).makeDense (h.node i).makeSparse)))) h := by
        simp only [M.bind]
        rcases drSlicedL s L f i w h with ⟨h1, r1⟩
        cases r1 with
        | error e => rfl
        | ok o =>
          dsimp only
          rcases drTermsL s L f i w (fun p => drWrtL s L f p w) (h1.node i).dnames o.toList h1 with ⟨h2, r2⟩
          cases r2 <;> rfl
      rw [hassoc]
      obtain ⟨S1, s1, hl1, hg1, hv1, ha⟩ := hsum h S hS hl hg
      revert hl1 hg1 hv1 ha
      generalize (M.bind (drSlicedL s L f i w) fun direct =>
            M.bind (fun h => drTermsL s L f i w (fun p => drWrtL s L f p w) (h.node i).dnames direct.toList h)
              fun ds => M.lift (sumD s ds)) = mm
      intro hl1 hg1 hv1 ha
      have hev : ∀ f, evalDr s g (f + 1) i w = match evalSum s g i w f with
          | .error e => .error e
          | .ok r => .ok (r.map (fun d => s.outForm (g i).makeDense (g i).makeSparse (s.finish d))) := by
        intro f
        rw [evalDr, evalSum]
        cases evalSliced s g f i w with
        | error e => rfl
        | ok o =>
          dsimp only
          cases evalTerms s g f i w (fun p => evalDr s g f p w) (g i).dnames o.toList <;> rfl
      simp only [M.bind]
      rcases hm : mm h with ⟨h1, r⟩
      rw [hm] at hl1 hg1 hv1 ha
      dsimp only at hl1 hg1 hv1 ha
      cases r with
      | error e =>
        refine ⟨S1, s1, hl1, hg1, hv1, fun hP => ?_⟩
        obtain ⟨a1, a2⟩ := ha hP
        constructor
        · intro hne
          dsimp only at hne ⊢
          rw [hev] at hne ⊢
          have := a1 (by intro hx; rw [hx] at hne; exact hne rfl)
          rw [← this]
        · intro hne
          obtain ⟨f', hf'⟩ := a2 (by simpa using hne)
          exact ⟨f' + 1, by dsimp only; rw [hev, hf']⟩
      | ok o =>
        dsimp only
        have hsf := storeDr_frame i w (o.map s.finish) h1
        have hsok : (storeDr i w (o.map s.finish) h1).2 = .ok () := by unfold storeDr; split <;> rfl
        obtain ⟨hco, hgr⟩ := hl1.storeDr (i := i) (w := w) (d := o.map s.finish) (by
          intro hp hw
          rw [hg1] at hp hw ⊢
          obtain ⟨f', hf'⟩ := (ha ⟨hp, hw⟩).2 (by simp)
          refine ⟨by simp, f' + 1, ?_⟩
          rw [hev, hf', (hp.2 i).1, (hp.2 i).2]
          simp [hp.1])
        rcases hst : storeDr i w (o.map s.finish) h1 with ⟨h2, r2⟩
        rw [hst] at hsf hco hsok hgr
        dsimp only at hsok hgr hco hsf
        subst hsok
        refine ⟨S1, s1, hco, by rw [hgr]; exact hg1, fun j => (hsf.alive j).trans (hv1 j), fun hP => ?_⟩
        obtain ⟨a1, a2⟩ := ha hP
        have e1 : (h2.node i).makeDense = (g i).makeDense := by
          rw [← hg1, (applied_flags h1.graph i).1, ← hgr]; rfl
        have e2 : (h2.node i).makeSparse = (g i).makeSparse := by
          rw [← hg1, (applied_flags h1.graph i).2, ← hgr]; rfl
        dsimp only
        rw [e1, e2]
        constructor
        · intro hne
          dsimp only at hne ⊢
          rw [hev] at hne ⊢
          have := a1 (by intro hx; rw [hx] at hne; exact hne rfl)
          rw [← this]
          simp [Function.comp_def]
        · intro _
          obtain ⟨f', hf'⟩ := a2 (by simp)
          exact ⟨f' + 1, by dsimp only; rw [hev, hf']; simp [Function.comp_def]⟩

end Chumpy
