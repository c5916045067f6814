import Verif.Core.ReadFrame
import Verif.Core.Str
import Verif.Core.Indep
/-!
# How often a derivative is computed

Counts the calls of `compute_dr_wrt` that one `dr_wrt` makes.
-/
namespace Chumpy
variable {C T V D α β : Type} {s : Sig C T V D}

/-- How often `j.compute_dr_wrt(p)` has been called so far. -/
def Heap.ran (h : Heap C T V D) (j p : Id) : Nat := h.log.count (.ranDr j p)

/-- No derivative was computed or stored. -/
structure Quiet (h h' : Heap C T V D) : Prop where
  ran : ∀ j p, h'.ran j p = h.ran j p
  drs : ∀ j, (h'.node j).drs = (h.node j).drs

theorem Quiet.refl (h : Heap C T V D) : Quiet h h := ⟨fun _ _ => rfl, fun _ => rfl⟩
theorem Quiet.trans {a b c : Heap C T V D} (x : Quiet a b) (y : Quiet b c) : Quiet a c :=
  ⟨fun j p => (y.ran j p).trans (x.ran j p), fun j => (y.drs j).trans (x.drs j)⟩

theorem quiet_bind {m : M C T V D α} {k : α → M C T V D β} (hm : ∀ h, Quiet h (m h).1) (hk : ∀ a h, Quiet h (k a h).1) (h : Heap C T V D) :
    Quiet h (M.bind m k h).1 := by
  have := hm h
  simp only [M.bind]
  rcases hx : m h with ⟨h1, r⟩
  rw [hx] at this
  cases r with
  | error e => exact this
  | ok a => exact this.trans (hk a h1)

theorem ran_append (h : Heap C T V D) (e : Event) (he : ∀ j p, e ≠ .ranDr j p) (nd : Id → Node C T V D) (j p : Id) :
    ({ h with node := nd, log := h.log ++ [e] } : Heap C T V D).ran j p = h.ran j p := by
  unfold Heap.ran
  rw [List.count_append, List.count_singleton]
  simp [he j p]

theorem quiet_onChanged (i : Id) (h : Heap C T V D) : Quiet h (callOnChanged i h).1 := by
  unfold callOnChanged
  split
  · exact Quiet.refl h
  · refine ⟨fun j p => ?_, fun j => ?_⟩
    · exact ran_append h (.changed i (h.node i).dirty) (by intro j p e; cases e) _ j p
    · simp only [Heap.modify]; split
      · subst_vars; rfl
      · rfl

theorem quiet_emit {e : Event} (he : ∀ j p, e ≠ .ranDr j p) (h : Heap C T V D) : Quiet h (emit e h).1 :=
  ⟨fun j p => ran_append h e he h.node j p, fun _ => rfl⟩

theorem quiet_storeR (i : Id) (v : V) (h : Heap C T V D) : Quiet h (storeR i v h).1 :=
  ⟨fun _ _ => rfl, fun j => by
    simp only [storeR, Heap.modify]; split
    · subst_vars; rfl
    · rfl⟩

theorem quiet_storeProp (i : Id) (p : Name) (v : V) (h : Heap C T V D) : Quiet h (storeProp i p v h).1 :=
  ⟨fun _ _ => rfl, fun j => by
    simp only [storeProp, Heap.modify]; split
    · subst_vars; rfl
    · rfl⟩

theorem quiet_runProg {rd : Req → M C T V D V} (hrd : ∀ q h, Quiet h (rd q h).1) (i : Id) (p : Prog T V α) : ∀ h, Quiet h (runProg rd i p h).1 := by
  induction p with
  | ret a => exact Quiet.refl
  | raise c => exact Quiet.refl
  | term n k ih => intro h; exact ih _ h
  | child n k ih =>
    intro h
    simp only [runProg]
    cases (h.node i).dterms n with
    | none => exact Quiet.refl h
    | some c => exact quiet_bind (hrd _) ih h
  | prop p k ih => exact quiet_bind (hrd _) ih
  | selfR k ih => exact quiet_bind (hrd _) ih

/-- Reading values computes no derivatives. -/
theorem quiet_read (f : Nat) : ∀ q (h : Heap C T V D), Quiet h (read s f q h).1 := by
  induction f with
  | zero => intro q h; exact Quiet.refl h
  | succ f ih =>
    intro q
    cases q with
    | r i =>
      refine quiet_bind (quiet_onChanged i) fun _ h => ?_
      cases (h.node i).cacheR with
      | some v => exact Quiet.refl h
      | none => exact quiet_bind (quiet_emit (by intro j p e; cases e)) (fun _ => quiet_bind (quiet_runProg ih i _) (fun v => quiet_storeR i v)) h
    | prop i p =>
      intro h
      simp only [read]
      cases s.propDecl (h.node i).cls p with
      | none => exact Quiet.refl h
      | some d =>
        dsimp only
        cases (h.node i).props p with
        | some v => exact Quiet.refl h
        | none => exact quiet_bind (quiet_emit (by intro j p e; cases e)) (fun _ => quiet_bind (quiet_runProg ih i _) (fun v => quiet_storeProp i p v)) h

/-- One call of `i.compute_dr_wrt(w)`, nothing stored. -/
structure OneCall (i w : Id) (h h' : Heap C T V D) : Prop where
  ran : ∀ j p, h'.ran j p = h.ran j p + if j = i ∧ p = w then 1 else 0
  drs : ∀ j, (h'.node j).drs = (h.node j).drs

theorem OneCall.after {i w : Id} {a b c : Heap C T V D} (x : OneCall i w a b) (y : Quiet b c) : OneCall i w a c :=
  ⟨fun j p => by rw [y.ran, x.ran], fun j => (y.drs j).trans (x.drs j)⟩

theorem runCompDr_one (f : Nat) (i w : Id) (h : Heap C T V D) : OneCall i w h (runCompDr s f i w h).1 := by
  have h1 : OneCall i w h (emit (.ranDr i w) h).1 := by
    refine ⟨fun j p => ?_, fun _ => rfl⟩
    show List.count _ (h.log ++ [Event.ranDr i w]) = _
    rw [List.count_append, List.count_singleton]
    by_cases e : j = i ∧ p = w
    · rw [if_pos e, if_pos (by rw [e.1, e.2]; simp)]; rfl
    · rw [if_neg e, if_neg]
      · rfl
      · intro hh
        have := eq_of_beq hh
        injection this with a b
        exact e ⟨a.symm, b.symm⟩
  exact h1.after (quiet_runProg (quiet_read f) i _ _)

/-- With respect to an object that is not a slice, `_compute_dr_wrt_sliced` calls `compute_dr_wrt` once. -/
theorem drSliced_one (f : Nat) (i w : Id) (h : Heap C T V D) (hw : s.isPermute (h.graph w).cls = false) : OneCall i w h (drSliced s f i w h).1 := by
  simp only [drSliced, M.bind]
  rcases hx : callOnChanged i h with ⟨h1, r⟩
  have q1 := quiet_onChanged i h
  have g1 : h1.graph = h.graph := by
    have := (rframe_rel (C := C) (T := T) (V := V) (D := D)).onChanged i h
    rw [hx] at this; exact this.graph
  rw [hx] at q1
  cases r with
  | error e =>
    have : (callOnChanged i h).2 = .ok () := by unfold callOnChanged; split <;> rfl
    rw [hx] at this; cases this
  | ok u =>
    dsimp only
    have o := runCompDr_one (s := s) f i w h1
    have o' : OneCall i w h (runCompDr s f i w h1).1 := ⟨fun j p => by rw [o.ran, q1.ran], fun j => (o.drs j).trans (q1.drs j)⟩
    have g2 : (runCompDr s f i w h1).1.graph = h1.graph := by
      have hd : (h1.node i).dirty = [] := by have := callOnChanged_clean i h; rw [hx] at this; exact this
      have h2 := (rframe_rel (C := C) (T := T) (V := V) (D := D)).ranDr i w h1 hd
      have h3 := runProg_pres (rframe_rel (C := C) (T := T) (V := V) (D := D)) (read_pres (s := s) rframe_rel f) i
        (s.computeDr ((emit (.ranDr i w) h1).1.node i).cls (i == w) (((emit (.ranDr i w) h1).1.node i).toGNode.namesOf w)) (emit (.ranDr i w) h1).1
      exact h3.graph.trans h2.graph
    rcases hy : runCompDr s f i w h1 with ⟨h2, r2⟩
    rw [hy] at o' g2
    dsimp only at o' g2
    cases r2 with
    | error e => exact o'
    | ok o2 =>
      cases o2 with
      | some d => exact o'
      | none =>
        dsimp only [M.bind]
        have : sliceLoop s f i f w h2 = (h2, .ok none) ∨ ∃ e, sliceLoop s f i f w h2 = (h2, .error e) := by
          cases f with
          | zero => exact Or.inr ⟨_, rfl⟩
          | succ f =>
            left
            have hc : s.isPermute (h2.node w).cls = false := by
              have : (h2.node w).cls = (h.graph w).cls := by
                have e := congrFun (g2.trans g1) w
                exact congrArg GNode.cls e
              rw [this]; exact hw
            simp only [sliceLoop, hc]
            rfl
        rcases this with e | ⟨er, e⟩
        · rw [e]; exact o'
        · rw [e]; exact o'

/-! ## Bookkeeping for one call -/

section
variable (g : Graph C T) (par : Id → List (Id × List Name)) (w : Id)

/-- Under how many names `q` refers to `p`. -/
def nmOf (q p : Id) : Nat := ((g q).namesOf p).length

/-- The calls made by `i.dr_wrt(w)` between `h` and `h'`: `n j p` calls of `j.compute_dr_wrt(p)`. -/
structure Did (i : Id) (h h' : Heap C T V D) (ok : Prop) (n : Id → Id → Nat) : Prop where
  ran : ∀ j p, h'.ran j p = h.ran j p + n j p
  below : ∀ j p, n j p ≠ 0 → Anc g j i
  kept : ∀ j p, (h.node j).drs w ≠ none → n j p = 0
  once : ∀ j, (par j).length ≠ 1 → n j w ≤ 1 ∧ (ok → n j w ≠ 0 → (h'.node j).drs w ≠ none)
  single : ∀ j q ns, par j = [(q, ns)] → n j w ≤ n q w * nmOf g q j + if j = i then 1 else 0
  self : n i w ≤ 1
  each : ∀ j p, p ≠ w → n j p ≤ n j w * nmOf g j p

/-- Names in `ks` under which `i` refers to `p`. -/
def nmIn (i : Id) (ks : List Name) (p : Id) : Nat := (ks.filter fun k => (g i).dterms k = some p).length

/-- The calls made by the loop over the names `ks` of `i`. -/
structure Loop (i : Id) (ks : List Name) (h h' : Heap C T V D) (ok : Prop) (m : Id → Id → Nat) : Prop where
  ran : ∀ j p, h'.ran j p = h.ran j p + m j p
  below : ∀ j p, m j p ≠ 0 → (j = i ∧ p ≠ w) ∨ ∃ k c, (g i).dterms k = some c ∧ Anc g j c
  kept : ∀ j p, j ≠ i → (h.node j).drs w ≠ none → m j p = 0
  once : ∀ j, (par j).length ≠ 1 → m j w ≤ 1 ∧ (ok → m j w ≠ 0 → (h'.node j).drs w ≠ none)
  single : ∀ j q ns, par j = [(q, ns)] → m j w ≤ m q w * nmOf g q j + if q = i then nmIn g i ks j else 0
  each : ∀ j p, p ≠ w → m j p ≤ m j w * nmOf g j p + if j = i then nmIn g i ks p else 0
end

variable {g : Graph C T} {par : Id → List (Id × List Name)} {w : Id}

theorem Loop.nothing {i : Id} {ks : List Name} {h h' : Heap C T V D} {ok : Prop} (q : ∀ j p, h'.ran j p = h.ran j p) : Loop g par w i ks h h' ok (fun _ _ => 0) :=
  ⟨fun j p => by rw [q]; rfl, fun _ _ e => absurd rfl e, fun _ _ _ _ => rfl, fun _ _ => ⟨Nat.zero_le _, fun _ e => absurd rfl e⟩,
   fun _ _ _ _ => Nat.zero_le _, fun _ _ _ => Nat.zero_le _⟩

theorem nmIn_cons {i : Id} {k : Name} {ks : List Name} {p : Id} : nmIn g i (k :: ks) p = nmIn g i ks p + if (g i).dterms k = some p then 1 else 0 := by
  unfold nmIn
  rw [List.filter_cons]
  by_cases e : (g i).dterms k = some p
  · simp [e]
  · simp [e]

/-- A name that is skipped. -/
theorem Loop.skip {i : Id} {k : Name} {ks : List Name} {h h' : Heap C T V D} {ok : Prop} {m : Id → Id → Nat} (x : Loop g par w i ks h h' ok m) :
    Loop g par w i (k :: ks) h h' ok m := by
  refine ⟨x.ran, x.below, x.kept, x.once, fun j q ns hp => Nat.le_trans (x.single j q ns hp) ?_, fun j p hp => Nat.le_trans (x.each j p hp) ?_⟩
  · rw [nmIn_cons]; split <;> omega
  · rw [nmIn_cons]; split <;> omega

/-- A name whose object `c` is asked, followed by at most one call of `i.compute_dr_wrt(c)` and the rest of the loop. -/
theorem Loop.cons {i c : Id} {k : Name} {ks : List Name} {h h1 h2 h3 : Heap C T V D} {okc ok : Prop} {n m e : Id → Id → Nat}
    (hk : (g i).dterms k = some c) (hcw : c ≠ w) (hacy : ¬ Anc g i c) (hL : ∃ ns, (i, ns) ∈ par c)
    (x : Did g par w c h h1 okc n) (he : ∀ j p, h2.ran j p = h1.ran j p + e j p) (he0 : ∀ j p, e j p = 0 ∨ (j = i ∧ p = c ∧ e j p = 1))
    (hd : ∀ j, (h1.node j).drs w ≠ none → (h2.node j).drs w ≠ none) (hd0 : ∀ j, (h.node j).drs w ≠ none → (h1.node j).drs w ≠ none)
    (hd3 : ∀ j, (h2.node j).drs w ≠ none → (h3.node j).drs w ≠ none)
    (y : Loop g par w i ks h2 h3 ok m) (hok : ok → okc) (hm : okc ∨ ∀ j p, m j p = 0) :
    Loop g par w i (k :: ks) h h3 ok (fun j p => n j p + e j p + m j p) := by
  have hni : ∀ p, n i p = 0 := fun p => Classical.byContradiction fun hh => hacy (x.below i p hh)
  have hew : ∀ j, e j w = 0 := fun j => by
    rcases he0 j w with h | ⟨_, h, _⟩
    · exact h
    · exact absurd h.symm hcw
  refine ⟨fun j p => ?_, fun j p hh => ?_, fun j p hj hs => ?_, fun j hp => ?_, fun j q ns hp => ?_, fun j p hp => ?_⟩
  · rw [y.ran, he, x.ran]; omega
  · by_cases h1 : n j p = 0
    · by_cases h2 : m j p = 0
      · rcases he0 j p with h3 | ⟨h3, h4, _⟩
        · omega
        · exact Or.inl ⟨h3, by rw [h4]; exact hcw⟩
      · exact y.below j p h2
    · exact Or.inr ⟨k, c, hk, x.below j p h1⟩
  · have a := x.kept j p hs
    have b := y.kept j p hj (hd j (hd0 j hs))
    rcases he0 j p with h3 | ⟨h3, _, _⟩
    · omega
    · exact absurd h3 hj
  · obtain ⟨a1, a2⟩ := x.once j hp
    obtain ⟨b1, b2⟩ := y.once j hp
    have hw := hew j
    by_cases hn : n j w = 0
    · refine ⟨by omega, fun ho hne => b2 ho (by omega)⟩
    · have hji : j ≠ i := fun e => hn (by rw [e]; exact hni w)
      rcases hm with hc | hm
      · have st := hd j (a2 hc hn)
        have := y.kept j w hji st
        exact ⟨by omega, fun _ _ => hd3 j st⟩
      · have := hm j w
        exact ⟨by omega, fun ho _ => hd3 j (hd j (a2 (hok ho) hn))⟩
  · have a := x.single j q ns hp
    have b := y.single j q ns hp
    rw [nmIn_cons]
    have h1 := hew j
    have h2 := hew q
    simp only [h1, h2, Nat.add_zero]
    rw [Nat.add_mul]
    by_cases hj : j = c
    · subst hj
      obtain ⟨ns', hns⟩ := hL
      rw [hp, List.mem_singleton] at hns
      injection hns with hq _
      subst hq
      rw [if_pos rfl] at a b ⊢
      rw [if_pos hk]
      omega
    · rw [if_neg hj] at a
      split at b
      · rw [if_pos (by assumption)]; omega
      · rw [if_neg (by assumption)]; omega
  · have a := x.each j p hp
    have b := y.each j p hp
    rw [nmIn_cons]
    simp only [hew j, Nat.add_zero]
    rw [Nat.add_mul]
    by_cases hj : j = i
    · subst hj
      rw [if_pos rfl] at b ⊢
      rw [hni p]
      rcases he0 j p with h3 | ⟨_, h4, h5⟩
      · rw [h3]; omega
      · subst h4; rw [h5, if_pos hk]; omega
    · rw [if_neg hj] at b ⊢
      rcases he0 j p with h3 | ⟨h3, _, _⟩
      · omega
      · exact absurd h3 hj

/-! ## The call -/

/-- What stays fixed during the call `top.dr_wrt(w)`. -/
structure CallCtx (s : Sig C T V D) (g : Graph C T) (par : Id → List (Id × List Name)) (w top : Id) : Prop where
  acyclic : ∀ i, Anc g i top → ∀ k c, (g i).dterms k = some c → ¬ Anc g i c
  plain : ∀ i, Anc g i top → s.isPermute (g i).cls = false
  wplain : s.isPermute (g w).cls = false
  reg : ∀ q k c, (g q).dterms k = some c → ∃ ns, (q, ns) ∈ par c

/-- The state has this graph and these registrations. -/
structure IsAt (g : Graph C T) (par : Id → List (Id × List Name)) (w : Id) (h : Heap C T V D) : Prop where
  graph : h.graph = g
  parents : ∀ i, (h.node i).parents = par i
  alive : (h.node w).alive = true

theorem IsAt.after {h h' : Heap C T V D} (x : IsAt g par w h) (y : RFrame h h') : IsAt g par w h' :=
  ⟨y.graph.trans x.graph, fun i => (y.parents i).trans (x.parents i), (y.alive w).trans x.alive⟩

theorem drTerms_loop {top : Id} (cx : CallCtx s g par w top) (f : Nat) (i : Id) (hi : Anc g i top)
    (rec : Id → M C T V D (Option D)) (hpres : ∀ c h, RFrame h (rec c h).1)
    (hrec : ∀ c, Anc g c top → ∀ h, IsAt g par w h → ∃ n, Did g par w c h (rec c h).1 ((rec c h).2.isOk = true) n) :
    ∀ (ks : List Name) (acc : List D) (h : Heap C T V D), IsAt g par w h → (h.node i).dirty = [] →
      ∃ m, Loop g par w i ks h (drTerms s f i w rec ks acc h).1 ((drTerms s f i w rec ks acc h).2.isOk = true) m ∧
        RFrame h (drTerms s f i w rec ks acc h).1 := by
  intro ks
  induction ks with
  | nil => intro acc h hh _; exact ⟨_, Loop.nothing fun _ _ => rfl, RFrame.refl h⟩
  | cons k ks ih =>
    intro acc h hh hdi
    have hdt : (h.node i).dterms k = (g i).dterms k := by rw [← hh.graph]; rfl
    simp only [drTerms]
    cases hk : (h.node i).dterms k with
    | none =>
      obtain ⟨m, x, y⟩ := ih acc h hh hdi
      exact ⟨m, x.skip, y⟩
    | some c =>
      dsimp only
      by_cases hcw : c = w
      · rw [if_pos hcw]
        obtain ⟨m, x, y⟩ := ih acc h hh hdi
        exact ⟨m, x.skip, y⟩
      · rw [if_neg hcw]
        have hk' : (g i).dterms k = some c := hdt ▸ hk
        have hc : Anc g c top := (Anc.step k hk' Anc.refl).trans hi
        obtain ⟨n, hn⟩ := hrec c hc h hh
        have fr1 := hpres c h
        have cons := fun {h2 h3 : Heap C T V D} {ok : Prop} {m e : Id → Id → Nat} =>
          Loop.cons (h2 := h2) (h3 := h3) (ok := ok) (m := m) (e := e) (ks := ks) hk' hcw (cx.acyclic i hi k c hk') (cx.reg i k c hk') hn
        simp only [M.bind]
        rcases hx : rec c h with ⟨h1, r⟩
        rw [hx] at fr1 cons
        dsimp only at fr1 cons
        have hh1 := hh.after fr1
        have d0 : ∀ j, (h.node j).drs w ≠ none → (h1.node j).drs w ≠ none := fun j => fr1.keepD j w
        have di1 : (h1.node i).dirty = [] := by
          rcases fr1.dirty i with e | e
          · rw [e, hdi]
          · exact e
        cases r with
        | error e =>
          dsimp only
          exact ⟨_, cons (e := fun _ _ => 0) (fun _ _ => rfl) (fun _ _ => Or.inl rfl) (fun _ h => h) d0 (fun _ h => h)
            (Loop.nothing fun _ _ => rfl) (fun h => by cases h) (Or.inr fun _ _ => rfl), fr1⟩
        | ok o =>
          cases o with
          | none =>
            dsimp only
            obtain ⟨m, x, y⟩ := ih acc h1 hh1 di1
            exact ⟨_, cons (e := fun _ _ => 0) (fun _ _ => rfl) (fun _ _ => Or.inl rfl) (fun _ h => h) d0 (fun j => y.keepD j w) x (fun _ => rfl)
              (Or.inl rfl), rframe_rel.trans fr1 y⟩
          | some d2 =>
            dsimp only [M.bind]
            have oc := drSliced_one (s := s) f i c h1 (by rw [hh1.graph]; exact cx.plain c hc)
            have fr2 : RFrame h1 (drSliced s f i c h1).1 := drSliced_pres rframe_rel f i c h1
            rcases hy : drSliced s f i c h1 with ⟨h2, r2⟩
            rw [hy] at oc fr2
            dsimp only at oc fr2
            have hh2 := hh1.after fr2
            have di2 : (h2.node i).dirty = [] := by
              rcases fr2.dirty i with e | e
              · rw [e, di1]
              · exact e
            have cons2 := fun {h3 : Heap C T V D} {ok : Prop} {m : Id → Id → Nat} =>
              cons (h2 := h2) (h3 := h3) (ok := ok) (m := m) oc.ran (fun j p => by
                by_cases e : j = i ∧ p = c
                · right; exact ⟨e.1, e.2, by rw [if_pos e]⟩
                · left; rw [if_neg e]) (fun j => fr2.keepD j w) d0
            have stop : ∀ (r : Except Err (List D)), r.isOk = false → ∃ m, Loop g par w i (k :: ks) h h2 (r.isOk = true) m ∧ RFrame h h2 := by
              intro r hr
              refine ⟨_, cons2 (fun _ h => h) (Loop.nothing (ok := r.isOk = true) fun _ _ => rfl) (fun _ => rfl) (Or.inl rfl), rframe_rel.trans fr1 fr2⟩
            cases r2 with
            | error e => exact stop (.error e) rfl
            | ok o2 =>
              cases o2 with
              | none =>
                obtain ⟨m, x, y⟩ := ih acc h2 hh2 di2
                exact ⟨_, cons2 (fun j => y.keepD j w) x (fun _ => rfl) (Or.inl rfl), rframe_rel.trans (rframe_rel.trans fr1 fr2) y⟩
              | some d =>
                dsimp only [M.bind, M.lift]
                cases s.superdot d d2 with
                | error e => exact stop (.error e) rfl
                | ok x' =>
                  dsimp only
                  obtain ⟨m, x, y⟩ := ih (acc ++ [x']) h2 hh2 di2
                  exact ⟨_, cons2 (fun j => y.keepD j w) x (fun _ => rfl) (Or.inl rfl), rframe_rel.trans (rframe_rel.trans fr1 fr2) y⟩

/-- `i.dr_wrt(w)` for every `i` below `top`. -/
theorem drWrt_did {top : Id} (cx : CallCtx s g par w top) (f : Nat) : ∀ i, Anc g i top → ∀ h : Heap C T V D, IsAt g par w h →
    ∃ n, Did g par w i h (drWrt s f i w h).1 ((drWrt s f i w h).2.isOk = true) n := by
  have none : ∀ {i : Id} {h h' : Heap C T V D} {ok : Prop}, Quiet h h' → Did g par w i h h' ok (fun _ _ => 0) := fun q =>
    ⟨fun j p => q.ran j p, fun _ _ e => absurd rfl e, fun _ _ _ => rfl, fun _ _ => ⟨Nat.zero_le _, fun _ e => absurd rfl e⟩,
     fun _ _ _ _ => Nat.zero_le _, Nat.zero_le _, fun _ _ _ => Nat.zero_le _⟩
  induction f with
  | zero => intro i _ h _; exact ⟨_, none (Quiet.refl h)⟩
  | succ f ih =>
    intro i hi h hh
    rw [drWrt, M.bind]
    have q1 := quiet_onChanged i h
    have fr1 : RFrame h (callOnChanged i h).1 := rframe_rel.onChanged i h
    have di1 := callOnChanged_clean i h
    rcases hx : callOnChanged i h with ⟨h1, r⟩
    rw [hx] at q1 fr1 di1
    dsimp only at q1 fr1 di1
    cases r with
    | error e => exact ⟨_, none q1⟩
    | ok u =>
      dsimp only
      cases hs : (h1.node i).drs w with
      | some d => exact ⟨_, none q1⟩
      | none =>
        dsimp only [M.bind]
        have hh1 := hh.after fr1
        have oc := drSliced_one (s := s) f i w h1 (by rw [hh1.graph]; exact cx.wplain)
        have fr2 : RFrame h1 (drSliced s f i w h1).1 := drSliced_pres rframe_rel f i w h1
        rcases hy : drSliced s f i w h1 with ⟨h2, r2⟩
        rw [hy] at oc fr2
        dsimp only at oc fr2
        have hh2 := hh1.after fr2
        have di2 : (h2.node i).dirty = [] := by
          rcases fr2.dirty i with e | e
          · rw [e, di1]
          · exact e
        have hdi : ((h2.node i).dnames) = (g i).dnames := by rw [← hh2.graph]; rfl
        -- the count, for any end of the loop and any later state
        have fin : ∀ {h3 h4 : Heap C T V D} {ok ok4 : Prop} {m : Id → Id → Nat}, Loop g par w i (g i).dnames h2 h3 ok m → (∀ j p, h4.ran j p = h3.ran j p) →
            (∀ j, (h3.node j).drs w ≠ .none → (h4.node j).drs w ≠ .none) → (ok4 → ok) → (ok4 → (par i).length ≠ 1 → (h4.node i).drs w ≠ .none) →
            ∃ n, Did g par w i h h4 ok4 n := by
          intro h3 h4 ok ok4 m x hr4 hd4 h43 hst
          have hm0 : m i w = 0 := Classical.byContradiction fun hh => by
            rcases x.below i w hh with ⟨_, e⟩ | ⟨k, c, e, a⟩
            · exact e rfl
            · exact cx.acyclic i hi k c e a
          refine ⟨fun j p => (if j = i ∧ p = w then 1 else 0) + m j p, fun j p => ?_, fun j p hne => ?_, fun j p hdj => ?_, fun j hj => ?_,
            fun j q ns hp => ?_, ?_, fun j p hp => ?_⟩
          · rw [hr4, x.ran, oc.ran, q1.ran]; omega
          · by_cases e : m j p = 0
            · have : j = i ∧ p = w := Classical.byContradiction fun hh => hne (by rw [if_neg hh, e])
              rw [this.1]; exact Anc.refl
            · rcases x.below j p e with ⟨e, _⟩ | ⟨k, c, e, a⟩
              · rw [e]; exact Anc.refl
              · exact Anc.step k e a
          · have hji : j ≠ i := fun e => by
              subst e
              rw [← q1.drs, hs] at hdj
              exact hdj rfl
            rw [if_neg (fun h => hji h.1), x.kept j p hji]
            rw [oc.drs, q1.drs]; exact hdj
          · by_cases hji : j = i
            · subst hji
              rw [if_pos ⟨rfl, rfl⟩, hm0]
              exact ⟨Nat.le_refl _, fun ho _ => hst ho hj⟩
            · rw [if_neg (fun h => hji h.1), Nat.zero_add]
              obtain ⟨a, b⟩ := x.once j hj
              exact ⟨a, fun ho hne => hd4 j (b (h43 ho) hne)⟩
          · by_cases hji : j = i
            · subst hji
              rw [if_pos ⟨rfl, rfl⟩, if_pos rfl, hm0]; omega
            · have := x.single j q ns hp
              rw [if_neg (fun h => hji h.1), if_neg hji, Nat.zero_add, Nat.add_zero]
              by_cases hq : q = i
              · subst hq
                rw [if_pos rfl, hm0] at this
                rw [if_pos ⟨rfl, rfl⟩, hm0]
                have e : nmIn g q (g q).dnames j = nmOf g q j := rfl
                rw [e] at this
                omega
              · rw [if_neg hq] at this
                rw [if_neg (fun h => hq h.1), Nat.zero_add]
                exact this
          · rw [if_pos ⟨rfl, rfl⟩, hm0]; exact Nat.le_refl _
          · have := x.each j p hp
            rw [if_neg (fun h => hp h.2), Nat.zero_add]
            by_cases hji : j = i
            · subst hji
              rw [if_pos rfl, hm0] at this
              rw [if_pos ⟨rfl, rfl⟩, hm0]
              have e : nmIn g j (g j).dnames p = nmOf g j p := rfl
              rw [e] at this
              omega
            · rw [if_neg hji] at this
              rw [if_neg (fun h => hji h.1), Nat.zero_add]
              exact this
        cases r2 with
        | error e =>
          exact fin (Loop.nothing (ok := False) (fun _ _ => rfl)) (fun _ _ => rfl) (fun _ h => h) (fun h => by cases h) (fun h => by cases h)
        | ok direct =>
          dsimp only
          rw [hdi]
          obtain ⟨m, x, fr3⟩ := drTerms_loop cx f i hi (fun p => drWrt s f p w) (fun c h => drWrt_pres rframe_rel f c w h)
            (fun c hc h hh => ih c hc h hh) (g i).dnames direct.toList h2 hh2 di2
          rcases hz : drTerms s f i w (fun p => drWrt s f p w) (g i).dnames direct.toList h2 with ⟨h3, r3⟩
          rw [hz] at x fr3
          dsimp only at x fr3
          have hh3 := hh2.after fr3
          cases r3 with
          | error e => exact fin x (fun _ _ => rfl) (fun _ h => h) (fun h => by cases h) (fun h => by cases h)
          | ok ds =>
            dsimp only [M.lift]
            cases sumD s ds with
            | error e => exact fin x (fun _ _ => rfl) (fun _ h => h) (fun h => by cases h) (fun h => by cases h)
            | ok rr =>
              dsimp only
              by_cases hor : (h3.node i).parents.length = 1 ∨ (h3.node w).alive = false
              · have e : storeDr i w (Option.map s.finish rr) h3 = (h3, .ok ()) := if_pos hor
                rw [e]
                refine fin x (fun _ _ => rfl) (fun _ h => h) (fun _ => rfl) (fun _ hl => ?_)
                rcases hor with e | e
                · rw [hh3.parents] at e; exact absurd e hl
                · rw [hh3.alive] at e; cases e
              · have e : storeDr i w (Option.map s.finish rr) h3 =
                    (h3.modify i (fun n => { n with drs := fun x => if x = w then some (Option.map s.finish rr) else n.drs x }), .ok ()) := if_neg hor
                rw [e]
                refine fin x (fun _ _ => rfl) (fun j hj => ?_) (fun _ => rfl) (fun _ hl => ?_)
                · simp only [Heap.modify]
                  split
                  · simp
                  · exact hj
                · simp [Heap.modify]

end Chumpy
