import Verif.Core.Heap
import Verif.Core.SpecLemmas
import Verif.Core.Clear
/-! Reads on the heap simulate the cache-free evaluator. -/
namespace Chumpy
variable {C T V D α β : Type}

/-- Derivative reads are compared with the specification only when no object uses
`make_dense`/`make_sparse` (these change the storage format, and the cached copy is returned
unconverted, ch.py:742 vs 826-829). -/
def Plain (s : Sig C T V D) (g : Graph C T) : Prop :=
  (∀ d, s.outForm false false d = d) ∧ ∀ i, (g i).makeDense = false ∧ (g i).makeSparse = false

/-- What is usually claimed of a cached derivative: it is what the specification gives on the current graph. -/
abbrev Fresh (s : Sig C T V D) (g : Graph C T) (i w : Id) (d : Option D) : Prop := MeansDr s g i w (.ok d)

/-- Every cache entry agrees with the specification on the current graph.  `W` says for which `wrt`
derivative entries are claimed, and `U` what is claimed of them. -/
structure Coh (s : Sig C T V D) (U : Graph C T → Id → Id → Option D → Prop) (W : Graph C T → Id → Prop) (h : Heap C T V D) : Prop where
  r : ∀ i v, (h.node i).cacheR = some v → Means s h.graph (.r i) (.ok v)
  p : ∀ i p v, (h.node i).props p = some v → Means s h.graph (.prop i p) (.ok v)
  d : Plain s h.graph → ∀ i w d, W h.graph w → (h.node i).drs w = some d →
        U h.graph i w d
  k : ∀ i w d, (h.node i).drs w = some d → (h.node w).alive = true

/-- What a read may change: nothing of the graph, links, tags; it only runs `on_changed` (emptying
the dirty set) and fills caches. -/
structure Frame (h h' : Heap C T V D) : Prop where
  graph : h'.graph = h.graph
  parents : ∀ i, (h'.node i).parents = (h.node i).parents
  itr : ∀ i, (h'.node i).itr = (h.node i).itr
  alive : ∀ i, (h'.node i).alive = (h.node i).alive
  next : h'.next = h.next
  giter : h'.giter = h.giter
  dirty : ∀ i, (h'.node i).dirty = (h.node i).dirty ∨ (h'.node i).dirty = []
  keepR : ∀ i v, (h.node i).cacheR = some v → (h'.node i).cacheR = some v
  keepP : ∀ i p v, (h.node i).props p = some v → (h'.node i).props p = some v

theorem Frame.rfl {h : Heap C T V D} : Frame h h :=
  ⟨by rfl, fun _ => by rfl, fun _ => by rfl, fun _ => by rfl, by rfl, by rfl, fun _ => Or.inl (by rfl), fun _ _ h => h, fun _ _ _ h => h⟩

theorem Frame.trans {h1 h2 h3 : Heap C T V D} (a : Frame h1 h2) (b : Frame h2 h3) : Frame h1 h3 where
  graph := b.graph.trans a.graph
  parents i := (b.parents i).trans (a.parents i)
  itr i := (b.itr i).trans (a.itr i)
  alive i := (b.alive i).trans (a.alive i)
  next := b.next.trans a.next
  giter := b.giter.trans a.giter
  dirty i := by
    rcases b.dirty i with h | h
    · rw [h]; exact a.dirty i
    · exact Or.inr h
  keepR i v h := b.keepR i v (a.keepR i v h)
  keepP i p v h := b.keepP i p v (a.keepP i p v h)

/-- Outcome `r` of a cached computation agrees with the specification `q` (a function of the
recursion limit) at limit `f`: if the specification ends within `f`, so does the cached one, equally;
if the cached one ends, the specification gives the same with some limit. -/
def Agree (r : Except Err α) (q : Nat → Except Err α) (f : Nat) : Prop :=
  (q f ≠ .error .fuel → r = q f) ∧ (r ≠ .error .fuel → ∃ f', q f' = r)

/-- The specification family is monotone in the recursion limit. -/
def Mono (q : Nat → Except Err α) : Prop := ∀ {f f'}, f ≤ f' → Le (q f) (q f')

/-- `m` preserves coherence, changes only what reads may, and (under `P`) agrees with `q`. -/
def Sim (s : Sig C T V D) (U : Graph C T → Id → Id → Option D → Prop) (W : Graph C T → Id → Prop) (P : Prop) (g : Graph C T)
    (m : M C T V D α) (q : Nat → Except Err α) (f : Nat) : Prop :=
  ∀ h, Coh s U W h → h.graph = g →
    Coh s U W (m h).1 ∧ Frame h (m h).1 ∧ (P → Agree (m h).2 q f)

variable {s : Sig C T V D} {U : Graph C T → Id → Id → Option D → Prop} {W : Graph C T → Id → Prop} {P : Prop} {g : Graph C T}

theorem Sim.const {r : Except Err α} {q : Nat → Except Err α} {f : Nat}
    (hq : q f = r) {m : M C T V D α} (hm : ∀ h, m h = (h, r)) : Sim s U W P g m q f := by
  intro h hc _
  rw [hm]
  exact ⟨hc, Frame.rfl, fun _ => ⟨fun _ => hq.symm, fun _ => ⟨f, hq⟩⟩⟩

theorem Sim.fuel {q : Nat → Except Err α} {f : Nat} (hq : q f = .error .fuel) :
    Sim s U W P g (M.throw .fuel) q f := by
  intro h hc _
  exact ⟨hc, Frame.rfl, fun _ => ⟨fun h => absurd hq h, fun h => absurd (by rfl) h⟩⟩

theorem Sim.bind {m : M C T V D α} {k : α → M C T V D β} {q : Nat → Except Err α}
    {qk : Nat → α → Except Err β} {Q : Nat → Except Err β} {f : Nat}
    (hm : Sim s U W P g m q f) (hk : ∀ a, Sim s U W P g (k a) (fun f => qk f a) f)
    (mq : Mono q) (mk : ∀ a, Mono (fun f => qk f a))
    (hQ : ∀ f', f ≤ f' → Q f' = match q f' with | .ok a => qk f' a | .error e => .error e) :
    Sim s U W P g (M.bind m k) Q f := by
  have hQ0 := hQ f (Nat.le_refl f)
  intro h hc hg
  obtain ⟨hc1, hf1, ha1⟩ := hm h hc hg
  have hg1 : (m h).1.graph = g := by rw [hf1.graph, hg]
  simp only [M.bind]
  rcases hmh : m h with ⟨h1, r⟩
  rw [hmh] at hc1 hf1 ha1 hg1
  cases r with
  | error e =>
    refine ⟨hc1, hf1, fun hp => ?_⟩
    obtain ⟨a1, a2⟩ := ha1 hp
    constructor
    · intro hne
      rw [hQ0] at hne ⊢
      have : q f ≠ .error .fuel := by intro hq; rw [hq] at hne; exact hne (by rfl)
      have := a1 this
      rw [← this]
    · intro hne
      obtain ⟨f', hf'⟩ := a2 (by simpa using hne)
      refine ⟨max f' f, ?_⟩
      rw [hQ _ (Nat.le_max_right f' f), mq (Nat.le_max_left f' f) (by rw [hf']; simpa using hne), hf']
  | ok a =>
    dsimp only
    obtain ⟨hc2, hf2, ha2⟩ := hk a h1 hc1 hg1
    refine ⟨hc2, hf1.trans hf2, fun hp => ?_⟩
    obtain ⟨a1, a2⟩ := ha1 hp
    obtain ⟨b1, b2⟩ := ha2 hp
    constructor
    · intro hne
      rw [hQ0] at hne ⊢
      have : q f ≠ .error .fuel := by intro hq; rw [hq] at hne; exact hne (by rfl)
      have := a1 this
      rw [← this] at hne ⊢
      exact b1 hne
    · intro hne
      obtain ⟨f1, hf1⟩ := a2 (by simp)
      obtain ⟨f2, hf2⟩ := b2 hne
      refine ⟨max (max f1 f2) f, ?_⟩
      have h1 : f1 ≤ max (max f1 f2) f := by omega
      have h2 : f2 ≤ max (max f1 f2) f := by omega
      rw [hQ _ (Nat.le_max_right _ f), mq h1 (by rw [hf1]; simp), hf1]
      exact (mk a h2 (by dsimp only at hf2 ⊢; rw [hf2]; exact hne)).trans hf2

/-- Reading a piece of the graph does not need the heap. -/
theorem Sim.graph {m : M C T V D α} {m' : M C T V D α} {q : Nat → Except Err α} {f : Nat}
    (hm : Sim s U W P g m' q f) (he : ∀ h, h.graph = g → m h = m' h) : Sim s U W P g m q f := by
  intro h hc hg
  rw [he h hg]
  exact hm h hc hg

theorem graph_node {h : Heap C T V D} {g : Graph C T} (hg : h.graph = g) (i : Id) :
    (h.node i).toGNode = g i := by rw [← hg]; rfl

theorem callOnChanged_frame (i : Id) (h : Heap C T V D) : Frame h (callOnChanged i h).1 := by
  unfold callOnChanged
  split
  · exact Frame.rfl
  · refine ⟨?_, ?_, ?_, ?_, by rfl, by rfl, ?_, ?_, ?_⟩
    · funext j; simp only [Heap.graph, Heap.modify]; split <;> simp_all
    · intro j; simp only [Heap.modify]; split <;> simp_all
    · intro j; simp only [Heap.modify]; split <;> simp_all
    · intro j; simp only [Heap.modify]; split <;> simp_all
    · intro j; simp only [Heap.modify]; split <;> simp_all
    · intro j v; simp only [Heap.modify]; split <;> simp_all
    · intro j p v; simp only [Heap.modify]; split <;> simp_all

theorem callOnChanged_caches (i : Id) (h : Heap C T V D) (j : Id) :
    ((callOnChanged i h).1.node j).cacheR = (h.node j).cacheR ∧
    ((callOnChanged i h).1.node j).props = (h.node j).props ∧
    ((callOnChanged i h).1.node j).drs = (h.node j).drs := by
  unfold callOnChanged
  split
  · exact ⟨by rfl, by rfl, by rfl⟩
  · simp only [Heap.modify]; split <;> simp_all

theorem callOnChanged_ok (i : Id) (h : Heap C T V D) : (callOnChanged i h).2 = .ok () := by
  unfold callOnChanged; split <;> rfl

/-- Coherence only looks at graph and caches. -/
theorem Coh.of_same {h h' : Heap C T V D} (hc : Coh s U W h) (hg : h'.graph = h.graph)
    (hs : ∀ j, (h'.node j).cacheR = (h.node j).cacheR ∧ (h'.node j).props = (h.node j).props ∧
      (h'.node j).drs = (h.node j).drs) (ha : ∀ j, (h'.node j).alive = (h.node j).alive) : Coh s U W h' where
  r i v hv := by rw [hg]; exact hc.r i v ((hs i).1 ▸ hv)
  p i p v hv := by rw [hg]; exact hc.p i p v ((hs i).2.1 ▸ hv)
  d hp i w d hw hd := by rw [hg] at *; exact hc.d hp i w d hw ((hs i).2.2 ▸ hd)
  k i w d hd := by rw [ha]; exact hc.k i w d ((hs i).2.2 ▸ hd)

theorem callOnChanged_coh (i : Id) {h : Heap C T V D} (hc : Coh s U W h) :
    Coh s U W (callOnChanged i h).1 :=
  hc.of_same (callOnChanged_frame i h).graph (callOnChanged_caches i h) (callOnChanged_frame i h).alive

theorem Sim.onChanged_bind {i : Id} {k : Unit → M C T V D α} {q : Nat → Except Err α} {f : Nat}
    (hk : Sim s U W P g (k ()) q f) : Sim s U W P g (M.bind (callOnChanged i) k) q f := by
  intro h hc hg
  have h1 := callOnChanged_ok i h
  have hfr := callOnChanged_frame i h
  have hc' := callOnChanged_coh (s := s) (W := W) i hc
  simp only [M.bind]
  rcases hmh : callOnChanged i h with ⟨h1', r⟩
  rw [hmh] at h1 hfr hc'
  dsimp only at h1
  subst h1
  obtain ⟨a, b, c⟩ := hk h1' hc' (by rw [hfr.graph, hg])
  exact ⟨a, hfr.trans b, c⟩

theorem Sim.emit_bind {e : Event} {k : Unit → M C T V D α} {q : Nat → Except Err α} {f : Nat}
    (hk : Sim s U W P g (k ()) q f) : Sim s U W P g (M.bind (emit e) k) q f := by
  intro h hc hg
  have hfr : Frame h (emit e h).1 :=
    ⟨by rfl, fun _ => by rfl, fun _ => by rfl, fun _ => by rfl, by rfl, by rfl, fun _ => Or.inl (by rfl),
      fun _ _ h => h, fun _ _ _ h => h⟩
  have hc' : Coh s U W (emit e h).1 :=
    hc.of_same (by rfl) (fun _ => ⟨by rfl, by rfl, by rfl⟩) (fun _ => by rfl)
  obtain ⟨a, b, c⟩ := hk (emit e h).1 hc' hg
  exact ⟨a, hfr.trans b, c⟩

theorem mono_evalReq (s : Sig C T V D) (g : Graph C T) (q : Req) :
    Mono (fun f => evalReq s g f q) := fun h => evalReq_mono s g h q

theorem mono_evalProg (s : Sig C T V D) (g : Graph C T) (i : Id) (p : Prog T V α) :
    Mono (fun f => evalProg g (evalReq s g f) i p) :=
  fun h => evalProg_mono g (evalReq_mono s g h) i p

theorem runProg_sim {f : Nat} {rd : Req → M C T V D V}
    (hrd : ∀ q, Sim s U W P g (rd q) (fun f => evalReq s g f q) f) (i : Id) (p : Prog T V α) :
    Sim s U W P g (runProg rd i p) (fun f => evalProg g (evalReq s g f) i p) f := by
  induction p with
  | ret a => exact Sim.const (r := .ok a) (by rfl) (fun _ => by rfl)
  | raise c => exact Sim.const (r := .error (.user c)) (by rfl) (fun _ => by rfl)
  | term n k ih =>
    refine Sim.graph (ih ((g i).terms n)) ?_
    intro h hg
    simp only [runProg]
    rw [← hg]; rfl
  | child n k ih =>
    cases hd : (g i).dterms n with
    | none =>
      refine Sim.graph (m' := M.throw .attr) (Sim.const (r := .error .attr) ?_ (fun _ => by rfl)) ?_
      · simp only [evalProg, hd]
      · intro h hg
        simp only [runProg]
        have : (h.node i).dterms n = none := by rw [← hd, ← hg]; rfl
        rw [this]; rfl
    | some c =>
      refine Sim.graph (m' := M.bind (rd (.r c)) (fun v => runProg rd i (k v)))
        (Sim.bind (q := fun f => evalReq s g f (.r c)) (qk := fun f v => evalProg g (evalReq s g f) i (k v))
          (hrd _) ih (mono_evalReq s g _) (fun a => mono_evalProg s g i _) ?_) ?_
      · intro f _
        simp only [evalProg, hd]
        cases evalReq s g f (.r c) <;> rfl
      · intro h hg
        simp only [runProg]
        have : (h.node i).dterms n = some c := by rw [← hd, ← hg]; rfl
        rw [this]
  | prop p k ih =>
    refine Sim.bind (q := fun f => evalReq s g f (.prop i p)) (qk := fun f v => evalProg g (evalReq s g f) i (k v))
          (hrd _) ih (mono_evalReq s g _) (fun a => mono_evalProg s g i _) ?_
    intro f _
    simp only [evalProg]
    cases evalReq s g f (.prop i p) <;> rfl
  | selfR k ih =>
    refine Sim.bind (q := fun f => evalReq s g f (.r i)) (qk := fun f v => evalProg g (evalReq s g f) i (k v))
          (hrd _) ih (mono_evalReq s g _) (fun a => mono_evalProg s g i _) ?_
    intro f _
    simp only [evalProg]
    cases evalReq s g f (.r i) <;> rfl

theorem storeR_frame (i : Id) (v : V) (h : Heap C T V D)
    (hn : (h.node i).cacheR = none ∨ (h.node i).cacheR = some v) :
    Frame h (storeR i v h).1 := by
  unfold storeR
  refine ⟨?_, ?_, ?_, ?_, by rfl, by rfl, ?_, ?_, ?_⟩
  · funext j; simp only [Heap.graph, Heap.modify]; split <;> simp_all
  · intro j; simp only [Heap.modify]; split <;> simp_all
  · intro j; simp only [Heap.modify]; split <;> simp_all
  · intro j; simp only [Heap.modify]; split <;> simp_all
  · intro j; simp only [Heap.modify]; split <;> simp_all
  · intro j v'; simp only [Heap.modify]; split
    · rename_i he; subst he; rcases hn with hn | hn <;> simp [hn]
    · exact id
  · intro j p v; simp only [Heap.modify]; split <;> simp_all

theorem storeR_coh (i : Id) (v : V) {h : Heap C T V D} (hc : Coh s U W h)
    (hv : Means s h.graph (.r i) (.ok v)) : Coh s U W (storeR i v h).1 := by
  have hg : (storeR i v h).1.graph = h.graph := by
    funext j; simp only [storeR, Heap.graph, Heap.modify]; split <;> simp_all
  constructor
  · intro j w; rw [hg]
    simp only [storeR, Heap.modify]
    split
    · rename_i he; subst he; simp only [Option.some.injEq]; intro e; subst e; exact hv
    · exact hc.r j w
  · intro j p w; rw [hg]
    simp only [storeR, Heap.modify]
    split
    · rename_i he; subst he; exact hc.p j p w
    · exact hc.p j p w
  · intro hp j w d; rw [hg] at *
    simp only [storeR, Heap.modify]
    split
    · rename_i he; subst he; exact hc.d hp j w d
    · exact hc.d hp j w d
  · intro j w d hd
    have e1 : ((storeR i v h).1.node j).drs = (h.node j).drs := by
      simp only [storeR, modify_node]; split <;> simp_all
    have e2 : ((storeR i v h).1.node w).alive = (h.node w).alive := by
      simp only [storeR, modify_node]; split <;> simp_all
    rw [e2]; rw [e1] at hd; exact hc.k j w d hd

theorem storeProp_frame (i : Id) (p : Name) (v : V) (h : Heap C T V D)
    (hn : (h.node i).props p = none ∨ (h.node i).props p = some v) :
    Frame h (storeProp i p v h).1 := by
  unfold storeProp
  refine ⟨?_, ?_, ?_, ?_, by rfl, by rfl, ?_, ?_, ?_⟩
  · funext j; simp only [Heap.graph, Heap.modify]; split <;> simp_all
  · intro j; simp only [Heap.modify]; split <;> simp_all
  · intro j; simp only [Heap.modify]; split <;> simp_all
  · intro j; simp only [Heap.modify]; split <;> simp_all
  · intro j; simp only [Heap.modify]; split <;> simp_all
  · intro j p v; simp only [Heap.modify]; split <;> simp_all
  · intro j p' v'; simp only [Heap.modify]; split
    · rename_i he; subst he; dsimp only; split
      · rename_i he; subst he; rcases hn with hn | hn <;> simp [hn]
      · exact id
    · exact id

theorem storeProp_coh (i : Id) (p : Name) (v : V) {h : Heap C T V D} (hc : Coh s U W h)
    (hv : Means s h.graph (.prop i p) (.ok v)) : Coh s U W (storeProp i p v h).1 := by
  have hg : (storeProp i p v h).1.graph = h.graph := by
    funext j; simp only [storeProp, Heap.graph, Heap.modify]; split <;> simp_all
  constructor
  · intro j w; rw [hg]
    simp only [storeProp, Heap.modify]
    split
    · rename_i he; subst he; exact hc.r j w
    · exact hc.r j w
  · intro j p w; rw [hg]
    simp only [storeProp, Heap.modify]
    split
    · rename_i he; subst he; dsimp only; split
      · rename_i he; subst he; simp only [Option.some.injEq]; intro e; subst e; exact hv
      · exact hc.p j p w
    · exact hc.p j p w
  · intro hp j w d; rw [hg] at *
    simp only [storeProp, Heap.modify]
    split
    · rename_i he; subst he; exact hc.d hp j w d
    · exact hc.d hp j w d
  · intro j w d hd
    have e1 : ((storeProp i p v h).1.node j).drs = (h.node j).drs := by
      simp only [storeProp, modify_node]; split <;> simp_all
    have e2 : ((storeProp i p v h).1.node w).alive = (h.node w).alive := by
      simp only [storeProp, modify_node]; split <;> simp_all
    rw [e2]; rw [e1] at hd; exact hc.k j w d hd

theorem Sim.weaken {m : M C T V D α} {q : Nat → Except Err α} {f : Nat}
    (hm : Sim s U W True g m q f) : Sim s U W P g m q f :=
  fun h hc hg => let ⟨x, y, z⟩ := hm h hc hg; ⟨x, y, fun _ => z trivial⟩

/-- A cached outcome known to be right agrees with the specification. -/
theorem Agree.of_known {q : Nat → Except Err α} (mq : Mono q) {r : Except Err α} {f f' : Nat}
    (hr : r ≠ .error .fuel) (h : q f' = r) : Agree r q f := by
  constructor
  · intro hq
    have h1 := mq (Nat.le_max_left f' f) (by rw [h]; exact hr)
    have h2 := mq (Nat.le_max_right f' f) hq
    rw [← h2, h1, h]
  · intro _; exact ⟨f', h⟩

theorem read_sim_true (f : Nat) : ∀ q, Sim s U W True g (read s f q) (fun f => evalReq s g f q) f := by
  induction f with
  | zero => intro q; exact Sim.fuel (by cases q <;> rfl)
  | succ f ih =>
    intro q
    cases q with
    | r i =>
      refine Sim.onChanged_bind ?_
      intro h hc hg
      dsimp only
      cases hcr : (h.node i).cacheR with
      | some v =>
        refine ⟨hc, Frame.rfl, fun _ => ?_⟩
        obtain ⟨hne, f', hf'⟩ := hc.r i v hcr
        rw [hg] at hf'
        exact Agree.of_known (mono_evalReq s g (.r i)) hne hf'
      | none =>
        dsimp only
        have hcls : (h.node i).cls = (g i).cls := by rw [← hg]; rfl
        rw [hcls]
        refine Sim.emit_bind ?_ h hc hg
        intro h hc hg
        obtain ⟨hc1, hf1, ha⟩ := runProg_sim (α := V) ih i (s.computeR (g i).cls) h hc hg
        simp only [M.bind]
        rcases hm : runProg (read s f) i (s.computeR (g i).cls) h with ⟨h1, r⟩
        rw [hm] at hc1 hf1 ha
        obtain ⟨a1, a2⟩ := ha trivial
        cases r with
        | error e =>
          refine ⟨hc1, hf1, fun _ => ⟨a1, fun hne => ?_⟩⟩
          obtain ⟨f', hf'⟩ := a2 hne
          exact ⟨f' + 1, hf'⟩
        | ok v =>
          dsimp only
          have hmv : Means s h1.graph (.r i) (.ok v) := by
            obtain ⟨f', hf'⟩ := a2 (by simp)
            refine ⟨by simp, f' + 1, ?_⟩
            rw [hf1.graph, hg]; exact hf'
          have hn : (h1.node i).cacheR = none ∨ (h1.node i).cacheR = some v := by
            cases hx : (h1.node i).cacheR with
            | none => exact Or.inl (by rfl)
            | some v' => right; have := (hc1.r i v' hx).unique hmv; simp at this; rw [this]
          refine ⟨storeR_coh i v hc1 hmv, hf1.trans (storeR_frame i v h1 hn), fun _ => ⟨a1, fun hne => ?_⟩⟩
          obtain ⟨f', hf'⟩ := a2 (by simp)
          exact ⟨f' + 1, hf'⟩
    | prop i p =>
      intro h hc hg
      have hcls : (h.node i).cls = (g i).cls := by rw [← hg]; rfl
      simp only [read, hcls]
      cases hpd : s.propDecl (g i).cls p with
      | none =>
        exact ⟨hc, Frame.rfl, fun _ => ⟨fun _ => by simp [evalReq, hpd], fun _ => ⟨1, by simp [evalReq, hpd]⟩⟩⟩
      | some dd =>
        dsimp only
        cases hcr : (h.node i).props p with
        | some v =>
          refine ⟨hc, Frame.rfl, fun _ => ?_⟩
          obtain ⟨hne, f', hf'⟩ := hc.p i p v hcr
          rw [hg] at hf'
          exact Agree.of_known (mono_evalReq s g (.prop i p)) hne hf'
        | none =>
          dsimp only
          refine Sim.emit_bind ?_ h hc hg
          intro h hc hg
          obtain ⟨hc1, hf1, ha⟩ := runProg_sim (α := V) ih i dd.2 h hc hg
          have hev : ∀ f, evalReq s g (f + 1) (.prop i p) = evalProg g (evalReq s g f) i dd.2 := by
            intro f; simp [evalReq, hpd]
          simp only [M.bind]
          rcases hm : runProg (read s f) i dd.2 h with ⟨h1, r⟩
          rw [hm] at hc1 hf1 ha
          obtain ⟨a1, a2⟩ := ha trivial
          have a1' : evalReq s g (f + 1) (.prop i p) ≠ .error .fuel → r = evalReq s g (f + 1) (.prop i p) := by
            rw [hev]; exact a1
          cases r with
          | error e =>
            refine ⟨hc1, hf1, fun _ => ⟨a1', fun hne => ?_⟩⟩
            obtain ⟨f', hf'⟩ := a2 hne
            exact ⟨f' + 1, (hev f').trans hf'⟩
          | ok v =>
            dsimp only
            have hmv : Means s h1.graph (.prop i p) (.ok v) := by
              obtain ⟨f', hf'⟩ := a2 (by simp)
              refine ⟨by simp, f' + 1, ?_⟩
              rw [hf1.graph, hg, hev]; exact hf'
            have hn : (h1.node i).props p = none ∨ (h1.node i).props p = some v := by
              cases hx : (h1.node i).props p with
              | none => exact Or.inl (by rfl)
              | some v' => right; have := (hc1.p i p v' hx).unique hmv; simp at this; rw [this]
            refine ⟨storeProp_coh i p v hc1 hmv, hf1.trans (storeProp_frame i p v h1 hn), fun _ => ⟨a1', fun hne => ?_⟩⟩
            obtain ⟨f', hf'⟩ := a2 (by simp)
            exact ⟨f' + 1, (hev f').trans hf'⟩

/-- The central lemma for values: a cached read agrees with the specification. -/
theorem read_sim (f : Nat) (q : Req) : Sim s U W P g (read s f q) (fun f => evalReq s g f q) f :=
  (read_sim_true f q).weaken

/-! ### Derivatives -/

theorem runCompDr_sim (f : Nat) (i w : Id) :
    Sim s U W P g (runCompDr s f i w) (fun f => evalCompDr s g f i w) f := by
  refine Sim.emit_bind ?_
  refine Sim.graph (runProg_sim (read_sim f) i
    (s.computeDr (g i).cls (i == w) ((g i).namesOf w))) ?_
  intro h hg
  rw [← hg]; rfl

theorem mono_evalCompDr (s : Sig C T V D) (g : Graph C T) (i w : Id) :
    Mono (fun f => evalCompDr s g f i w) := fun h => evalCompDr_mono s g h i w

theorem mono_evalSlice (s : Sig C T V D) (g : Graph C T) (i : Id) (c : Nat) (x : Id) :
    Mono (fun f => evalSlice s g f i (f - c) x) :=
  fun h => evalSlice_mono s g h i (by omega) x

theorem sliceLoop_sim (f : Nat) (i : Id) : ∀ (n c : Nat) (x : Id), n = f - c →
    Sim s U W P g (sliceLoop s f i n x) (fun f' => evalSlice s g f' i (f' - c) x) f := by
  intro n
  induction n with
  | zero => intro c x hn; exact Sim.fuel (by rw [← hn]; rfl)
  | succ n ih =>
    intro c x hn
    have hsucc : ∀ f', f ≤ f' → f' - c = (f' - (c + 1)) + 1 := by intro f' hf'; omega
    by_cases hp : s.isPermute (g x).cls = true
    · cases hd : (g x).dterms s.permArg with
      | none =>
        refine Sim.graph (m' := M.throw .attr) (Sim.const (r := .error .attr) ?_ (fun _ => by rfl)) ?_
        · rw [hsucc f (Nat.le_refl f)]; simp [evalSlice, hp, hd]
        · intro h hg
          have h1 : (h.node x).cls = (g x).cls := by rw [← hg]; rfl
          have h2 : (h.node x).dterms = (g x).dterms := by rw [← hg]; rfl
          simp [sliceLoop, h1, h2, hp, hd, M.throw]
      | some y =>
        by_cases hy : y = i
        · refine Sim.graph (m' := M.pure none) (Sim.const (r := .ok none) ?_ (fun _ => by rfl)) ?_
          · rw [hsucc f (Nat.le_refl f)]; simp [evalSlice, hp, hd, hy]
          · intro h hg
            have h1 : (h.node x).cls = (g x).cls := by rw [← hg]; rfl
            have h2 : (h.node x).dterms = (g x).dterms := by rw [← hg]; rfl
            simp [sliceLoop, h1, h2, hp, hd, hy, M.pure]
        · refine Sim.graph (m' := M.bind (runCompDr s f i y) (fun
            | some d => M.pure (some (y, d))
            | none => sliceLoop s f i n y))
            (Sim.bind (q := fun f => evalCompDr s g f i y)
              (qk := fun f' o => match o with
                | some d => .ok (some (y, d))
                | none => evalSlice s g f' i (f' - (c + 1)) y)
              (runCompDr_sim f i y) ?_ (mono_evalCompDr s g i y) ?_ ?_) ?_
          · intro o
            cases o with
            | some d => exact Sim.const (r := .ok (some (y, d))) (by rfl) (fun _ => by rfl)
            | none => exact ih (c + 1) y (by omega)
          · intro o
            cases o with
            | some d => intro _ _ _ _; rfl
            | none => exact mono_evalSlice s g i (c + 1) y
          · intro f' hf'
            rw [hsucc f' hf']
            simp only [evalSlice, hp, hd, hy, if_true, if_false]
            cases evalCompDr s g f' i y with
            | error e => rfl
            | ok o => cases o <;> rfl
          · intro h hg
            have h1 : (h.node x).cls = (g x).cls := by rw [← hg]; rfl
            have h2 : (h.node x).dterms = (g x).dterms := by rw [← hg]; rfl
            simp only [sliceLoop, h1, h2, hp, hd, hy, if_true, if_false]
            rfl
    · refine Sim.graph (m' := M.pure none) (Sim.const (r := .ok none) ?_ (fun _ => by rfl)) ?_
      · rw [hsucc f (Nat.le_refl f)]; simp [evalSlice, hp]
      · intro h hg
        have h1 : (h.node x).cls = (g x).cls := by rw [← hg]; rfl
        simp [sliceLoop, h1, hp, M.pure]

theorem mono_evalSliced (s : Sig C T V D) (g : Graph C T) (i w : Id) :
    Mono (fun f => evalSliced s g f i w) := fun h => evalSliced_mono s g h i w

theorem mono_const (r : Except Err α) : Mono (fun _ => r) := fun _ _ => by rfl

/-- The part of `evalSliced` after the direct derivative was `None`. -/
def sliceTail (s : Sig C T V D) (g : Graph C T) (f : Nat) (w : Id) :
    Option (Id × D) → Except Err (Option D)
  | none => .ok none
  | some (inner, d) =>
    match evalCompDr s g f w inner with
    | .error e => .error e
    | .ok none => .error .attr
    | .ok (some j) => (s.superdot d (s.transp j)).map some

theorem mono_sliceTail (s : Sig C T V D) (g : Graph C T) (w : Id) (o : Option (Id × D)) :
    Mono (fun f => sliceTail s g f w o) := by
  intro f f' h
  cases o with
  | none => exact Le.rfl
  | some x =>
    have hc := evalCompDr_mono s g h w x.1
    simp only [sliceTail]
    cases h3 : evalCompDr s g f w x.1 with
    | error e => intro hne; rw [h3] at hc; rw [hc (by simpa using hne)]
    | ok o => rw [h3] at hc; rw [hc (by simp)]; exact Le.rfl

theorem drSliced_sim (f : Nat) (i w : Id) :
    Sim s U W P g (drSliced s f i w) (fun f => evalSliced s g f i w) f := by
  refine Sim.onChanged_bind ?_
  refine Sim.bind (q := fun f => evalCompDr s g f i w)
    (qk := fun f o => match o with
      | some d => .ok (some d)
      | none => match evalSlice s g f i f w with
        | .error e => .error e
        | .ok o => sliceTail s g f w o)
    (runCompDr_sim f i w) ?_ (mono_evalCompDr s g i w) ?_ ?_
  · intro o
    cases o with
    | some d => exact Sim.const (r := .ok (some d)) (by rfl) (fun _ => by rfl)
    | none =>
      refine Sim.bind (q := fun f => evalSlice s g f i (f - 0) w) (qk := fun f o => sliceTail s g f w o)
        (sliceLoop_sim f i f 0 w (by omega)) ?_ (mono_evalSlice s g i 0 w) (mono_sliceTail s g w) ?_
      · intro o
        cases o with
        | none => exact Sim.const (r := .ok none) (by rfl) (fun _ => by rfl)
        | some x =>
          obtain ⟨inner, d⟩ := x
          refine Sim.onChanged_bind ?_
          refine Sim.bind (q := fun f => evalCompDr s g f w inner)
            (qk := fun _ o => match o with
              | none => .error .attr
              | some j => (s.superdot d (s.transp j)).map some)
            (runCompDr_sim f w inner) ?_ (mono_evalCompDr s g w inner) ?_ ?_
          · intro o
            cases o with
            | none => exact Sim.const (r := .error .attr) (by rfl) (fun _ => by rfl)
            | some j => exact Sim.const (r := (s.superdot d (s.transp j)).map some) (by rfl) (fun _ => by rfl)
          · intro o; exact mono_const _
          · intro f' _
            simp only [sliceTail]
            cases evalCompDr s g f' w inner with
            | error e => rfl
            | ok o => cases o <;> rfl
      · intro f' _
        simp only [Nat.sub_zero]
        cases evalSlice s g f' i f' w <;> rfl
  · intro o
    cases o with
    | some d => exact mono_const _
    | none =>
      intro f f' h
      have hs := evalSlice_mono s g h i h w
      dsimp only
      cases h2 : evalSlice s g f i f w with
      | error e => intro hne; rw [h2] at hs; rw [hs (by simpa using hne)]
      | ok o => rw [h2] at hs; rw [hs (by simp)]; exact mono_sliceTail s g w o h
  · intro f' _
    simp only [evalSliced]
    cases evalCompDr s g f' i w with
    | error e => rfl
    | ok o =>
      cases o with
      | some d => rfl
      | none =>
        dsimp only
        cases evalSlice s g f' i f' w with
        | error e => rfl
        | ok o => cases o <;> rfl

theorem drTerms_sim (f : Nat) (i w : Id) {rec : Id → M C T V D (Option D)}
    {ev : Nat → Id → Except Err (Option D)}
    (hrec : ∀ p, Sim s U W P g (rec p) (fun f => ev f p) f) (mev : ∀ p, Mono (fun f => ev f p))
    (ks : List Name) : ∀ acc,
    Sim s U W P g (drTerms s f i w rec ks acc) (fun f => evalTerms s g f i w (ev f) ks acc) f := by
  induction ks with
  | nil => intro acc; exact Sim.const (r := .ok acc) (by rfl) (fun _ => by rfl)
  | cons k ks ih =>
    intro acc
    have mt : ∀ acc, Mono (fun f => evalTerms s g f i w (ev f) ks acc) :=
      fun acc _ _ h => evalTerms_mono s g h i w (fun p => mev p h) ks acc
    cases hd : (g i).dterms k with
    | none =>
      refine Sim.graph (m' := drTerms s f i w rec ks acc) (by simpa only [evalTerms, hd] using ih acc) ?_
      intro h hg
      have h2 : (h.node i).dterms = (g i).dterms := by rw [← hg]; rfl
      simp only [drTerms, h2, hd]
    | some p =>
      by_cases hp : p = w
      · refine Sim.graph (m' := drTerms s f i w rec ks acc) (by simpa only [evalTerms, hd, hp, if_true] using ih acc) ?_
        intro h hg
        have h2 : (h.node i).dterms = (g i).dterms := by rw [← hg]; rfl
        simp only [drTerms, h2, hd, hp, if_true]
      · refine Sim.graph (m' := M.bind (rec p) (fun
          | none => drTerms s f i w rec ks acc
          | some d2 =>
            M.bind (drSliced s f i p) (fun
              | none => drTerms s f i w rec ks acc
              | some d =>
                M.bind (M.lift (s.superdot d d2)) (fun x =>
                  drTerms s f i w rec ks (acc ++ [x]))))) ?_ ?_
        · have m3 : ∀ (d2 : D) (o : Option D), Mono (fun f => match o with
              | none => evalTerms s g f i w (ev f) ks acc
              | some d => match s.superdot d d2 with
                | .error e => .error e
                | .ok x => evalTerms s g f i w (ev f) ks (acc ++ [x])) := by
            intro d2 o
            cases o with
            | none => exact mt acc
            | some d =>
              dsimp only
              cases s.superdot d d2 with
              | error e => exact mono_const _
              | ok x => exact mt _
          have m2 : ∀ o : Option D, Mono (fun f => match o with
            | none => evalTerms s g f i w (ev f) ks acc
            | some d2 =>
              match evalSliced s g f i p with
              | .error e => .error e
              | .ok o => match o with
                | none => evalTerms s g f i w (ev f) ks acc
                | some d => match s.superdot d d2 with
                  | .error e => .error e
                  | .ok x => evalTerms s g f i w (ev f) ks (acc ++ [x])) := by
            intro o
            cases o with
            | none => exact mt acc
            | some d2 =>
              intro f f' h
              dsimp only
              have hs := evalSliced_mono s g h i p
              cases h2 : evalSliced s g f i p with
              | error e => intro hne; rw [h2] at hs; rw [hs (by simpa using hne)]
              | ok o => rw [h2] at hs; rw [hs (by simp)]; exact m3 d2 o h
          refine Sim.bind (q := fun f => ev f p) (qk := fun f o => match o with
            | none => evalTerms s g f i w (ev f) ks acc
            | some d2 =>
              match evalSliced s g f i p with
              | .error e => .error e
              | .ok o => match o with
                | none => evalTerms s g f i w (ev f) ks acc
                | some d => match s.superdot d d2 with
                  | .error e => .error e
                  | .ok x => evalTerms s g f i w (ev f) ks (acc ++ [x]))
            (hrec p) ?_ (mev p) m2 ?_
          · intro o
            cases o with
            | none => exact ih acc
            | some d2 =>
              refine Sim.bind (q := fun f => evalSliced s g f i p) (qk := fun f o => match o with
                | none => evalTerms s g f i w (ev f) ks acc
                | some d => match s.superdot d d2 with
                  | .error e => .error e
                  | .ok x => evalTerms s g f i w (ev f) ks (acc ++ [x]))
                (drSliced_sim f i p) ?_ (mono_evalSliced s g i p) (m3 d2) ?_
              · intro o
                cases o with
                | none => exact ih acc
                | some d =>
                  refine Sim.bind (q := fun _ => s.superdot d d2)
                    (qk := fun f x => evalTerms s g f i w (ev f) ks (acc ++ [x]))
                    (Sim.const (r := s.superdot d d2) (by rfl) (fun _ => by rfl)) (fun x => ih _) (mono_const _)
                    (fun x => mt _) ?_
                  intro f' _
                  dsimp only
                  cases s.superdot d d2 <;> rfl
              · intro f' _
                dsimp only
                cases evalSliced s g f' i p <;> rfl
          · intro f' _
            simp only [evalTerms, hd, hp, if_false]
            cases ev f' p with
            | error e => rfl
            | ok o =>
              cases o with
              | none => rfl
              | some d2 =>
                dsimp only
                cases evalSliced s g f' i p with
                | error e => rfl
                | ok o => cases o <;> rfl
        · intro h hg
          have h2 : (h.node i).dterms = (g i).dterms := by rw [← hg]; rfl
          simp only [drTerms, h2, hd, hp, if_false]
          rfl

theorem storeDr_frame (i w : Id) (d : Option D) (h : Heap C T V D) :
    Frame h (storeDr i w d h).1 := by
  unfold storeDr
  split
  · exact Frame.rfl
  refine ⟨?_, ?_, ?_, ?_, by rfl, by rfl, ?_, ?_, ?_⟩
  · funext j; simp only [Heap.graph, Heap.modify]; split <;> simp_all
  · intro j; simp only [Heap.modify]; split <;> simp_all
  · intro j; simp only [Heap.modify]; split <;> simp_all
  · intro j; simp only [Heap.modify]; split <;> simp_all
  · intro j; simp only [Heap.modify]; split <;> simp_all
  · intro j v'; simp only [Heap.modify]; split <;> simp_all
  · intro j p v; simp only [Heap.modify]; split <;> simp_all

theorem storeDr_coh (i w : Id) (d : Option D) {h : Heap C T V D} (hc : Coh s U W h)
    (hv : Plain s h.graph → W h.graph w → U h.graph i w d) :
    Coh s U W (storeDr i w d h).1 := by
  have hg := (storeDr_frame i w d h).graph
  constructor
  · intro j v; rw [hg]
    unfold storeDr
    split
    · exact hc.r j v
    · simp only [Heap.modify]
      split
      · rename_i he; subst he; exact hc.r j v
      · exact hc.r j v
  · intro j p v; rw [hg]
    unfold storeDr
    split
    · exact hc.p j p v
    · simp only [Heap.modify]
      split
      · rename_i he; subst he; exact hc.p j p v
      · exact hc.p j p v
  · intro hp j w' d'; rw [hg] at *
    unfold storeDr
    split
    · exact hc.d hp j w' d'
    · simp only [Heap.modify]
      split
      · rename_i he; subst he
        dsimp only
        split
        · rename_i he; subst he
          intro hw e; simp only [Option.some.injEq] at e; subst e; exact hv hp hw
        · exact hc.d hp j w' d'
      · exact hc.d hp j w' d'
  · intro j w' d' hd
    rw [(storeDr_frame i w d h).alive]
    unfold storeDr at hd
    split at hd
    · exact hc.k j w' d' hd
    · rename_i hal
      dsimp only at hd
      rw [modify_node] at hd
      split at hd
      · dsimp only at hd
        split at hd
        · rename_i he; subst he
          rw [not_or] at hal
          simpa using hal.2
        · exact hc.k i w' d' hd
      · exact hc.k j w' d' hd

/-- The sum of all contributions, before the final conversion. -/
def evalSum (s : Sig C T V D) (g : Graph C T) (i w : Id) (f : Nat) : Except Err (Option D) :=
  match evalSliced s g f i w with
  | .error e => .error e
  | .ok direct =>
    match evalTerms s g f i w (fun p => evalDr s g f p w) (g i).dnames direct.toList with
    | .error e => .error e
    | .ok ds => sumD s ds

/-- The central lemma for derivatives. -/
theorem drWrt_sim (f : Nat) : ∀ i w,
    Sim s (Fresh s) W (Plain s g ∧ W g w) g (drWrt s f i w) (fun f => evalDr s g f i w) f := by
  induction f with
  | zero => intro i w; exact Sim.fuel (by rfl)
  | succ f ih =>
    intro i w
    refine Sim.onChanged_bind ?_
    intro h hc hg
    dsimp only
    cases hcd : (h.node i).drs w with
    | some d =>
      refine ⟨hc, Frame.rfl, fun hP => ?_⟩
      obtain ⟨hne, f', hf'⟩ := hc.d (hg ▸ hP.1) i w d (hg ▸ hP.2) hcd
      rw [hg] at hf'
      exact Agree.of_known (fun h => evalDr_mono s g h i w) hne hf'
    | none =>
      dsimp only
      -- the sum of all contributions
      have hsum : Sim s (Fresh s) W (Plain s g ∧ W g w) g
          (M.bind (drSliced s f i w) fun direct =>
            M.bind (fun h => drTerms s f i w (fun p => drWrt s f p w) (h.node i).dnames direct.toList h)
              fun ds => M.lift (sumD s ds))
          (evalSum s g i w) f := by
        have mt : ∀ o : Option D, Mono (fun f =>
            evalTerms s g f i w (fun p => evalDr s g f p w) (g i).dnames o.toList) :=
          fun o _ _ h => evalTerms_mono s g h i w (fun p => evalDr_mono s g h p w) _ _
        refine Sim.bind (q := fun f => evalSliced s g f i w) (qk := fun f direct =>
              match evalTerms s g f i w (fun p => evalDr s g f p w) (g i).dnames direct.toList with
              | .error e => .error e
              | .ok ds => sumD s ds)
          (drSliced_sim f i w) ?_ (mono_evalSliced s g i w) ?_ ?_
        · intro o
          refine Sim.bind (q := fun f => evalTerms s g f i w (fun p => evalDr s g f p w) (g i).dnames o.toList)
            (qk := fun _ ds => sumD s ds) ?_ ?_ (mt o) (fun _ => mono_const _) ?_
          · refine Sim.graph (drTerms_sim f i w (ev := fun f p => evalDr s g f p w) (fun p => ih p w)
              (fun p _ _ h => evalDr_mono s g h p w) (g i).dnames o.toList) ?_
            intro h hg; rw [← hg]; rfl
          · intro ds; exact Sim.const (r := sumD s ds) (by rfl) (fun _ => by rfl)
          · intro f' _
            cases evalTerms s g f' i w (fun p => evalDr s g f' p w) (g i).dnames o.toList <;> rfl
        · intro o f f' h
          have ht := mt o h
          dsimp only at ht ⊢
          cases h2 : evalTerms s g f i w (fun p => evalDr s g f p w) (g i).dnames o.toList with
          | error e => intro hne; rw [h2] at ht; rw [ht (by simpa using hne)]
          | ok ds => rw [h2] at ht; rw [ht (by simp)]; exact Le.rfl
        · intro f' _
          simp only [evalSum]
          cases evalSliced s g f' i w <;> rfl
      have hassoc : (M.bind (drSliced s f i w) (fun direct =>
          M.bind (fun h => drTerms s f i w (fun p => drWrt s f p w) (h.node i).dnames direct.toList h) fun ds =>
          M.bind (M.lift (sumD s ds)) fun r =>
          M.bind (storeDr i w (r.map s.finish)) fun _ => fun h =>
            (h, .ok ((r.map s.finish).map (s.outForm (h.node i).makeDense (h.node i).makeSparse))))) h
        = M.bind (M.bind (drSliced s f i w) fun direct =>
            M.bind (fun h => drTerms s f i w (fun p => drWrt s f p w) (h.node i).dnames direct.toList h)
              fun ds => M.lift (sumD s ds)) (fun r =>
          M.bind (storeDr i w (r.map s.finish)) fun _ => fun h =>
            (h, .ok ((r.map s.finish).map (s.outForm (h.node i).makeDense (h.node i).makeSparse)))) h := by
        simp only [M.bind]
        rcases drSliced s f i w h with ⟨h1, r1⟩
        cases r1 with
        | error e => rfl
        | ok o =>
          dsimp only
          rcases drTerms s f i w (fun p => drWrt s f p w) (h1.node i).dnames o.toList h1 with ⟨h2, r2⟩
          cases r2 <;> rfl
      rw [hassoc]
      obtain ⟨hc1, hf1, ha⟩ := hsum h hc hg
      revert hc1 hf1 ha
      generalize (M.bind (drSliced s f i w) fun direct =>
            M.bind (fun h => drTerms s f i w (fun p => drWrt s f p w) (h.node i).dnames direct.toList h)
              fun ds => M.lift (sumD s ds)) = mm
      intro hc1 hf1 ha
      have hev : ∀ f, evalDr s g (f + 1) i w = match evalSum s g i w f with
          | .error e => .error e
          | .ok r => .ok (r.map (fun d => s.outForm (g i).makeDense (g i).makeSparse (s.finish d))) := by
        intro f
        rw [evalDr, evalSum]
        cases evalSliced s g f i w with
        | error e => rfl
        | ok o =>
          dsimp only
          cases evalTerms s g f i w (fun p => evalDr s g f p w) (g i).dnames o.toList <;> rfl
      simp only [M.bind]
      rcases hm : mm h with ⟨h1, r⟩
      rw [hm] at hc1 hf1 ha
      cases r with
      | error e =>
        refine ⟨hc1, hf1, fun hP => ?_⟩
        obtain ⟨a1, a2⟩ := ha hP
        constructor
        · intro hne
          dsimp only at hne ⊢
          rw [hev] at hne ⊢
          have := a1 (by intro hx; rw [hx] at hne; exact hne (by rfl))
          rw [← this]
        · intro hne
          obtain ⟨f', hf'⟩ := a2 (by simpa using hne)
          exact ⟨f' + 1, by dsimp only; rw [hev, hf']⟩
      | ok o =>
        dsimp only
        have hsf := storeDr_frame i w (o.map s.finish) h1
        have hg1 : h1.graph = g := hf1.graph.trans hg
        have hsok : (storeDr i w (o.map s.finish) h1).2 = .ok () := by unfold storeDr; split <;> rfl
        have hco : Coh s (Fresh s) W (storeDr i w (o.map s.finish) h1).1 := by
          refine storeDr_coh i w _ hc1 ?_
          intro hp hw
          rw [hg1] at hp hw ⊢
          obtain ⟨f', hf'⟩ := (ha ⟨hp, hw⟩).2 (by simp)
          refine ⟨by simp, f' + 1, ?_⟩
          rw [hev, hf', (hp.2 i).1, (hp.2 i).2]
          simp [hp.1]
        rcases hst : storeDr i w (o.map s.finish) h1 with ⟨h2, r2⟩
        rw [hst] at hsf hco hsok
        dsimp only at hsok
        subst hsok
        refine ⟨hco, hf1.trans hsf, fun hP => ?_⟩
        obtain ⟨a1, a2⟩ := ha hP
        have hgn : (h2.node i).toGNode = g i := by
          have : h2.graph = g := hsf.graph.trans hg1
          rw [← this]; rfl
        have e1 : (h2.node i).makeDense = (g i).makeDense := by rw [← hgn]
        have e2 : (h2.node i).makeSparse = (g i).makeSparse := by rw [← hgn]
        dsimp only
        rw [e1, e2]
        constructor
        · intro hne
          dsimp only at hne ⊢
          rw [hev] at hne ⊢
          have := a1 (by intro hx; rw [hx] at hne; exact hne (by rfl))
          rw [← this]
          simp [Function.comp_def]
        · intro _
          obtain ⟨f', hf'⟩ := a2 (by simp)
          exact ⟨f' + 1, by dsimp only; rw [hev, hf']; simp [Function.comp_def]⟩

end Chumpy
