import Verif.AD.Buffers
import Verif.Properties.Assign
import Verif.Properties.Links
import Verif.AD.Reduce
import Verif.Core.Pending
/-!
# C55: assignment into an array

`l[key] = value` is seen by all objects that depend on `l`, and makes no object stale.
-/
namespace Chumpy
open scoped BigOperators

/-- "No object is stale": every read of a value, and every derivative with respect to anything but a slice, is what evaluation without
caches gives on the present contents of the arrays. -/
def NoneStale (h : Heap ClassDef Par Arr Jac) : Prop :=
  (∀ f q, ReadFresh lib h f q (read lib f q h).2) ∧
  ∀ f i w, lib.isPermute (h.graph w).cls = false → DrFresh lib h f i w (drWrt lib f i w h).2

/-- "The array of `l`, which was `x`, has the values `value` at the positions `idxs` and is otherwise as it was." -/
def Overwritten (h : Heap ClassDef Par Arr Jac) (l : Id) (x value : Arr) (idxs ksh : List ℕ) : Prop :=
  ∃ x', Means lib h.graph (.r l) (.ok x') ∧ x'.shape = x.shape ∧
    (∀ k < idxs.length, x'.vec (idxs.getD k 0) = value.vec (bidx value.shape ksh k)) ∧
    ∀ p < x.size, p ∉ idxs → x'.vec p = x.vec p

/-- The array of `l` is the array of no other object. -/
def Store.Unshared (σ : Store) (l : Id) : Prop := ∀ b, σ.ref l = some b → ∀ j, j ≠ l → σ.ref j ≠ some b

/-- The states after histories of all operations, in which other operations are as in C01 and C02.  With `alone`: only objects whose
array is in no other object, at that time, are assigned into. -/
inductive StoreReach (alone : Prop) : Store → Prop
  | init : StoreReach alone Store.empty
  | step {σ : Store} (o : StoreOp) : StoreReach alone σ →
      (∀ p, o = .op p → Legal lib ⟨False, True⟩ σ.heap p) →
      (∀ f y key value, o = .item f y key value → alone → σ.Unshared y) → StoreReach alone (σ.step o).1

/-- C55 in full: for all histories of arrays being made, put into objects, assigned into, and of everything else. -/
def C55_full : Prop :=
  ∀ σ : Store, StoreReach False σ → ∀ (l : Id) (x value : Arr) (key : List Key) (idxs ksh : List ℕ) (f : ℕ), IsLeaf σ.heap.graph l →
    Means lib σ.heap.graph (.r l) (.ok x) → getitem key x.shape = some (idxs, ksh) → (σ.step (.item f l key value)).2 = .ok () →
    Overwritten (σ.step (.item f l key value)).1.heap l x value idxs ksh ∧ NoneStale (σ.step (.item f l key value)).1.heap

/-! ## Unshared arrays -/

theorem innerOf_alive {h : Heap ClassDef Par Arr Jac} (hs : Str h) {f : ℕ} : ∀ {y i : Id}, (h.node y).alive = true →
    innerOf h.graph f y = .ok i → (h.node i).alive = true := by
  induction f with
  | zero => intro y i _ e; cases e
  | succ f ih =>
    intro y i hy e
    rw [innerOf] at e
    split at e
    · cases e; exact hy
    · split at e
      · split at e
        · next a ha => exact ih (hs.child_alive ha) e
        · cases e
      · cases e

theorem reach_set1 {h : Heap ClassDef Par Arr Jac} (hr : Reach lib ⟨False, True⟩ h) (i : Id) (kw : KW Par) :
    Reach lib ⟨False, True⟩ (setObj lib i [kw] h).1 :=
  Reach.step (.set i [kw]) hr ⟨fun h => False.elim h, Or.inl (by simp)⟩

theorem setItem_reach {h : Heap ClassDef Par Arr Jac} (hr : Reach lib ⟨False, True⟩ h) (f : ℕ) {y : Id} (hy : (h.node y).alive = true)
    (key : List Key) (value : Arr) : Reach lib ⟨False, True⟩ (setItem f y key value h).1 := by
  unfold setItem
  split
  · split
    · split
      · split
        · exact reach_set1 hr _ _
        · exact hr
      · exact hr
    · exact hr
  · split
    · exact hr
    · next inner hin =>
      have hin := innerOf_alive (reach_str hr) hy hin
      have f1 := read_pres (s := lib) rframe_rel f (.r y) h
      have hr1 := reach_read hr hy f
      dsimp only [M.bind]
      rcases hx1 : read lib f (.r y) h with ⟨h1, r1⟩
      rw [hx1] at f1 hr1
      dsimp only at f1 hr1
      cases r1 with
      | error e => exact hr1
      | ok v =>
        dsimp only
        rcases getitem key v.shape with _ | ⟨idxs, ksh⟩
        · exact hr1
        · dsimp only [M.bind]
          let o : ObjSpec ClassDef Par := ⟨chSelect, [nmA], [.link nmA y, .term nmP (.nats idxs), .term nmQ (.nats ksh)]⟩
          have hpl : ∀ kw ∈ o.kws, kw.Plain h1 o.dnames := by
            intro kw hm
            simp only [o, List.mem_cons, List.not_mem_nil, or_false] at hm
            rcases hm with rfl | rfl | rfl
            · exact ⟨by simp [o], by rw [f1.alive]; exact hy⟩
            · trivial
            · trivial
          obtain ⟨e2, _⟩ := newObj_eq (s := lib) (reach_str hr1) o hpl
          obtain ⟨_, n2, a2, g2⟩ := newObj_built (s := lib) (reach_str hr1) o hpl
          have hr2 := Reach.step (.new o.cls o.dnames false false o.kws) hr1 ⟨fun h => h.elim, fun _ => ⟨rfl, rfl⟩⟩
          have es : (step lib (.new o.cls o.dnames false false o.kws) h1).1 = (newObj lib o.cls o.dnames false false o.kws h1).1 := rfl
          rw [es] at n2 a2 g2 hr2
          dsimp only [o] at n2 a2 g2 hr2 e2
          rcases hh2 : newObj lib chSelect [nmA] false false [.link nmA y, .term nmP (.nats idxs), .term nmQ (.nats ksh)] h1 with ⟨h2, v2⟩
          rw [hh2] at n2 a2 g2 hr2 e2
          have v2e : v2 = .ok h1.next := congrArg Prod.snd e2
          dsimp only at n2 a2 g2 hr2
          subst v2e
          dsimp only
          have hi1 : (h1.node inner).alive = true := by rw [f1.alive]; exact hin
          have hi2 : (h2.node inner).alive = true := by
            rw [a2]; split
            · rfl
            · exact hi1
          have hr3 := reach_drWrt hr2 (i := h1.next) (by rw [a2, if_pos rfl]) hi2 f
          have F3 := drWrt_pres (s := lib) rframe_rel f h1.next inner h2
          rcases hh3 : drWrt lib f h1.next inner h2 with ⟨h3, v3⟩
          rw [hh3] at hr3 F3
          dsimp only at hr3 F3
          cases v3 with
          | error e => exact hr3
          | ok d =>
            dsimp only
            have hi3 : (h3.node inner).alive = true := by rw [F3.alive]; exact hi2
            have hr4 := reach_read hr3 hi3 f
            rcases hh4 : read lib f (.r inner) h3 with ⟨h4, v4⟩
            rw [hh4] at hr4
            dsimp only at hr4
            cases v4 with
            | error e => exact hr4
            | ok vi =>
              dsimp only
              split
              · split
                · exact reach_set1 hr4 _ _
                · exact hr4
              · exact hr4

theorem poke_unshared {σ : Store} {l : Id} {b : ℕ} (hl : σ.ref l = some b) (hu : σ.Unshared l) (x' : Arr) :
    poke (fun j => if j = l then none else σ.ref j) b x' σ.heap = σ.heap := by
  have : ∀ j, (if j = l then none else σ.ref j) ≠ some b := by
    intro j
    split
    · simp
    · next hj => exact hu b hl j hj
  unfold poke
  simp only [this, if_false]

theorem StoreReach.heap {σ : Store} (h : StoreReach True σ) : Reach lib ⟨False, True⟩ σ.heap := by
  induction h with
  | init => exact .init
  | @step σ o _ hl hu ih =>
    cases o with
    | array v => exact ih
    | take l => dsimp only [Store.step]; split <;> exact ih
    | leaf b =>
      dsimp only [Store.step]
      split
      · exact .step _ ih ⟨fun h => False.elim h, fun _ => ⟨rfl, rfl⟩⟩
      · exact ih
    | assign l b =>
      dsimp only [Store.step]
      split
      · exact .step _ ih ⟨fun h => False.elim h, Or.inl (by simp)⟩
      · exact ih
    | item f y key value =>
      dsimp only [Store.step]
      split
      · next hy =>
        split
        · split
          · next b x hb hx =>
            split
            · split
              · dsimp only
                rw [poke_unshared hb (hu f y key value rfl trivial)]
                exact .step _ ih ⟨fun h => False.elim h, Or.inl (by simp)⟩
              · exact ih
            · exact ih
          · exact setItem_reach ih f hy key value
        · exact setItem_reach ih f hy key value
      · exact ih
    | op o => exact .step _ ih (hl o rfl)

/-- In these states an assignment into `l` is the assignment of the other modules. -/
theorem item_unshared {σ : Store} {l : Id} (hu : σ.Unshared l) (f : ℕ) (key : List Key) (value : Arr) (hb : (σ.heap.graph l).cls.isBase = true)
    (hok : (σ.step (.item f l key value)).2 = .ok ()) :
    (σ.step (.item f l key value)).1.heap = (setItem f l key value σ.heap).1 ∧ (setItem f l key value σ.heap).2 = .ok () ∧
      (σ.heap.node l).alive = true := by
  dsimp only [Store.step] at hok ⊢
  by_cases hy : (σ.heap.node l).alive = true
  · rw [if_pos hy] at hok ⊢
    rw [if_pos hb] at hok ⊢
    rw [← and_assoc]
    refine ⟨?_, hy⟩
    rcases hr : σ.ref l with _ | b
    · rw [hr] at hok; exact ⟨rfl, hok⟩
    · rw [hr] at hok
      rcases hx : (σ.heap.graph l).terms nmX with _ | t
      · rw [hx] at hok; exact ⟨rfl, hok⟩
      · rw [hx] at hok
        cases t with
        | arr x =>
          unfold setItem
          rw [if_pos hb, hx]
          dsimp only at hok ⊢
          rcases hk : getitem key x.atleast1.shape with _ | ⟨idxs, ksh⟩
          · rw [hk] at hok; cases hok
          · rw [hk] at hok
            dsimp only at hok ⊢
            split at hok
            · next hv =>
              rw [if_pos hv, if_pos hv]
              dsimp only
              rw [poke_unshared hr hu]
              refine ⟨rfl, ?_⟩
              unfold setObj
              rw [if_pos hy]; rfl
            · cases hok
        | _ => exact ⟨rfl, hok⟩
  · rw [if_neg hy] at hok; cases hok

/-- C55 for histories in which only objects whose array is in no other object, at that time, are assigned into: the assignment does what it
should, and no object is stale.  Missing: arrays that two objects hold, for which it is false (`C55_full_refuted`). -/
theorem C55_assignment_seen_partial {σ : Store} (hσ : StoreReach True σ) {l : Id} (hu : σ.Unshared l) {x value : Arr} {key : List Key}
    {idxs ksh : List ℕ} {f : ℕ} (hl : IsLeaf σ.heap.graph l) (hx : Means lib σ.heap.graph (.r l) (.ok x))
    (hk : getitem key x.shape = some (idxs, ksh)) (hok : (σ.step (.item f l key value)).2 = .ok ()) :
    Overwritten (σ.step (.item f l key value)).1.heap l x value idxs ksh ∧ NoneStale (σ.step (.item f l key value)).1.heap := by
  have hr' : Reach lib ⟨False, True⟩ (σ.step (.item f l key value)).1.heap :=
    (StoreReach.step (.item f l key value) hσ (fun p e => by cases e) fun _ _ _ _ e _ => by cases e; exact hu).heap
  refine ⟨?_, fun f q => ?_, fun f i w hw => C02_derivative_never_stale_partial lib_propsOk lib_plainForm hr' f i w hw⟩
  · have hb : (σ.heap.graph l).cls.isBase = true := by rw [hl.1]; rfl
    obtain ⟨e1, e2, hal⟩ := item_unshared hu f key value hb hok
    obtain ⟨x0, hx0, rfl⟩ := leaf_term hl hx
    have hval : bshape value.shape ksh = some ksh := by
      by_contra hn
      unfold setItem at e2
      rw [if_pos hb, hx0] at e2
      dsimp only at e2
      rw [hk] at e2
      dsimp only at e2
      rw [if_neg hn] at e2; cases e2
    obtain ⟨hn, hi, _⟩ := getitem_spec hk
    obtain ⟨h', e3, as⟩ := C24_array_partial hσ.heap hl hal hx hk hval f
    rw [e1, e3]
    obtain ⟨x', ⟨f1, h1⟩, s1, r1⟩ := as.rest
    obtain ⟨x2, ⟨f2, h2⟩, s2, r2⟩ := as.view
    have : x2 = x' := by
      have a := h1 (max f1 f2) (le_max_left _ _)
      have b := h2 (max f1 f2) (le_max_right _ _)
      rw [a] at b; injection b with b; exact b.symm
    subst this
    refine ⟨x2, (C01_value_never_stale_partial lib_propsOk (as.reach.weaken (fun h => False.elim h) (fun h => False.elim h)) f1 l).1 _ (h1 f1 le_rfl), s1, fun k hk => ?_, fun p hp hn => ?_⟩
    · rw [r2 k hk, Arr.vec_of _ _ (by rw [hn]; exact hk)]
    · refine r1 p hp fun k hk e => hn ?_
      rw [← e, List.getD_eq_getElem _ _ hk]; exact List.getElem_mem hk
  · exact readFresh_of_agree ((read_sim (P := True) f q _ (reach_inv lib_propsOk (fun _ => lib_localDr) hr').coh rfl).2.2 trivial)

/-- In all these states, nothing is stale. -/
theorem C55_none_stale_partial {σ : Store} (hσ : StoreReach True σ) : NoneStale σ.heap :=
  ⟨fun f q => readFresh_of_agree ((read_sim (P := True) f q _ (reach_inv lib_propsOk (fun _ => lib_localDr) hσ.heap).coh rfl).2.2 trivial),
    fun f i w hw => C02_derivative_never_stale_partial lib_propsOk lib_plainForm hσ.heap f i w hw⟩

namespace ADDemo
/-- `v = np.array([1., 2.]); a = Ch(v); a[0] = 5`: the hypotheses of C55 are met. -/
example : ∃ σ, StoreReach True σ ∧ σ.Unshared 0 ∧ IsLeaf σ.heap.graph 0 ∧ Means lib σ.heap.graph (.r 0) (.ok (⟨[2], ![1, 2]⟩ : Arr).atleast1) ∧
    σ.ref 0 = some 0 ∧ (σ.step (.item 0 0 [.int 0] ⟨[], fun _ => 5⟩)).2 = .ok () := by
  have h1 : StoreReach True (Store.empty.step (.array ⟨[2], ![1, 2]⟩)).1 := .step _ .init (fun p e => by cases e) (fun _ _ _ _ e => by cases e)
  have h2 := StoreReach.step (.leaf 0) h1 (fun p e => by cases e) (fun _ _ _ _ e => by cases e)
  have hb : 0 < (Store.empty.step (.array ⟨[2], ![1, 2]⟩)).1.free := by decide
  have e2 : ((Store.empty.step (.array ⟨[2], ![1, 2]⟩)).1.step (.leaf 0)).1 =
    { (Store.empty.step (.array ⟨[2], ![1, 2]⟩)).1 with
      heap := Chumpy.run lib (buildOps [leafO ⟨[2], ![1, 2]⟩]) (Heap.empty lib)
      ref := fun j => if j = 0 then some 0 else none } := by
    dsimp only [Store.step]; rw [if_pos (by decide)]; rfl
  have hf : FitsFrom 0 [leafO ⟨[2], ![1, 2]⟩] := ⟨leafO_fits _ _, trivial⟩
  have ok : ∀ (i : ℕ) (o : ObjSpec ClassDef Par), [leafO ⟨[2], ![1, 2]⟩][i]? = some o → ∀ kw ∈ o.kws, KW.Earlier i o.dnames kw := by
    intro i o ho
    have := (hf.get ho).1; rwa [Nat.zero_add] at this
  have hg := build_graph (s := lib) _ ok
  have ha := (build_alive (s := lib) _ ok).2 0
  have g0 : (Chumpy.run lib (buildOps [leafO ⟨[2], ![1, 2]⟩]) (Heap.empty lib)).graph 0 = (leafO ⟨[2], ![1, 2]⟩).node := by rw [hg]; rfl
  have hx0 : ((Chumpy.run lib (buildOps [leafO ⟨[2], ![1, 2]⟩]) (Heap.empty lib)).graph 0).terms nmX = some (.arr ⟨[2], ![1, 2]⟩) := by rw [g0]; rfl
  rw [e2] at h2
  generalize Chumpy.run lib (buildOps [leafO ⟨[2], ![1, 2]⟩]) (Heap.empty lib) = h at *
  refine ⟨_, h2, ?_, isLeaf_leafO g0, means_leaf (by rw [g0]; rfl) hx0, rfl, ?_⟩
  · intro b _ j hj
    dsimp only
    rw [if_neg hj]; simp
  · have hk : getitem [.int 0] (⟨[2], ![1, 2]⟩ : Arr).atleast1.shape = some ([0], []) := by decide
    have a0 : (h.node 0).alive = true := by rw [ha]; rfl
    dsimp only [Store.step]
    rw [if_pos a0, if_pos (by rw [g0]; rfl), if_pos rfl, hx0]
    dsimp only
    rw [hk]
    rfl
end ADDemo

/-! ## A shared array -/

/-- A read that returned leaves its result in the cache. -/
theorem read_fills {h : Heap ClassDef Par Arr Jac} {f : ℕ} {i : Id} {v : Arr} (hr : (read lib f (.r i) h).2 = .ok v) :
    ((read lib f (.r i) h).1.node i).cacheR = some v := by
  cases f with
  | zero => cases hr
  | succ f =>
    rw [read] at hr ⊢
    rw [M.bind] at hr ⊢
    rcases hx : callOnChanged i h with ⟨h1, r⟩
    rw [hx] at hr
    cases r with
    | error e => cases hr
    | ok u =>
      dsimp only at hr ⊢
      cases hc : (h1.node i).cacheR with
      | some v' => rw [hc] at hr; dsimp only at hr ⊢; rw [hc]; injection hr with hr; rw [hr]
      | none =>
        rw [hc] at hr; dsimp only at hr ⊢
        simp only [M.bind, emit] at hr ⊢
        rcases hx : runProg (read lib f) i (lib.computeR (h1.node i).cls) { h1 with log := h1.log ++ [.ranR i] } with ⟨h2, r⟩
        rw [hx] at hr
        cases r with
        | error e => cases hr
        | ok v' =>
          simp only [storeR, Heap.modify] at hr ⊢
          injection hr with hr; rw [if_pos trivial, hr]

/-- A cached value is what a read returns. -/
theorem read_of_cached {h : Heap ClassDef Par Arr Jac} {f : ℕ} {i : Id} {v : Arr} (hc : (h.node i).cacheR = some v) :
    (read lib (f + 1) (.r i) h).2 = .ok v := by
  have : ((callOnChanged i h).1.node i).cacheR = some v := by
    unfold callOnChanged
    split
    · exact hc
    · simp only [Heap.modify]; rw [if_pos trivial]; exact hc
  have h2 : (callOnChanged i h).2 = .ok () := by unfold callOnChanged; split <;> rfl
  rw [read, M.bind]
  rcases hx : callOnChanged i h with ⟨h1, r⟩
  rw [hx] at this h2
  dsimp only at this h2
  subst h2
  dsimp only
  rw [this]

/-- Assigning to the array of an object that nothing refers to leaves the cached values of the others. -/
theorem set_keeps_cache {h : Heap ClassDef Par Arr Jac} (hs : Str h) {l j : Id} (hl : (h.node l).parents = [])
    (hal : (h.node l).alive = true) (hj : j ≠ l) (t : Par) :
    ((Chumpy.step lib (.set l [.term nmX t]) h).1.node j).cacheR = (h.node j).cacheR ∧
      ∀ i, i ≠ l → (Chumpy.step lib (.set l [.term nmX t]) h).1.graph i = h.graph i := by
  have he : (Chumpy.step lib (.set l [.term nmX t]) h).1 = (setTerm lib l nmX t none h).1 := by
    simp only [Chumpy.step, M.map', setObj]; rw [if_pos hal]; rfl
  rw [he]
  constructor
  · have hp : ∀ n, ((h.modify l fun nd => (nd.addDirty [nmX]).invalidate lib [nmX]).node n).parents = (h.node n).parents := by
      intro n
      simp only [Heap.modify]
      split
      · next e => rw [e]; rfl
      · rfl
    obtain ⟨_, _, hk, _⟩ := C04_clear_cache (s := lib) (h.modify l fun nd => (nd.addDirty [nmX]).invalidate lib [nmX])
      (fun n hn => by rw [hp]; exact hs.par0 n hn) l
    have hdep : ¬ Dependent (h.modify l fun nd => (nd.addDirty [nmX]).invalidate lib [nmX]) l j := by
      have : ∀ z, Dependent (h.modify l fun nd => (nd.addDirty [nmX]).invalidate lib [nmX]) l z → z = l := by
        intro z hz
        induction hz with
        | self => rfl
        | up _ hm ih =>
          rw [ih, hp, hl] at hm; simp at hm
      exact fun hd => hj (this j hd)
    have e1 : (setTerm lib l nmX t none h).1.node j =
        (clearCache lib l none (h.modify l fun nd => (nd.addDirty [nmX]).invalidate lib [nmX])).node j := by
      simp only [setTerm]; exact modify_node_ne _ _ hj
    rw [e1]
    refine (hk j hdep).1.trans ?_
    rw [modify_node_ne _ _ hj]
  · intro i hi
    obtain ⟨_, w, _, _⟩ := setTerm_writing (s := lib) h hs l nmX t none
    exact w.off i hi

theorem poke_str {ref : Id → Option ℕ} {b : ℕ} {x : Arr} {h : Heap ClassDef Par Arr Jac} (hs : Str h) : Str (poke ref b x h) := by
  have e : ∀ j, ((poke ref b x h).node j).parents = (h.node j).parents ∧ ((poke ref b x h).node j).dterms = (h.node j).dterms ∧
      ((poke ref b x h).node j).dnames = (h.node j).dnames ∧ ((poke ref b x h).node j).alive = (h.node j).alive ∧
      ((poke ref b x h).node j).drs = (h.node j).drs ∧ ((poke ref b x h).node j).itr = (h.node j).itr ∧
      ((poke ref b x h).node j).makeDense = (h.node j).makeDense ∧ ((poke ref b x h).node j).makeSparse = (h.node j).makeSparse := by
    intro j
    simp only [poke]
    split <;> exact ⟨rfl, rfl, rfl, rfl, rfl, rfl, rfl, rfl⟩
  refine ⟨⟨fun q k n => ?_, fun n => ?_⟩, fun n hn => ?_, fun n hn => ?_, fun q k c hc => ?_, fun i w d hd => ?_, fun n t ht => ?_⟩
  · have := hs.links.exact q k n
    simp only [Heap.graph_apply, Heap.par] at this ⊢
    rw [(e q).2.1, (e n).1]; exact this
  · have := hs.links.ok n
    simp only [Heap.par] at this ⊢
    rw [(e n).1]; exact this
  · rw [(e n).2.2.2.1] at hn
    obtain ⟨a1, a2, a3, a4⟩ := hs.dead n hn
    rw [(e n).1, (e n).2.1, (e n).2.2.2.2.2.2.1, (e n).2.2.2.2.2.2.2]
    exact ⟨a1, a2, a3, a4⟩
  · rw [(e n).2.2.2.1]; exact hs.unborn n hn
  · rw [(e q).2.1] at hc
    rw [(e q).2.2.1]; exact hs.dn q k c hc
  · rw [(e i).2.2.2.2.1] at hd
    rw [(e w).2.2.2.1]; exact hs.keys i w d hd
  · rw [(e n).2.2.2.2.2.1] at ht
    exact hs.tags n t ht

theorem Store.step_leaf {σ : Store} {b : ℕ} (hb : b < σ.free) : (σ.step (.leaf b)).1 =
    { σ with
      heap := (Chumpy.step lib (.new chLeaf [] false false [.term nmX (.arr (σ.mem b))]) σ.heap).1
      ref := fun j => if j = σ.heap.next then some b else σ.ref j } := by
  dsimp only [Store.step]; rw [if_pos hb]

theorem Store.step_op_ref {σ : Store} {o : Op ClassDef Par Jac} {j : Id} (h1 : ¬ o.writesX j)
    (h2 : (Chumpy.step lib o σ.heap).1.graph j = σ.heap.graph j) (h3 : ((Chumpy.step lib o σ.heap).1.node j).alive = true) :
    (σ.step (.op o)).1.ref j = σ.ref j := by
  dsimp only [Store.step]
  rw [if_neg]
  rintro (h | h | h)
  · exact h1 h.1
  · exact h (by rw [h2])
  · rw [h3] at h; cases h

namespace ADDemo
/-- `v = np.array([1., 2.]); a = Ch(v); b = Ch(v); y = SumOfSquares(b); y.r` -/
noncomputable def shared (f : ℕ) : List StoreOp :=
  [.array ⟨[2], ![1, 2]⟩, .leaf 0, .leaf 0, .op (.new chSumSq [nmA] false false [.link nmA 1]), .op (.readR f 2)]

noncomputable def sharedHeap : Heap ClassDef Par Arr Jac :=
  Chumpy.run lib (buildOps [leafO ⟨[2], ![1, 2]⟩, leafO ⟨[2], ![1, 2]⟩, unO chSumSq 1]) (Heap.empty lib)

theorem shared_fits : FitsFrom 0 [leafO ⟨[2], ![1, 2]⟩, leafO ⟨[2], ![1, 2]⟩, unO chSumSq 1] :=
  ⟨leafO_fits _ _, leafO_fits _ _, unO_fits (by decide), trivial⟩

theorem sharedHeap_facts : Reach lib ⟨False, True⟩ sharedHeap ∧ sharedHeap.next = 3 ∧ (∀ j < 3, (sharedHeap.node j).alive = true) ∧
    sharedHeap.graph = buildGraph lib [leafO ⟨[2], ![1, 2]⟩, leafO ⟨[2], ![1, 2]⟩, unO chSumSq 1] := by
  have hok := fun (i : ℕ) (o : ObjSpec ClassDef Par) (ho : _[i]? = some o) => by
    have := (shared_fits.get ho).1; rwa [Nat.zero_add] at this
  refine ⟨build_reach _ _ (fun o ho hp k hk => ?_), (build_alive (s := lib) _ hok).1, fun j hj => ?_, build_graph _ hok⟩
  · obtain ⟨j, hj⟩ := List.getElem?_of_mem ho
    exact (shared_fits.get hj).2 hp k hk
  · unfold sharedHeap
    rw [(build_alive (s := lib) _ hok).2]; simpa using hj

/-- The state after that, and what is where. -/
theorem shared_state (f : ℕ) : ∃ σ : Store, StoreReach False σ ∧ σ.heap = (Chumpy.step lib (.readR f 2) sharedHeap).1 ∧
    σ.ref 0 = some 0 ∧ σ.ref 1 = some 0 ∧ σ.ref 2 = none := by
  have no : ∀ (o : StoreOp) (σ : Store), ∀ f y key value, o = .item f y key value → False → σ.Unshared y := fun _ _ _ _ _ _ _ h => h.elim
  have h1 : StoreReach False (Store.empty.step (.array ⟨[2], ![1, 2]⟩)).1 := .step _ .init (fun p e => by cases e) (no _ _)
  have h2 := StoreReach.step (.leaf 0) h1 (fun p e => by cases e) (no _ _)
  have h3 := StoreReach.step (.leaf 0) h2 (fun p e => by cases e) (no _ _)
  have h4 := StoreReach.step (.op (.new chSumSq [nmA] false false [.link nmA 1])) h3
    (fun p e => by cases e; exact ⟨fun h => False.elim h, fun _ => ⟨rfl, rfl⟩⟩) (no _ _)
  have h5 := StoreReach.step (.op (.readR f 2)) h4 (fun p e => by cases e; trivial) (no _ _)
  obtain ⟨hr, hn, hal, hg⟩ := sharedHeap_facts
  have ok2 : ∀ (i : ℕ) (o : ObjSpec ClassDef Par), [leafO ⟨[2], ![1, 2]⟩, leafO ⟨[2], ![1, 2]⟩][i]? = some o → ∀ kw ∈ o.kws, KW.Earlier i o.dnames kw := by
    have hf : FitsFrom 0 [leafO ⟨[2], ![1, 2]⟩, leafO ⟨[2], ![1, 2]⟩] := ⟨leafO_fits _ _, leafO_fits _ _, trivial⟩
    intro i o ho
    have := (hf.get ho).1; rwa [Nat.zero_add] at this
  have g2 := build_graph (s := lib) _ ok2
  have e2 := Store.step_leaf (σ := (Store.empty.step (.array ⟨[2], ![1, 2]⟩)).1) (b := 0) (by decide)
  have f2 : 0 < ((Store.empty.step (.array ⟨[2], ![1, 2]⟩)).1.step (.leaf 0)).1.free := by rw [e2]; decide
  have e3 := Store.step_leaf (σ := ((Store.empty.step (.array ⟨[2], ![1, 2]⟩)).1.step (.leaf 0)).1) (b := 0) f2
  have n1 : (Chumpy.run lib (buildOps [leafO ⟨[2], ![1, 2]⟩]) (Heap.empty lib)).next = 1 := rfl
  have hp3 : (((Store.empty.step (.array ⟨[2], ![1, 2]⟩)).1.step (.leaf 0)).1.step (.leaf 0)).1.heap =
      Chumpy.run lib (buildOps [leafO ⟨[2], ![1, 2]⟩, leafO ⟨[2], ![1, 2]⟩]) (Heap.empty lib) := by
    rw [e3, e2]; rfl
  have rf3 : (((Store.empty.step (.array ⟨[2], ![1, 2]⟩)).1.step (.leaf 0)).1.step (.leaf 0)).1.ref = fun j =>
      if j = 1 then some 0 else if j = 0 then some 0 else none := by
    rw [e3, e2]; rfl
  generalize (((Store.empty.step (.array ⟨[2], ![1, 2]⟩)).1.step (.leaf 0)).1.step (.leaf 0)).1 = σ3 at *
  have hp4 : (Chumpy.step lib (.new chSumSq [nmA] false false [.link nmA 1]) σ3.heap).1 = sharedHeap := by rw [hp3]; rfl
  have r4 : ∀ j : ℕ, j < 2 → (σ3.step (.op (.new chSumSq [nmA] false false [.link nmA 1]))).1.ref j = σ3.ref j := by
    intro j hj
    refine Store.step_op_ref (fun h => h) ?_ ?_
    · rw [hp4, hg, hp3, g2]
      rcases (show j = 0 ∨ j = 1 by omega) with rfl | rfl <;> rfl
    · rw [hp4]; exact hal j (Nat.lt_trans hj (by decide))
  have r4' : (σ3.step (.op (.new chSumSq [nmA] false false [.link nmA 1]))).1.ref 2 = none := by
    dsimp only [Store.step]
    split
    · rfl
    · rw [rf3]; rfl
  have hp4' : (σ3.step (.op (.new chSumSq [nmA] false false [.link nmA 1]))).1.heap = sharedHeap := hp4
  generalize (σ3.step (.op (.new chSumSq [nmA] false false [.link nmA 1]))).1 = σ4 at *
  have fr : RFrame σ4.heap (Chumpy.step lib (.readR f 2) σ4.heap).1 := step_read_frame (s := lib) (.r _ _)
  have r5 : ∀ j : ℕ, j < 3 → (σ4.step (.op (.readR f 2))).1.ref j = σ4.ref j := by
    intro j hj
    refine Store.step_op_ref (fun h => h) (by rw [fr.graph]) ?_
    rw [fr.alive, hp4']; exact hal j hj
  refine ⟨_, h5, ?_, ?_, ?_, ?_⟩
  · show (Chumpy.step lib (.readR f 2) σ4.heap).1 = _
    rw [hp4']
  · rw [r5 0 (by decide), r4 0 (by decide), rf3]; rfl
  · rw [r5 1 (by decide), r4 1 (by decide), rf3]; rfl
  · rw [r5 2 (by decide), r4']
end ADDemo

/-- C55 is false as stated: two objects made from one numpy array share it.  After `a[0] = 5` the entry of `b` is 5 too, but
`SumOfSquares(b).r` is still 5 and not 29. -/
theorem C55_full_refuted : ¬ C55_full := by
  intro hf
  obtain ⟨hr, hn, hal, hg⟩ := ADDemo.sharedHeap_facts
  have hm1 : Means lib ADDemo.sharedHeap.graph (.r 1) (.ok (⟨[2], ![1, 2]⟩ : Arr).atleast1) := by
    rw [hg]; exact means_leaf rfl rfl
  have hy : IsA ADDemo.sharedHeap.graph 2 chSumSq [nmA] fun _ => 1 := by rw [hg]; exact isA_un rfl
  have hm2 := means_of_isA hy (v := fun _ => (⟨[2], ![1, 2]⟩ : Arr).atleast1) (fun _ => hm1) (exact_sumSq (tm := (ADDemo.sharedHeap.graph 2).terms)).val
  obtain ⟨f, hrd⟩ := read_of_means hr hm2
  obtain ⟨σ, hσ, hh, r0, r1, r2⟩ := ADDemo.shared_state f
  have hrd := hrd f le_rfl
  have hheap : σ.heap = (read lib f (.r 2) ADDemo.sharedHeap).1 := by
    rw [hh]; simp only [Chumpy.step, ifAlive]; rw [if_pos (hal 2 (by decide))]; rfl
  have fr : RFrame ADDemo.sharedHeap σ.heap := by
    rw [hheap]; exact read_pres (s := lib) rframe_rel f (.r 2) _
  have hs : Str σ.heap := by rw [hheap]; exact reach_str (reach_read hr (hal 2 (by decide)) f)
  have hc := read_fills hrd
  rw [← hheap] at hc
  have g0 : σ.heap.graph 0 = (leafO ⟨[2], ![1, 2]⟩).node := by rw [fr.graph, hg]; rfl
  have g1 : σ.heap.graph 1 = (leafO ⟨[2], ![1, 2]⟩).node := by rw [fr.graph, hg]; rfl
  have g2 : σ.heap.graph 2 = (unO chSumSq 1).node := by rw [fr.graph, hg]; rfl
  have a0 : (σ.heap.node 0).alive = true := by rw [fr.alive]; exact hal 0 (by decide)
  have hx0 : (σ.heap.graph 0).terms nmX = some (.arr ⟨[2], ![1, 2]⟩) := by rw [g0]; rfl
  have p0 : (σ.heap.node 0).parents = [] := by
    rw [List.eq_nil_iff_forall_not_mem]
    rintro ⟨q, ns⟩ hq
    have := (hs.links.ok 0).names q ns hq
    obtain ⟨k, hk⟩ := List.exists_mem_of_ne_nil _ this.1
    have hd := (hs.links.exact q k 0).2 ⟨ns, hq, hk⟩
    rw [fr.graph, hg] at hd
    have : ∀ q : ℕ, (buildGraph lib [leafO ⟨[2], ![1, 2]⟩, leafO ⟨[2], ![1, 2]⟩, unO chSumSq 1] q).dterms k ≠ some 0 := by
      intro q
      rcases q with _ | _ | _ | q
      · intro h; cases h
      · intro h; cases h
      · intro h
        have h : (if k = nmA then some 1 else none) = some 0 := h
        split at h <;> cases h
      · intro h; cases h
    exact this q hd
  let value : Arr := ⟨[], fun _ => 5⟩
  have hk : getitem [.int 0] (⟨[2], ![1, 2]⟩ : Arr).atleast1.shape = some ([0], []) := by decide
  have hst : σ.step (.item 0 0 [.int 0] value) = ({ σ with
      heap := (Chumpy.step lib (.set 0 [.term nmX (.arr (overwritten ⟨[2], ![1, 2]⟩ value [0] []))]) (poke (fun j => if j = 0 then none else σ.ref j) 0 (overwritten ⟨[2], ![1, 2]⟩ value [0] []) σ.heap)).1
      mem := fun c => if c = 0 then Arr.of (σ.mem 0).shape (overwritten ⟨[2], ![1, 2]⟩ value [0] []).vec else σ.mem c }, .ok ()) := by
    dsimp only [Store.step]
    rw [if_pos a0, if_pos (by rw [g0]; rfl), r0, hx0]
    dsimp only
    rw [hk]
    rfl
  obtain ⟨_, hns, _⟩ := hf σ hσ 0 _ value [.int 0] [0] [] 0 (isLeaf_leafO g0) (means_leaf (by rw [g0]; rfl) hx0) hk (by rw [hst])
  rw [hst] at hns
  dsimp only at hns
  have ps := poke_str (ref := fun j => if j = 0 then none else σ.ref j) (b := 0) (x := overwritten ⟨[2], ![1, 2]⟩ value [0] []) hs
  have pn : ∀ j, j = 0 ∨ j = 2 → (poke (fun j => if j = 0 then none else σ.ref j) 0 (overwritten ⟨[2], ![1, 2]⟩ value [0] []) σ.heap).node j = σ.heap.node j := by
    intro j hj
    simp only [poke]
    rw [if_neg]
    rcases hj with rfl | rfl
    · simp
    · rw [if_neg (by decide), r2]; simp
  have pg1 : (poke (fun j => if j = 0 then none else σ.ref j) 0 (overwritten ⟨[2], ![1, 2]⟩ value [0] []) σ.heap).graph 1 =
      { (leafO ⟨[2], ![1, 2]⟩).node with terms := fun k => if k = nmX then some (.arr (Arr.of [2] (overwritten ⟨[2], ![1, 2]⟩ value [0] []).vec)) else (leafO ⟨[2], ![1, 2]⟩).node.terms k } := by
    rw [← g1]
    have hx1 : (σ.heap.node 1).terms nmX = some (.arr ⟨[2], ![1, 2]⟩) := by
      show (σ.heap.graph 1).terms nmX = _
      rw [g1]; rfl
    simp only [Heap.graph, poke]
    rw [if_pos (by rw [if_neg (by decide)]; exact r1)]
    simp only [hx1]
  generalize hph : poke (fun j => if j = 0 then none else σ.ref j) 0 (overwritten ⟨[2], ![1, 2]⟩ value [0] []) σ.heap = ph at *
  obtain ⟨k1, k2⟩ := set_keeps_cache ps (l := 0) (j := 2) (by rw [pn 0 (Or.inl rfl)]; exact p0) (by rw [pn 0 (Or.inl rfl)]; exact a0) (by decide)
    (.arr (overwritten ⟨[2], ![1, 2]⟩ value [0] []))
  rw [pn 2 (Or.inr rfl), hc] at k1
  have hread := read_of_cached (f := 0) k1
  have hold := (hns 1 (.r 2)).1 _ hread
  have hl1 := k2 1 (by decide)
  have hl2 := k2 2 (by decide)
  generalize (Chumpy.step lib (.set 0 [.term nmX (.arr (overwritten ⟨[2], ![1, 2]⟩ value [0] []))]) ph).1 = h' at *
  have n1 : Means lib h'.graph (.r 1) (.ok (Arr.of [2] (overwritten ⟨[2], ![1, 2]⟩ value [0] []).vec).atleast1) :=
    means_leaf (by rw [hl1, pg1]; rfl) (by rw [hl1, pg1]; rfl)
  have hy' : IsA h'.graph 2 chSumSq [nmA] fun _ => 1 := isA_un (by
    rw [hl2, Heap.graph_apply, pn 2 (Or.inr rfl)]; exact g2)
  have n2 := means_of_isA hy' (v := fun _ => (Arr.of [2] (overwritten ⟨[2], ![1, 2]⟩ value [0] []).vec).atleast1) (fun _ => n1)
    (exact_sumSq (tm := (h'.graph 2).terms)).val
  have e := Means.unique hold n2
  injection e with e
  have e := congrArg (fun a : Arr => a.vec 0) e
  rw [Arr.vec_of _ _ (by decide), Arr.vec_of _ _ (by decide)] at e
  have z1 : (⟨[2], ![1, 2]⟩ : Arr).atleast1.size = 2 := rfl
  have z2 : (Arr.of [2] (overwritten ⟨[2], ![1, 2]⟩ value [0] []).vec).atleast1.size = 2 := rfl
  have w0 : (⟨[2], ![1, 2]⟩ : Arr).vec 0 = 1 := by simp [Arr.vec]
  have w1 : (⟨[2], ![1, 2]⟩ : Arr).vec 1 = 2 := by simp [Arr.vec]
  have o0 : (overwritten ⟨[2], ![1, 2]⟩ value [0] []).vec 0 = 5 := by
    unfold overwritten
    rw [Arr.vec_of _ _ (by decide)]
    simp [lastPos, value, Arr.vec, bidx, bidxR]
  have o1 : (overwritten ⟨[2], ![1, 2]⟩ value [0] []).vec 1 = 2 := by
    unfold overwritten
    rw [Arr.vec_of _ _ (by decide)]
    simp [lastPos, w1]
  rw [z1, z2, Finset.sum_range_succ, Finset.sum_range_succ, Finset.sum_range_zero, Finset.sum_range_succ, Finset.sum_range_succ, Finset.sum_range_zero] at e
  simp only [Arr.atleast1_vec] at e
  rw [Arr.vec_of _ _ (by decide), Arr.vec_of _ _ (by decide), w0, w1, o0, o1] at e
  norm_num at e

/-! ## Objects over one array -/

theorem str_newObj {h : Heap ClassDef Par Arr Jac} (hs : Str h) (c : ClassDef) (ns : List Name) (kws : List (KW Par)) :
    Str (newObj lib c ns false false kws h).1 := newObj_str hs c ns false false kws

theorem str_setObj {h : Heap ClassDef Par Arr Jac} (hs : Str h) (i : Id) (kws : List (KW Par)) : Str (setObj lib i kws h).1 :=
  step_str (s := lib) hs (.set i kws)

theorem setItem_str {h : Heap ClassDef Par Arr Jac} (hs : Str h) (f : ℕ) (y : Id) (key : List Key) (value : Arr) :
    Str (setItem f y key value h).1 := by
  unfold setItem
  split
  · split
    · split
      · split
        · exact str_setObj hs _ _
        · exact hs
      · exact hs
    · exact hs
  · split
    · exact hs
    · next inner _ =>
      have hs1 := hs.rframe (read_pres (s := lib) rframe_rel f (.r y) h)
      dsimp only [M.bind]
      rcases hx1 : read lib f (.r y) h with ⟨h1, r1⟩
      rw [hx1] at hs1
      cases r1 with
      | error e => exact hs1
      | ok v =>
        dsimp only
        rcases getitem key v.shape with _ | ⟨idxs, ksh⟩
        · exact hs1
        · dsimp only [M.bind]
          have hs2 := str_newObj hs1 chSelect [nmA] [.link nmA y, .term nmP (.nats idxs), .term nmQ (.nats ksh)]
          rcases hx2 : newObj lib chSelect [nmA] false false [.link nmA y, .term nmP (.nats idxs), .term nmQ (.nats ksh)] h1 with ⟨h2, r2⟩
          rw [hx2] at hs2
          cases r2 with
          | error e => exact hs2
          | ok z =>
            dsimp only
            have hs3 := hs2.rframe (drWrt_pres (s := lib) rframe_rel f z inner h2)
            rcases hx3 : drWrt lib f z inner h2 with ⟨h3, r3⟩
            rw [hx3] at hs3
            cases r3 with
            | error e => exact hs3
            | ok d =>
              dsimp only
              have hs4 := hs3.rframe (read_pres (s := lib) rframe_rel f (.r inner) h3)
              rcases hx4 : read lib f (.r inner) h3 with ⟨h4, r4⟩
              rw [hx4] at hs4
              cases r4 with
              | error e => exact hs4
              | ok vi =>
                dsimp only
                split
                · split
                  · exact str_setObj hs4 _ _
                  · exact hs4
                · exact hs4

theorem StoreReach.str {alone : Prop} {σ : Store} (h : StoreReach alone σ) : Str σ.heap := by
  induction h with
  | init => exact str_empty
  | @step σ o _ _ _ ih =>
    cases o with
    | array v => exact ih
    | take l => dsimp only [Store.step]; split <;> exact ih
    | leaf b => dsimp only [Store.step]; split <;> [exact step_str ih _; exact ih]
    | assign l b => dsimp only [Store.step]; split <;> [exact step_str ih _; exact ih]
    | item f y key value =>
      dsimp only [Store.step]
      split
      · split
        · split
          · split
            · split
              · exact step_str (poke_str ih) _
              · exact ih
            · exact ih
          · exact setItem_str ih f y key value
        · exact setItem_str ih f y key value
      · exact ih
    | op o => exact step_str ih _

/-- What reading a leaf returns: its cached value, or else its array. -/
theorem read_leaf {h : Heap ClassDef Par Arr Jac} {l : Id} (hl : (h.graph l).cls = chLeaf) {f : ℕ} {v : Arr}
    (hr : (read lib f (.r l) h).2 = .ok v) :
    (h.node l).cacheR = some v ∨ ∃ x, (h.graph l).terms nmX = some (.arr x) ∧ v = x.atleast1 := by
  cases f with
  | zero => cases hr
  | succ f =>
    cases hc : (h.node l).cacheR with
    | some u => rw [read_of_cached hc] at hr; injection hr with hr; exact Or.inl (by rw [hr])
    | none =>
      right
      rw [read, M.bind] at hr
      have key : ∀ h1 : Heap ClassDef Par Arr Jac, (callOnChanged l h).1 = h1 → (h1.node l).cacheR = none ∧ (h1.node l).cls = chLeaf ∧
          (h1.node l).terms nmX = (h.graph l).terms nmX := by
        rintro _ rfl
        unfold callOnChanged
        split
        · exact ⟨hc, hl, rfl⟩
        · simp only [Heap.modify]; rw [if_pos trivial]; exact ⟨hc, hl, rfl⟩
      have h2 : (callOnChanged l h).2 = .ok () := by unfold callOnChanged; split <;> rfl
      rcases hy : callOnChanged l h with ⟨h1, r⟩
      rw [hy] at hr h2 key
      obtain ⟨a, b, c⟩ := key h1 rfl
      dsimp only at h2
      subst h2
      dsimp only at hr
      rw [a] at hr
      dsimp only at hr
      simp only [M.bind, emit] at hr
      rw [b] at hr
      simp only [chLeaf, runProg, c] at hr
      rcases hx : (h.graph l).terms nmX with _ | p
      · rw [hx] at hr; cases hr
      · cases p with
        | arr x =>
          rw [hx] at hr
          injection hr with hr
          exact ⟨x, rfl, hr.symm⟩
        | _ => rw [hx] at hr; cases hr

/-- C55, sharing: two `Ch` objects over one array show the same values after an assignment into either of them, also if their values had
been computed before. -/
theorem C55_shared_values_follow {alone : Prop} {σ : Store} (hσ : StoreReach alone σ) {l l' : Id} {b : ℕ} (hl : IsLeaf σ.heap.graph l)
    (hl' : IsLeaf σ.heap.graph l') (hb : σ.ref l = some b) (hb' : σ.ref l' = some b) {f : ℕ} {key : List Key} {value : Arr}
    (hok : (σ.step (.item f l key value)).2 = .ok ()) {f₁ f₂ : ℕ} {v v' : Arr}
    (hv : (read lib f₁ (.r l) (σ.step (.item f l key value)).1.heap).2 = .ok v)
    (hv' : (read lib f₂ (.r l') (σ.step (.item f l key value)).1.heap).2 = .ok v') :
    ∀ k < v.size, k < v'.size → v.vec k = v'.vec k := by
  have hs := hσ.str
  have hbase : (σ.heap.graph l).cls.isBase = true := by rw [hl.1]; rfl
  dsimp only [Store.step] at hok hv hv'
  by_cases hal : (σ.heap.node l).alive = true
  swap
  · rw [if_neg hal] at hok; cases hok
  rw [if_pos hal, if_pos hbase, hb] at hok hv hv'
  rcases hx : (σ.heap.graph l).terms nmX with _ | x
  · rw [hx] at hok
    dsimp only at hok
    rw [setItem, if_pos hbase, hx] at hok
    cases hok
  cases x with
  | arr x =>
    rw [hx] at hok hv hv'
    dsimp only at hok hv hv'
    rcases hk : getitem key x.atleast1.shape with _ | ⟨idxs, ksh⟩
    · rw [hk] at hok; cases hok
    rw [hk] at hok hv hv'
    dsimp only at hok hv hv'
    split at hok
    · next hbs =>
      rw [if_pos hbs] at hv hv'
      dsimp only at hv hv'
      have ps := poke_str (ref := fun j => if j = l then none else σ.ref j) (b := b) (x := overwritten x value idxs ksh) hs
      have pl : (poke (fun j => if j = l then none else σ.ref j) b (overwritten x value idxs ksh) σ.heap).node l = σ.heap.node l := by
        simp only [poke]; rw [if_neg (by simp)]
      have pl' : l' ≠ l → (∀ u, ((poke (fun j => if j = l then none else σ.ref j) b (overwritten x value idxs ksh) σ.heap).node l').cacheR = some u →
          ∃ sh, u = Arr.of sh (overwritten x value idxs ksh).vec) ∧
          ∀ z, ((poke (fun j => if j = l then none else σ.ref j) b (overwritten x value idxs ksh) σ.heap).node l').terms nmX = some (.arr z) →
          ∃ sh, z = Arr.of sh (overwritten x value idxs ksh).vec := by
        intro hne
        simp only [poke]
        rw [if_pos (by rw [if_neg hne]; exact hb')]
        constructor
        · intro u hu
          simp only [Option.map_eq_some_iff] at hu
          obtain ⟨u0, _, rfl⟩ := hu
          exact ⟨_, rfl⟩
        · intro z hz
          simp only [if_true] at hz
          split at hz
          · simp only [Option.some.injEq, Par.arr.injEq] at hz; exact ⟨_, hz.symm⟩
          · next hna => exact absurd hz (hna z)
      have pc : ((poke (fun j => if j = l then none else σ.ref j) b (overwritten x value idxs ksh) σ.heap).node l').cls = chLeaf := by
        have : (σ.heap.node l').cls = chLeaf := hl'.1
        simp only [poke]; split <;> exact this
      have pcl : ((poke (fun j => if j = l then none else σ.ref j) b (overwritten x value idxs ksh) σ.heap).node l).cls = chLeaf := by
        rw [pl]; exact hl.1
      have pal : ((poke (fun j => if j = l then none else σ.ref j) b (overwritten x value idxs ksh) σ.heap).node l).alive = true := by
        rw [pl]; exact hal
      generalize poke (fun j => if j = l then none else σ.ref j) b (overwritten x value idxs ksh) σ.heap = ph at *
      have he : (Chumpy.step lib (.set l [.term nmX (.arr (overwritten x value idxs ksh))]) ph).1 =
          (setTerm lib l nmX (.arr (overwritten x value idxs ksh)) none ph).1 := by
        simp only [Chumpy.step, M.map', setObj]; rw [if_pos pal]; rfl
      rw [he] at hv hv'
      obtain ⟨_, w, _, hg⟩ := setTerm_writing (s := lib) ph ps l nmX (.arr (overwritten x value idxs ksh)) none
      have hsh := w.shrink
      have hcl := (w.assigned.cleared l pal .refl).1
      generalize (setTerm lib l nmX (.arr (overwritten x value idxs ksh)) none ph).1 = h' at *
      have e1 : ∀ {f u}, (read lib f (.r l) h').2 = .ok u → u = (overwritten x value idxs ksh).atleast1 := by
        intro f u hu
        rcases read_leaf (by rw [hg]; dsimp only; rw [if_pos rfl]; exact pcl) hu with h1 | ⟨z, h1, h2⟩
        · rw [hcl] at h1; cases h1
        · rw [hg] at h1; dsimp only at h1; rw [if_pos rfl] at h1
          simp only [if_true, Option.some.injEq, Par.arr.injEq] at h1
          rw [h2, ← h1]
      have e1v := e1 hv
      subst e1v
      by_cases hne : l' = l
      · subst hne; rw [e1 hv']; intros; rfl
      · obtain ⟨q1, q2⟩ := pl' hne
        intro k _ hk'
        rw [Arr.atleast1_vec]
        rcases read_leaf (by rw [hg]; dsimp only; rw [if_neg hne]; exact pc) hv' with h1 | ⟨z, h1, h2⟩
        · obtain ⟨sh, rfl⟩ := q1 _ (hsh.r l' v' h1)
          exact (Arr.vec_of _ _ hk').symm
        · rw [hg] at h1; dsimp only at h1; rw [if_neg hne] at h1
          obtain ⟨sh, rfl⟩ := q2 z h1
          subst h2
          rw [Arr.atleast1_size] at hk'
          rw [Arr.atleast1_vec]
          exact (Arr.vec_of _ _ hk').symm
    · cases hok
  | _ => rw [hx] at hok; dsimp only at hok; rw [setItem, if_pos hbase, hx] at hok; cases hok

/-- Two objects over one array, the value of one of them computed, and an assignment into the other. -/
example : ∃ σ : Store, StoreReach False σ ∧ IsLeaf σ.heap.graph 0 ∧ IsLeaf σ.heap.graph 1 ∧ σ.ref 0 = some 0 ∧ σ.ref 1 = some 0 ∧
    (σ.step (.item 0 0 [.int 0] ⟨[], fun _ => 5⟩)).2 = .ok () := by
  obtain ⟨hr, hn, hal, hg⟩ := ADDemo.sharedHeap_facts
  obtain ⟨σ, hσ, hh, r0, r1, r2⟩ := ADDemo.shared_state 7
  have fr : RFrame ADDemo.sharedHeap σ.heap := by rw [hh]; exact step_read_frame (s := lib) (.r _ _)
  have g0 : σ.heap.graph 0 = (leafO ⟨[2], ![1, 2]⟩).node := by rw [fr.graph, hg]; rfl
  have g1 : σ.heap.graph 1 = (leafO ⟨[2], ![1, 2]⟩).node := by rw [fr.graph, hg]; rfl
  refine ⟨σ, hσ, isLeaf_leafO g0, isLeaf_leafO g1, r0, r1, ?_⟩
  dsimp only [Store.step]
  rw [if_pos (by rw [fr.alive]; exact hal 0 (by decide)), if_pos (by rw [g0]; rfl), r0,
    show (σ.heap.graph 0).terms nmX = some (.arr ⟨[2], ![1, 2]⟩) by rw [g0]; rfl]
  dsimp only
  rw [show getitem [.int 0] (⟨[2], ![1, 2]⟩ : Arr).atleast1.shape = some ([0], []) by decide]
  rfl
end Chumpy
