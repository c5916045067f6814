import Verif.AD.SetItem
import Verif.Properties.Assign
import Verif.Core.TagRead
/-!
# The optimiser's stacked objective (`ChInputsStacked`, optimization_internal.py:23-108)

The flat vector `x` of the optimiser is distributed over the free variables when the objective is next read.  The model works on the
heap of `Verif/Core`: reads fill caches, and the writes carry the global counter as their tag, so that a second write with the same tag
does not clear what the first one cleared.
-/
namespace Chumpy
open scoped BigOperators

/-- The attribute `obj` of a `ChInputsStacked` (optimization_internal.py:24). -/
abbrev nmObj : Name := nmB

/-- `ChInputsStacked` (optimization_internal.py:23-32) as an object of the graph: `dterms = 'x', 'obj'`, and the value is `obj.r.ravel()`.
The attribute `free_variables` is a parameter of the functions below; `fevals` is not modelled.  `dr_wrt` is `stackedJ`, and the class
has no `compute_dr_wrt`. -/
noncomputable def chStacked : ClassDef where
  r := .child nmObj fun v => .ret (Arr.of [v.size] v.vec)
  dr := fun _ _ => .ret none
  dr_none := rfl

open Classical in
/-- The walk through nested selects (optimization_internal.py:82-91): the object under them, and the positions in it
(`idxs = idxs[selects.pop()]`, innermost first); `none` if the free variable is not a `Select`. -/
noncomputable def targetOf (g : Graph ClassDef Par) : ℕ → Id → Except Err (Id × Option (List ℕ))
  | 0, _ => .error .fuel
  | f + 1, i =>
    if (g i).cls = chSelect then
      match (g i).dterms nmA, (g i).terms nmP with
      | some a, some (.nats idxs) =>
        match targetOf g f a with
        | .ok (b, none) => .ok (b, some idxs)
        | .ok (b, some js) => if ∀ k ∈ idxs, k < js.length then .ok (b, some (idxs.map fun k => js.getD k 0)) else .error (.user 1)
        | .error e => .error e
      | _, _ => .error .attr
    else .ok (i, none)

/-- The new array of the target (optimization_internal.py:87-98): `seg` at the positions `idxs` of a copy of `x0`
(`newv.ravel()[idxs] = …`: of equal positions the last wins), or `seg` in the shape of `x0`. -/
noncomputable def newTarget (x0 : Arr) (seg : ℕ → ℝ) : Option (List ℕ) → Arr
  | some idxs => Arr.of x0.shape fun p => match lastPos idxs p with
    | some k => seg k
    | none => x0.vec p
  | none => Arr.of x0.shape seg

/-- One turn of the loop of `on_changed` (optimization_internal.py:77-98), for the free variable `fv`, the segment starting at `pos`:
`freevar.r.size`, the walk, `a.x` (an `AttributeError` if that is not an array), `self.x.r[rng]`, the tagged write.  Simplified: `x` of a
free variable is an array; the branch for numbers (optimization_internal.py:97-98) differs only in the shape of what is stored. -/
noncomputable def putFree (f t : ℕ) (x fv : Id) (pos : ℕ) : M ClassDef Par Arr Jac ℕ :=
  M.bind (read lib f (.r fv)) fun v => fun h =>
    match targetOf h.graph f fv with
    | .error e => (h, .error e)
    | .ok (a, idxs) =>
      match (h.graph a).terms nmX with
      | some (.arr x0) =>
        M.bind (read lib f (.r x)) (fun xr =>
          if pos + v.size ≤ xr.size then
            M.bind (setattr lib a (some t) (.term nmX (.arr (newTarget x0 (fun k => xr.vec (pos + k)) idxs)))) fun _ =>
            M.pure (pos + v.size)
          else M.throw (.user 1)) h
      | _ => (h, .error .attr)

/-- The loop (optimization_internal.py:76-98). -/
noncomputable def putAll (f t : ℕ) (x : Id) : List Id → ℕ → M ClassDef Par Arr Jac Unit
  | [], _ => M.pure ()
  | fv :: fvs, pos => M.bind (putFree f t x fv pos) fun pos' => putAll f t x fvs pos'

/-- `ChInputsStacked.on_changed(which)` (optimization_internal.py:73-98). -/
noncomputable def onChangedX (f : ℕ) (y : Id) (fvs : List Id) (which : List Name) : M ClassDef Par Arr Jac Unit := fun h =>
  let h1 := { h with giter := h.giter + 1 }
  if nmX ∈ which then
    match (h1.graph y).dterms nmX with
    | some x => putAll f (h.giter + 1) x fvs 0 h1
    | none => (h1, .error .attr)
  else (h1, .ok ())

/-- Reading `r` of a `ChInputsStacked` (ch.py:580-600 with its `on_changed`).  `_dirty_vars` is emptied after `on_changed` returns
(ch.py:584), here by the `callOnChanged` at the start of `read`. -/
noncomputable def stackedR (f : ℕ) (y : Id) (fvs : List Id) : M ClassDef Par Arr Jac Arr := fun h =>
  if (h.node y).dirty.isEmpty then read lib f (.r y) h
  else M.bind (onChangedX f y fvs (h.node y).dirty) (fun _ => read lib f (.r y)) h

/-! ## What free variables are -/

/-- `fv` is the `Ch` `l` or a slice of it, `n` levels deep; its shape is `osh` and its `k`-th entry is the entry `pos k` of `l`, whose
shape is `sh` (specification). -/
inductive Nested (g : Graph ClassDef Par) (l : Id) (sh : List ℕ) : (n : ℕ) → (fv : Id) → (osh : List ℕ) → (pos : ℕ → ℕ) → Prop
  | leaf : Nested g l sh 0 l sh fun k => k
  | slice {n : ℕ} {t y : Id} {tsh : List ℕ} {pos : ℕ → ℕ} {idxs ksh : List ℕ} (ht : Nested g l sh n t tsh pos)
      (hy : IsA g y chSelect [nmA] fun _ => t) (hp : (g y).terms nmP = some (.nats idxs)) (hq : (g y).terms nmQ = some (.nats ksh))
      (hn : ksh.prod = idxs.length) (hi : ∀ j ∈ idxs, j < tsh.prod) :
      Nested g l sh (n + 1) y (if ksh = [] then [1] else ksh) fun k => pos (idxs.getD k 0)

/-- One free variable: the object, the `Ch` it is (a slice of), and which entries. -/
structure Free where
  fv : Id
  l : Id
  depth : ℕ
  osh : List ℕ
  pos : ℕ → ℕ

/-- Its number of entries. -/
def Free.size (v : Free) : ℕ := v.osh.prod

/-- It is one, in the graph `g`, without selecting an entry twice. -/
structure Free.Ok (g : Graph ClassDef Par) (v : Free) : Prop where
  leaf : IsLeaf g v.l
  arr : ∃ x0, (g v.l).terms nmX = some (.arr x0) ∧ Nested g v.l x0.atleast1.shape v.depth v.fv v.osh v.pos
  inj : ∀ i < v.size, ∀ j < v.size, v.pos i = v.pos j → i = j

/-- Where the segment of each free variable starts. -/
def offsets : List Free → ℕ → List (Free × ℕ)
  | [], _ => []
  | v :: vs, o => (v, o) :: offsets vs (o + v.size)

/-! ## Single steps -/

theorem Nested.view {g : Graph ClassDef Par} {l fv : Id} {sh osh : List ℕ} {n : ℕ} {pos : ℕ → ℕ} (h : Nested g l sh n fv osh pos) :
    View g l sh fv osh pos := by
  induction h with
  | leaf => exact .leaf
  | slice ht hy hp hq hn hi ih => exact .slice ih hy hp hq hn hi

theorem Nested.eval {g : Graph ClassDef Par} {l fv : Id} {sh osh : List ℕ} {n : ℕ} {pos : ℕ → ℕ} (h : Nested g l sh n fv osh pos)
    {x0 : Arr} (hl : IsLeaf g l) (hx : (g l).terms nmX = some (.arr x0)) (hsh : x0.atleast1.shape = sh) :
    ∀ f, n < f → evalReq lib g f (.r fv) = .ok (Arr.of osh fun k => x0.atleast1.vec (pos k)) := by
  induction h with
  | leaf =>
    intro f hf
    obtain ⟨f, rfl⟩ : ∃ k, f = k + 1 := ⟨f - 1, by omega⟩
    rw [← hsh, Arr.of_vec]
    simp [evalReq, hl.1, chLeaf, evalProg, hx]
  | @slice n t y tsh pos idxs ksh ht hy hp hq hn hi ih =>
    intro f hf
    obtain ⟨f, rfl⟩ : ∃ k, f = k + 1 := ⟨f - 1, by omega⟩
    have h1 := ih f (by omega)
    have h2 : (g y).dterms nmA = some t := hy.kid ⟨0, by simp⟩
    have hi' : ∀ j ∈ idxs, j < (Arr.of tsh fun k => x0.atleast1.vec (pos k)).size := hi
    have e : (Arr.of ksh fun k => (Arr.of tsh fun k => x0.atleast1.vec (pos k)).vec (idxs.getD k 0)) =
        Arr.of ksh fun k => x0.atleast1.vec (pos (idxs.getD k 0)) := by
      refine Arr.of_congr fun k hk => Arr.vec_of _ _ ?_
      rw [hn] at hk
      rw [List.getD_eq_getElem _ _ hk]
      exact hi _ (List.getElem_mem hk)
    rw [← atleast1_of, ← e]
    simp only [evalReq, hy.cls, chSelect, evalProg, h2, h1, hp, hq]
    rw [if_pos hi', if_pos hn]
    rfl

theorem chSelect_ne_leaf : chLeaf ≠ chSelect := by
  intro e
  have : chLeaf.isBase = chSelect.isBase := by rw [e]
  exact absurd this (by simp [chLeaf, chSelect])

theorem Nested.target {g : Graph ClassDef Par} {l fv : Id} {sh osh : List ℕ} {n : ℕ} {pos : ℕ → ℕ} (h : Nested g l sh n fv osh pos)
    (hl : IsLeaf g l) : ∀ f, n < f → ∃ o, targetOf g f fv = .ok (l, o) ∧
      (o = none ∧ osh = sh ∧ (∀ k, pos k = k) ∨ ∃ js, o = some js ∧ js.length = osh.prod ∧ ∀ k < js.length, js.getD k 0 = pos k) := by
  induction h with
  | leaf =>
    intro f hf
    obtain ⟨f, rfl⟩ : ∃ k, f = k + 1 := ⟨f - 1, by omega⟩
    refine ⟨none, ?_, Or.inl ⟨rfl, rfl, fun _ => rfl⟩⟩
    simp only [targetOf]
    rw [if_neg (by rw [hl.1]; exact chSelect_ne_leaf)]
  | @slice n t y tsh pos idxs ksh ht hy hp hq hn hi ih =>
    intro f hf
    obtain ⟨f, rfl⟩ : ∃ k, f = k + 1 := ⟨f - 1, by omega⟩
    obtain ⟨o, h1, h3⟩ := ih f (by omega)
    have h2 : (g y).dterms nmA = some t := hy.kid ⟨0, by simp⟩
    simp only [targetOf]
    rw [if_pos hy.cls, h2, hp]
    dsimp only
    rw [h1]
    rcases h3 with ⟨rfl, rfl, h3⟩ | ⟨js, rfl, h4, h5⟩
    · exact ⟨some idxs, rfl, Or.inr ⟨idxs, rfl, by rw [ones_prod, hn], fun k _ => (h3 _).symm⟩⟩
    · dsimp only
      rw [if_pos (by rw [h4]; exact hi)]
      refine ⟨_, rfl, Or.inr ⟨_, rfl, by rw [ones_prod, hn]; simp, fun k hk => ?_⟩⟩
      rw [List.length_map] at hk
      rw [getD_map _ _ _ 0 _ hk]
      refine h5 _ ?_
      rw [h4, List.getD_eq_getElem _ _ hk]
      exact hi _ (List.getElem_mem hk)

theorem leaf_anc {g : Graph ClassDef Par} {i l : Id} (hl : IsLeaf g l) (h : Anc g i l) : i = l := by
  cases h with
  | refl => rfl
  | step k hk _ => rw [hl.2.1] at hk; cases hk

theorem Nested.anc {g : Graph ClassDef Par} (hdn : ∀ i k c, (g i).dterms k = some c → k ∈ (g i).dnames) {l fv : Id} {sh osh : List ℕ} {n : ℕ}
    {pos : ℕ → ℕ} (h : Nested g l sh n fv osh pos) (hl : IsLeaf g l) {i : Id} (hi : IsLeaf g i) (ha : Anc g i fv) : i = l := by
  induction h with
  | leaf => exact leaf_anc hl ha
  | @slice n t y tsh pos idxs ksh ht hy hp hq hn hix ih =>
    cases ha with
    | refl => exact absurd (hi.1.symm.trans hy.cls) chSelect_ne_leaf
    | @step _ c k hk ha' =>
      have hm := hdn y k c hk
      rw [hy.dnames] at hm
      simp only [List.mem_singleton] at hm
      subst hm
      have h2 : (g y).dterms nmA = some t := hy.kid ⟨0, by simp⟩
      rw [h2] at hk
      injection hk with hk
      subst hk
      exact ih ha'

/-- Slices stay slices if only arrays of leaves change. -/
theorem Nested.congr {g g' : Graph ClassDef Par} {l fv : Id} {sh osh : List ℕ} {n : ℕ} {pos : ℕ → ℕ} (h : Nested g l sh n fv osh pos)
    (e : ∀ i, (g i).dterms nmA ≠ none → g' i = g i) : Nested g' l sh n fv osh pos := by
  induction h with
  | leaf => exact .leaf
  | slice ht hy hp hq hn hi ih =>
    have h2 := hy.kid ⟨0, by simp⟩
    have := e _ (by rw [show (g _).dterms nmA = _ from h2]; simp)
    exact .slice ih (hy.congr this) (by rw [this]; exact hp) (by rw [this]; exact hq) hn hi

theorem newTarget_shape (x0 : Arr) (seg : ℕ → ℝ) (o : Option (List ℕ)) : (newTarget x0 seg o).shape = x0.shape := by
  cases o <;> rfl

theorem newTarget_spec {x0 : Arr} {seg : ℕ → ℝ} {o : Option (List ℕ)} {osh : List ℕ} {pos : ℕ → ℕ}
    (ho : o = none ∧ osh = x0.atleast1.shape ∧ (∀ k, pos k = k) ∨ ∃ js, o = some js ∧ js.length = osh.prod ∧ ∀ k < js.length, js.getD k 0 = pos k)
    (hb : ∀ k < osh.prod, pos k < x0.size) (hinj : ∀ i < osh.prod, ∀ j < osh.prod, pos i = pos j → i = j) :
    (∀ k < osh.prod, (newTarget x0 seg o).vec (pos k) = seg k) ∧
      ∀ p < x0.size, (∀ k < osh.prod, pos k ≠ p) → (newTarget x0 seg o).vec p = x0.vec p := by
  rcases ho with ⟨rfl, rfl, h3⟩ | ⟨js, rfl, h4, h5⟩
  · refine ⟨fun k hk => ?_, fun p hp hn => ?_⟩
    · have := hb k hk
      rw [h3] at this ⊢
      exact Arr.vec_of _ _ this
    · have : p < x0.atleast1.shape.prod := by
        show p < (if x0.shape = [] then [1] else x0.shape).prod
        rw [ones_prod]; exact hp
      exact absurd (h3 p) (hn p this)
  · refine ⟨fun k hk => ?_, fun p hp hn => ?_⟩
    · show (Arr.of x0.shape _).vec (pos k) = _
      rw [Arr.vec_of _ _ (hb k hk)]
      cases hl : lastPos js (pos k) with
      | none =>
        refine absurd ?_ (lastPos_none.1 hl)
        rw [← h5 k (by rw [h4]; exact hk), List.getD_eq_getElem _ _ (by rw [h4]; exact hk)]
        exact List.getElem_mem _
      | some k' =>
        obtain ⟨h6, h7⟩ := lastPos_some hl
        rw [h5 k' h6] at h7
        rw [hinj k' (by rw [← h4]; exact h6) k hk h7]
    · show (Arr.of x0.shape _).vec p = _
      rw [Arr.vec_of _ _ hp]
      cases hl : lastPos js p with
      | none => rfl
      | some k' =>
        obtain ⟨h6, h7⟩ := lastPos_some hl
        rw [h5 k' h6] at h7
        exact absurd h7 (hn k' (by rw [← h4]; exact h6))

/-! ## The loop -/

/-- Between the writes with tag `t` to the leaves in `done`. -/
structure Mid (m : Mode) (t : ℕ) (done : Id → Prop) (h : Heap ClassDef Par Arr Jac) : Prop where
  inv : Inv lib m h
  tag : TagInv lib h (some t)
  time : t ≤ h.giter
  tagged : ∀ n, h.Tagged (some t) n → ∃ l, done l ∧ Anc h.graph l n

theorem inv_read_ok {h : Heap ClassDef Par Arr Jac} {m : Mode} (hi : Inv lib m h) {q : Req} {v : Arr} {f : ℕ}
    (hv : evalReq lib h.graph f q = .ok v) : (read lib f q h).2 = .ok v := by
  have hs := (read_sim (P := True) f q h hi.coh rfl).2.2 trivial
  have := (readFresh_of_agree hs).2.2
  rw [hv] at this
  exact this (by simp)

theorem Mid.read {m : Mode} {t : ℕ} {done : Id → Prop} {h : Heap ClassDef Par Arr Jac} (hm : Mid m t done h) {i : Id}
    (hi : ∀ l, done l → ¬ Anc h.graph l i) (f : ℕ) : Mid m t done (read lib f (.r i) h).1 ∧ RFrame h (read lib f (.r i) h).1 := by
  have hf := read_pres (s := lib) (rframe_rel (C := ClassDef) (T := Par) (V := Arr) (D := Jac)) f (.r i) h
  have hc : Closed h.graph fun j => Anc h.graph j i := fun j hj k c hk => Anc.trans (.step k hk .refl) hj
  have ht := read_touch (s := lib) hc f (.r i) h rfl .refl
  refine ⟨⟨read_inv hm.inv f (.r i), hm.tag.touch ht ?_, by rw [hf.giter]; exact hm.time, ?_⟩, hf⟩
  · intro n hn hT
    obtain ⟨l, h1, h2⟩ := hm.tagged n hT
    exact hi l h1 (h2.trans hn)
  · intro n hn
    rw [hf.graph]
    refine hm.tagged n ?_
    unfold Heap.Tagged at hn ⊢
    rw [hf.itr] at hn; exact hn

/-- The graph `g` with the array of the leaf `l` replaced. -/
def withArr (g : Graph ClassDef Par) (l : Id) (x : Arr) : Graph ClassDef Par := fun j =>
  if j = l then { g l with terms := fun k => if k = nmX then some (.arr x) else (g l).terms k } else g j

theorem withArr_dterms (g : Graph ClassDef Par) (l : Id) (x : Arr) (j : Id) : (withArr g l x j).dterms = (g j).dterms := by
  unfold withArr; split
  · subst_vars; rfl
  · rfl

theorem anc_congr {g g' : Graph ClassDef Par} (e : ∀ j, (g' j).dterms = (g j).dterms) {i j : Id} (h : Anc g i j) : Anc g' i j := by
  induction h with
  | refl => exact .refl
  | step k hk _ ih => exact .step k (by rw [e]; exact hk) ih

theorem Mid.write {m : Mode} {t : ℕ} {done : Id → Prop} {h : Heap ClassDef Par Arr Jac} (hm : Mid m t done h) {l : Id}
    (hl : IsLeaf h.graph l) (ha : (h.node l).alive = true) (x : Arr) :
    ∃ h', setattr lib l (some t) (.term nmX (.arr x)) h = (h', .ok ()) ∧ Mid m t (fun j => done j ∨ j = l) h' ∧ h'.next = h.next ∧
      h'.giter = h.giter ∧ (∀ j, (h'.node j).alive = (h.node j).alive) ∧ h'.graph = withArr h.graph l x ∧
      (∀ n, Anc h.graph l n → h'.Tagged (some t) n ∧ (h'.node n).cacheR = none) ∧
      ∀ n, (h'.node n).itr = some t ∨ (h'.node n).itr = (h.node n).itr := by
  have ht : ∀ t', some t = some t' → t' ≤ h.giter ∨ t' = 9999 := by intro t' e; cases e; exact Or.inl hm.time
  obtain ⟨e1, b⟩ := setattr_built (s := lib) hm.inv.str ha (kw := .term nmX (.arr x)) trivial ht
  obtain ⟨a, _⟩ := setattr_post (s := lib) (fr := m) hm.inv.str ha (.term nmX (.arr x)) ht
  have hg : (setattr lib l (some t) (.term nmX (.arr x)) h).1.graph = withArr h.graph l x := by
    funext j
    rw [b.graph]
    unfold withArr
    split
    · rfl
    · rfl
  have hw : WOk lib m h l := fun hfr => ⟨lib_localDr, hm.inv.perm hfr, Or.inl (by show (h.graph l).cls.permute = false; rw [hl.1]; rfl)⟩
  refine ⟨(setattr lib l (some t) (.term nmX (.arr x)) h).1, Prod.ext rfl e1, ⟨⟨a.str, a.coh lib_propsOk hw hm.tag hm.inv.coh,
    fun hfr => a.perm (hm.inv.perm hfr), fun hp => a.flags (hm.inv.flags hp)⟩, a.tag hm.tag, by rw [b.giter]; exact hm.time, ?_⟩,
    b.next, b.giter, b.alive, hg, fun n hn => ?_, fun n => ?_⟩
  · intro n hn
    rw [hg]
    rcases setTerm_tagged (s := lib) hm.inv.str l nmX (.arr x) (some t) n hn with h1 | h1
    · obtain ⟨l', h2, h3⟩ := hm.tagged n h1
      exact ⟨l', Or.inl h2, anc_congr (withArr_dterms _ _ _) h3⟩
    · exact ⟨l, Or.inr rfl, anc_congr (withArr_dterms _ _ _) h1⟩
  · obtain ⟨h2, w, _, _⟩ := setTerm_writing (s := lib) h hm.inv.str l nmX (.arr x) (some t)
    have hg' : (setTerm lib l nmX (.arr x) (some t) h).1.graph = withArr h.graph l x := hg
    obtain ⟨k1, _, k2⟩ := w.anc_cleared hm.inv.str.links hm.tag n (by rw [hg']; exact anc_congr (withArr_dterms _ _ _) hn)
    exact ⟨k2 rfl, k1⟩
  · obtain ⟨h2, w, _, _⟩ := setTerm_writing (s := lib) h hm.inv.str l nmX (.arr x) (some t)
    obtain ⟨S, hp⟩ := w.post
    show ((setTerm lib l nmX (.arr x) (some t) h).1.node n).itr = _ ∨ ((setTerm lib l nmX (.arr x) (some t) h).1.node n).itr = _
    rw [(w.same4 n).2.2.2.1]
    by_cases hS : n ∈ S
    · exact Or.inl (hp.wiped n hS).2.2
    · right; rw [(hp.kept n hS).2.2, w.itr2]

theorem mbind_ok {α β : Type} {m : M ClassDef Par Arr Jac α} {k : α → M ClassDef Par Arr Jac β} {h : Heap ClassDef Par Arr Jac} {a : α}
    (hm : (m h).2 = .ok a) : M.bind m k h = k a (m h).1 := by
  simp only [M.bind]
  rcases hx : m h with ⟨h', r⟩
  rw [hx] at hm
  dsimp only at hm
  subst hm
  rfl

theorem str_dn {h : Heap ClassDef Par Arr Jac} (hs : Str h) : ∀ i k c, (h.graph i).dterms k = some c → k ∈ (h.graph i).dnames :=
  fun i k c hk => hs.dn i k c hk

theorem atleast1_prod (x : Arr) : x.atleast1.shape.prod = x.size := ones_prod x.shape

theorem putFree_spec {m : Mode} {t : ℕ} {done : Id → Prop} {h : Heap ClassDef Par Arr Jac} (hm : Mid m t done h) {v : Free} (hv : v.Ok h.graph)
    (ha : (h.node v.l).alive = true) {x : Id} {xr : Arr} (hx : IsLeaf h.graph x) (hxr : Means lib h.graph (.r x) (.ok xr))
    (hdone : ∀ l, done l → IsLeaf h.graph l ∧ l ≠ v.l ∧ l ≠ x) {o : ℕ} (ho : o + v.size ≤ xr.size) {f : ℕ} (hf : v.depth < f) :
    ∃ h' x0 x1, putFree f t x v.fv o h = (h', .ok (o + v.size)) ∧ Mid m t (fun j => done j ∨ j = v.l) h' ∧ h'.next = h.next ∧ h'.giter = h.giter ∧
      (∀ j, (h'.node j).alive = (h.node j).alive) ∧ (h.graph v.l).terms nmX = some (.arr x0) ∧ h'.graph = withArr h.graph v.l x1 ∧ x1.shape = x0.shape ∧
      (∀ k < v.size, x1.vec (v.pos k) = xr.vec (o + k)) ∧ (∀ p < x0.size, (∀ k < v.size, v.pos k ≠ p) → x1.vec p = x0.vec p) ∧
      (∀ n, Anc h.graph v.l n → h'.Tagged (some t) n ∧ (h'.node n).cacheR = none) ∧
      ∀ n, (h'.node n).itr = some t ∨ (h'.node n).itr = (h.node n).itr := by
  obtain ⟨x0, hx0, hn⟩ := hv.arr
  have hdn := str_dn hm.inv.str
  have he := hn.eval hv.leaf hx0 rfl f hf
  have r1 := inv_read_ok hm.inv he
  obtain ⟨m1, f1⟩ := hm.read (i := v.fv) (fun l hl ha => (hdone l hl).2.1 (hn.anc hdn hv.leaf (hdone l hl).1 ha)) f
  generalize hh1 : (read lib f (.r v.fv) h).1 = h1 at m1 f1
  obtain ⟨o1, ht, ho1⟩ := hn.target hv.leaf f hf
  obtain ⟨xv, hxv, rfl⟩ := leaf_term hx hxr
  have hfx : evalReq lib h1.graph f (.r x) = .ok xv.atleast1 := by
    rw [f1.graph]
    obtain ⟨f, rfl⟩ : ∃ k, f = k + 1 := ⟨f - 1, by omega⟩
    simp [evalReq, hx.1, chLeaf, evalProg, hxv]
  have r2 := inv_read_ok m1.inv hfx
  obtain ⟨m2, f2⟩ := m1.read (i := x) (fun l hl ha => by
    rw [f1.graph] at ha
    exact (hdone l hl).2.2 (leaf_anc hx ha)) f
  generalize hh2 : (read lib f (.r x) h1).1 = h2 at m2 f2
  have hg2 : h2.graph = h.graph := f2.graph.trans f1.graph
  obtain ⟨h3, e3, m3, n3, t3, a3, g3, w3, i3⟩ := m2.write (l := v.l) (by rw [hg2]; exact hv.leaf) (by rw [f2.alive, f1.alive]; exact ha)
    (newTarget x0 (fun k => xv.atleast1.vec (o + k)) o1)
  have hb : ∀ k < v.osh.prod, v.pos k < x0.size := by
    intro k hk
    have := hn.view.bound k hk
    rw [atleast1_prod] at this; exact this
  obtain ⟨s1, s2⟩ := newTarget_spec (seg := fun k => xv.atleast1.vec (o + k)) ho1 hb hv.inj
  refine ⟨h3, x0, newTarget x0 (fun k => xv.atleast1.vec (o + k)) o1, ?_, m3, by rw [n3, f2.next, f1.next], by rw [t3, f2.giter, f1.giter],
    fun j => by rw [a3, f2.alive, f1.alive], hx0, by rw [g3, hg2], newTarget_shape _ _ _, s1, s2, by rw [hg2] at w3; exact w3,
    fun n => by rw [← f1.itr, ← f2.itr]; exact i3 n⟩
  unfold putFree
  rw [mbind_ok r1]
  rw [hh1, f1.graph, ht]
  dsimp only
  rw [hx0]
  dsimp only
  rw [mbind_ok r2, hh2]
  have hsz : (Arr.of v.osh fun k => x0.atleast1.vec (v.pos k)).size = v.size := rfl
  rw [hsz, if_pos ho, mbind_ok (by rw [e3]), e3]
  rfl

/-- All of them. -/
structure PutAll (g g' : Graph ClassDef Par) (xv : Arr) (vs : List (Free × ℕ)) : Prop where
  each : ∀ w ∈ vs, ∃ x0 x1 : Arr, (g w.1.l).terms nmX = some (.arr x0) ∧ g' w.1.l = withArr g w.1.l x1 w.1.l ∧ x1.shape = x0.shape ∧
    (∀ k < w.1.size, x1.vec (w.1.pos k) = xv.vec (w.2 + k)) ∧ ∀ p < x0.size, (∀ k < w.1.size, w.1.pos k ≠ p) → x1.vec p = x0.vec p
  other : ∀ j, (∀ w ∈ vs, j ≠ w.1.l) → g' j = g j

theorem isLeaf_withArr {g : Graph ClassDef Par} {l j : Id} {x : Arr} (h : IsLeaf g j) : IsLeaf (withArr g l x) j := by
  by_cases e : j = l
  · subst e
    unfold IsLeaf withArr
    rw [if_pos rfl]
    exact h
  · unfold IsLeaf withArr
    rw [if_neg e]
    exact h

theorem withArr_other {g : Graph ClassDef Par} {l j : Id} {x : Arr} (h : j ≠ l) : withArr g l x j = g j := by
  unfold withArr; rw [if_neg h]

theorem Free.Ok.withArr {g : Graph ClassDef Par} {v : Free} {l : Id} {x : Arr} (hv : v.Ok g) (hl : IsLeaf g l) (hne : v.l ≠ l) : v.Ok (withArr g l x) := by
  obtain ⟨x0, h1, h2⟩ := hv.arr
  refine ⟨isLeaf_withArr hv.leaf, ⟨x0, by rw [withArr_other hne]; exact h1, h2.congr fun i hi => ?_⟩, hv.inj⟩
  refine withArr_other ?_
  rintro rfl
  exact hi (hl.2.1 nmA)

/-- The number of entries of all free variables. -/
def totalSize (vs : List Free) : ℕ := (vs.map Free.size).sum

theorem putAll_spec {m : Mode} {t : ℕ} {x : Id} {xr : Arr} {f : ℕ} (vs : List Free) : ∀ {done : Id → Prop} {h : Heap ClassDef Par Arr Jac} {o : ℕ},
    Mid m t done h → (∀ v ∈ vs, v.Ok h.graph ∧ (h.node v.l).alive = true ∧ v.depth < f ∧ v.l ≠ x) → (vs.map Free.l).Nodup →
    IsLeaf h.graph x → Means lib h.graph (.r x) (.ok xr) → (∀ l, done l → IsLeaf h.graph l ∧ l ≠ x ∧ ∀ v ∈ vs, l ≠ v.l) →
    o + totalSize vs ≤ xr.size →
    ∃ h' done', putAll f t x (vs.map Free.fv) o h = (h', .ok ()) ∧ Mid m t done' h' ∧ h'.next = h.next ∧ h'.giter = h.giter ∧
      (∀ j, (h'.node j).alive = (h.node j).alive) ∧ PutAll h.graph h'.graph xr (offsets vs o) ∧
      ∀ n, (h'.node n).itr = some t ∨ (h'.node n).itr = (h.node n).itr := by
  induction vs with
  | nil => intro done h o hm _ _ _ _ _ _; exact ⟨h, done, rfl, hm, rfl, rfl, fun _ => rfl, ⟨fun w (hw : w ∈ []) => (by cases hw), fun _ _ => rfl⟩, fun _ => Or.inr rfl⟩
  | cons v vs ih =>
    intro done h o hm hvs hnd hx hxr hdone hsz
    obtain ⟨ok, ha, hd, hvx⟩ := hvs v (by simp)
    simp only [List.map_cons, List.nodup_cons] at hnd
    have hsz' : o + v.size + totalSize vs ≤ xr.size := by
      simp only [totalSize, List.map_cons, List.sum_cons] at hsz ⊢; omega
    obtain ⟨h1, x0, x1, e1, m1, n1, t1, a1, hx0, g1, s1, p1, p2, _, i1⟩ := putFree_spec hm ok ha hx hxr
      (fun l hl => ⟨(hdone l hl).1, (hdone l hl).2.2 v (by simp), (hdone l hl).2.1⟩) (o := o) (by omega) hd
    have hne : ∀ w ∈ vs, w.l ≠ v.l := fun w hw e => hnd.1 (by rw [← e]; exact List.mem_map_of_mem hw)
    obtain ⟨h2, done', e2, m2, n2, t2, a2, q, i2⟩ := ih (o := o + v.size) m1 (fun w hw => by
        obtain ⟨k1, k2, k3, k4⟩ := hvs w (by simp [hw])
        rw [g1]
        exact ⟨k1.withArr ok.leaf (hne w hw), by rw [a1]; exact k2, k3, k4⟩)
      hnd.2 (by rw [g1]; exact isLeaf_withArr hx) (by
        obtain ⟨x', hx', rfl⟩ := leaf_term hx hxr
        refine means_leaf ?_ ?_
        · rw [g1]; exact (isLeaf_withArr hx).1
        · rw [g1, withArr_other (Ne.symm hvx)]; exact hx')
      (fun l hl => by
        rw [g1]
        rcases hl with hl | rfl
        · exact ⟨isLeaf_withArr (hdone l hl).1, (hdone l hl).2.1, fun w hw => (hdone l hl).2.2 w (by simp [hw])⟩
        · exact ⟨isLeaf_withArr ok.leaf, hvx, fun w hw => (hne w hw).symm⟩) hsz'
    have hmem : ∀ {us : List Free} {o' : ℕ} {w : Free × ℕ}, w ∈ offsets us o' → w.1 ∈ us := by
      intro us
      induction us with
      | nil => intro o' w hw; cases hw
      | cons u us ih =>
        intro o' w hw
        simp only [offsets, List.mem_cons] at hw ⊢
        rcases hw with rfl | hw
        · exact Or.inl rfl
        · exact Or.inr (ih hw)
    have hv2 : h2.graph v.l = h1.graph v.l := q.other v.l fun w hw => (hne w.1 (hmem hw)).symm
    refine ⟨h2, done', ?_, m2, n2.trans n1, t2.trans t1, fun j => (a2 j).trans (a1 j), ⟨?_, ?_⟩,
      fun n => (i2 n).elim Or.inl fun e => by rw [e]; exact i1 n⟩
    · simp only [List.map_cons, putAll]
      rw [mbind_ok (by rw [e1]), e1]
      exact e2
    · intro w hw
      simp only [offsets, List.mem_cons] at hw
      rcases hw with rfl | hw
      · exact ⟨x0, x1, hx0, by rw [hv2, g1], s1, p1, p2⟩
      · obtain ⟨y0, y1, b1, b2, b3⟩ := q.each w hw
        have hw' := hne w.1 (hmem hw)
        refine ⟨y0, y1, ?_, ?_, b3⟩
        · rw [g1, withArr_other hw'] at b1; exact b1
        · rw [b2, g1]
          simp only [withArr, if_neg hw', if_true]
    · intro j hj
      rw [q.other j fun w hw => hj w (by simp [offsets, hw]), g1]
      exact withArr_other (hj (v, o) (by simp [offsets]))

/-- The stacked objective `y`, with `x` and `obj`, over the free variables `vs`. -/
structure Stacked (h : Heap ClassDef Par Arr Jac) (y x o : Id) (vs : List Free) (xr : Arr) : Prop where
  linkX : (h.graph y).dterms nmX = some x
  free : ∀ v ∈ vs, v.Ok h.graph ∧ (h.node v.l).alive = true ∧ v.l ≠ x
  leafX : IsLeaf h.graph x
  valX : Means lib h.graph (.r x) (.ok xr)
  size : totalSize vs ≤ xr.size
  fresh : h.giter + 1 ≠ 9999 ∨ ∀ n, (h.node n).itr ≠ some 9999

theorem mid_start {m : Mode} {h : Heap ClassDef Par Arr Jac} (hs : Inv lib m h) (hf : h.giter + 1 ≠ 9999 ∨ ∀ n, (h.node n).itr ≠ some 9999) :
    Mid m (h.giter + 1) (fun _ => False) { h with giter := h.giter + 1 } := by
  have hu : ∀ n, ¬ Heap.Tagged { h with giter := h.giter + 1 } (some (h.giter + 1)) n := by
    rintro n ⟨_, hn⟩
    have hn' : (h.node n).itr = some (h.giter + 1) := hn
    rcases hs.str.tags n _ hn' with h3 | h3
    · omega
    · rcases hf with h2 | h2
      · exact h2 h3
      · rw [h3] at hn'; exact h2 n hn'
  refine ⟨⟨⟨hs.str.links, hs.str.dead, hs.str.unborn, hs.str.dn, hs.str.keys, fun n t ht => ?_⟩, ⟨hs.coh.r, hs.coh.p, hs.coh.d, hs.coh.k⟩, hs.perm, hs.flags⟩,
    .of_untagged hu, Nat.le_refl _, fun n hn => absurd hn (hu n)⟩
  rcases hs.str.tags n t ht with h | h
  · left; show t ≤ _ + 1; omega
  · exact Or.inr h

theorem onChangedX_spec {m : Mode} {h : Heap ClassDef Par Arr Jac} (hs : Inv lib m h) {y x o : Id} {vs : List Free} {xr : Arr} (hst : Stacked h y x o vs xr)
    (hnd : (vs.map Free.l).Nodup) {which : List Name} (hw : nmX ∈ which) {f : ℕ} (hf : ∀ v ∈ vs, v.depth < f) :
    ∃ h', onChangedX f y (vs.map Free.fv) which h = (h', .ok ()) ∧ Inv lib m h' ∧ h'.next = h.next ∧ h'.giter = h.giter + 1 ∧
      (∀ j, (h'.node j).alive = (h.node j).alive) ∧ PutAll h.graph h'.graph xr (offsets vs 0) ∧
      ∀ n, (h'.node n).itr = some (h.giter + 1) ∨ (h'.node n).itr = (h.node n).itr := by
  obtain ⟨h', _, e, m', n', t', a', q, i'⟩ := putAll_spec (f := f) (o := 0) vs (mid_start hs hst.fresh)
    (fun v hv => ⟨(hst.free v hv).1, (hst.free v hv).2.1, hf v hv, (hst.free v hv).2.2⟩) hnd hst.leafX hst.valX (fun l hl => hl.elim)
    (by rw [Nat.zero_add]; exact hst.size)
  refine ⟨h', ?_, m'.inv, n', t', a', q, i'⟩
  unfold onChangedX
  dsimp only
  rw [if_pos hw]
  have : ({ h with giter := h.giter + 1 } : Heap ClassDef Par Arr Jac).graph = h.graph := rfl
  rw [this, hst.linkX]
  exact e
end Chumpy
