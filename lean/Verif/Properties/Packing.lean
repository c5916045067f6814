import Verif.AD.StackedJac
/-!
# C51, C53: the packed vector of the optimiser

`obj.x = v` on the stacked objective of the optimiser, followed by a read of `obj.r`, distributes `v` over the free variables.
-/
namespace Chumpy
open scoped BigOperators

/-- The stacked objective `y` for the objective `o` and the free variables `vs`, made by `setup_objective`: each free variable is a `Ch`
or a slice (of a slice …) of one. -/
structure Setup (h : Heap ClassDef Par Arr Jac) (y o : Id) (vs : List Free) : Prop where
  alive : (h.node y).alive = true
  cls : (h.graph y).cls = chStacked
  dnames : (h.graph y).dnames = [nmX, nmObj]
  linkO : (h.graph y).dterms nmObj = some o
  free : ∀ v ∈ vs, v.Ok h.graph ∧ (h.node v.l).alive = true
  fresh : h.giter + 1 ≠ 9999 ∨ ∀ n, (h.node n).itr ≠ some 9999

/-- No two free variables share an entry. -/
def Apart (vs : List Free) : Prop := vs.Pairwise fun v w => v.l = w.l → ∀ i < v.size, ∀ j < w.size, v.pos i ≠ w.pos j

/-- `np.concatenate([freevar.r.ravel() for freevar in free_variables])` (optimization_internal.py:141). -/
noncomputable def pack (f : ℕ) : List Id → M ClassDef Par Arr Jac (List ℝ)
  | [] => M.pure []
  | fv :: fvs => M.bind (read lib f (.r fv)) fun v => M.bind (pack f fvs) fun xs => M.pure ((List.range v.size).map v.vec ++ xs)

/-- States reached by any history of API calls and of reads of `r` and `J` and calls of `on_changed` of stacked objectives, the free variables of each being (slices of)
different `Ch`s. -/
inductive OptReach : Heap ClassDef Par Arr Jac → Prop
  | start : OptReach (Heap.empty lib)
  | op {h : Heap ClassDef Par Arr Jac} (op : Op ClassDef Par Jac) (hr : OptReach h) (hl : Legal lib ⟨False, True⟩ h op) : OptReach (step lib op h).1
  | stacked {h : Heap ClassDef Par Arr Jac} {y x o : Id} {vs : List Free} {xr : Arr} (f : ℕ) (hr : OptReach h) (hs : Stacked h y x o vs xr)
      (hd : (vs.map Free.l).Nodup) (hf : ∀ v ∈ vs, v.depth < f) : OptReach (stackedR f y (vs.map Free.fv) h).1
  | changed {h : Heap ClassDef Par Arr Jac} {y x o : Id} {vs : List Free} {xr : Arr} (f : ℕ) (which : List Name) (hr : OptReach h)
      (hs : Stacked h y x o vs xr) (hd : (vs.map Free.l).Nodup) (hf : ∀ v ∈ vs, v.depth < f) : OptReach (onChangedX f y (vs.map Free.fv) which h).1
  | jac {h : Heap ClassDef Par Arr Jac} (f : ℕ) (md ms : Bool) (y : Id) (fvs : List Id) (hr : OptReach h) : OptReach (stackedJ f md ms y fvs h).1

/-- What `obj.x = xv` and a read of `obj.r` should do, `h` being the state before, `h2` the state after:
* packing the free variables gives `xv` again, and each free variable has its segment of `xv`, in its own shape;
* the `Ch`s under the free variables keep their shapes and the entries that are not selected;
* no other existing object is changed. -/
structure Distributed (h : Heap ClassDef Par Arr Jac) (y : Id) (vs : List Free) (xv : Arr) (h2 : Heap ClassDef Par Arr Jac) (f : ℕ) : Prop where
  back : (pack f (vs.map Free.fv) h2).2 = .ok ((List.range xv.size).map xv.vec)
  segment : ∀ w ∈ offsets vs 0, ∃ out, (read lib f (.r w.1.fv) h2).2 = .ok out ∧ out.shape = w.1.osh ∧ ∀ k < w.1.size, out.vec k = xv.vec (w.2 + k)
  rest : ∀ v ∈ vs, ∀ x, Means lib h.graph (.r v.l) (.ok x) → ∃ x', (read lib f (.r v.l) h2).2 = .ok x' ∧ x'.shape = x.shape ∧
    ∀ p < x.size, (∀ u ∈ vs, u.l = v.l → ∀ k < u.size, u.pos k ≠ p) → x'.vec p = x.vec p
  frame : ∀ j, j < h.next → j ≠ y → (∀ v ∈ vs, j ≠ v.l) → h2.graph j = h.graph j

/-- C51 in full: for all free variables that do not share entries. -/
def C51_full : Prop :=
  ∀ (h : Heap ClassDef Par Arr Jac), OptReach h → ∀ (y o : Id) (vs : List Free) (xv : Arr), Setup h y o vs → Apart vs → xv.size = totalSize vs →
    ∃ h1, setObj lib y [.wrap nmX (.arr xv)] h = (h1, .ok ()) ∧ ∃ f₀, ∀ f ≥ f₀, Distributed h y vs xv (stackedR f y (vs.map Free.fv) h1).1 f

/-- `g'` is `g` with `xv` distributed over the free variables: the `Ch`s under them keep their shapes and their unselected entries. -/
structure Spread (g g' : Graph ClassDef Par) (xv : Arr) (vs : List Free) : Prop where
  each : ∀ v ∈ vs, ∃ x0 x1 : Arr, (g v.l).terms nmX = some (.arr x0) ∧ g' v.l = withArr g v.l x1 v.l ∧ x1.shape = x0.shape ∧
    (∀ w ∈ offsets vs 0, w.1.l = v.l → ∀ k < w.1.size, x1.vec (w.1.pos k) = xv.vec (w.2 + k)) ∧
    ∀ p < x0.size, (∀ u ∈ vs, u.l = v.l → ∀ k < u.size, u.pos k ≠ p) → x1.vec p = x0.vec p
  other : ∀ j, (∀ v ∈ vs, j ≠ v.l) → g' j = g j

/-- C53 in full: the objective is evaluated with `xv` distributed over the free variables. -/
def C53_full : Prop :=
  ∀ (h : Heap ClassDef Par Arr Jac), OptReach h → ∀ (y o : Id) (vs : List Free) (xv : Arr), Setup h y o vs → Apart vs → xv.size = totalSize vs →
    ∃ h1, setObj lib y [.wrap nmX (.arr xv)] h = (h1, .ok ()) ∧ ∀ g, Spread h1.graph g xv vs → ∀ w, Means lib g (.r o) (.ok w) →
      ∃ f₀, ∀ f ≥ f₀, (stackedR f y (vs.map Free.fv) h1).2 = .ok (Arr.of [w.size] w.vec)

/-! ## Reachable states are coherent -/

theorem callOnChanged_skip {C T V D : Type} {h : Heap C T V D} {i : Id} (hd : (h.node i).dirty.isEmpty = true) : callOnChanged i h = (h, .ok ()) := by
  unfold callOnChanged; rw [if_pos hd]

theorem stackedR_inv {m : Mode} {h : Heap ClassDef Par Arr Jac} (hs : Inv lib m h) {y x o : Id} {vs : List Free} {xr : Arr} (hst : Stacked h y x o vs xr)
    (hnd : (vs.map Free.l).Nodup) {f : ℕ} (hf : ∀ v ∈ vs, v.depth < f) : Inv lib m (stackedR f y (vs.map Free.fv) h).1 := by
  unfold stackedR
  split
  · exact read_inv hs f (.r y)
  · by_cases hw : nmX ∈ (h.node y).dirty
    · obtain ⟨h', e, hi, _⟩ := onChangedX_spec hs hst hnd hw hf
      rw [mbind_ok (by rw [e]), e]
      exact read_inv hi f (.r y)
    · have e : onChangedX f y (vs.map Free.fv) (h.node y).dirty h = ({ h with giter := h.giter + 1 }, .ok ()) := by
        unfold onChangedX; dsimp only; rw [if_neg hw]
      rw [mbind_ok (by rw [e]), e]
      exact read_inv (mid_start hs hst.fresh).inv f (.r y)

theorem onChangedX_inv {m : Mode} {h : Heap ClassDef Par Arr Jac} (hs : Inv lib m h) {y x o : Id} {vs : List Free} {xr : Arr} (hst : Stacked h y x o vs xr)
    (hnd : (vs.map Free.l).Nodup) {f : ℕ} (hf : ∀ v ∈ vs, v.depth < f) (which : List Name) : Inv lib m (onChangedX f y (vs.map Free.fv) which h).1 := by
  by_cases hw : nmX ∈ which
  · obtain ⟨h', e, hi, _⟩ := onChangedX_spec hs hst hnd hw hf
    rw [e]; exact hi
  · have e : onChangedX f y (vs.map Free.fv) which h = ({ h with giter := h.giter + 1 }, .ok ()) := by
      unfold onChangedX; dsimp only; rw [if_neg hw]
    rw [e]; exact (mid_start hs hst.fresh).inv

theorem OptReach.inv {h : Heap ClassDef Par Arr Jac} (hr : OptReach h) : Inv lib ⟨False, True⟩ h := by
  induction hr with
  | start => exact reach_inv lib_propsOk (fun _ => lib_localDr) .init
  | op op _ hl ih => exact step_inv lib_propsOk (fun _ => lib_localDr) ih op hl
  | stacked f _ hs hd hf ih => exact stackedR_inv ih hs hd hf
  | changed f which _ hs hd hf ih => exact onChangedX_inv ih hs hd hf which
  | jac f md ms y fvs _ ih => exact stackedJ_inv ih f md ms y fvs

theorem optReach_of_reach {h : Heap ClassDef Par Arr Jac} (hr : Reach lib ⟨False, True⟩ h) : OptReach h := by
  induction hr with
  | init => exact .start
  | step op _ hl ih => exact .op op ih hl

/-- In all such states every read gives the value computed from scratch (C01 for histories with an optimiser). -/
theorem C01_with_optimiser {h : Heap ClassDef Par Arr Jac} (hr : OptReach h) (f : ℕ) (q : Req) : ReadFresh lib h f q (read lib f q h).2 :=
  readFresh_of_agree ((read_sim (P := True) f q h hr.inv.coh rfl).2.2 trivial)

/-! ## One assignment and one read -/

theorem mem_offsets {w : Free × ℕ} : ∀ {us : List Free} {o : ℕ}, w ∈ offsets us o → w.1 ∈ us
  | u :: us, o, hw => by
    simp only [offsets, List.mem_cons] at hw ⊢
    rcases hw with rfl | hw
    · exact Or.inl rfl
    · exact Or.inr (mem_offsets hw)

theorem offsets_mem {v : Free} : ∀ {us : List Free} (o : ℕ), v ∈ us → ∃ p, (v, p) ∈ offsets us o
  | u :: us, o, hv => by
    simp only [List.mem_cons] at hv
    rcases hv with rfl | hv
    · exact ⟨o, by simp [offsets]⟩
    · obtain ⟨p, hp⟩ := offsets_mem (o + u.size) hv
      exact ⟨p, by simp [offsets, hp]⟩

theorem withArr_arr {g : Graph ClassDef Par} {l : Id} {x x' : Arr} (h : withArr g l x l = withArr g l x' l) : x = x' := by
  unfold withArr at h
  rw [if_pos rfl, if_pos rfl] at h
  have h2 := congrArg (fun n : GNode ClassDef Par => n.terms nmX) h
  simpa using h2

theorem PutAll.spread {g g' : Graph ClassDef Par} {xv : Arr} {vs : List Free} (h : PutAll g g' xv (offsets vs 0)) : Spread g g' xv vs := by
  refine ⟨fun v hv => ?_, fun j hj => h.other j fun w hw => hj _ (mem_offsets hw)⟩
  obtain ⟨p, hp⟩ := offsets_mem 0 hv
  obtain ⟨x0, x1, h1, h2, h3, h4, h5⟩ := h.each _ hp
  refine ⟨x0, x1, h1, h2, h3, fun w hw hl k hk => ?_, fun q hq hu => h5 q hq (hu v hv rfl)⟩
  obtain ⟨y0, y1, k1, k2, k3, k4, k5⟩ := h.each _ hw
  rw [hl, h2] at k2
  rw [withArr_arr k2]
  exact k4 k hk

theorem Spread.unique {g g1 g2 : Graph ClassDef Par} {xv : Arr} {vs : List Free} (h1 : Spread g g1 xv vs) (h2 : Spread g g2 xv vs) : g1 = g2 := by
  funext j
  by_cases hj : ∃ v ∈ vs, j = v.l
  · obtain ⟨v, hv, rfl⟩ := hj
    obtain ⟨x0, x1, a1, a2, a3, a4, a5⟩ := h1.each v hv
    obtain ⟨y0, y1, b1, b2, b3, b4, b5⟩ := h2.each v hv
    rw [a1] at b1
    obtain rfl : x0 = y0 := by simpa using b1
    rw [a2, b2]
    have : x1 = y1 := by
      refine Arr.ext_vec (a3.trans b3.symm) fun k hk => ?_
      have hk' : k < x0.size := by unfold Arr.size at hk ⊢; rw [← a3]; exact hk
      by_cases hs : ∃ u ∈ vs, u.l = v.l ∧ ∃ i < u.size, u.pos i = k
      · obtain ⟨u, hu, hl, i, hi, rfl⟩ := hs
        obtain ⟨p, hp⟩ := offsets_mem 0 hu
        rw [a4 _ hp hl i hi, b4 _ hp hl i hi]
      · have : ∀ u ∈ vs, u.l = v.l → ∀ i < u.size, u.pos i ≠ k := fun u hu hl i hi e => hs ⟨u, hu, hl, i, hi, e⟩
        rw [a5 k hk' this, b5 k hk' this]
    rw [this]
  · have : ∀ v ∈ vs, j ≠ v.l := fun v hv e => hj ⟨v, hv, e⟩
    rw [h1.other j this, h2.other j this]

theorem free_dterms {h : Heap ClassDef Par Arr Jac} (hs : Str h) {i : Id} (hi : (h.graph i).dterms nmA ≠ none) : i < h.next ∧ nmA ∈ (h.graph i).dnames := by
  cases hc : (h.graph i).dterms nmA with
  | none => exact absurd hc hi
  | some c =>
    refine ⟨?_, hs.dn i nmA c hc⟩
    refine Nat.lt_of_not_le fun hle => ?_
    have := (hs.dead i (hs.unborn i hle)).2.1 nmA
    rw [Heap.graph_apply] at hc
    exact absurd (hc.symm.trans this) (by simp)

theorem Free.Ok.congr {g g' : Graph ClassDef Par} {v : Free} (hv : v.Ok g) (hl : g' v.l = g v.l) (e : ∀ i, (g i).dterms nmA ≠ none → g' i = g i) : v.Ok g' := by
  obtain ⟨x0, h1, h2⟩ := hv.arr
  refine ⟨?_, ⟨x0, by rw [hl]; exact h1, h2.congr e⟩, hv.inj⟩
  have := hv.leaf
  unfold IsLeaf at this ⊢
  rw [hl]; exact this

/-- The state after `obj.x = xv`. -/
theorem assign_x {h : Heap ClassDef Par Arr Jac} (hr : OptReach h) {y o : Id} {vs : List Free} {xv : Arr} (hy : Setup h y o vs)
    (hsz : xv.size = totalSize vs) : ∃ h1, setObj lib y [.wrap nmX (.arr xv)] h = (h1, .ok ()) ∧ OptReach h1 ∧
      Stacked h1 y h.next o vs xv.atleast1 ∧ nmX ∈ (h1.node y).dirty ∧ (h1.graph y).cls = chStacked ∧ (h1.graph y).dterms nmObj = some o ∧
      ∀ j, j < h.next → j ≠ y → h1.graph j = h.graph j := by
  have hs := hr.inv.str
  obtain ⟨h1, e, n1, t1, a1, gN, gY, gO, d1, i1⟩ := wrap_state (s := lib) hs hy.alive (k := nmX) (by rw [hy.dnames]; simp) (.arr xv)
  have hyn : y < h.next := hs.alive_lt hy.alive
  have e' : setObj lib y [.wrap nmX (.arr xv)] h = (h1, .ok ()) := by
    unfold setObj
    rw [if_pos hy.alive]
    exact e
  have hnl : ∀ v ∈ vs, v.l ≠ y := by
    rintro v hv rfl
    have := (hy.free v hv).1.leaf.2.1 nmObj
    rw [hy.linkO] at this; cases this
  have hnn : ∀ v ∈ vs, v.l < h.next := fun v hv => hs.alive_lt (hy.free v hv).2
  refine ⟨h1, e', ?_, ⟨?_, ?_, ?_, ?_, ?_, ?_⟩, d1, by rw [gY]; exact hy.cls, ?_, fun j hj hjy => gO j (by omega) hjy⟩
  · have := OptReach.op (.set y [.wrap nmX (.arr xv)]) hr ⟨fun hh => False.elim hh, Or.inl (by simp)⟩
    have e2 : (step lib (.set y [.wrap nmX (.arr xv)]) h).1 = h1 := by
      simp only [step, M.map', e']
    rw [e2] at this; exact this
  · rw [gY]; dsimp only; rw [if_pos rfl]
  · intro v hv
    obtain ⟨ok, ha⟩ := hy.free v hv
    have hlt := hnn v hv
    refine ⟨ok.congr (gO _ (Nat.ne_of_lt hlt) (hnl v hv)) fun i hi => ?_, ?_, Nat.ne_of_lt hlt⟩
    · obtain ⟨h2, h3⟩ := free_dterms hs hi
      refine gO i (Nat.ne_of_lt h2) ?_
      rintro rfl
      rw [hy.dnames] at h3
      simp [nmA, nmX, nmObj, nmB] at h3
    · rw [a1]; split
      · rfl
      · exact ha
  · unfold IsLeaf; rw [gN]; exact ⟨rfl, fun _ => rfl, rfl⟩
  · exact means_leaf (by rw [gN]) (by rw [gN]; rfl)
  · rw [Arr.atleast1_size, hsz]
  · rw [t1]
    rcases hy.fresh with h2 | h2
    · exact Or.inl h2
    · refine Or.inr fun n => ?_
      rcases i1 n with h3 | h3
      · rw [h3]; simp
      · rw [h3]; exact h2 n
  · rw [gY]; dsimp only; rw [if_neg (by decide)]; exact hy.linkO

/-- A number of steps that suffices for the free variables. -/
def enough (vs : List Free) : ℕ := (vs.map Free.depth).sum + 1

theorem enough_lt {vs : List Free} {v : Free} (hv : v ∈ vs) : v.depth < enough vs := by
  have := List.single_le_sum (l := vs.map Free.depth) (fun _ _ => Nat.zero_le _) _ (List.mem_map_of_mem hv)
  unfold enough; omega

/-- … and after a read of `obj.r`. -/
theorem read_x {h1 : Heap ClassDef Par Arr Jac} (hr : OptReach h1) {y x o : Id} {vs : List Free} {xr : Arr} (hst : Stacked h1 y x o vs xr)
    (hd : nmX ∈ (h1.node y).dirty) (hnd : (vs.map Free.l).Nodup) {f : ℕ} (hf : enough vs ≤ f) :
    ∃ h', Inv lib ⟨False, True⟩ h' ∧ stackedR f y (vs.map Free.fv) h1 = read lib f (.r y) h' ∧ PutAll h1.graph h'.graph xr (offsets vs 0) := by
  obtain ⟨h', e, hi, _, _, _, q, _⟩ := onChangedX_spec hr.inv hst hnd hd (f := f) (fun v hv => by have := enough_lt hv; omega)
  refine ⟨h', hi, ?_, q⟩
  unfold stackedR
  rw [if_neg (by
    intro hh
    rw [List.isEmpty_iff] at hh
    rw [hh] at hd; cases hd), mbind_ok (by rw [e]), e]

theorem atleast1_shape {x x' : Arr} (h : x.shape = x'.shape) : x.atleast1.shape = x'.atleast1.shape := by
  show (if x.shape = [] then [1] else x.shape) = if x'.shape = [] then [1] else x'.shape
  rw [h]

/-- The free variables after the distribution. -/
theorem PutAll.free {g g' : Graph ClassDef Par} {xr : Arr} {vs : List Free} (q : PutAll g g' xr (offsets vs 0)) (hok : ∀ v ∈ vs, v.Ok g)
    {w : Free × ℕ} (hw : w ∈ offsets vs 0) {f : ℕ} (hf : w.1.depth < f) :
    evalReq lib g' f (.r w.1.fv) = .ok (Arr.of w.1.osh fun k => xr.vec (w.2 + k)) := by
  obtain ⟨x0, x1, h1, h2, h3, h4, _⟩ := q.each w hw
  have ok := hok _ (mem_offsets hw)
  obtain ⟨x0', h1', hn⟩ := ok.arr
  rw [h1] at h1'
  obtain rfl : x0 = x0' := by simpa using h1'
  have hl : IsLeaf g' w.1.l := by
    have := isLeaf_withArr (l := w.1.l) (x := x1) ok.leaf
    unfold IsLeaf at this ⊢
    rw [h2]; exact this
  have hn' : Nested g' w.1.l x0.atleast1.shape w.1.depth w.1.fv w.1.osh w.1.pos := by
    refine hn.congr fun i hi => q.other i ?_
    rintro u hu rfl
    exact hi ((hok _ (mem_offsets hu)).leaf.2.1 nmA)
  rw [hn'.eval hl (x0 := x1) (by rw [h2]; simp [withArr]) (atleast1_shape h3) f hf]
  refine congrArg _ (Arr.of_congr fun k hk => ?_)
  rw [Arr.atleast1_vec, h4 k hk]

/-- Packing after the distribution. -/
theorem pack_spec {xr : Arr} {f : ℕ} : ∀ (vs : List Free) (o : ℕ) {h : Heap ClassDef Par Arr Jac}, Inv lib ⟨False, True⟩ h →
    (∀ w ∈ offsets vs o, evalReq lib h.graph f (.r w.1.fv) = .ok (Arr.of w.1.osh fun k => xr.vec (w.2 + k))) →
    (pack f (vs.map Free.fv) h).2 = .ok ((List.range (totalSize vs)).map fun k => xr.vec (o + k))
  | [], _, h, _, _ => rfl
  | v :: vs, o, h, hi, hv => by
    have h1 := inv_read_ok hi (hv (v, o) (by simp [offsets]))
    have hf := read_pres (s := lib) (rframe_rel (C := ClassDef) (T := Par) (V := Arr) (D := Jac)) f (.r v.fv) h
    have h2 := pack_spec (xr := xr) (f := f) vs (o + v.size) (read_inv hi f (.r v.fv)) fun w hw => by
      rw [hf.graph]; exact hv w (by simp [offsets, hw])
    simp only [List.map_cons, pack]
    rw [mbind_ok h1, mbind_ok h2]
    show Except.ok _ = _
    have e : totalSize (v :: vs) = v.size + totalSize vs := by simp [totalSize]
    rw [e, List.range_add, List.map_append]
    refine congrArg _ (congrArg₂ (· ++ ·) ?_ ?_)
    · refine List.map_congr_left fun k hk => ?_
      exact Arr.vec_of _ _ (List.mem_range.1 hk)
    · rw [List.map_map]
      refine List.map_congr_left fun k _ => ?_
      simp only [Function.comp, Nat.add_assoc]

/-- C51.  `obj.x = xv` and a read of `obj.r`, after any history, for any number of free variables, each a `Ch` or a slice of one to any depth.
Missing: several free variables that are slices of one `Ch`, for which it fails (`C51_refuted`). -/
theorem C51_packing_partial {h : Heap ClassDef Par Arr Jac} (hr : OptReach h) {y o : Id} {vs : List Free} {xv : Arr} (hy : Setup h y o vs)
    (hnd : (vs.map Free.l).Nodup) (hsz : xv.size = totalSize vs) :
    ∃ h1, setObj lib y [.wrap nmX (.arr xv)] h = (h1, .ok ()) ∧ ∃ f₀, ∀ f ≥ f₀,
      Distributed h y vs xv (stackedR f y (vs.map Free.fv) h1).1 f ∧ OptReach (stackedR f y (vs.map Free.fv) h1).1 := by
  obtain ⟨h1, e, r1, st, d1, c1, l1, g1⟩ := assign_x hr hy hsz
  refine ⟨h1, e, enough vs, fun f hf => ⟨?_, .stacked f r1 st hnd fun v hv => by have := enough_lt hv; omega⟩⟩
  obtain ⟨h', hi, e2, q⟩ := read_x r1 st d1 hnd hf
  have hok : ∀ v ∈ vs, v.Ok h1.graph := fun v hv => (st.free v hv).1
  have hnl : ∀ v ∈ vs, v.l ≠ y := by
    rintro v hv rfl
    have := (hy.free v hv).1.leaf.2.1 nmObj
    rw [hy.linkO] at this; cases this
  have hfr := read_pres (s := lib) (rframe_rel (C := ClassDef) (T := Par) (V := Arr) (D := Jac)) f (.r y) h'
  have hi2 := read_inv hi f (.r y)
  have hev : ∀ w ∈ offsets vs 0, evalReq lib (read lib f (.r y) h').1.graph f (.r w.1.fv) = .ok (Arr.of w.1.osh fun k => xv.atleast1.vec (w.2 + k)) := by
    intro w hw
    rw [hfr.graph]
    exact q.free hok hw (by have := enough_lt (mem_offsets hw); omega)
  rw [e2]
  refine ⟨?_, fun w hw => ⟨_, inv_read_ok hi2 (hev w hw), rfl, fun k hk => ?_⟩, fun v hv x hx => ?_, fun j hj hjy hjv => ?_⟩
  · rw [pack_spec vs 0 hi2 hev, hsz]
    refine congrArg _ (List.map_congr_left fun k _ => ?_)
    rw [Nat.zero_add, Arr.atleast1_vec]
  · rw [Arr.vec_of _ _ hk, Arr.atleast1_vec]
  · obtain ⟨y0, k1, rfl⟩ := leaf_term (hy.free v hv).1.leaf hx
    obtain ⟨x0, x1, h3, h4, h5, h6, h7⟩ := q.spread.each v hv
    have e0 : y0 = x0 := by
      have hlt := hr.inv.str.alive_lt (hy.free v hv).2
      rw [g1 _ hlt (hnl v hv)] at h3
      rw [k1] at h3
      simpa using h3
    subst e0
    have hm : evalReq lib (read lib f (.r y) h').1.graph f (.r v.l) = .ok x1.atleast1 := by
      rw [hfr.graph]
      obtain ⟨f, rfl⟩ : ∃ k, f = k + 1 := ⟨f - 1, by unfold enough at hf; omega⟩
      have hc : (h'.graph v.l).cls = chLeaf := by rw [h4]; simp only [withArr, if_true]; exact (hok v hv).leaf.1
      have ht : (h'.graph v.l).terms nmX = some (.arr x1) := by rw [h4]; simp [withArr]
      simp [evalReq, hc, chLeaf, evalProg, ht]
    refine ⟨_, inv_read_ok hi2 hm, atleast1_shape h5, fun p hp hu => ?_⟩
    rw [Arr.atleast1_vec, Arr.atleast1_vec]
    exact h7 p (by rw [Arr.atleast1_size] at hp; exact hp) hu
  · rw [hfr.graph, q.other j fun w hw => hjv _ (mem_offsets hw)]
    exact g1 j hj hjy

theorem stacked_means {g : Graph ClassDef Par} {y o : Id} (hc : (g y).cls = chStacked) (ho : (g y).dterms nmObj = some o) {w : Arr}
    (hw : Means lib g (.r o) (.ok w)) : Means lib g (.r y) (.ok (Arr.of [w.size] w.vec)) := by
  obtain ⟨_, f, hf⟩ := hw
  refine ⟨by simp, f + 1, ?_⟩
  simp only [evalReq, hc, chStacked, evalProg, ho, hf]

/-- C53.  The stacked objective is evaluated with the assigned vector distributed over the free variables, after any history.
Missing: as for C51 (`C53_refuted`). -/
theorem C53_objective_sees_writes_partial {h : Heap ClassDef Par Arr Jac} (hr : OptReach h) {y o : Id} {vs : List Free} {xv : Arr} (hy : Setup h y o vs)
    (hnd : (vs.map Free.l).Nodup) (hsz : xv.size = totalSize vs) :
    ∃ h1, setObj lib y [.wrap nmX (.arr xv)] h = (h1, .ok ()) ∧ (∃ g, Spread h1.graph g xv vs) ∧ ∀ g, Spread h1.graph g xv vs →
      ∀ w, Means lib g (.r o) (.ok w) → ∃ f₀, ∀ f ≥ f₀, (stackedR f y (vs.map Free.fv) h1).2 = .ok (Arr.of [w.size] w.vec) := by
  obtain ⟨h1, e, r1, st, d1, c1, l1, g1⟩ := assign_x hr hy hsz
  refine ⟨h1, e, ?_, fun g hg w hw => ?_⟩
  · obtain ⟨h', _, _, q⟩ := read_x r1 st d1 hnd (le_refl _)
    refine ⟨h'.graph, fun v hv => ?_, q.spread.other⟩
    obtain ⟨x0, x1, k1, k2, k3, k4, k5⟩ := q.spread.each v hv
    exact ⟨x0, x1, k1, k2, k3, fun u hu hl k hk => by rw [k4 u hu hl k hk, Arr.atleast1_vec], k5⟩
  have hyl : ∀ v ∈ vs, y ≠ v.l := by
    rintro v hv rfl
    have := (hy.free v hv).1.leaf.2.1 nmObj
    rw [hy.linkO] at this; cases this
  have hgy : g y = h1.graph y := hg.other y hyl
  obtain ⟨_, f1, hf1⟩ := stacked_means (by rw [hgy]; exact c1) (by rw [hgy]; exact l1) hw
  refine ⟨max (enough vs) f1, fun f hf => ?_⟩
  obtain ⟨h', hi, e2, q⟩ := read_x r1 st d1 hnd (f := f) (by omega)
  have hgg : h'.graph = g := by
    refine Spread.unique q.spread (xv := xv.atleast1) ⟨fun v hv => ?_, hg.other⟩
    obtain ⟨x0, x1, k1, k2, k3, k4, k5⟩ := hg.each v hv
    exact ⟨x0, x1, k1, k2, k3, fun u hu hl k hk => by rw [Arr.atleast1_vec]; exact k4 u hu hl k hk, k5⟩
  rw [e2]
  refine inv_read_ok hi ?_
  rw [hgg]
  have := evalReq_mono lib g (show f1 ≤ f by omega) (.r y)
  exact (this (by rw [hf1]; simp)).trans hf1

/-- In all such states every derivative with respect to an object that is not a slice is the one computed from scratch (C02 for histories
with an optimiser). -/
theorem C02_with_optimiser {h : Heap ClassDef Par Arr Jac} (hr : OptReach h) (f : ℕ) (i w : Id) (hw : (h.graph w).cls.permute = false) :
    DrFresh lib h f i w (drWrt lib f i w h).2 := by
  have hi := hr.inv
  refine drFresh_of_agree ((drWrt_sim f i w h hi.coh rfl).2.2 ⟨⟨lib_plainForm, fun j => ?_⟩, trivial, Or.inr hw⟩)
  exact hi.flags trivial j

/-! ## Slices of one array -/

theorem read_stores {f : ℕ} {i : Id} {h : Heap ClassDef Par Arr Jac} {v : Arr} (hv : (read lib f (.r i) h).2 = .ok v) :
    ((read lib f (.r i) h).1.node i).cacheR.isSome = true := by
  cases f with
  | zero => cases hv
  | succ f =>
    simp only [read] at hv ⊢
    have e : (callOnChanged i h).2 = .ok () := by unfold callOnChanged; split <;> rfl
    rw [mbind_ok e] at hv ⊢
    generalize (callOnChanged i h).1 = h1 at hv ⊢
    cases hc : (h1.node i).cacheR with
    | some w => rw [hc] at hv; dsimp only; rw [hc]; rfl
    | none =>
      rw [hc] at hv
      dsimp only at hv ⊢
      rw [mbind_ok (a := ()) rfl] at hv ⊢
      cases hx : (runProg (read lib f) i (lib.computeR (h1.node i).cls) (emit (.ranR i) h1).1).2 with
      | error e =>
        simp only [M.bind] at hv
        rcases hy : runProg (read lib f) i (lib.computeR (h1.node i).cls) (emit (.ranR i) h1).1 with ⟨h2, r⟩
        rw [hy] at hv hx
        dsimp only at hx
        subst hx
        cases hv
      | ok w =>
        rw [mbind_ok hx]
        simp [storeR, Heap.modify]

/-- A write with a tag the object already carries leaves all cached values. -/
theorem setTerm_carried {h : Heap ClassDef Par Arr Jac} {l : Id} {t : ℕ} (hl : h.Tagged (some t) l) (k : Name) (v : Par) (j : Id) :
    ((setTerm lib l k v (some t) h).1.node j).cacheR = (h.node j).cacheR := by
  have e : clearCache lib l (some t) (h.modify l (fun nd => (nd.addDirty [k]).invalidate lib [k])) =
      h.modify l (fun nd => (nd.addDirty [k]).invalidate lib [k]) := by
    unfold clearCache clearCacheFull
    have hi : ((h.modify l (fun nd => (nd.addDirty [k]).invalidate lib [k])).node l).itr = some t := by
      simp only [Heap.modify, if_true]; exact hl.2
    simp only [clearLoop, hi]
    rw [if_pos (by simp)]
  unfold setTerm
  dsimp only
  rw [e]
  by_cases hj : j = l
  · subst hj; simp [Heap.modify, Node.invalidate, Node.addDirty]
  · simp [Heap.modify, hj]

theorem Nested.anc_obj {g : Graph ClassDef Par} (hdn : ∀ i k c, (g i).dterms k = some c → k ∈ (g i).dnames) {l fv : Id} {sh osh : List ℕ} {n : ℕ}
    {pos : ℕ → ℕ} (h : Nested g l sh n fv osh pos) (hl : IsLeaf g l) {i : Id} (ha : Anc g i fv) : (g i).dterms nmObj = none := by
  induction h with
  | leaf => rw [leaf_anc hl ha]; exact hl.2.1 nmObj
  | @slice n t y tsh pos idxs ksh ht hy hp hq hn hix ih =>
    cases ha with
    | refl =>
      cases hc : (g i).dterms nmObj with
      | none => rfl
      | some c =>
        have := hdn _ _ _ hc
        rw [hy.dnames] at this
        simp [nmObj, nmB, nmA] at this
    | @step _ c k hk ha' =>
      have hm := hdn y k c hk
      rw [hy.dnames] at hm
      simp only [List.mem_singleton] at hm
      subst hm
      have h2 : (g y).dterms nmA = some t := hy.kid ⟨0, by simp⟩
      rw [h2] at hk
      injection hk with hk
      subst hk
      exact ih ha'

theorem callOnChanged_kept (i j : Id) (h : Heap ClassDef Par Arr Jac) : (callOnChanged i h).2 = .ok () ∧
    ((callOnChanged i h).1.node j).cacheR = (h.node j).cacheR ∧ (callOnChanged i h).1.graph j = h.graph j := by
  unfold callOnChanged
  split
  · exact ⟨rfl, rfl, rfl⟩
  · by_cases hj : j = i
    · subst hj; exact ⟨rfl, by simp [Heap.modify], by simp [Heap.modify, Heap.graph]⟩
    · exact ⟨rfl, by simp [Heap.modify, hj], by simp [Heap.modify, Heap.graph, hj]⟩

theorem read_cached {f : ℕ} {i : Id} {h : Heap ClassDef Par Arr Jac} {v : Arr} (hv : (h.node i).cacheR = some v) :
    read lib (f + 1) (.r i) h = ((callOnChanged i h).1, .ok v) := by
  simp only [read]
  obtain ⟨h1, h2, _⟩ := callOnChanged_kept i i h
  rw [mbind_ok h1, h2, hv]

/-- Reading a stacked objective, that has no value yet, when its objective has one. -/
theorem read_stacked {f : ℕ} {y o : Id} {h : Heap ClassDef Par Arr Jac} {v : Arr} (hc : (h.graph y).cls = chStacked) (ho : (h.graph y).dterms nmObj = some o)
    (hy : (h.node y).cacheR = none) (hv : (h.node o).cacheR = some v) (hne : o ≠ y) :
    ∃ h', read lib (f + 2) (.r y) h = (h', .ok (Arr.of [v.size] v.vec)) ∧ (h'.node o).cacheR = some v := by
  have e : read lib (f + 2) (.r y) h = read lib (f + 2) (.r y) h := rfl
  conv at e => rhs; unfold read
  obtain ⟨h1, h2, h3⟩ := callOnChanged_kept y y h
  obtain ⟨_, h4, _⟩ := callOnChanged_kept y o h
  rw [mbind_ok h1] at e
  generalize (callOnChanged y h).1 = hA at e h2 h3 h4
  dsimp only at e
  rw [h2, hy] at e
  dsimp only at e
  rw [mbind_ok (a := ()) rfl] at e
  have h5 : (hA.node y).cls = chStacked := by
    have : (hA.graph y).cls = chStacked := by rw [h3]; exact hc
    exact this
  have h6 : ((emit (.ranR y) hA).1.node y).dterms nmObj = some o := by
    have : (hA.graph y).dterms nmObj = some o := by rw [h3]; exact ho
    exact this
  have h7 : ((emit (.ranR y) hA).1.node o).cacheR = some v := by
    show (hA.node o).cacheR = some v
    rw [h4]; exact hv
  generalize (emit (.ranR y) hA).1 = hB at e h6 h7
  rw [h5] at e
  have h8 : runProg (read lib (f + 1)) y (lib.computeR chStacked) hB = ((callOnChanged o hB).1, .ok (Arr.of [v.size] v.vec)) := by
    show runProg (read lib (f + 1)) y chStacked.r hB = _
    simp only [chStacked, runProg]
    rw [h6]
    dsimp only
    rw [mbind_ok (a := v) (by rw [read_cached h7]), read_cached h7]
    rfl
  rw [mbind_ok (a := Arr.of [v.size] v.vec) (by rw [h8]), h8] at e
  refine ⟨_, e, ?_⟩
  simp only [Heap.modify]
  rw [if_neg hne, (callOnChanged_kept o o hB).2.1]
  exact h7

theorem Nested.anc_root {g : Graph ClassDef Par} {l fv : Id} {sh osh : List ℕ} {n : ℕ} {pos : ℕ → ℕ} (h : Nested g l sh n fv osh pos) : Anc g l fv := by
  induction h with
  | leaf => exact .refl
  | slice ht hy _ _ _ _ ih => exact .step nmA (hy.kid ⟨0, by simp⟩) ih

/-- Two free variables that are disjoint slices of one `Ch`, the objective being the second: it is read before the first write of the turn
that assigns it, the write carries a tag the `Ch` already has, so what was read stays. -/
theorem slices_stale {h1 : Heap ClassDef Par Arr Jac} (hr : OptReach h1) {y x : Id} {v1 v2 : Free} {xr x0 : Arr}
    (hst : Stacked h1 y x v2.fv [v1, v2] xr) (hd : nmX ∈ (h1.node y).dirty) (hl : v1.l = v2.l) (hap : Apart [v1, v2])
    (hcy : (h1.graph y).cls = chStacked) (ho : (h1.graph y).dterms nmObj = some v2.fv) (hx0 : (h1.graph v2.l).terms nmX = some (.arr x0))
    {f : ℕ} (hf : enough [v1, v2] < f) :
    ∃ h2, stackedR f y [v1.fv, v2.fv] h1 = (h2, .ok (Arr.of [v2.size] fun k => x0.vec (v2.pos k))) ∧
      (h2.node v2.fv).cacheR = some (Arr.of v2.osh fun k => x0.vec (v2.pos k)) := by
  have hs := hr.inv
  have hm := mid_start hs hst.fresh
  obtain ⟨ok1, al1, nx1⟩ := hst.free v1 (by simp)
  obtain ⟨ok2, al2, nx2⟩ := hst.free v2 (by simp)
  have hsz : v1.size + v2.size ≤ xr.size := by
    have := hst.size
    simpa [totalSize] using this
  have hf1 : v1.depth < f := by have := enough_lt (show v1 ∈ [v1, v2] by simp); omega
  have hf2 : v2.depth < f := by have := enough_lt (show v2 ∈ [v1, v2] by simp); omega
  have hg0 : ({ h1 with giter := h1.giter + 1 } : Heap ClassDef Par Arr Jac).graph = h1.graph := rfl
  have hyo : ∀ {v : Free}, v.Ok h1.graph → ∀ {i}, Anc h1.graph i v.fv → i ≠ y := by
    rintro v ok i ha rfl
    obtain ⟨_, _, hn⟩ := ok.arr
    have := hn.anc_obj (str_dn hs.str) ok.leaf ha
    rw [ho] at this; cases this
  -- the first turn
  obtain ⟨hD, y0, x1, e1, mD, _, _, aD, hy0, gD, s1, p1, p2, wD, _⟩ := putFree_spec hm (v := v1) ok1 al1 hst.leafX hst.valX (fun l hl => hl.elim) (o := 0)
    (by omega) hf1
  rw [hg0] at hy0 gD
  rw [hl, hx0] at hy0
  obtain rfl : x0 = y0 := by simpa using hy0
  have hgD : ∀ j, j ≠ v1.l → hD.graph j = h1.graph j := fun j hj => by rw [gD, withArr_other hj]
  have hanc : ∀ {i j}, Anc hD.graph i j → Anc h1.graph i j := fun h => anc_congr (fun j => by rw [gD, withArr_dterms]) h
  have hanc' : ∀ {i j}, Anc h1.graph i j → Anc hD.graph i j := fun h => anc_congr (fun j => by rw [gD, withArr_dterms]) h
  rw [hg0] at wD
  have hle : Anc h1.graph v1.l v2.fv := by
    obtain ⟨_, _, hn⟩ := ok2.arr
    rw [hl]
    exact hn.anc_root
  have tl := (wD v1.l .refl).1
  have cy := (wD y (.step nmObj ho hle)).2
  -- the second turn: read the slice
  have hvy : (hD.graph v2.l).terms nmX = some (.arr x1) := by rw [gD, ← hl]; simp [withArr]
  obtain ⟨z0, hz0, hn2⟩ := ok2.arr
  rw [hx0] at hz0
  obtain rfl : x0 = z0 := by simpa using hz0
  have leafD : IsLeaf hD.graph v2.l := by rw [gD]; exact isLeaf_withArr ok2.leaf
  have hn2D : Nested hD.graph v2.l x0.atleast1.shape v2.depth v2.fv v2.osh v2.pos := by
    refine hn2.congr fun i hi => hgD i ?_
    rintro rfl
    exact hi (ok1.leaf.2.1 nmA)
  have hval : ∀ k < v2.size, x1.vec (v2.pos k) = x0.vec (v2.pos k) := by
    intro k hk
    refine p2 _ ?_ fun i hi => ?_
    · have := hn2.view.bound k hk
      rw [atleast1_prod] at this; exact this
    · have := (List.pairwise_cons.1 hap).1 v2 (by simp) hl i hi k hk
      exact this
  have hev : ∀ f, v2.depth < f → evalReq lib hD.graph f (.r v2.fv) = .ok (Arr.of v2.osh fun k => x0.vec (v2.pos k)) := by
    intro f hf
    rw [hn2D.eval leafD hvy (atleast1_shape s1) f hf]
    refine congrArg _ (Arr.of_congr fun k hk => ?_)
    rw [Arr.atleast1_vec]; exact hval k hk
  have rE := inv_read_ok mD.inv (hev f hf2)
  have fE := read_pres (s := lib) (rframe_rel (C := ClassDef) (T := Par) (V := Arr) (D := Jac)) f (.r v2.fv) hD
  have iE := read_inv mD.inv f (.r v2.fv)
  have sE := read_stores rE
  have yE : ((read lib f (.r v2.fv) hD).1.node y).cacheR = none := by
    have ht := read_touch (s := lib) (g := hD.graph) (S := fun j => Anc hD.graph j v2.fv)
      (fun j hj k c hk => Anc.trans (.step k hk .refl) hj) f (.r v2.fv) hD rfl .refl
    rw [(ht.off y fun ha => hyo ok2 (hanc ha) rfl).1]
    exact cy
  generalize hhE : (read lib f (.r v2.fv) hD).1 = hE at fE iE sE yE
  -- read `x`
  obtain ⟨xw, hxw, rfl⟩ := leaf_term hst.leafX hst.valX
  have hxE : (hE.graph x).terms nmX = some (.arr xw) := by rw [fE.graph, hgD x (fun e => nx1 e.symm)]; exact hxw
  have lxE : IsLeaf hE.graph x := by rw [fE.graph, gD]; exact isLeaf_withArr hst.leafX
  have evx : evalReq lib hE.graph f (.r x) = .ok xw.atleast1 := by
    obtain ⟨f, rfl⟩ : ∃ k, f = k + 1 := ⟨f - 1, by omega⟩
    simp [evalReq, lxE.1, chLeaf, evalProg, hxE]
  have rF := inv_read_ok iE evx
  have fF := read_pres (s := lib) (rframe_rel (C := ClassDef) (T := Par) (V := Arr) (D := Jac)) f (.r x) hE
  have iF := read_inv iE f (.r x)
  have yF : ((read lib f (.r x) hE).1.node y).cacheR = none := by
    have ht := read_touch (s := lib) (g := hE.graph) (S := fun j => j = x)
      (fun j (hj : j = x) k c hk => by rw [hj, lxE.2.1] at hk; cases hk) f (.r x) hE rfl rfl
    rw [(ht.off y (by
      rintro rfl
      have := hst.leafX.2.1 nmObj
      rw [ho] at this; cases this)).1]
    exact yE
  have sF := fF.keepR v2.fv sE
  generalize hhF : (read lib f (.r x) hE).1 = hF at fF iF sF yF
  have gF : hF.graph = hD.graph := fF.graph.trans fE.graph
  have cF : (hF.node v2.fv).cacheR = some (Arr.of v2.osh fun k => x0.vec (v2.pos k)) := by
    obtain ⟨w, hw⟩ := Option.isSome_iff_exists.1 sF
    have m1 := iF.coh.r _ _ hw
    have m2 : Means lib hF.graph (.r v2.fv) (.ok (Arr.of v2.osh fun k => x0.vec (v2.pos k))) := ⟨by simp, f, by rw [gF]; exact hev f hf2⟩
    have := Means.unique m1 m2
    rw [hw]
    injection this with this
    rw [this]
  have tF : hF.Tagged (some (h1.giter + 1)) v2.l := by
    rw [← hl]
    refine ⟨rfl, ?_⟩
    rw [fF.itr, fE.itr]; exact tl.2
  -- the write
  obtain ⟨o1, ht, _⟩ := hn2D.target leafD f hf2
  have cG := fun X j => setTerm_carried tF nmX (.arr X) j
  have gG := fun X => setTerm_writing (s := lib) hF iF.str v2.l nmX (.arr X) (some (h1.giter + 1))
  have e2 : ∃ X, putFree f (h1.giter + 1) x v2.fv (0 + v1.size) hD = ((setTerm lib v2.l nmX (.arr X) (some (h1.giter + 1)) hF).1, .ok (0 + v1.size + v2.size)) := by
    refine ⟨newTarget x1 (fun k => xw.atleast1.vec (0 + v1.size + k)) o1, ?_⟩
    unfold putFree
    rw [mbind_ok rE]
    rw [hhE, fE.graph, ht]
    dsimp only
    rw [hvy]
    dsimp only
    rw [mbind_ok rF, hhF]
    have hsz' : (Arr.of v2.osh fun k => x0.vec (v2.pos k)).size = v2.size := rfl
    rw [hsz', if_pos (by omega)]
    rfl
  obtain ⟨X, e2⟩ := e2
  generalize hhG : (setTerm lib v2.l nmX (.arr X) (some (h1.giter + 1)) hF).1 = hG at e2
  have cG1 : (hG.node v2.fv).cacheR = some (Arr.of v2.osh fun k => x0.vec (v2.pos k)) := by rw [← hhG, cG, cF]
  have cG2 : (hG.node y).cacheR = none := by rw [← hhG, cG, yF]
  have gGy : hG.graph y = h1.graph y := by
    obtain ⟨_, _, _, hg⟩ := gG X
    have hne : y ≠ v2.l := by
      rintro rfl
      have := ok2.leaf.2.1 nmObj
      rw [ho] at this; cases this
    rw [← hhG, hg]
    dsimp only
    rw [if_neg hne, gF]
    exact hgD y (by rw [hl]; exact hne)
  have eO : onChangedX f y [v1.fv, v2.fv] (h1.node y).dirty h1 = (hG, .ok ()) := by
    unfold onChangedX
    dsimp only
    rw [if_pos hd, hg0, hst.linkX]
    dsimp only [putAll]
    rw [mbind_ok (by rw [e1]), e1]
    dsimp only
    rw [mbind_ok (by rw [e2]), e2]
    rfl
  obtain ⟨f, rfl⟩ : ∃ k, f = k + 2 := ⟨f - 2, by unfold enough at hf; omega⟩
  have eR : stackedR (f + 2) y [v1.fv, v2.fv] h1 = read lib (f + 2) (.r y) hG := by
    unfold stackedR
    rw [if_neg (by
      intro hh
      rw [List.isEmpty_iff] at hh
      rw [hh] at hd; cases hd), mbind_ok (by rw [eO]), eO]
  rw [eR]
  obtain ⟨h2, k1, k2⟩ := read_stacked (f := f) (by rw [gGy]; exact hcy) (by rw [gGy]; exact ho) cG2 cG1 (hyo ok2 .refl)
  refine ⟨h2, ?_, k2⟩
  rw [k1]
  refine congrArg (fun z => (h2, Except.ok z)) ?_
  refine Arr.of_congr fun k hk => Arr.vec_of _ _ ?_
  rw [List.prod_singleton] at hk
  exact hk

/-! ## Concrete cases -/

namespace ADDemo
/-- Objects made one after the other. -/
theorem built_untagged (os : List (ObjSpec ClassDef Par)) (hf : FitsFrom 0 os) : ∃ h, Reach lib ⟨False, True⟩ h ∧ h.next = os.length ∧ h.giter = 0 ∧
    (∀ j (hj : j < os.length), (h.node j).alive = true ∧ h.graph j = os[j].node) ∧
    ((∀ o ∈ os, o.kws.length ≤ 1) → ∀ j, (h.node j).itr = none) := by
  have hget := fun (j : ℕ) (o : ObjSpec ClassDef Par) (hj : os[j]? = some o) => hf.get hj
  clear hf
  induction os using List.reverseRecOn with
  | nil => exact ⟨_, .init, rfl, rfl, fun j hj => absurd hj (by simp), fun _ _ => rfl⟩
  | append_singleton os o ih =>
    obtain ⟨h, hr, hn, hg, hj, hu⟩ := ih fun j o' ho' => hget j o' (by
      have hlt := (List.getElem?_eq_some_iff.1 ho').1
      rw [List.getElem?_append_left hlt]; exact ho')
    have hs := reach_str hr
    obtain ⟨k1, k2⟩ := hget os.length o (by simp)
    have hk : ∀ kw ∈ o.kws, kw.Plain h o.dnames := by
      intro kw hm
      have := k1 kw hm
      cases kw with
      | term => trivial
      | link k c =>
        obtain ⟨a1, a2⟩ := this
        exact ⟨a1, (hj c (by rw [Nat.zero_add] at a2; exact a2)).1⟩
      | wrap => exact this
      | bad => exact this
    obtain ⟨e, b⟩ := newObj_eq (s := lib) hs o hk
    obtain ⟨h1, h2, h3, h4⟩ := newObj_built (s := lib) hs o hk
    have es : (step lib (.new o.cls o.dnames false false o.kws) h).1 = (newObj lib o.cls o.dnames false false o.kws h).1 := by
      dsimp only [step, M.map']
    refine ⟨(step lib (.new o.cls o.dnames false false o.kws) h).1, Reach.step _ hr ⟨fun hh => False.elim hh, fun _ => ⟨rfl, rfl⟩⟩, ?_, ?_, ?_, ?_⟩
    · rw [h2, hn]; simp
    · rw [es, e]
      show _ = 0
      rw [b.giter]
      exact hg
    · intro j hj'
      rw [List.length_append, List.length_singleton] at hj'
      rcases Nat.lt_or_ge j os.length with hlt | hge
      · have hne : j ≠ h.next := by rw [hn]; exact Nat.ne_of_lt hlt
        rw [h3, h4, if_neg hne, if_neg hne, List.getElem_append_left hlt]
        exact hj j hlt
      · obtain rfl : j = os.length := by omega
        rw [h3, h4, if_pos hn.symm, if_pos hn.symm]
        simp
    · intro hone j
      have hu' := hu fun o' ho' => hone o' (by simp [ho'])
      have hal : ∀ j, ((alloc o.cls o.dnames false false h).1.node j).itr = none := by
        intro j
        rw [alloc_node]
        split
        · rfl
        · exact hu' j
      have ha : ∀ j, (h.node j).alive = true → ((alloc o.cls o.dnames false false h).1.node j).alive = true := by
        intro j hj
        rw [alloc_node]
        split
        · rfl
        · exact hj
      have hs1 := alloc_str hs o.cls o.dnames false false
      have hlen := hone o (by simp)
      rw [es, e]
      show ((setAll lib h.next o.kws (alloc o.cls o.dnames false false h).1).1.node j).itr = none
      revert hlen hk
      cases o.kws with
      | nil => exact fun _ _ => hal j
      | cons kw kws =>
        intro hk hlen
        obtain rfl : kws = [] := List.length_eq_zero_iff.1 (by simpa using hlen)
        have hk := hk kw (by simp)
        simp only [setAll]
        cases kw with
        | term n t =>
          obtain ⟨_, w, _⟩ := setTerm_writing (s := lib) _ hs1 h.next n t none
          exact (w.itr_old j).elim id fun e => e.trans (hal j)
        | link k c =>
          obtain ⟨_, _, w, _⟩ := setDterm_writing (s := lib) _ hs1 h.next k c none (ha c hk.2)
          simp only [setattr]
          rw [if_pos ⟨by rw [alloc_node, if_pos rfl]; exact hk.1, ha c hk.2⟩]
          exact (w.itr_old j).elim id fun e => e.trans (hal j)
        | wrap => exact hk.elim
        | bad => exact hk.elim

theorem built_state (os : List (ObjSpec ClassDef Par)) (hf : FitsFrom 0 os) : ∃ h, Reach lib ⟨False, True⟩ h ∧ h.next = os.length ∧ h.giter = 0 ∧
    ∀ j (hj : j < os.length), (h.node j).alive = true ∧ h.graph j = os[j].node := by
  obtain ⟨h, hr, hn, hg, hj, _⟩ := built_untagged os hf
  exact ⟨h, hr, hn, hg, hj⟩

/-- `ChInputsStacked(x=x, obj=o)`. -/
noncomputable def stackedO (x o : Id) : ObjSpec ClassDef Par := ⟨chStacked, [nmX, nmObj], [.link nmX x, .link nmObj o]⟩

theorem stackedO_fits {x o i : ℕ} (h : x < i) (h' : o < i) : (stackedO x o).FitsAt i := by
  refine ⟨?_, fun hp => by cases hp⟩
  intro kw hm
  simp only [stackedO, List.mem_cons, List.not_mem_nil, or_false] at hm
  rcases hm with rfl | rfl
  · exact ⟨by simp [stackedO], h⟩
  · exact ⟨by simp [stackedO], h'⟩

/-- `c = Ch([1, 2])`, `c[:1]`, `c[1:]`, `x = Ch([1, 2])`, the stacked objective with `obj = c[1:]`, and `d = Ch([3])`. -/
noncomputable def slicesOs : List (ObjSpec ClassDef Par) :=
  [leafO ⟨[2], ![1, 2]⟩, unPO chSelect (.nats [0]) (.nats [1]) 0, unPO chSelect (.nats [1]) (.nats [1]) 0, leafO ⟨[2], ![1, 2]⟩, stackedO 3 2, leafO ⟨[1], ![3]⟩]

theorem slicesOs_fits : FitsFrom 0 slicesOs :=
  ⟨leafO_fits _ _, unPO_fits (by decide), unPO_fits (by decide), leafO_fits _ _, stackedO_fits (by decide) (by decide), leafO_fits _ _, trivial⟩

/-- `c[:1]`, `c[1:]` and `d` as free variables. -/
def freeA : Free := ⟨1, 0, 1, [1], fun k => ([0] : List ℕ).getD k 0⟩
def freeB : Free := ⟨2, 0, 1, [1], fun k => ([1] : List ℕ).getD k 0⟩
def freeC : Free := ⟨5, 5, 0, [1], fun k => k⟩

theorem slices_state : ∃ h, OptReach h ∧ (∀ vs, (∀ v ∈ vs, v = freeA ∨ v = freeB ∨ v = freeC) → Setup h 4 2 vs) ∧ h.next = 6 ∧
    (h.graph 0).terms nmX = some (.arr ⟨[2], ![1, 2]⟩) ∧ h.graph 4 = (stackedO 3 2).node ∧ Reach lib ⟨False, True⟩ h ∧
    h.graph 2 = (unPO chSelect (.nats [1]) (.nats [1]) 0).node := by
  obtain ⟨h, hr, hn, hg, hj⟩ := built_state slicesOs slicesOs_fits
  have g0 := hj 0 (by simp [slicesOs])
  have g1 := hj 1 (by simp [slicesOs])
  have g2 := hj 2 (by simp [slicesOs])
  have g4 := hj 4 (by simp [slicesOs])
  have g5 := hj 5 (by simp [slicesOs])
  have l0 : IsLeaf h.graph 0 := isLeaf_leafO g0.2
  have l5 : IsLeaf h.graph 5 := isLeaf_leafO g5.2
  have t0 : (h.graph 0).terms nmX = some (.arr ⟨[2], ![1, 2]⟩) := by rw [g0.2]; rfl
  have t5 : (h.graph 5).terms nmX = some (.arr ⟨[1], ![3]⟩) := by rw [g5.2]; rfl
  have a1 : IsA h.graph 1 chSelect [nmA] fun _ => 0 := isA_unP g1.2
  have a2 : IsA h.graph 2 chSelect [nmA] fun _ => 0 := isA_unP g2.2
  refine ⟨h, optReach_of_reach hr, fun vs hvs => ⟨g4.1, by rw [g4.2]; rfl, by rw [g4.2]; rfl, by rw [g4.2]; rfl, fun v hv => ?_, Or.inl (by rw [hg]; decide)⟩,
    hn, t0, g4.2, hr, g2.2⟩
  rcases hvs v hv with rfl | rfl | rfl
  · refine ⟨⟨l0, ⟨_, t0, ?_⟩, ?_⟩, g0.1⟩
    · exact .slice (ksh := [1]) .leaf a1 (by show (h.graph 1).terms nmP = _; rw [g1.2]; rfl) (by show (h.graph 1).terms nmQ = _; rw [g1.2]; rfl) (by decide) (by decide)
    · intro i hi j hj _
      simp [freeA, Free.size] at hi hj
      omega
  · refine ⟨⟨l0, ⟨_, t0, ?_⟩, ?_⟩, g0.1⟩
    · exact .slice (ksh := [1]) .leaf a2 (by show (h.graph 2).terms nmP = _; rw [g2.2]; rfl) (by show (h.graph 2).terms nmQ = _; rw [g2.2]; rfl) (by decide) (by decide)
    · intro i hi j hj _
      simp [freeB, Free.size] at hi hj
      omega
  · exact ⟨⟨l5, ⟨_, t5, .leaf⟩, fun i _ j _ e => e⟩, g5.1⟩

/-- The hypotheses of C51 and C53 are met by the free variables `c[:1]` and `d`. -/
example : ∃ h, OptReach h ∧ Setup h 4 2 [freeA, freeC] ∧ ([freeA, freeC].map Free.l).Nodup ∧ totalSize [freeA, freeC] = 2 := by
  obtain ⟨h, hr, hs, _⟩ := slices_state
  exact ⟨h, hr, hs _ (by simp), by decide, by decide⟩

theorem slices_apart : Apart [freeA, freeB] := by
  refine List.pairwise_cons.2 ⟨fun w hw _ i hi j hj => ?_, List.pairwise_singleton _ _⟩
  obtain rfl : w = freeB := by simpa using hw
  simp [freeA, freeB, Free.size] at hi hj
  subst hi hj
  decide

/-- What is found after `obj.x = [10, 20]` and a read of `obj.r`. -/
theorem slices_after : ∃ h, OptReach h ∧ Setup h 4 2 [freeA, freeB] ∧ ∃ h1, setObj lib 4 [.wrap nmX (.arr ⟨[2], ![10, 20]⟩)] h = (h1, .ok ()) ∧
    (∀ f ≥ 10, ∃ h2, stackedR f 4 [1, 2] h1 = (h2, .ok (Arr.of [1] fun _ => 2)) ∧ (h2.node 2).cacheR = some (Arr.of [1] fun _ => 2)) ∧
    ∃ g, Spread h1.graph g ⟨[2], ![10, 20]⟩ [freeA, freeB] ∧ Means lib g (.r 2) (.ok (Arr.of [1] fun _ => 20)) := by
  obtain ⟨h, hr, hs, hn, t0, _⟩ := slices_state
  have hs' := hs [freeA, freeB] (by simp)
  obtain ⟨h1, e, r1, st, d1, c1, l1, g1⟩ := assign_x hr hs' (xv := ⟨[2], ![10, 20]⟩) (by decide)
  have t1 : (h1.graph 0).terms nmX = some (.arr ⟨[2], ![1, 2]⟩) := by rw [g1 0 (by rw [hn]; decide) (by decide)]; exact t0
  have v0 : (⟨[2], ![1, 2]⟩ : Arr).vec 1 = 2 := by simp [Arr.vec]
  have v1 : (⟨[2], ![10, 20]⟩ : Arr).vec 1 = 20 := by simp [Arr.vec]
  refine ⟨h, hr, hs', h1, e, fun f hf => ?_, withArr h1.graph 0 ⟨[2], ![10, 20]⟩, ⟨fun v hv => ?_, fun j hj => ?_⟩, ?_⟩
  · obtain ⟨h2, k1, k2⟩ := slices_stale (v1 := freeA) (v2 := freeB) r1 st d1 rfl slices_apart c1 l1 t1 (f := f) (by have : enough [freeA, freeB] = 3 := rfl; omega)
    have e1 : (Arr.of [freeB.size] fun k => (⟨[2], ![1, 2]⟩ : Arr).vec (freeB.pos k)) = Arr.of [1] fun _ => 2 := by
      refine Arr.of_congr fun k hk => ?_
      obtain rfl : k = 0 := by simp [freeB, Free.size] at hk; exact hk
      exact v0
    refine ⟨h2, k1.trans (by rw [e1]), k2.trans (congrArg some ?_)⟩
    exact e1
  · have hl : v.l = 0 := by rcases (by simpa using hv : v = freeA ∨ v = freeB) with rfl | rfl <;> rfl
    refine ⟨⟨[2], ![1, 2]⟩, ⟨[2], ![10, 20]⟩, by rw [hl]; exact t1, by rw [hl], rfl, ?_, ?_⟩
    · intro w hw _ k hk
      rcases (by simpa [offsets] using hw : w = (freeA, 0) ∨ w = (freeB, freeA.size)) with rfl | rfl
      · obtain rfl : k = 0 := by simp [freeA, Free.size] at hk; exact hk
        rfl
      · obtain rfl : k = 0 := by simp [freeB, Free.size] at hk; exact hk
        rfl
    · intro p hp hu
      have hp' : p < 2 := hp
      have h3 := hu freeA (by simp) (by rw [hl]; rfl) 0 (by decide)
      have h4 := hu freeB (by simp) (by rw [hl]; rfl) 0 (by decide)
      have h3' : (0 : ℕ) ≠ p := h3
      have h4' : (1 : ℕ) ≠ p := h4
      omega
  · exact withArr_other (hj freeA (by simp))
  · obtain ⟨ok, _⟩ := st.free freeB (by simp)
    obtain ⟨x0, hx0, hn2⟩ := ok.arr
    have : x0 = ⟨[2], ![1, 2]⟩ := by
      have h5 : (h1.graph 0).terms nmX = some (.arr x0) := hx0
      rw [t1] at h5
      simpa using h5.symm
    subst this
    refine ⟨by simp, 2, ?_⟩
    have hev := (hn2.congr (g' := withArr h1.graph 0 ⟨[2], ![10, 20]⟩) (fun i hi => withArr_other (by
      rintro rfl
      exact hi (ok.leaf.2.1 nmA)))).eval (isLeaf_withArr ok.leaf) (x0 := ⟨[2], ![10, 20]⟩) (by
        show (withArr h1.graph 0 _ 0).terms nmX = _
        simp [withArr]) rfl 2 (by decide)
    refine Eq.trans hev (congrArg _ (Arr.of_congr fun k hk => ?_))
    obtain rfl : k = 0 := by simp [freeB] at hk; exact hk
    rw [Arr.atleast1_vec]
    exact v1
end ADDemo

/-- C53 is false when two free variables are slices of one `Ch`: with `c = Ch([1, 2])`, free variables `c[:1]` and `c[1:]` and the objective
`c[1:]`, after `obj.x = [10, 20]` the objective is `[2]`. -/
theorem C53_refuted : ¬ C53_full := by
  intro hf
  obtain ⟨h, hr, hs, h1, e, hst, g, hg, hm⟩ := ADDemo.slices_after
  obtain ⟨h1', e', hh⟩ := hf h hr 4 2 _ ⟨[2], ![10, 20]⟩ hs ADDemo.slices_apart rfl
  rw [e] at e'
  obtain rfl : h1 = h1' := (Prod.mk.inj e').1
  obtain ⟨f₀, hf₀⟩ := hh g hg _ hm
  have h3 := hf₀ (max f₀ 10) (le_max_left _ _)
  obtain ⟨h2, h4, _⟩ := hst (max f₀ 10) (le_max_right _ _)
  have h5 : (stackedR (max f₀ 10) 4 [1, 2] h1).2 = _ := h3
  rw [h4] at h5
  have h6 := congrArg (fun r : Except Err Arr => match r with | .ok a => a.vec 0 | .error _ => 0) h5
  dsimp only at h6
  rw [Arr.vec_of _ _ (by decide), Arr.vec_of _ _ (by decide), Arr.vec_of _ _ (by decide)] at h6
  norm_num at h6

/-- C51 is false when two free variables are slices of one `Ch`: in the same case packing gives `[10, 2]`. -/
theorem C51_refuted : ¬ C51_full := by
  intro hf
  obtain ⟨h, hr, hs, h1, e, hst, _⟩ := ADDemo.slices_after
  obtain ⟨h1', e', f₀, hh⟩ := hf h hr 4 2 _ ⟨[2], ![10, 20]⟩ hs ADDemo.slices_apart rfl
  rw [e] at e'
  obtain rfl : h1 = h1' := (Prod.mk.inj e').1
  have h3 := hh (max f₀ 10) (le_max_left _ _)
  obtain ⟨h2, h4, h5⟩ := hst (max f₀ 10) (le_max_right _ _)
  obtain ⟨out, k1, _, k2⟩ := h3.segment (ADDemo.freeB, 1) (by simp [offsets, ADDemo.freeA, Free.size])
  have e2 : (stackedR (max f₀ 10) 4 ([ADDemo.freeA, ADDemo.freeB].map Free.fv) h1).1 = h2 := by
    show (stackedR (max f₀ 10) 4 [1, 2] h1).1 = h2
    rw [h4]
  rw [e2] at k1
  obtain ⟨f, hfe⟩ : ∃ f, max f₀ 10 = f + 1 := ⟨max f₀ 10 - 1, by omega⟩
  rw [hfe] at k1
  have k3 : (read lib (f + 1) (.r 2) h2).2 = .ok out := k1
  rw [read_cached h5] at k3
  obtain rfl : (Arr.of [1] fun _ => 2) = out := by simpa using k3
  have k4 := k2 0 (by decide)
  rw [Arr.vec_of _ _ (by decide)] at k4
  have v1 : (⟨[2], ![10, 20]⟩ : Arr).vec 1 = 20 := by simp [Arr.vec]
  have k5 : (2 : ℝ) = (⟨[2], ![10, 20]⟩ : Arr).vec 1 := k4
  rw [v1] at k5
  norm_num at k5

end Chumpy
