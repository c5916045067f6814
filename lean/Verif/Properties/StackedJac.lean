import Verif.Properties.Packing
/-!
# C52: the columns of the stacked Jacobian
-/
namespace Chumpy
open scoped BigOperators Topology

/-- The vector with `t` added to its entry `j`. -/
noncomputable def bump (x : Arr) (j : ℕ) (t : ℝ) : Arr := Arr.of x.shape fun q => x.vec q + if q = j then t else 0

/-- `x` is the packed vector of the free variables `vs`: their entries one after the other. -/
structure Packed (g : Graph ClassDef Par) (vs : List Free) (x : Arr) : Prop where
  shape : x.shape = [totalSize vs]
  entries : ∀ w ∈ offsets vs 0, ∀ a, (g w.1.l).terms nmX = some (.arr a) → ∀ k < w.1.size, x.vec (w.2 + k) = a.vec (w.1.pos k)

/-- "`col` is the derivative of the objective `o` with respect to entry `j` of the packed vector": distributing the packed vector, with `t`
added to its entry `j`, over the free variables, makes the value of `o` an array `F t`, whose entries have the derivatives `col` at `t = 0`. -/
def PackedDeriv (g : Graph ClassDef Par) (o : Id) (vo : Arr) (vs : List Free) (x : Arr) (j : ℕ) (col : ℕ → ℝ) : Prop :=
  ∃ F : ℝ → Arr, (∀ᶠ t in 𝓝 0, ∃ g', Spread g g' (bump x j t) vs ∧ Means lib g' (.r o) (.ok (F t)) ∧ (F t).shape = vo.shape) ∧
    ∀ i < vo.size, HasDerivAt (fun t => (F t).vec i) (col i) 0

/-! ## Positions in the packed vector -/

theorem offsets_find : ∀ (vs : List Free) (o : ℕ) {j : ℕ}, o ≤ j → j < o + totalSize vs → ∃ w ∈ offsets vs o, ∃ k < w.1.size, j = w.2 + k
  | [], o, j, h1, h2 => by simp [totalSize] at h2; omega
  | v :: vs, o, j, h1, h2 => by
    by_cases hj : j < o + v.size
    · exact ⟨(v, o), by simp [offsets], j - o, by dsimp only; omega, by dsimp only; omega⟩
    · obtain ⟨w, hw, k, hk, e⟩ := offsets_find vs (o + v.size) (j := j) (by omega) (by
        simp only [totalSize, List.map_cons, List.sum_cons] at h2 ⊢; omega)
      exact ⟨w, by simp [offsets, hw], k, hk, e⟩

theorem offsets_le : ∀ (vs : List Free) (o : ℕ), ∀ w ∈ offsets vs o, o ≤ w.2
  | [], _, w, hw => by cases hw
  | v :: vs, o, w, hw => by
    simp only [offsets, List.mem_cons] at hw
    rcases hw with rfl | hw
    · exact Nat.le_refl _
    · have := offsets_le vs _ w hw; omega

theorem offsets_unique : ∀ (vs : List Free) (o : ℕ), ∀ w ∈ offsets vs o, ∀ w' ∈ offsets vs o, ∀ k < w.1.size, ∀ k' < w'.1.size,
    w.2 + k = w'.2 + k' → w = w' ∧ k = k'
  | [], _, w, hw => by cases hw
  | v :: vs, o, w, hw => by
    intro w' hw' k hk k' hk' e
    simp only [offsets, List.mem_cons] at hw hw'
    rcases hw with rfl | hw
    · rcases hw' with rfl | hw'
      · exact ⟨rfl, by omega⟩
      · have := offsets_le vs _ w' hw'
        dsimp only at e hk
        omega
    · rcases hw' with rfl | hw'
      · have := offsets_le vs _ w hw
        dsimp only at e hk'
        omega
      · exact offsets_unique vs _ w hw w' hw' k hk k' hk' e

theorem offsets_apart : ∀ (vs : List Free) (o : ℕ), Apart vs → ∀ w ∈ offsets vs o, ∀ w' ∈ offsets vs o, w ≠ w' → w.1.l = w'.1.l →
    ∀ k < w.1.size, ∀ k' < w'.1.size, w.1.pos k ≠ w'.1.pos k'
  | [], _, _, w, hw => by cases hw
  | v :: vs, o, ha, w, hw => by
    intro w' hw' hne hl k hk k' hk'
    obtain ⟨h1, h2⟩ := List.pairwise_cons.1 ha
    simp only [offsets, List.mem_cons] at hw hw'
    rcases hw with rfl | hw
    · rcases hw' with rfl | hw'
      · exact absurd rfl hne
      · exact h1 _ (mem_offsets hw') hl k hk k' hk'
    · rcases hw' with rfl | hw'
      · exact fun e => h1 _ (mem_offsets hw) hl.symm k' hk' k hk e.symm
      · exact offsets_apart vs _ h2 w hw w' hw' hne hl k hk k' hk'

theorem offsets_end : ∀ (vs : List Free) (o : ℕ), ∀ w ∈ offsets vs o, w.2 + w.1.size ≤ o + totalSize vs
  | [], _, w, hw => by cases hw
  | v :: vs, o, w, hw => by
    simp only [offsets, List.mem_cons] at hw
    simp only [totalSize, List.map_cons, List.sum_cons]
    rcases hw with rfl | hw
    · dsimp only; omega
    · have := offsets_end vs _ w hw
      simp only [totalSize] at this
      omega

/-- As `Free.Ok`, for free variables that are any view of a `Ch` (slice, reshape, transpose, …). -/
structure Free.Is (g : Graph ClassDef Par) (v : Free) : Prop where
  leaf : IsLeaf g v.l
  arr : ∃ x0, (g v.l).terms nmX = some (.arr x0) ∧ View g v.l x0.atleast1.shape v.fv v.osh v.pos
  inj : ∀ i < v.size, ∀ j < v.size, v.pos i = v.pos j → i = j

theorem Free.Ok.is {g : Graph ClassDef Par} {v : Free} (ok : v.Ok g) : v.Is g :=
  ⟨ok.leaf, ok.arr.imp fun _ h => ⟨h.1, h.2.view⟩, ok.inj⟩

theorem Free.Is.pos_lt {g : Graph ClassDef Par} {v : Free} (ok : v.Is g) {x0 : Arr} (hx : (g v.l).terms nmX = some (.arr x0)) {k : ℕ} (hk : k < v.size) :
    v.pos k < x0.size := by
  obtain ⟨x1, h1, hn⟩ := ok.arr
  rw [hx] at h1
  obtain rfl : x0 = x1 := by simpa using h1
  rw [← atleast1_prod]
  exact hn.bound k hk

theorem withArr_same {g : Graph ClassDef Par} {l : Id} {x : Arr} (h : (g l).terms nmX = some (.arr x)) : withArr g l x = g := by
  funext j
  unfold withArr
  by_cases hj : j = l
  · rw [if_pos hj, hj]
    have : (fun k => if k = nmX then some (Par.arr x) else (g l).terms k) = (g l).terms := by
      funext k
      by_cases hk : k = nmX
      · rw [if_pos hk, hk]; exact h.symm
      · rw [if_neg hk]
    rw [this]
  · rw [if_neg hj]

/-- Moving one entry of the packed vector moves one entry of one array. -/
theorem spread_bump {g : Graph ClassDef Par} {vs : List Free} {x : Arr} (hok : ∀ v ∈ vs, v.Is g) (hap : Apart vs) (hx : Packed g vs x)
    {w : Free × ℕ} (hw : w ∈ offsets vs 0) {k : ℕ} (hk : k < w.1.size) {x0 : Arr} (hx0 : (g w.1.l).terms nmX = some (.arr x0)) (t : ℝ) :
    Spread g (withArr g w.1.l (bump x0 (w.1.pos k) t)) (bump x (w.2 + k) t) vs := by
  have hval : ∀ w' ∈ offsets vs 0, ∀ k' < w'.1.size, (bump x (w.2 + k) t).vec (w'.2 + k') =
      x.vec (w'.2 + k') + if w'.2 + k' = w.2 + k then t else 0 := by
    intro w' hw' k' hk'
    refine Arr.vec_of _ _ ?_
    rw [hx.shape]
    have := offsets_end vs 0 w' hw'
    simp only [List.prod_cons, List.prod_nil, mul_one]
    omega
  have h0 : ∀ q < x0.size, (bump x0 (w.1.pos k) t).vec q = x0.vec q + if q = w.1.pos k then t else 0 := fun q hq => Arr.vec_of _ _ hq
  refine ⟨fun v hv => ?_, fun j hj => withArr_other (hj _ (mem_offsets hw))⟩
  by_cases hl : v.l = w.1.l
  · refine ⟨x0, bump x0 (w.1.pos k) t, by rw [hl]; exact hx0, by rw [hl], rfl, fun w' hw' hl' k' hk' => ?_, fun p hp hu => ?_⟩
    · have hx0' : (g w'.1.l).terms nmX = some (.arr x0) := by rw [hl', hl]; exact hx0
      rw [hval w' hw' k' hk', h0 _ ((hok _ (mem_offsets hw')).pos_lt hx0' hk'), hx.entries w' hw' _ hx0' k' hk']
      congr 1
      by_cases e : w'.2 + k' = w.2 + k
      · obtain ⟨rfl, rfl⟩ := offsets_unique vs 0 w' hw' w hw k' hk' k hk e
        rw [if_pos rfl, if_pos rfl]
      · rw [if_neg e, if_neg]
        intro hp
        by_cases hww : w' = w
        · subst hww
          exact e (by rw [(hok _ (mem_offsets hw)).inj _ hk' _ hk hp])
        · exact offsets_apart vs 0 hap w' hw' w hw hww (hl'.trans hl) k' hk' k hk hp
    · rw [h0 p hp, if_neg, add_zero]
      exact fun e => hu _ (mem_offsets hw) hl.symm k hk e.symm
  · obtain ⟨a, ha, _⟩ := (hok v hv).arr
    refine ⟨a, a, ha, ?_, rfl, fun w' hw' hl' k' hk' => ?_, fun p _ _ => rfl⟩
    · rw [withArr_other hl, withArr_same ha]
    · have ha' : (g w'.1.l).terms nmX = some (.arr a) := by rw [hl']; exact ha
      rw [hval w' hw' k' hk', hx.entries w' hw' _ ha' k' hk', if_neg, add_zero]
      intro e
      obtain ⟨rfl, rfl⟩ := offsets_unique vs 0 w' hw' w hw k' hk' k hk e
      exact hl hl'.symm

/-- One column. -/
theorem packedDeriv_of {g : Graph ClassDef Par} {vs : List Free} {x : Arr} (hok : ∀ v ∈ vs, v.Is g) (hap : Apart vs) (hx : Packed g vs x)
    {w : Free × ℕ} (hw : w ∈ offsets vs 0) {k : ℕ} (hk : k < w.1.size) {o : Id} {vo vl : Arr} {E : Ent}
    (hJ : HasJacobian g o w.1.l vo vl E) : PackedDeriv g o vo vs x (w.2 + k) fun i => E i (w.1.pos k) := by
  have ok := hok _ (mem_offsets hw)
  obtain ⟨x0, hx0, rfl⟩ := leaf_term ok.leaf hJ.valW
  obtain ⟨F, hF, hd⟩ := hJ.deriv
  have hp := ok.pos_lt hx0 hk
  have hp' : w.1.pos k < x0.atleast1.size := by rw [show x0.atleast1.size = x0.size from atleast1_prod x0]; exact hp
  let e : Fin x0.atleast1.size → ℝ := Pi.single ⟨w.1.pos k, hp'⟩ 1
  let c : ℝ → Fin x0.atleast1.size → ℝ := fun t => x0.atleast1.data + t • e
  have hc : HasDerivAt c e 0 := by
    have := ((hasDerivAt_id (0 : ℝ)).smul_const e).const_add x0.atleast1.data
    rw [one_smul] at this
    exact this
  have hc0 : c 0 = x0.atleast1.data := by simp [c]
  have hca : ∀ t, (bump x0 (w.1.pos k) t).atleast1 = x0.atleast1.put (c t) := by
    intro t
    refine Arr.ext_vec rfl fun q hq0 => ?_
    have hq : q < x0.atleast1.size := hq0
    clear hq0
    have hq' : q < x0.size := by rw [← atleast1_prod]; exact hq
    rw [show (x0.atleast1.put (c t)).vec q = c t ⟨q, hq⟩ from Arr.vec_put _ _ ⟨q, hq⟩]
    rw [show (bump x0 (w.1.pos k) t).atleast1.vec q = (bump x0 (w.1.pos k) t).vec q from Arr.vec_of _ _ hq,
      show (bump x0 (w.1.pos k) t).vec q = x0.vec q + if q = w.1.pos k then t else 0 from Arr.vec_of _ _ hq']
    have : x0.atleast1.data ⟨q, hq⟩ = x0.vec q := by
      have h1 : x0.atleast1.vec q = x0.vec q := Arr.vec_of _ _ hq
      have h2 : x0.atleast1.vec q = x0.atleast1.data ⟨q, hq⟩ := by unfold Arr.vec; exact dif_pos hq
      rw [← h1, h2]
    simp only [c, e, Pi.add_apply, Pi.smul_apply, Pi.single_apply, this, Fin.mk.injEq, smul_eq_mul, mul_ite, mul_one, mul_zero]
  refine ⟨fun t => vo.put (F (c t)), ?_, fun i hi => ?_⟩
  · have : Filter.Tendsto c (𝓝 0) (𝓝 x0.atleast1.data) := by rw [← hc0]; exact hc.continuousAt.tendsto
    filter_upwards [this.eventually hF] with t ht
    refine ⟨_, spread_bump hok hap hx hw hk hx0 t, ?_, rfl⟩
    refine means_other (w := w.1.l) (vw := x0.atleast1.put (c t)) (fun i hi => ?_) (means_setTo _ _ _) ?_ ht
    · rw [withArr_other hi]; simp [setTo, hi]
    · rw [← hca]
      exact means_leaf (isLeaf_withArr ok.leaf).1 (by unfold withArr; rw [if_pos rfl]; rfl)
  · have h1 : HasDerivAt (F ∘ c) (Ent.lin vo.size x0.atleast1.size E e) 0 := by
      refine HasFDerivAt.comp_hasDerivAt 0 ?_ hc
      rw [hc0]; exact hd
    have h2 := (hasDerivAt_pi.1 h1) ⟨i, hi⟩
    have h3 : Ent.lin vo.size x0.atleast1.size E e ⟨i, hi⟩ = E i (w.1.pos k) := by
      rw [Ent.lin_apply]
      simp [e, Pi.single_apply]
    rw [h3] at h2
    refine h2.congr_of_eventuallyEq (Filter.Eventually.of_forall fun t => ?_)
    exact Arr.vec_put vo (F (c t)) ⟨i, hi⟩

/-! ## The property -/

/-- `dr_wrt` of the objective `o` with respect to the `Ch` under `v` is right (this is C18): the value of `o` has the Jacobian `E` with respect
to it, and `dr_wrt` returns `E`, or `None` if `E` is zero. -/
def RightWrt (h : Heap ClassDef Par Arr Jac) (o : Id) (vo : Arr) (v : Free) (vl : Arr) (E : Ent) : Prop :=
  HasJacobian h.graph o v.l vo vl E ∧ Reports h o v.l vo.size vl.size E

/-- C52.  After any history, if the derivatives of the objective with respect to the `Ch`s under the free variables (whole `Ch`s and slices of
them, not sharing entries) are right, then `J` of the stacked objective, given enough stack depth,
* returns a matrix with a row for each entry of the objective and a column for each entry of the packed vector `x`, column `j` of which is the
  derivative of the objective with respect to entry `j` of `x`; or
* raises, and then the derivative with respect to one of the free variables is zero (`optimization_internal.py:60-63` rejects it).
`x` is what packing the free variables gives; after `obj.x = …` and before the next read of `obj.r` this is not `obj.x`, see
`J_ignores_assignment`. -/
theorem C52_columns {h : Heap ClassDef Par Arr Jac} (hr : OptReach h) {y o : Id} {vs : List Free} (hy : Setup h y o vs) (hne : vs ≠ [])
    (hap : Apart vs) (hdep : ∀ v ∈ vs, v.depth ≤ 1) {vo : Arr} (hd : ∀ v ∈ vs, ∃ vl E, RightWrt h o vo v vl E) (md ms : Bool) :
    ∃ f₀, ∀ f ≥ f₀,
      (∃ d J, (stackedJ f md ms y (vs.map Free.fv) h).2 = .ok d ∧ d.Rep vo.size (totalSize vs) J ∧
        ∀ x, Packed h.graph vs x → ∀ j < totalSize vs, PackedDeriv h.graph o vo vs x j fun i => J i j) ∨
      ∃ e, (stackedJ f md ms y (vs.map Free.fv) h).2 = .error e ∧ e ≠ .fuel ∧
        ∃ v ∈ vs, ∃ vl E, RightWrt h o vo v vl E ∧ Ent.IsZero vo.size vl.size E := by
  classical
  have hi := hr.inv
  have hc : ∀ v : Free, ∃ E : Ent, v ∈ vs → ∃ vl, RightWrt h o vo v vl E := by
    intro v
    by_cases hv : v ∈ vs
    · obtain ⟨vl, E, hE⟩ := hd v hv
      exact ⟨E, fun _ => ⟨vl, hE⟩⟩
    · exact ⟨0, fun h => absurd h hv⟩
  choose E hE using hc
  obtain ⟨f1, hf1⟩ := freeJacs_spec (g := h.graph) (o := o) (m := vo.size) (E := E) md ms vs fun v hv => by
    obtain ⟨vl, h1, f₀, hf₀⟩ := hE v hv
    have ok := (hy.free v hv).1
    obtain ⟨d, e1, e2⟩ := hf₀ f₀ (Nat.le_refl _)
    exact ⟨ok, hdep v hv, vl, d, h1.valW, (C02_with_optimiser hr f₀ o v.l (by rw [ok.leaf.1]; rfl)).1 d e1, e2⟩
  have hoa : (h.node o).alive = true := hi.str.child_alive hy.linkO
  refine ⟨max f1 (h.next + 1), fun f hf => ?_⟩
  have hf1' : f1 ≤ f := le_trans (le_max_left _ _) hf
  have hf2' : h.next < f := lt_of_lt_of_le (Nat.lt_succ_self _) (le_trans (le_max_right _ _) hf)
  obtain ⟨hg, hres⟩ := hf1 f hf1' h hi rfl
  obtain ⟨vis, out, ht, _⟩ := C17_tree_iterator_each_once h.graph o (List.range h.next) (fun j hj => by
    have : (h.node j).alive = true := by
      induction hj with
      | refl => exact hoa
      | tail _ hbc _ => obtain ⟨k, _, hk⟩ := hbc; exact hi.str.child_alive hk
    exact List.mem_range.2 (hi.str.alive_lt this)) f (by simpa using hf2')
  unfold stackedJ
  rw [hy.linkO]
  dsimp only
  rcases hres with ⟨ds, e1, e2⟩ | ⟨e, e1, e2, v, hv, vl, e3, e4⟩
  · refine Or.inl ?_
    rw [mbind_ok e1, hg, ht]
    dsimp only
    have hds : ds ≠ [] := by
      rintro rfl
      cases vs with
      | nil => exact hne rfl
      | cons v vs => cases e2
    obtain ⟨d, k1, k2⟩ := hstack_rep hds e2
    rw [List.map_map, List.map_map] at k2
    refine ⟨d, _, k1, k2, fun x hx j hj => ?_⟩
    obtain ⟨w, hw, k, hk, rfl⟩ := offsets_find vs 0 (Nat.zero_le j) (by omega)
    obtain ⟨vl, h1, _⟩ := hE w.1 (mem_offsets hw)
    have := packedDeriv_of (fun v hv => (hy.free v hv).1.is) hap hx hw hk h1
    refine Eq.mp (congrArg _ (funext fun i => ?_)) this
    exact ((sideBySide_offsets vo.size (fun v i k => E v i (v.pos k)) vs 0 w hw i k hk).1).symm
  · refine Or.inr ⟨e, ?_, e2, v, hv, ?_⟩
    · simp only [M.bind]
      rcases hx : freeJacs f md ms o (vs.map Free.fv) h with ⟨h', r⟩
      rw [hx] at e1
      dsimp only at e1
      subst e1
      rfl
    · obtain ⟨vl', h1⟩ := hE v hv
      have := h1.1.valW.unique e3
      injection this with this
      subst this
      exact ⟨vl', E v, h1, e4⟩

/-- `obj.x = …` alone does not change the vector at which `J` is taken: `J` does not call `on_changed`. -/
theorem J_ignores_assignment {h : Heap ClassDef Par Arr Jac} (hr : OptReach h) {y o : Id} {vs : List Free} {xv : Arr} (hy : Setup h y o vs)
    (hsz : xv.size = totalSize vs) : ∃ h1, setObj lib y [.wrap nmX (.arr xv)] h = (h1, .ok ()) ∧
      ∀ x, Packed h1.graph vs x ↔ Packed h.graph vs x := by
  obtain ⟨h1, e, _, _, _, _, _, hg⟩ := assign_x hr hy hsz
  refine ⟨h1, e, fun x => ?_⟩
  have hl : ∀ w ∈ offsets vs 0, h1.graph w.1.l = h.graph w.1.l := by
    intro w hw
    obtain ⟨ok, al⟩ := hy.free _ (mem_offsets hw)
    refine hg _ (hr.inv.str.alive_lt al) ?_
    intro e
    have := ok.leaf.2.1 nmObj
    rw [e, hy.linkO] at this; cases this
  constructor
  · exact fun hp => ⟨hp.shape, fun w hw a ha => hp.entries w hw a (by rw [hl w hw]; exact ha)⟩
  · exact fun hp => ⟨hp.shape, fun w hw a ha => hp.entries w hw a (by rw [← hl w hw]; exact ha)⟩

open ADDemo in
/-- The hypotheses of C52 are met: the objective `c[1:]`, the free variables `c[:1]` and `c[1:]`. -/
theorem ADDemo.slices_right : ∃ h, OptReach h ∧ Setup h 4 2 [freeA, freeB] ∧ Apart [freeA, freeB] ∧ (∀ v ∈ [freeA, freeB], v.depth ≤ 1) ∧
    ∃ vo : Arr, vo.size = 1 ∧ ∀ v ∈ [freeA, freeB], ∃ vl E, RightWrt h 2 vo v vl E ∧ ¬ Ent.IsZero vo.size vl.size E := by
  obtain ⟨h, hr, hs, _, h0, _, hre, h2⟩ := slices_state
  have hs' := hs [freeA, freeB] (by simp)
  have l0 : IsLeaf h.graph 0 := (hs'.free freeA (by simp)).1.leaf
  have hv := means_leaf l0.1 h0
  have hA : IsA h.graph 2 chSelect [nmA] fun _ => 0 := isA_unP h2
  have hE := exact_select (tm := (h.graph 2).terms) (v := (⟨[2], ![1, 2]⟩ : Arr).atleast1) (idxs := [1]) (sh := [1]) (by rw [h2]; rfl) (by rw [h2]; rfl)
    (by decide) (by decide)
  have hm := means_of_isA hA (v := fun _ => (⟨[2], ![1, 2]⟩ : Arr).atleast1) (fun _ => hv) hE.val
  have hR : Reports h 2 0 1 2 (coo 1 id (fun k => ([1] : List ℕ).getD k 0) fun _ => 1) := by
    refine reports_of_rep hre hA (v := fun _ => (⟨[2], ![1, 2]⟩ : Arr).atleast1) (fun _ => hv) hm (fun _ => l0) ⟨(0 : Fin 1), rfl⟩
      (d := some (.sparse 1 2 (coo 1 id (fun k => ([1] : List ℕ).getD k 0) fun _ => 1))) ?_ ?_
    · rw [namesOf_one hA]; erw [env_one]
      have hp : (h.graph 2).terms nmP = some (.nats [1]) := by rw [h2]; rfl
      exact ⟨0, by simp [lib, chSelect, runBody, env1, hp, Arr.size, Arr.atleast1, Arr.of]⟩
    · exact ⟨rfl, rfl, fun _ _ _ _ => rfl⟩
  have hkids : ∀ k c, (h.graph 2).dterms k = some c → IsLeaf h.graph c := by
    intro k c hk
    have hkn := str_dn hr.inv.str _ _ _ hk
    rw [hA.dnames, List.mem_singleton] at hkn
    subst hkn
    have := hA.kid ⟨0, by simp⟩
    rw [show [nmA].get ⟨0, by simp⟩ = nmA from rfl, hk] at this
    obtain rfl : c = 0 := by simpa using this
    exact l0
  obtain ⟨vl, E, h3, h4⟩ := (right_of_exact hre hA (fun _ => hv) hE).deriv hkids nmA 0 (hA.kid ⟨0, by simp⟩)
  have hvl : vl = (⟨[2], ![1, 2]⟩ : Arr).atleast1 := by
    have := h3.valW.unique hv
    injection this
  have hz : E 0 1 = 1 := by
    have := (reports_unique h4 hR ⟨0, by decide, 1, by decide, by simp [coo]⟩).2.2 0 (by decide) 1 (by rw [hvl]; decide)
    rw [this]; simp only [coo]; rw [Finset.sum_range_one]; simp
  refine ⟨h, hr, hs', slices_apart, ?_, (Arr.of [1] fun k => (⟨[2], ![1, 2]⟩ : Arr).atleast1.vec (([1] : List ℕ).getD k 0)).atleast1, by decide,
    fun v hv' => ⟨vl, E, ?_, fun hE0 => ?_⟩⟩
  · intro v hv
    simp only [List.mem_cons, List.not_mem_nil, or_false] at hv
    rcases hv with rfl | rfl <;> decide
  · simp only [List.mem_cons, List.not_mem_nil, or_false] at hv'
    rcases hv' with rfl | rfl <;> exact ⟨h3, h4⟩
  · have := hE0 0 (by decide) 1 (by rw [hvl]; decide)
    rw [hz] at this
    norm_num at this

end Chumpy
