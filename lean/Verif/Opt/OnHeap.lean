import Verif.Opt.Machine
import Verif.Opt.Real
import Verif.Properties.StackedJac
/-!
# The actions of the optimiser on the object graph

What `minimize_dogleg` does with the stacked objective, on the caching heap of `Verif/Core`: `heapActs`.  They are `Faithful`: after each of
them the free variables and `obj.x` hold the vector the optimiser put there last, and `obj.r` and `obj.J` are the value and the derivative of
the objective at that vector.
-/
namespace Chumpy
open scoped BigOperators Topology

variable {n m : ℕ}

/-- The entries of a vector, as an array of the given shape. -/
noncomputable def vecArr (sh : List ℕ) (v : RVec n) : Arr := Arr.of sh fun k => if h : k < n then v ⟨k, h⟩ else 0

/-- An array of `m` entries as a vector. -/
noncomputable def arrVec (m : ℕ) (a : Arr) : RVec m := WithLp.toLp 2 fun i : Fin m => a.vec i

/-- … numpy raises if the sizes do not fit. -/
noncomputable def asVec (m : ℕ) (a : Arr) : M ClassDef Par Arr Jac (RVec m) := if a.size = m then M.pure (arrVec m a) else M.throw (.user 1)

/-- A matrix as a linear map. -/
noncomputable def matMap (n m : ℕ) (E : Ent) : RVec n →L[ℝ] RVec m :=
  (EuclideanSpace.equiv (Fin m) ℝ).symm.toContinuousLinearMap ∘L Ent.lin m n E ∘L (EuclideanSpace.equiv (Fin n) ℝ).toContinuousLinearMap

/-- … numpy raises if the sizes do not fit. -/
noncomputable def asMap (n m : ℕ) (d : Jac) : M ClassDef Par Arr Jac (RVec n →L[ℝ] RVec m) :=
  if d.block.1 = m ∧ d.block.2.1 = n then M.pure (matMap n m d.block.2.2) else M.throw (.user 1)

/-- What `minimize_dogleg` (optimization_internal.py:358-455) does with the stacked objective `y` over the free variables `fvs`, with the
stack depth `f`.  `p` is a column (optimization_internal.py:188).  `ch.Ch(p)` and the array `p` are stored alike (ch.py:371-373).
The callback (optimization_internal.py:145-153) without `on_step` and without labels: it reads `obj.r` if `disp` is true. -/
noncomputable def heapActs (n m f : ℕ) (disp md ms : Bool) (y : Id) (fvs : List Id) :
    DogActs (RVec n) (RVec m) (RVec n →L[ℝ] RVec m) (Heap ClassDef Par Arr Jac) where
  tryAt p := M.bind (setObj lib y [.wrap nmX (.arr (vecArr [n, 1] p))]) fun _ => M.bind (stackedR f y fvs) (asVec m)
  putBack p := M.bind (setObj lib y [.wrap nmX (.arr (vecArr [n, 1] p))]) fun _ => onChangedX f y fvs [nmX]
  callback := if disp then M.bind (stackedR f y fvs) fun _ => M.pure () else M.pure ()
  jac := M.bind (stackedJ f md ms y fvs) (asMap n m)
  resid := M.bind (stackedR f y fvs) (asVec m)
  start := fun h => match (h.graph y).dterms nmX with
    | none => (h, .error .attr)
    | some x => M.bind (read lib f (.r x)) (asVec n) h

/-! ## Distributing vectors -/

theorem vecArr_vec {sh : List ℕ} (hs : sh.prod = n) (v : RVec n) {k : ℕ} (hk : k < n) : (vecArr sh v).vec k = v ⟨k, hk⟩ := by
  unfold vecArr
  rw [Arr.vec_of _ _ (by rw [hs]; exact hk), dif_pos hk]

theorem Spread.dterms {g g' : Graph ClassDef Par} {x : Arr} {vs : List Free} (h : Spread g g' x vs) (j : Id) : (g' j).dterms = (g j).dterms := by
  by_cases hj : ∃ v ∈ vs, j = v.l
  · obtain ⟨v, hv, rfl⟩ := hj
    obtain ⟨x0, x1, _, h2, _⟩ := h.each v hv
    rw [h2, withArr_dterms]
  · rw [h.other j fun v hv e => hj ⟨v, hv, e⟩]

theorem Spread.trans {g g1 g2 : Graph ClassDef Par} {x x' : Arr} {vs : List Free} (h1 : Spread g g1 x vs) (h2 : Spread g1 g2 x' vs) :
    Spread g g2 x' vs := by
  refine ⟨fun v hv => ?_, fun j hj => by rw [h2.other j hj, h1.other j hj]⟩
  obtain ⟨x0, x1, a1, a2, a3, _, a5⟩ := h1.each v hv
  obtain ⟨y0, y1, b1, b2, b3, b4, b5⟩ := h2.each v hv
  have hy : x1 = y0 := by
    rw [a2] at b1
    simpa [withArr] using b1
  subst hy
  refine ⟨x0, y1, a1, ?_, b3.trans a3, b4, fun p hp hu => ?_⟩
  · rw [b2]
    simp only [withArr, if_true]
    rw [a2]
    simp only [withArr, if_true]
    congr 1
    funext k
    split
    · rfl
    · rfl
  · rw [b5 p (by unfold Arr.size at hp ⊢; rw [a3]; exact hp) hu, a5 p hp hu]

theorem spread_self {g : Graph ClassDef Par} {x : Arr} {vs : List Free} (hok : ∀ v ∈ vs, v.Ok g) (hp : Packed g vs x) : Spread g g x vs := by
  refine ⟨fun v hv => ?_, fun _ _ => rfl⟩
  obtain ⟨x0, hx0, _⟩ := (hok v hv).arr
  refine ⟨x0, x0, hx0, by rw [withArr_same hx0], rfl, fun w hw hl k hk => ?_, fun _ _ _ => rfl⟩
  exact (hp.entries w hw x0 (by rw [hl]; exact hx0) k hk).symm

/-- `g'` is `g` without the change at `i`. -/
theorem Spread.off {g g2 g' : Graph ClassDef Par} {i : Id} {x : Arr} {vs : List Free} (hoff : SameOff g g2 i) (hl : ∀ v ∈ vs, v.l ≠ i)
    (h : Spread g2 g' x vs) : Spread g (fun j => if j = i then g i else g' j) x vs := by
  refine ⟨fun v hv => ?_, fun j hj => ?_⟩
  · obtain ⟨x0, x1, a1, a2, a3⟩ := h.each v hv
    have e := hoff v.l (hl v hv)
    refine ⟨x0, x1, by rw [← e]; exact a1, ?_, a3⟩
    rw [if_neg (hl v hv), a2]
    simp only [withArr, if_true, e]
  · split
    · next e => rw [e]
    · next e => rw [h.other j hj, hoff j e]

theorem SameOff.anc_other {g g' : Graph ClassDef Par} {i j o : Id} (h : SameOff g g' i) (hi : ¬ Anc g i o) (ha : Anc g j o) : Anc g' j o := by
  induction ha with
  | refl => exact .refl
  | @step o' c k hk _ ih =>
    refine .step k ?_ (ih (not_anc_child hi hk))
    rw [h _ (not_anc_ne hi)]; exact hk

/-! ## The objective as a function -/

/-- With the stack depth `f`, in every graph that differs from `g` by a vector `v` distributed over the free variables, the value of `o` is
`F v`, and `dr_wrt` of `o` with respect to the `Ch`s under the free variables are the columns of `F' v`. -/
def Sees (f : ℕ) (o : Id) (vs : List Free) (F : RVec n → RVec m) (F' : RVec n → RVec n →L[ℝ] RVec m) (g : Graph ClassDef Par) : Prop :=
  ∀ (v : RVec n) (g' : Graph ClassDef Par), Spread g g' (vecArr [n] v) vs →
    (∃ a, evalReq lib g' f (.r o) = .ok a ∧ a.size = m ∧ ∀ i : Fin m, a.vec i = F v i) ∧
    ∀ u ∈ vs, ∃ d E x, evalDr lib g' f o u.l = .ok (some d) ∧ (g' u.l).terms nmX = some (.arr x) ∧ d.Rep m x.size E ∧
      ∀ p, (u, p) ∈ offsets vs 0 → ∀ k < u.size, ∀ (hk : p + k < n) (i : Fin m), E i (u.pos k) = F' v (EuclideanSpace.single ⟨p + k, hk⟩ 1) i

variable {f : ℕ} {y o : Id} {vs : List Free} {F : RVec n → RVec m} {F' : RVec n → RVec n →L[ℝ] RVec m}

theorem Sees.spread {g g1 : Graph ClassDef Par} {x : Arr} (h : Sees f o vs F F' g) (hs : Spread g g1 x vs) : Sees f o vs F F' g1 :=
  fun v g' hg' => h v g' (hs.trans hg')

theorem Sees.off {g g2 : Graph ClassDef Par} {i : Id} (h : Sees f o vs F F' g) (hoff : SameOff g g2 i) (hno : ¬ Anc g i o)
    (hl : ∀ v ∈ vs, IsLeaf g v.l ∧ v.l ≠ i) : Sees f o vs F F' g2 := by
  intro v g' hg'
  have hs := hg'.off hoff fun v hv => (hl v hv).2
  have hso : SameOff (fun j => if j = i then g i else g' j) g' i := fun j hj => by dsimp only; rw [if_neg hj]
  have hd := hs.dterms
  have hno' : ¬ Anc (fun j => if j = i then g i else g' j) i o := fun ha => hno (anc_congr (fun j => (hd j).symm) ha)
  obtain ⟨⟨a, e1, e2⟩, e3⟩ := h v _ hs
  refine ⟨⟨a, by rw [(evalReq_off lib hso f o hno').1]; exact e1, e2⟩, fun u hu => ?_⟩
  obtain ⟨d, E, x, k1, k2, k3⟩ := e3 u hu
  refine ⟨d, E, x, ?_, ?_, k3⟩
  · rw [evalDr_off lib hso (wrtOff_of_not_anc lib hso fun ha => ?_) f o hno']
    · exact k1
    · exact (hl u hu).2 (leaf_anc (hl u hu).1 (anc_congr (fun j => (hd j).symm) ha)).symm
  · rw [if_neg (hl u hu).2] at k2; exact k2

/-! ## States that hold a vector -/

/-- From `h₀` to `h` nothing has changed but the stacked objective `y` and the entries of the free variables: the objects of `h₀` still exist and,
except for `y` and the `Ch`s under the free variables, are what they were; those `Ch`s keep their shapes and the entries that are in no free
variable. -/
structure Untouched (h₀ h : Heap ClassDef Par Arr Jac) (y : Id) (vs : List Free) : Prop where
  alive : ∀ j, (h₀.node j).alive = true → (h.node j).alive = true
  other : ∀ j, (h₀.node j).alive = true → j ≠ y → (∀ u ∈ vs, j ≠ u.l) → h.graph j = h₀.graph j
  rest : ∀ u ∈ vs, ∃ x0 x1 : Arr, (h₀.graph u.l).terms nmX = some (.arr x0) ∧ h.graph u.l = withArr h₀.graph u.l x1 u.l ∧ x1.shape = x0.shape ∧
    ∀ p < x0.size, (∀ w ∈ vs, w.l = u.l → ∀ k < w.size, w.pos k ≠ p) → x1.vec p = x0.vec p

theorem Untouched.refl {h : Heap ClassDef Par Arr Jac} {y : Id} {vs : List Free} (hok : ∀ u ∈ vs, u.Ok h.graph) : Untouched h h y vs := by
  refine ⟨fun _ e => e, fun _ _ _ _ => rfl, fun u hu => ?_⟩
  obtain ⟨x0, hx0, _⟩ := (hok u hu).arr
  exact ⟨x0, x0, hx0, by rw [withArr_same hx0], rfl, fun _ _ _ => rfl⟩

theorem Untouched.step {h₀ h h' : Heap ClassDef Par Arr Jac} {y : Id} {vs : List Free} (a : Untouched h₀ h y vs)
    (ha : ∀ j, (h.node j).alive = true → (h'.node j).alive = true)
    (hg : ∀ j, (h.node j).alive = true → j ≠ y → h'.graph j = h.graph j) (hl : ∀ u ∈ vs, (h.node u.l).alive = true ∧ u.l ≠ y) :
    Untouched h₀ h' y vs := by
  refine ⟨fun j e => ha j (a.alive j e), fun j e hy hu => by rw [hg j (a.alive j e) hy]; exact a.other j e hy hu, fun u hu => ?_⟩
  rw [hg _ (hl u hu).1 (hl u hu).2]
  exact a.rest u hu

theorem Untouched.spread {h₀ h h' : Heap ClassDef Par Arr Jac} {y : Id} {vs : List Free} {x : Arr} (a : Untouched h₀ h y vs)
    (ha : ∀ j, (h'.node j).alive = (h.node j).alive) (hs : Spread h.graph h'.graph x vs) : Untouched h₀ h' y vs := by
  refine ⟨fun j e => by rw [ha]; exact a.alive j e, fun j e hy hu => by rw [hs.other j hu]; exact a.other j e hy hu, fun u hu => ?_⟩
  obtain ⟨x0, x1, a1, a2, a3, a5⟩ := a.rest u hu
  obtain ⟨y0, y1, b1, b2, b3, _, b5⟩ := hs.each u hu
  have hy : x1 = y0 := by
    rw [a2] at b1
    simpa [withArr] using b1
  subst hy
  refine ⟨x0, y1, a1, ?_, b3.trans a3, fun p hp hw => ?_⟩
  · rw [b2]
    simp only [withArr, if_true]
    rw [a2]
    simp only [withArr, if_true]
    congr 1
    funext k
    split
    · rfl
    · rfl
  · rw [b5 p (by unfold Arr.size at hp ⊢; rw [a3]; exact hp) hw, a5 p hp hw]

/-- The stacked objective `y` over `vs` is set up, `obj.x` is `v`, and the objective is `F`; all objects under the objective are among the
first `N`. -/
structure HasX (h₀ : Heap ClassDef Par Arr Jac) (f N : ℕ) (y o : Id) (vs : List Free) (F : RVec n → RVec m) (F' : RVec n → RVec n →L[ℝ] RVec m) (v : RVec n)
    (h : Heap ClassDef Par Arr Jac) : Prop where
  reach : OptReach h
  setup : Setup h y o vs
  nines : 9999 ≤ h.giter ∨ ∀ j, (h.node j).itr ≠ some 9999
  x : ∃ x xr, Stacked h y x o vs xr ∧ xr.size = n ∧ ∀ k (hk : k < n), xr.vec k = v ⟨k, hk⟩
  sees : Sees f o vs F F' h.graph
  above : ¬ Anc h.graph y o
  under : ∀ j, Anc h.graph j o → j < N
  untouched : Untouched h₀ h y vs

/-- … and the free variables hold `v`. -/
structure Holds (h₀ : Heap ClassDef Par Arr Jac) (f N : ℕ) (y o : Id) (vs : List Free) (F : RVec n → RVec m) (F' : RVec n → RVec n →L[ℝ] RVec m) (v : RVec n)
    (h : Heap ClassDef Par Arr Jac) : Prop extends HasX h₀ f N y o vs F F' v h where
  packed : Packed h.graph vs (vecArr [n] v)

variable {N : ℕ} {v : RVec n} {h h₀ : Heap ClassDef Par Arr Jac}

theorem nines_fresh (hn : 9999 ≤ h.giter ∨ ∀ j, (h.node j).itr ≠ some 9999) : h.giter + 1 ≠ 9999 ∨ ∀ j, (h.node j).itr ≠ some 9999 :=
  hn.imp (fun h => by omega) id

theorem Setup.leaf_ne (hs : Setup h y o vs) {u : Free} (hu : u ∈ vs) : u.l ≠ y := by
  rintro rfl
  have := (hs.free u hu).1.leaf.2.1 nmObj
  rw [hs.linkO] at this; cases this

/-- What reads change is not seen. -/
theorem Holds.same {h' : Heap ClassDef Par Arr Jac} (hh : Holds h₀ f N y o vs F F' v h) (hr : OptReach h') (hg : h'.graph = h.graph)
    (ha : ∀ j, (h'.node j).alive = (h.node j).alive) (hi : ∀ j, (h'.node j).itr = (h.node j).itr) (ht : h.giter ≤ h'.giter) :
    Holds h₀ f N y o vs F F' v h' := by
  have hn : 9999 ≤ h'.giter ∨ ∀ j, (h'.node j).itr ≠ some 9999 := hh.nines.imp (fun h => by omega) fun h j => by rw [hi]; exact h j
  obtain ⟨x, xr, hst, hx⟩ := hh.x
  obtain ⟨s1, s2, s3, s4, s5, s6⟩ := hh.setup
  refine ⟨⟨hr, ⟨by rw [ha]; exact s1, by rw [hg]; exact s2, by rw [hg]; exact s3, by rw [hg]; exact s4,
      fun u hu => ⟨by rw [hg]; exact (s5 u hu).1, by rw [ha]; exact (s5 u hu).2⟩, nines_fresh hn⟩, hn,
    ⟨x, xr, ⟨by rw [hg]; exact hst.linkX, fun u hu => ⟨by rw [hg]; exact (hst.free u hu).1, by rw [ha]; exact (hst.free u hu).2.1, (hst.free u hu).2.2⟩,
      by rw [hg]; exact hst.leafX, by rw [hg]; exact hst.valX, hst.size, nines_fresh hn⟩, hx⟩, by rw [hg]; exact hh.sees, by rw [hg]; exact hh.above,
    by rw [hg]; exact hh.under, hh.untouched.step (fun j e => by rw [ha]; exact e) (fun j _ _ => by rw [hg]) fun u hu => ⟨(s5 u hu).2, hh.setup.leaf_ne hu⟩⟩,
    by rw [hg]; exact hh.packed⟩

theorem PutAll.ok {g g' : Graph ClassDef Par} {xr : Arr} (q : PutAll g g' xr (offsets vs 0)) (hok : ∀ v ∈ vs, v.Ok g) {u : Free} (hu : u ∈ vs) :
    u.Ok g' := by
  obtain ⟨p, hp⟩ := offsets_mem 0 hu
  obtain ⟨x0, x1, h1, h2, h3, _⟩ := q.each _ hp
  obtain ⟨x0', h1', hn⟩ := (hok u hu).arr
  rw [h1] at h1'
  obtain rfl : x0 = x0' := by simpa using h1'
  refine ⟨?_, ⟨x1, by rw [h2]; simp [withArr], ?_⟩, (hok u hu).inj⟩
  · have := isLeaf_withArr (l := u.l) (x := x1) (hok u hu).leaf
    unfold IsLeaf at this ⊢
    rw [h2]; exact this
  · rw [atleast1_shape h3]
    refine hn.congr fun i hi => q.other i ?_
    rintro w hw rfl
    exact hi ((hok _ (mem_offsets hw)).leaf.2.1 nmA)

variable {fm : ℕ}

/-- `on_changed` copies `obj.x` to the free variables. -/
theorem HasX.push (hh : HasX h₀ f N y o vs F F' v h) (hnd : (vs.map Free.l).Nodup) (hn : totalSize vs = n) (hfm : enough vs ≤ fm)
    {which : List Name} (hw : nmX ∈ which) :
    ∃ h', onChangedX fm y (vs.map Free.fv) which h = (h', .ok ()) ∧ Holds h₀ f N y o vs F F' v h' := by
  obtain ⟨x, xr, hst, hxs, hxv⟩ := hh.x
  have hdep : ∀ u ∈ vs, u.depth < fm := fun u hu => lt_of_lt_of_le (enough_lt hu) hfm
  obtain ⟨h', e, _, _, t', a', q, i'⟩ := onChangedX_spec hh.reach.inv hst hnd hw hdep
  refine ⟨h', e, ?_⟩
  have hr : OptReach h' := by
    have := OptReach.changed fm which hh.reach hst hnd hdep
    rw [e] at this; exact this
  have hsp := q.spread
  have hgy : h'.graph y = h.graph y := hsp.other y fun u hu => (hh.setup.leaf_ne hu).symm
  have hgx : h'.graph x = h.graph x := hsp.other x fun u hu => ((hst.free u hu).2.2).symm
  have hok : ∀ u ∈ vs, u.Ok h'.graph := fun u hu => q.ok (fun w hw => (hst.free w hw).1) hu
  have hni : 9999 ≤ h'.giter ∨ ∀ j, (h'.node j).itr ≠ some 9999 := by
    rw [t']
    by_cases hg : 9999 ≤ h.giter + 1
    · exact Or.inl hg
    · refine Or.inr fun j => ?_
      rcases hh.nines with h1 | h1
      · omega
      · rcases i' j with h2 | h2
        · rw [h2]; intro e; injection e; omega
        · rw [h2]; exact h1 j
  have hlx : IsLeaf h'.graph x := by
    have := hst.leafX
    unfold IsLeaf at this ⊢
    rw [hgx]; exact this
  refine ⟨⟨hr, ⟨by rw [a']; exact hh.setup.alive, by rw [hgy]; exact hh.setup.cls, by rw [hgy]; exact hh.setup.dnames,
    by rw [hgy]; exact hh.setup.linkO, fun u hu => ⟨hok u hu, by rw [a']; exact (hst.free u hu).2.1⟩, nines_fresh hni⟩, hni,
    ⟨x, xr, ⟨by rw [hgy]; exact hst.linkX, fun u hu => ⟨hok u hu, by rw [a']; exact (hst.free u hu).2.1, (hst.free u hu).2.2⟩, hlx, ?_, hst.size,
      nines_fresh hni⟩, hxs, hxv⟩, hh.sees.spread hsp, ?_, ?_, hh.untouched.spread a' hsp⟩, ⟨?_, ?_⟩⟩
  · obtain ⟨x0, k1, rfl⟩ := leaf_term hst.leafX hst.valX
    exact means_leaf hlx.1 (by rw [hgx]; exact k1)
  · exact fun ha => hh.above (anc_congr (fun j => (hsp.dterms j).symm) ha)
  · exact fun j ha => hh.under j (anc_congr (fun j => (hsp.dterms j).symm) ha)
  · show [n] = [totalSize vs]
    rw [hn]
  · intro w hw a ha k hk
    obtain ⟨x0, x1, _, h2, _, h4, _⟩ := q.each w hw
    obtain rfl : x1 = a := by
      rw [h2] at ha
      simpa [withArr] using ha
    have hlt : w.2 + k < n := by
      have := offsets_end vs 0 w hw
      omega
    rw [vecArr_vec (by simp) v hlt, h4 k hk, hxv _ hlt]

theorem Holds.read (hh : Holds h₀ f N y o vs F F' v h) (hfm : f < fm) : ∃ h' a, read lib fm (.r y) h = (h', .ok a) ∧ a.size = m ∧ arrVec m a = F v ∧
    Holds h₀ f N y o vs F F' v h' := by
  obtain ⟨⟨a, e1, e2, e3⟩, _⟩ := hh.sees v h.graph (spread_self (fun u hu => (hh.setup.free u hu).1) hh.packed)
  have he : evalReq lib h.graph fm (.r y) = .ok (Arr.of [a.size] a.vec) := by
    have h1 : evalReq lib h.graph (f + 1) (.r y) = .ok (Arr.of [a.size] a.vec) := by
      simp only [evalReq, hh.setup.cls, chStacked, evalProg, hh.setup.linkO, e1]
    exact (evalReq_mono lib h.graph (show f + 1 ≤ fm by omega) (.r y) (by rw [h1]; simp)).trans h1
  have hr := inv_read_ok hh.reach.inv he
  have hf := read_pres (s := lib) (rframe_rel (C := ClassDef) (T := Par) (V := Arr) (D := Jac)) fm (.r y) h
  refine ⟨(Chumpy.read lib fm (.r y) h).1, _, Prod.ext rfl hr, ?_, ?_, hh.same ?_ hf.graph hf.alive hf.itr (by rw [hf.giter])⟩
  · show [a.size].prod = m
    simp [e2]
  · refine (WithLp.ofLp_injective 2) (funext fun i => ?_)
    show (Arr.of [a.size] a.vec).vec i = F v i
    rw [Arr.vec_of _ _ (by simp [e2]), e3]
  · have := OptReach.op (.readR fm y) hh.reach trivial
    have e : (step lib (.readR fm y) h).1 = (Chumpy.read lib fm (.r y) h).1 := by
      simp only [step, ifAlive, hh.setup.alive, if_true, M.map']
    rw [e] at this; exact this

/-- `obj.r`. -/
theorem HasX.value (hh : HasX h₀ f N y o vs F F' v h) (hd : nmX ∈ (h.node y).dirty ∨ Packed h.graph vs (vecArr [n] v))
    (hnd : (vs.map Free.l).Nodup) (hn : totalSize vs = n) (hfm : enough vs ≤ fm) (hf : f < fm) :
    ∃ h' a, stackedR fm y (vs.map Free.fv) h = (h', .ok a) ∧ a.size = m ∧ arrVec m a = F v ∧ Holds h₀ f N y o vs F F' v h' := by
  unfold stackedR
  by_cases he : (h.node y).dirty.isEmpty = true
  · rw [if_pos he]
    have hp : Packed h.graph vs (vecArr [n] v) := hd.resolve_left fun hx => by
      rw [List.isEmpty_iff] at he
      rw [he] at hx; cases hx
    exact (Holds.mk hh hp).read hf
  · rw [if_neg he]
    by_cases hw : nmX ∈ (h.node y).dirty
    · obtain ⟨h1, e1, k1⟩ := hh.push hnd hn hfm hw
      rw [mbind_ok (by rw [e1]), e1]
      exact k1.read hf
    · have e : onChangedX fm y (vs.map Free.fv) (h.node y).dirty h = ({ h with giter := h.giter + 1 }, .ok ()) := by
        unfold onChangedX; dsimp only; rw [if_neg hw]
      rw [mbind_ok (by rw [e]), e]
      obtain ⟨x, xr, hst, _⟩ := hh.x
      have hr : OptReach { h with giter := h.giter + 1 } := by
        have := OptReach.changed fm (h.node y).dirty hh.reach hst hnd fun u hu => lt_of_lt_of_le (enough_lt hu) hfm
        rw [e] at this; exact this
      exact ((Holds.mk hh (hd.resolve_left hw)).same hr rfl (fun _ => rfl) (fun _ => rfl) (Nat.le_succ _)).read hf

/-- `obj.x = p`. -/
theorem Holds.assign (hh : Holds h₀ f N y o vs F F' v h) (hn : totalSize vs = n) (p : RVec n) :
    ∃ h1, setObj lib y [.wrap nmX (.arr (vecArr [n, 1] p))] h = (h1, .ok ()) ∧ HasX h₀ f N y o vs F F' p h1 ∧ nmX ∈ (h1.node y).dirty := by
  have hsz : (vecArr [n, 1] p).size = totalSize vs := by
    show [n, 1].prod = _
    simp [hn]
  obtain ⟨h1, e, r1, st, d1, c1, l1, _⟩ := assign_x hh.reach hh.setup hsz
  have hs := hh.reach.inv.str
  obtain ⟨h1', e', _, t1, a1, gN, gY, gO, _, i1⟩ := wrap_state (s := lib) hs hh.setup.alive (k := nmX) (by rw [hh.setup.dnames]; simp)
    (.arr (vecArr [n, 1] p))
  have hyn : y ≠ h.next := Nat.ne_of_lt (hs.alive_lt hh.setup.alive)
  have ee : setObj lib y [.wrap nmX (.arr (vecArr [n, 1] p))] h = (h1', .ok ()) := by
    unfold setObj
    rw [if_pos hh.setup.alive]
    exact e'
  obtain rfl : h1 = h1' := by rw [e] at ee; exact congrArg Prod.fst ee
  have hni : 9999 ≤ h1.giter ∨ ∀ j, (h1.node j).itr ≠ some 9999 := by
    rw [t1]
    refine hh.nines.imp id fun h2 j => ?_
    rcases i1 j with h3 | h3
    · rw [h3]; simp
    · rw [h3]; exact h2 j
  -- the graph changes at the new object and at `y`
  have hdead : ¬ Anc h.graph h.next o := by
    have key : ∀ j, Anc h.graph h.next j → (h.node j).alive = true → (h.node h.next).alive = true := by
      intro j ha
      induction ha with
      | refl => exact id
      | step k hk _ ih => exact fun _ => ih (hs.child_alive hk)
    intro ha
    have := key o ha (hs.child_alive hh.setup.linkO)
    rw [hs.unborn _ (Nat.le_refl _)] at this; cases this
  let gm : Graph ClassDef Par := fun j => if j = h.next then h1.graph h.next else h.graph j
  have o1 : SameOff h.graph gm h.next := fun j hj => if_neg hj
  have o2 : SameOff gm h1.graph y := fun j hj => by
    by_cases hj' : j = h.next
    · subst hj'; exact (if_pos rfl).symm
    · rw [gO j hj' hj]; exact (if_neg hj').symm
  have hab : ¬ Anc gm y o := by
    intro ha
    exact hh.above (o1.symm.anc_other (fun hb => hdead ((o1.anc_iff o).1 hb)) ha)
  have hlf : ∀ u ∈ vs, IsLeaf gm u.l ∧ u.l ≠ y := fun u hu => by
    refine ⟨?_, hh.setup.leaf_ne hu⟩
    have h2 : gm u.l = h.graph u.l := if_neg (Nat.ne_of_lt (hs.alive_lt (hh.setup.free u hu).2))
    have := (hh.setup.free u hu).1.leaf
    unfold IsLeaf at this ⊢
    rw [h2]; exact this
  refine ⟨h1, e, ⟨r1, ⟨?_, c1, ?_, l1, fun u hu => ⟨(st.free u hu).1, (st.free u hu).2.1⟩, nines_fresh hni⟩, hni, ⟨_, _, st, ?_, ?_⟩, ?_, ?_, ?_, ?_⟩, d1⟩
  · rw [a1, if_neg hyn]; exact hh.setup.alive
  · rw [gY]; exact hh.setup.dnames
  · rw [Arr.atleast1_size, hsz, hn]
  · intro k hk
    rw [Arr.atleast1_vec, vecArr_vec (by simp) p hk]
  · refine (hh.sees.off o1 hdead fun u hu => ⟨(hh.setup.free u hu).1.leaf, Nat.ne_of_lt (hs.alive_lt (hh.setup.free u hu).2)⟩).off o2 hab hlf
  · exact fun ha => hab ((o2.anc_iff o).1 ha)
  · intro j ha
    have h2 := o2.symm.anc_other (fun hb => hab ((o2.anc_iff o).1 hb)) ha
    exact hh.under j (o1.symm.anc_other (fun hb => hdead ((o1.anc_iff o).1 hb)) h2)
  · refine hh.untouched.step (fun j ha => ?_) (fun j ha hy => gO j (Nat.ne_of_lt (hs.alive_lt ha)) hy) fun u hu =>
      ⟨(hh.setup.free u hu).2, hh.setup.leaf_ne hu⟩
    rw [a1]; split
    · rfl
    · exact ha

theorem freeJacs_frame (f : ℕ) (md ms : Bool) (o : Id) : ∀ (fvs : List Id) (h : Heap ClassDef Par Arr Jac), RFrame h (freeJacs f md ms o fvs h).1
  | [], h => .refl h
  | fv :: fvs, h => by
    have tr : ∀ {a b c : Heap ClassDef Par Arr Jac}, RFrame a b → RFrame b c → RFrame a c := fun h1 h2 => rframe_rel.trans h1 h2
    have bind : ∀ {α β : Type} (a : M ClassDef Par Arr Jac α) (k : α → M ClassDef Par Arr Jac β) (h : Heap ClassDef Par Arr Jac),
        RFrame h (a h).1 → (∀ x h', RFrame h' (k x h').1) → RFrame h (M.bind a k h).1 := by
      intro α β a k h ha hk
      simp only [M.bind]
      rcases hx : a h with ⟨h', r⟩
      rw [hx] at ha
      cases r with
      | ok x => exact tr ha (hk x h')
      | error e => exact ha
    have hd : ∀ w (h : Heap ClassDef Par Arr Jac), RFrame h (drWrt lib f o w h).1 := fun w h =>
      drWrt_pres (s := lib) (rframe_rel (C := ClassDef) (T := Par) (V := Arr) (D := Jac)) f o w h
    have rest : ∀ (d : Jac) (h : Heap ClassDef Par Arr Jac),
        RFrame h (M.bind (freeJacs f md ms o fvs) (fun ds => M.pure (d.outForm md ms :: ds)) h).1 :=
      fun d h => bind _ _ h (freeJacs_frame f md ms o fvs h) fun _ h' => .refl h'
    unfold freeJacs
    split
    · split
      · refine bind _ _ h (hd _ h) fun d h' => bind _ _ h' ?_ fun d' h'' => rest d' h''
        cases d <;> exact .refl h'
      · exact .refl h
    · refine bind _ _ h (hd _ h) fun d h' => bind _ _ h' ?_ fun d' h'' => rest d' h''
      cases d <;> exact .refl h'

theorem Jac.Rep.block {d : Jac} {E : Ent} (h : d.Rep m n E) : d.block.1 = m ∧ d.block.2.1 = n ∧ Ent.EqOn m n d.block.2.2 E := by
  cases d with
  | num c =>
    obtain ⟨rfl, rfl, h⟩ := h
    refine ⟨rfl, rfl, fun i hi j hj => ?_⟩
    obtain rfl : i = 0 := by omega
    obtain rfl : j = 0 := by omega
    exact h.symm
  | dense m' n' e => exact h
  | sparse m' n' e => exact h

theorem matMap_eq {E : Ent} {L : RVec n →L[ℝ] RVec m} (h : ∀ (j : Fin n) (i : Fin m), E i j = L (EuclideanSpace.single j 1) i) : matMap n m E = L := by
  have hb : ∀ j : Fin n, matMap n m E (EuclideanSpace.single j 1) = L (EuclideanSpace.single j 1) := by
    intro j
    refine (WithLp.ofLp_injective 2) (funext fun i => ?_)
    rw [← h j i]
    show Ent.lin m n E (EuclideanSpace.single j (1 : ℝ)).ofLp i = E i j
    rw [Ent.lin_apply]
    simp
  refine ContinuousLinearMap.coe_injective ((EuclideanSpace.basisFun (Fin n) ℝ).toBasis.ext fun j => ?_)
  simpa using hb j

/-- `obj.J`. -/
theorem Holds.jac (hh : Holds h₀ f N y o vs F F' v h) (hn : totalSize vs = n) (hne : vs ≠ []) (hdep : ∀ u ∈ vs, u.depth ≤ 1)
    (hf : f < fm) (hN : N < fm) (md ms : Bool) : ∃ h', M.bind (stackedJ fm md ms y (vs.map Free.fv)) (asMap n m) h = (h', .ok (F' v)) ∧
      Holds h₀ f N y o vs F F' v h' := by
  classical
  obtain ⟨_, hs⟩ := hh.sees v h.graph (spread_self (fun u hu => (hh.setup.free u hu).1) hh.packed)
  have hc : ∀ u : Free, ∃ E : Ent, u ∈ vs → ∃ d x, evalDr lib h.graph f o u.l = .ok (some d) ∧ (h.graph u.l).terms nmX = some (.arr x) ∧ d.Rep m x.size E ∧
      ∀ p, (u, p) ∈ offsets vs 0 → ∀ k < u.size, ∀ (hk : p + k < n) (i : Fin m), E i (u.pos k) = F' v (EuclideanSpace.single ⟨p + k, hk⟩ 1) i := by
    intro u
    by_cases hu : u ∈ vs
    · obtain ⟨d, E, x, hd⟩ := hs u hu
      exact ⟨E, fun _ => ⟨d, x, hd⟩⟩
    · exact ⟨0, fun h => absurd h hu⟩
  choose E hE using hc
  have hi := hh.reach.inv
  obtain ⟨hg, hres⟩ := freeJacs_at (g := h.graph) (o := o) (m := m) (f := fm) (E := E) md ms vs (fun u hu => by
    obtain ⟨d, x, k1, k2, k3, _⟩ := hE u hu
    have ok := (hh.setup.free u hu).1
    refine ⟨ok, hdep u hu, x.atleast1, some d, means_leaf ok.leaf.1 k2, ?_, by rw [Arr.atleast1_size]; exact k3⟩
    exact (evalDr_mono lib h.graph (Nat.le_of_lt hf) o u.l (by rw [k1]; simp)).trans k1) h hi rfl
  have hfr := freeJacs_frame fm md ms o (vs.map Free.fv) h
  obtain ⟨vis, out, ht, _⟩ := C17_tree_iterator_each_once h.graph o (List.range N) (fun j hj => by
    refine List.mem_range.2 (hh.under j ?_)
    induction hj with
    | refl => exact .refl
    | tail _ hbc ih => obtain ⟨k, _, hk⟩ := hbc; exact Anc.trans (.step k hk .refl) ih) fm (by simpa using hN)
  have hds : ∃ ds, (freeJacs fm md ms o (vs.map Free.fv) h).2 = .ok ds ∧
      List.Forall₂ (fun d (b : ℕ × Ent) => d.Rep m b.1 b.2 ∧ d.IsMat) ds (vs.map fun v => (v.size, fun i k => E v i (v.pos k))) := by
    rcases hres with hres | ⟨e, e1, e2, u, hu, e3, _⟩
    · exact hres
    · obtain ⟨d, x, k1, _⟩ := hE u hu
      have := (evalDr_mono lib h.graph (Nat.le_of_lt hf) o u.l (by rw [k1]; simp)).trans k1
      rw [this] at e3; cases e3
  obtain ⟨ds, e1, e2⟩ := hds
  have hne' : ds ≠ [] := by
    rintro rfl
    cases vs with
    | nil => exact hne rfl
    | cons v vs => cases e2
  obtain ⟨d, k1, k2⟩ := hstack_rep hne' e2
  rw [List.map_map, List.map_map] at k2
  have hsum : (vs.map (Prod.fst ∘ fun v : Free => (v.size, fun i k => E v i (v.pos k)))).sum = n := hn
  rw [hsum] at k2
  have hst : stackedJ fm md ms y (vs.map Free.fv) h = (dropDrs out (freeJacs fm md ms o (vs.map Free.fv) h).1, .ok d) := by
    unfold stackedJ
    rw [hh.setup.linkO]
    dsimp only
    rw [mbind_ok e1, hg, ht]
    dsimp only
    rw [k1]
  obtain ⟨b1, b2, b3⟩ := k2.block
  refine ⟨dropDrs out (freeJacs fm md ms o (vs.map Free.fv) h).1, ?_, hh.same ?_ ?_ ?_ ?_ ?_⟩
  · rw [mbind_ok (by rw [hst]), hst]
    unfold asMap
    rw [if_pos ⟨b1, b2⟩]
    show (_, Except.ok _) = _
    rw [matMap_eq fun j i => ?_]
    rw [b3 i i.2 j j.2]
    obtain ⟨w, hw, k, hk, hj⟩ := offsets_find vs 0 (Nat.zero_le j) (by rw [hn]; have := j.2; omega)
    obtain ⟨_, _, _, _, _, hcol⟩ := hE w.1 (mem_offsets hw)
    have h1 := (sideBySide_offsets m (fun v i k => E v i (v.pos k)) vs 0 w hw i k hk).1
    have h2 := hcol w.2 hw k hk (by rw [← hj]; exact j.2) i
    have h3 : (⟨w.2 + k, by rw [← hj]; exact j.2⟩ : Fin n) = j := Fin.ext hj.symm
    rw [h3] at h2
    rw [← h2, ← h1, hj]
    rfl
  · have := OptReach.jac fm md ms y (vs.map Free.fv) hh.reach
    rw [hst] at this; exact this
  · rw [dropDrs_graph, hg]
  · intro j; simp only [dropDrs]; split <;> exact hfr.alive j
  · intro j; simp only [dropDrs]; split <;> exact hfr.itr j
  · exact le_of_eq hfr.giter.symm

/-- The actions do what they should. -/
theorem heapActs_faithful (hnd : (vs.map Free.l).Nodup) (hn : totalSize vs = n) (hne : vs ≠ []) (hdep : ∀ u ∈ vs, u.depth ≤ 1)
    (hfm : enough vs ≤ fm) (hf : f < fm) (hN : N < fm) (disp md ms : Bool) :
    Dog.Faithful (heapActs n m fm disp md ms y (vs.map Free.fv)) (Holds h₀ f N y o vs F F') F F' where
  tryAt v p h hh := by
    obtain ⟨h1, e1, k1, d1⟩ := hh.assign hn p
    obtain ⟨h2, a, e2, e3, e4, k2⟩ := k1.value (Or.inl d1) hnd hn hfm hf
    refine ⟨h2, ?_, k2⟩
    show M.bind _ _ h = _
    rw [mbind_ok (by rw [e1]), e1]
    dsimp only
    rw [mbind_ok (by rw [e2]), e2]
    unfold asVec
    rw [if_pos e3, e4]
    rfl
  putBack v p h hh := by
    obtain ⟨h1, e1, k1, d1⟩ := hh.assign hn p
    obtain ⟨h2, e2, k2⟩ := k1.push hnd hn hfm (which := [nmX]) (by simp)
    refine ⟨h2, ?_, k2⟩
    show M.bind _ _ h = _
    rw [mbind_ok (by rw [e1]), e1]
    exact e2
  callback v h hh := by
    cases disp with
    | false => exact ⟨h, rfl, hh⟩
    | true =>
      obtain ⟨h2, a, e2, e3, e4, k2⟩ := hh.toHasX.value (Or.inr hh.packed) hnd hn hfm hf
      refine ⟨h2, ?_, k2⟩
      show M.bind _ _ h = _
      rw [mbind_ok (by rw [e2]), e2]
      rfl
  jac v h hh := hh.jac hn hne hdep hf hN md ms
  resid v h hh := by
    obtain ⟨h2, a, e2, e3, e4, k2⟩ := hh.toHasX.value (Or.inr hh.packed) hnd hn hfm hf
    refine ⟨h2, ?_, k2⟩
    show M.bind _ _ h = _
    rw [mbind_ok (by rw [e2]), e2]
    unfold asVec
    rw [if_pos e3, e4]
    rfl
  start v h hh := by
    obtain ⟨x, xr, hst, hxs, hxv⟩ := hh.x
    have he : evalReq lib h.graph fm (.r x) = .ok xr := by
      obtain ⟨x0, k1, rfl⟩ := leaf_term hst.leafX hst.valX
      obtain ⟨fm, rfl⟩ : ∃ k, fm = k + 1 := ⟨fm - 1, by omega⟩
      simp [evalReq, hst.leafX.1, chLeaf, evalProg, k1]
    have hr := inv_read_ok hh.reach.inv he
    have hfr := read_pres (s := lib) (rframe_rel (C := ClassDef) (T := Par) (V := Arr) (D := Jac)) fm (.r x) h
    refine ⟨(Chumpy.read lib fm (.r x) h).1, ?_, hh.same ?_ hfr.graph hfr.alive hfr.itr (by rw [hfr.giter])⟩
    · show (match (h.graph y).dterms nmX with | none => _ | some x => _) = _
      rw [hst.linkX]
      dsimp only
      rw [mbind_ok hr]
      unfold asVec
      rw [if_pos hxs]
      show (_, Except.ok _) = _
      congr 2
      refine (WithLp.ofLp_injective 2) (funext fun i => ?_)
      exact hxv i i.2
    · have ha : (h.node x).alive = true := hh.reach.inv.str.child_alive hst.linkX
      have := OptReach.op (.readR fm x) hh.reach trivial
      have e : (step lib (.readR fm x) h).1 = (Chumpy.read lib fm (.r x) h).1 := by
        simp only [step, ifAlive, ha, if_true, M.map']
      rw [e] at this; exact this
end Chumpy
