import Verif.Opt.OnHeap
import Verif.Properties.DoglegEnds
import Verif.Properties.Reduce
/-!
# C86: the dogleg method on the object graph
-/
namespace Chumpy
open scoped BigOperators Topology
open Dog

/-! ## Specification -/

/-- "The objective `o` is the function `F` of the packed vector of the free variables `vs`, with the derivative `F'`": with the stack depth `f`,
in every graph that differs from `g` by a vector `v` distributed over the free variables,
* the value of `o` has the entries of `F v`;
* `dr_wrt` of `o` with respect to the `Ch` under each free variable is a matrix (not `None`), the Jacobian of `o` (this is C18). -/
structure IsFunction {n m : ℕ} (f : ℕ) (o : Id) (vs : List Free) (F : RVec n → RVec m) (F' : RVec n → RVec n →L[ℝ] RVec m)
    (g : Graph ClassDef Par) : Prop where
  value : ∀ (v : RVec n) g', Spread g g' (vecArr [n] v) vs → ∃ a, evalReq lib g' f (.r o) = .ok a ∧ a.size = m ∧ ∀ i : Fin m, a.vec i = F v i
  dr : ∀ (v : RVec n) g', Spread g g' (vecArr [n] v) vs → ∀ u ∈ vs, ∃ d vo vl E, evalDr lib g' f o u.l = .ok (some d) ∧ HasJacobian g' o u.l vo vl E ∧
    d.Rep vo.size vl.size E
  deriv : ∀ v, HasFDerivAt F (F' v) v

/-- `minimize` has built the stacked objective `y` for the objective `o` and the free variables `vs`, which hold `v`, and so does `obj.x`
(optimization_internal.py:120-141).  The objects under the objective are among the first `N`, and `y` is none of them. -/
structure Ready {n : ℕ} (N : ℕ) (y o : Id) (vs : List Free) (v : RVec n) (h : Heap ClassDef Par Arr Jac) : Prop where
  reach : OptReach h
  setup : Setup h y o vs
  nines : 9999 ≤ h.giter ∨ ∀ j, (h.node j).itr ≠ some 9999
  x : ∃ x xr, Stacked h y x o vs xr ∧ xr.size = n ∧ ∀ k (hk : k < n), xr.vec k = v ⟨k, hk⟩
  packed : Packed h.graph vs (vecArr [n] v)
  under : ∀ j, Anc h.graph j o → j < N ∧ j ≠ y

/-- The free variables: there are some, they are different `Ch`s or slices of different `Ch`s, their sizes add up to `n`.  The stack depth `fm`
suffices to reach them, for the objective, and for the objects under it. -/
structure FreeOk (n f fm N : ℕ) (vs : List Free) : Prop where
  nodup : (vs.map Free.l).Nodup
  size : totalSize vs = n
  some : vs ≠ []
  depth : ∀ u ∈ vs, u.depth ≤ 1
  reach : enough vs ≤ fm
  obj : f < fm
  tree : N < fm

/-- `minimize_dogleg` in exact arithmetic on a function of vectors, after `k` turns of its loops (`Verif/Opt/Dogleg.lean`). -/
noncomputable abbrev onVectors {n m : ℕ} (solve : (RVec n →L[ℝ] RVec n) → RVec n → RVec n) (F : RVec n → RVec m) (F' : RVec n → RVec n →L[ℝ] RVec m)
    (opt : DogOpts ℝ) (v : RVec n) (k : ℕ) := Dog.run (realOps solve F F' (fun v _ => v) id) opt v k

/-- `minimize_dogleg` in exact arithmetic on the object graph `h`: the objective and the free variables are only reached by the actions
`heapActs`; an exception ends it (optimization_internal.py:358-455).  The objective, Jacobian and copying in `realOps` are not used. -/
noncomputable abbrev onGraph (n m fm : ℕ) (disp md ms : Bool) (y : Id) (vs : List Free) (solve : (RVec n →L[ℝ] RVec n) → RVec n → RVec n)
    (opt : DogOpts ℝ) (h : Heap ClassDef Par Arr Jac) (k : ℕ) :=
  runM (realOps solve (fun _ => 0) (fun _ => 0) (fun _ w => w) (fun _ => 0)) opt (heapActs n m fm disp md ms y (vs.map Free.fv)) h k

/-! ## Proofs -/

theorem IsFunction.sees {n m f : ℕ} {o : Id} {vs : List Free} {F : RVec n → RVec m} {F' : RVec n → RVec n →L[ℝ] RVec m} {g : Graph ClassDef Par}
    (hF : IsFunction f o vs F F' g) (hok : ∀ u ∈ vs, u.Ok g) (hnd : (vs.map Free.l).Nodup) (hn : totalSize vs = n) : Sees f o vs F F' g := by
  intro v g' hs
  refine ⟨hF.value v g' hs, fun u hu => ?_⟩
  obtain ⟨d, vo, vl, E, e1, e2, e3⟩ := hF.dr v g' hs u hu
  obtain ⟨a, b1, b2, b3⟩ := hF.value v g' hs
  have hvo : vo = a := by
    have := e2.valY.unique ⟨by simp, f, b1⟩
    injection this
  subst hvo
  -- the free variables in `g'`
  have hok' : ∀ u ∈ vs, u.Is g' := by
    intro u hu
    obtain ⟨x0, x1, h1, h2, h3, _⟩ := hs.each u hu
    obtain ⟨x0', h1', hv⟩ := (hok u hu).arr
    rw [h1] at h1'
    obtain rfl : x0 = x0' := by simpa using h1'
    refine Free.Ok.is ⟨?_, ⟨x1, by rw [h2]; simp [withArr], ?_⟩, (hok u hu).inj⟩
    · have := isLeaf_withArr (l := u.l) (x := x1) (hok u hu).leaf
      unfold IsLeaf at this ⊢
      rw [h2]; exact this
    · rw [atleast1_shape h3]
      refine hv.congr fun i hi => hs.other i ?_
      rintro w hw rfl
      exact hi ((hok w hw).leaf.2.1 nmA)
  have hap : Apart vs := by
    have := List.pairwise_map.1 hnd
    exact this.imp fun hne he => absurd he hne
  have hp : Packed g' vs (vecArr [n] v) := by
    refine ⟨by show [n] = _; rw [hn], fun w hw x hx k hk => ?_⟩
    obtain ⟨x0, x1, _, h2, _, h4, _⟩ := hs.each w.1 (mem_offsets hw)
    obtain rfl : x1 = x := by
      rw [h2] at hx
      simpa [withArr] using hx
    exact (h4 w hw rfl k hk).symm
  obtain ⟨x, hx, rfl⟩ := leaf_term (hok' u hu).leaf e2.valW
  refine ⟨d, E, x, e1, hx, by rw [← b2, ← Arr.atleast1_size x]; exact e3, fun p hpm k hk hkn i => ?_⟩
  obtain ⟨Fc, k1, k2⟩ := packedDeriv_of hok' hap hp (w := (u, p)) hpm hk e2
  let e : RVec n := EuclideanSpace.single ⟨p + k, hkn⟩ 1
  have hb : ∀ t : ℝ, bump (vecArr [n] v) (p + k) t = vecArr [n] (v + t • e) := by
    intro t
    unfold bump
    show Arr.of [n] _ = Arr.of [n] _
    refine Arr.of_congr fun q hq => ?_
    have hq' : q < n := by simpa using hq
    rw [vecArr_vec (by simp) v hq', dif_pos hq']
    show _ = v ⟨q, hq'⟩ + t * e ⟨q, hq'⟩
    simp [e]
  have h1 : (fun t => (Fc t).vec i) =ᶠ[𝓝 0] fun t : ℝ => F (v + t • e) i := by
    filter_upwards [k1] with t ht
    obtain ⟨g'', s1, s2, _⟩ := ht
    rw [hb t] at s1
    obtain ⟨b, c1, _, c3⟩ := hF.value _ g'' (hs.trans s1)
    have := Means.unique s2 ⟨by simp, f, c1⟩
    injection this with this
    rw [this, c3]
  have h2 : HasDerivAt (fun t : ℝ => F (v + t • e) i) (F' v e i) 0 := by
    have hc : HasDerivAt (fun t : ℝ => v + t • e) e 0 := by
      have := ((hasDerivAt_id (0 : ℝ)).smul_const e).const_add v
      rw [one_smul] at this
      exact this
    have hd : HasFDerivAt F (F' v) (v + (0 : ℝ) • e) := by
      rw [zero_smul, add_zero]; exact hF.deriv v
    have h3 := hd.comp_hasDerivAt (0 : ℝ) hc
    have h4 := (EuclideanSpace.proj i : RVec m →L[ℝ] ℝ).hasFDerivAt.comp_hasDerivAt (0 : ℝ) h3
    exact h4
  exact (k2 i (by rw [b2]; exact i.2)).unique (h2.congr_of_eventuallyEq h1)

section
variable {n m f fm N : ℕ} {y o : Id} {vs : List Free} {F : RVec n → RVec m} {F' : RVec n → RVec n →L[ℝ] RVec m} {v : RVec n}
  {h h₀ : Heap ClassDef Par Arr Jac}

theorem Ready.holds (hr : Ready N y o vs v h) (hv : FreeOk n f fm N vs) (hF : IsFunction f o vs F F' h.graph) : Holds h f N y o vs F F' v h :=
  ⟨⟨hr.reach, hr.setup, hr.nines, hr.x, hF.sees (fun u hu => (hr.setup.free u hu).1) hv.nodup hv.size, fun ha => (hr.under y ha).2 rfl,
    fun j ha => (hr.under j ha).1, .refl fun u hu => (hr.setup.free u hu).1⟩, hr.packed⟩

/-- From a state that holds the vector. -/
theorem Holds.dogleg (hh : Holds h₀ f N y o vs F F' v h) (hv : FreeOk n f fm N vs) (disp md ms : Bool)
    (solve : (RVec n →L[ℝ] RVec n) → RVec n → RVec n) (opt : DogOpts ℝ) (k : ℕ) :
    ∃ s, onGraph n m fm disp md ms y vs solve opt h k =
        .ok ((onVectors solve F F' opt v k).1, s) ∧
      (onVectors solve F F' opt v k).2 =
        s.re (onVectors solve F F' opt v k).2.world (onVectors solve F F' opt v k).2.calls ∧
      OptReach s.world ∧ Packed s.world.graph vs (vecArr [n] s.p) ∧ Untouched h₀ s.world y vs ∧
      List.Forall₂ (fun p w => OptReach w ∧ Packed w.graph vs (vecArr [n] p)) (onVectors solve F F' opt v k).2.calls s.calls := by
  obtain ⟨s, e, hs⟩ := sim_run (o := realOps solve (fun _ => 0) (fun _ => 0) (fun _ w => w) (fun _ => 0)) (opt := opt)
    (heapActs_faithful hv.nodup hv.size hv.some hv.depth hv.reach hv.obj hv.tree disp md ms) hh k
  have eo : vops (realOps solve (fun _ : Heap ClassDef Par Arr Jac => (0 : RVec m)) (fun _ => 0) (fun _ w => w) (fun _ => 0)) F F' =
    realOps solve F F' (fun v _ => v) id := rfl
  rw [eo] at e hs
  refine ⟨s, e, hs.same, hs.world.reach, ?_, hs.world.untouched, hs.calls.imp fun _ _ hh => ⟨hh.reach, hh.packed⟩⟩
  have hw := (C47_dogleg_returns_last_accepted (realOps solve F F' (fun v _ => v) id) (fun _ _ _ => rfl) opt v k).2
  have hp : (onVectors solve F F' opt v k).2.p = s.p := by rw [hs.same]; rfl
  have hw' : (onVectors solve F F' opt v k).2.world = s.p := hw.trans hp
  rw [← hw']
  exact hs.world.packed

/-- What holds again afterwards. -/
theorem Holds.dogleg_holds (hh : Holds h₀ f N y o vs F F' v h) (hv : FreeOk n f fm N vs) (disp md ms : Bool)
    (solve : (RVec n →L[ℝ] RVec n) → RVec n → RVec n) (opt : DogOpts ℝ) (k : ℕ) :
    ∃ s, onGraph n m fm disp md ms y vs solve opt h k = .ok ((onVectors solve F F' opt v k).1, s) ∧ Holds h₀ f N y o vs F F' s.p s.world := by
  obtain ⟨s, e, hs⟩ := sim_run (o := realOps solve (fun _ => 0) (fun _ => 0) (fun _ w => w) (fun _ => 0)) (opt := opt)
    (heapActs_faithful hv.nodup hv.size hv.some hv.depth hv.reach hv.obj hv.tree disp md ms) hh k
  have eo : vops (realOps solve (fun _ : Heap ClassDef Par Arr Jac => (0 : RVec m)) (fun _ => 0) (fun _ w => w) (fun _ => 0)) F F' =
    realOps solve F F' (fun v _ => v) id := rfl
  rw [eo] at e hs
  refine ⟨s, e, ?_⟩
  have hw := (C47_dogleg_returns_last_accepted (realOps solve F F' (fun v _ => v) id) (fun _ _ _ => rfl) opt v k).2
  have hp : (onVectors solve F F' opt v k).2.p = s.p := by rw [hs.same]; rfl
  have hw' : (onVectors solve F F' opt v k).2.world = s.p := hw.trans hp
  rw [← hw']
  exact hs.world

/-! ## The property -/

/-- C86.  After any history, `minimize_dogleg` on the caching object graph never raises, and after every number `k` of turns of its loops
* it is at the same place, with the same numbers (parameters, residual, gradient, trust radius, iterations, evaluations, `done`), as the dogleg
  method run on the mathematical function `F` and its derivative from the vector `v`: every value and Jacobian it got from the graph was that
  of the point it asked about;
* nothing else has changed but the stacked objective itself: every other object is what it was, and so are the entries of the `Ch`s under the free
  variables that are in no free variable;
* the free variables hold its parameters, and each time the callback was called they held what the mathematical method held then. -/
theorem C86_dogleg_on_the_graph (hr : Ready N y o vs v h) (hv : FreeOk n f fm N vs) (hF : IsFunction f o vs F F' h.graph) (disp md ms : Bool)
    (solve : (RVec n →L[ℝ] RVec n) → RVec n → RVec n) (opt : DogOpts ℝ) (k : ℕ) :
    ∃ s, onGraph n m fm disp md ms y vs solve opt h k =
        .ok ((onVectors solve F F' opt v k).1, s) ∧
      (onVectors solve F F' opt v k).2 =
        s.re (onVectors solve F F' opt v k).2.world (onVectors solve F F' opt v k).2.calls ∧
      OptReach s.world ∧ Packed s.world.graph vs (vecArr [n] s.p) ∧ Untouched h s.world y vs ∧
      List.Forall₂ (fun p w => OptReach w ∧ Packed w.graph vs (vecArr [n] p)) (onVectors solve F F' opt v k).2.calls s.calls :=
  (hr.holds hv hF).dogleg hv disp md ms solve opt k

/-- C86, improvements: the callback sees strictly decreasing sums of squares, and the free variables are left at a vector at which the sum of
squares is at most what it was at the start. -/
theorem C86_graph_improves (hr : Ready N y o vs v h) (hv : FreeOk n f fm N vs) (hF : IsFunction f o vs F F' h.graph) (disp md ms : Bool)
    (solve : (RVec n →L[ℝ] RVec n) → RVec n → RVec n) (opt : DogOpts ℝ) (k : ℕ) :
    ∃ pc s, onGraph n m fm disp md ms y vs solve opt h k =
        .ok (pc, s) ∧
      (∃ ps : List (RVec n), List.Forall₂ (fun p w => Packed w.graph vs (vecArr [n] p)) ps s.calls ∧ ps.Pairwise fun new old => ‖F new‖ ^ 2 < ‖F old‖ ^ 2) ∧
      Packed s.world.graph vs (vecArr [n] s.p) ∧ ‖F s.p‖ ^ 2 ≤ ‖F v‖ ^ 2 := by
  obtain ⟨s, e, h1, h2, h3, _, h4⟩ := C86_dogleg_on_the_graph hr hv hF disp md ms solve opt k
  obtain ⟨i1, i2⟩ := C46_dogleg_accepts_improvements_real (n := n) (m := m) (W := RVec n) solve F F' (fun v _ => v) id (fun _ _ _ => rfl) (fun _ => rfl) opt v k
  refine ⟨_, s, e, ⟨_, h4.imp fun _ _ hh => hh.2, i1⟩, h3, ?_⟩
  have hw := (C47_dogleg_returns_last_accepted (realOps solve F F' (fun v _ => v) id) (fun _ _ _ => rfl) opt v k).2
  have hp : (onVectors solve F F' opt v k).2.p = s.p := by rw [h1]; rfl
  have hw' : (onVectors solve F F' opt v k).2.world = s.p := hw.trans hp
  rw [hw'] at i2
  exact i2

/-- C86, end: with a positive `e_1` and `e_2` not negative (the defaults), `minimize_dogleg` on the object graph ends. -/
theorem C86_graph_terminates (hr : Ready N y o vs v h) (hv : FreeOk n f fm N vs) (hF : IsFunction f o vs F F' h.graph) (disp md ms : Bool)
    (solve : (RVec n →L[ℝ] RVec n) → RVec n → RVec n) (opt : DogOpts ℝ) (he1 : 0 < opt.e1) (he2 : 0 ≤ opt.e2) :
    ∃ k s, onGraph n m fm disp md ms y vs solve opt h k =
      .ok (.halt, s) := by
  obtain ⟨k, hk⟩ := C50_terminates_partial solve F F' (fun v _ => v) id F (fun _ => rfl) (fun w => hF.deriv w) (fun _ _ => rfl) (fun _ _ _ => rfl)
    opt he1 he2 v
  obtain ⟨s, e, _⟩ := C86_dogleg_on_the_graph hr hv hF disp md ms solve opt k
  rw [hk] at e
  exact ⟨k, s, e⟩
end

/-! ## A case -/

namespace ADDemo

/-- `a = Ch([1, 2])`, `SumOfSquares(a)` and the stacked objective. -/
noncomputable def bowlOs : List (ObjSpec ClassDef Par) := [leafO ⟨[2], ![1, 2]⟩, unO chSumSq 0, ⟨chStacked, [nmX, nmObj], [.link nmObj 1]⟩]

def bowlFree : Free := ⟨0, 0, 0, [2], fun k => k⟩

/-- The sum of squares. -/
noncomputable def bowl (v : RVec 2) : RVec 1 := WithLp.toLp 2 fun _ => ∑ k, v k ^ 2

noncomputable def bowlAt : RVec 2 := WithLp.toLp 2 ![1, 2]

theorem bowl_deriv (v : RVec 2) : HasFDerivAt bowl (matMap 2 1 fun _ j => if h : j < 2 then 2 * v ⟨j, h⟩ else 0) v := by
  let E : Ent := fun _ j => if h : j < 2 then 2 * v ⟨j, h⟩ else 0
  have h1 : ∀ k : Fin 2, HasFDerivAt (fun v : RVec 2 => v k ^ 2) ((2 * v k) • (EuclideanSpace.proj k : RVec 2 →L[ℝ] ℝ)) v := by
    intro k
    have := ((EuclideanSpace.proj k : RVec 2 →L[ℝ] ℝ).hasFDerivAt (x := v)).pow 2
    refine this.congr_fderiv ?_
    ext w
    simp
  have h2 : HasFDerivAt (fun v : RVec 2 => ∑ k, v k ^ 2) (∑ k : Fin 2, (2 * v k) • (EuclideanSpace.proj k : RVec 2 →L[ℝ] ℝ)) v :=
    HasFDerivAt.fun_sum fun k _ => h1 k
  have h3 : HasFDerivAt (fun v : RVec 2 => fun _ : Fin 1 => ∑ k, v k ^ 2)
      (Ent.lin 1 2 E ∘L (EuclideanSpace.equiv (Fin 2) ℝ).toContinuousLinearMap) v := by
    refine hasFDerivAt_pi'.2 fun i => h2.congr_fderiv ?_
    ext w
    show _ = Ent.lin 1 2 E w.ofLp i
    rw [Ent.lin_apply]
    simp [E]
  exact ((EuclideanSpace.equiv (Fin 1) ℝ).symm.toContinuousLinearMap.hasFDerivAt).comp v h3

/-- The sum of squares is this function. -/
theorem bowl_function {g : Graph ClassDef Par} (l0 : IsLeaf g 0) (t0 : (g 0).terms nmX = some (.arr ⟨[2], ![1, 2]⟩))
    (g1 : g 1 = (unO chSumSq 0).node) :
    IsFunction 5 1 [bowlFree] bowl (fun v => matMap 2 1 fun _ j => if h : j < 2 then 2 * v ⟨j, h⟩ else 0) g := by
  have key : ∀ (v : RVec 2) g', Spread g g' (vecArr [2] v) [bowlFree] → ∃ x : Arr, x.size = 2 ∧ (∀ k (hk : k < 2), x.vec k = v ⟨k, hk⟩) ∧
      IsLeaf g' 0 ∧ (g' 0).terms nmX = some (.arr x) ∧ x.atleast1 = x ∧ IsA g' 1 chSumSq [nmA] (fun _ => 0) ∧ g' 1 = (unO chSumSq 0).node := by
    intro v g' hs
    obtain ⟨x0, x1, a1, a2, a3, a4, _⟩ := hs.each bowlFree (by simp)
    have a1' : (g 0).terms nmX = some (.arr x0) := a1
    rw [t0] at a1'
    obtain rfl : (⟨[2], ![1, 2]⟩ : Arr) = x0 := by simpa using a1'
    have hg0 : g' 0 = withArr g 0 x1 0 := a2
    have e1 : g' 1 = (unO chSumSq 0).node := by
      rw [hs.other 1 (by intro v hv; obtain rfl : v = bowlFree := by simpa using hv
                         decide), g1]
    refine ⟨x1, by unfold Arr.size; rw [a3]; rfl, fun k hk => ?_, ?_, by rw [hg0]; simp [withArr], atleast1_of_ne (by rw [a3]; simp), isA_un e1, e1⟩
    · have h1 := a4 (bowlFree, 0) (by simp [offsets]) rfl k hk
      have h2 : x1.vec k = (vecArr [2] v).vec (0 + k) := h1
      rw [h2, Nat.zero_add, vecArr_vec (by simp) v hk]
    · have := isLeaf_withArr (l := 0) (x := x1) l0
      unfold IsLeaf at this ⊢
      rw [hg0]; exact this
  refine ⟨fun v g' hs => ?_, fun v g' hs u hu => ?_, fun v => bowl_deriv v⟩
  · obtain ⟨x, h1, h2, h3, h4, h5, h6, h7⟩ := key v g' hs
    have hk : (g' 1).dterms nmA = some 0 := h6.kid (0 : Fin 1)
    refine ⟨Arr.of [1] fun _ => ∑ k ∈ Finset.range x.size, x.vec k ^ 2, ?_, rfl, fun i => ?_⟩
    · simp [evalReq, h6.cls, lib, chSumSq, evalProg, hk, h3.1, chLeaf, h4, h5]
    · rw [Arr.vec_of _ _ (by have := i.2; simp), h1, Finset.sum_range_succ, Finset.sum_range_succ, Finset.sum_range_zero, zero_add,
        h2 0 (by decide), h2 1 (by decide)]
      simp [bowl, Fin.sum_univ_two]
  · obtain rfl : u = bowlFree := by simpa using hu
    obtain ⟨x, h1, h2, h3, h4, h5, h6, h7⟩ := key v g' hs
    have hk : (g' 1).dterms nmA = some 0 := h6.kid (0 : Fin 1)
    have m0 : Means lib g' (.r 0) (.ok x) := by rw [← h5]; exact means_leaf h3.1 h4
    have hid : HasJacobian g' 0 0 x x Ent.one := ⟨m0, m0, fun t => t, Filter.Eventually.of_forall fun t => means_setTo _ _ _, by
      rw [Ent.lin_one]; exact hasFDerivAt_id _⟩
    have hE := exact_sumSq (tm := (g' 1).terms) (v := x)
    have hJ := HasJacobian.un h6 hE (by decide) hid
    have hc : evalCompDr lib g' 4 1 0 = .ok (some (.dense 1 x.size fun _ j => x.vec j * 2)) := by
      unfold evalCompDr
      rw [h6.cls, namesOf_one h6]
      simp [lib, chSumSq, evalProg, hk, evalReq, h3.1, chLeaf, h4, h5]
    refine ⟨Jac.finish (.dense 1 x.size fun _ j => x.vec j * 2), _, _, _, ?_, hJ, Jac.finish_rep ⟨rfl, rfl, fun i hi j hj => ?_⟩⟩
    · show evalDr lib g' 5 1 0 = _
      have hmd : (g' 1).makeDense = false ∧ (g' 1).makeSparse = false := by rw [h7]; exact ⟨rfl, rfl⟩
      simp [evalDr, evalSliced, hc, evalTerms, h6.dnames, hk, sumD, hmd.1, hmd.2]
      rfl
    · exact (Ent.mul_one (m := 1) (n := x.size) (fun _ j => x.vec j * 2) i hi j hj).symm

/-- The hypotheses of C86 are met. -/
theorem bowl_ready : ∃ h, Ready 2 2 1 [bowlFree] bowlAt h ∧ FreeOk 2 5 10 2 [bowlFree] ∧
    IsFunction 5 1 [bowlFree] bowl (fun v => matMap 2 1 fun _ j => if h : j < 2 then 2 * v ⟨j, h⟩ else 0) h.graph := by
  obtain ⟨h, hr, hn, hg, hj, hu⟩ := built_untagged bowlOs ⟨leafO_fits _ _, unO_fits (by decide), ⟨by simp [KW.Earlier], fun hp => by cases hp⟩, trivial⟩
  have hu := hu (by simp [bowlOs, leafO, unO])
  have g0 := hj 0 (by simp [bowlOs])
  have g1 := hj 1 (by simp [bowlOs])
  have g2 := hj 2 (by simp [bowlOs])
  have hn : h.next = 3 := hn
  have l0 : IsLeaf h.graph 0 := isLeaf_leafO g0.2
  have t0 : (h.graph 0).terms nmX = some (.arr ⟨[2], ![1, 2]⟩) := by rw [g0.2]; rfl
  have hs : Setup h 2 1 [bowlFree] := by
    refine ⟨g2.1, by rw [g2.2]; rfl, by rw [g2.2]; rfl, by rw [g2.2]; rfl, fun v hv => ?_, Or.inl (by rw [hg]; decide)⟩
    obtain rfl : v = bowlFree := by simpa using hv
    exact ⟨⟨l0, ⟨_, t0, .leaf⟩, fun i _ j _ e => e⟩, g0.1⟩
  obtain ⟨h1, e, r1, st, d1, c1, lo, gs⟩ := assign_x (optReach_of_reach hr) hs (xv := ⟨[2], ![1, 2]⟩) (by decide)
  obtain ⟨h1', e', _, t1, al, gN, gY, gO, _, i1⟩ := wrap_state (s := lib) (reach_str hr) g2.1 (k := nmX) (by rw [hs.dnames]; simp) (.arr ⟨[2], ![1, 2]⟩)
  have ee : setObj lib 2 [.wrap nmX (.arr ⟨[2], ![1, 2]⟩)] h = (h1', .ok ()) := by
    unfold setObj
    rw [if_pos g2.1]
    exact e'
  obtain rfl : h1 = h1' := by rw [e] at ee; exact congrArg Prod.fst ee
  have hni : ∀ j, (h1.node j).itr ≠ some 9999 := fun j => by
    rcases i1 j with h | h
    · rw [h]; simp
    · rw [h, hu]; simp
  have k0 : h1.graph 0 = h.graph 0 := gs 0 (by rw [hn]; decide) (by decide)
  have k1 : h1.graph 1 = h.graph 1 := gs 1 (by rw [hn]; decide) (by decide)
  have l0' : IsLeaf h1.graph 0 := (st.free bowlFree (by simp)).1.leaf
  have t0' : (h1.graph 0).terms nmX = some (.arr ⟨[2], ![1, 2]⟩) := by rw [k0]; exact t0
  refine ⟨h1, ⟨r1, ⟨?_, c1, ?_, lo, fun u hu => ⟨(st.free u hu).1, (st.free u hu).2.1⟩, Or.inr hni⟩, Or.inr hni, ⟨_, _, st, rfl, ?_⟩, ⟨rfl, ?_⟩, ?_⟩, ?_,
    bowl_function l0' t0' (by rw [k1]; exact g1.2)⟩
  · rw [al, if_neg (by rw [hn]; decide)]; exact g2.1
  · rw [gY]; exact hs.dnames
  · intro k hk
    rw [Arr.atleast1_vec]
    rcases (by omega : k = 0 ∨ k = 1) with rfl | rfl <;> simp [Arr.vec, bowlAt]
  · intro w hw a ha k hk
    obtain rfl : w = (bowlFree, 0) := by simpa [offsets] using hw
    have ha' : (h1.graph 0).terms nmX = some (.arr a) := ha
    rw [t0'] at ha'
    obtain rfl : (⟨[2], ![1, 2]⟩ : Arr) = a := by simpa using ha'
    have hk' : k < 2 := hk
    show (vecArr [2] bowlAt).vec (0 + k) = _
    rw [Nat.zero_add, vecArr_vec (by simp) _ hk']
    rcases (by omega : k = 0 ∨ k = 1) with rfl | rfl <;> simp [Arr.vec, bowlAt, bowlFree]
  · intro j ha
    cases ha with
    | refl => exact ⟨by decide, by decide⟩
    | step k hk hb =>
      have g1' : h.graph 1 = (unO chSumSq 0).node := g1.2
      rw [k1, g1'] at hk
      simp only [ObjSpec.node, unO, List.foldl, GNode.assign] at hk
      split at hk
      · injection hk with hk
        subst hk
        rw [leaf_anc l0' hb]
        exact ⟨by decide, by decide⟩
      · cases hk
  · exact ⟨by decide, rfl, by simp, by simp [bowlFree], by decide, by decide, by decide⟩

/-- So the dogleg method on that graph ends, at a vector that is not worse than `[1, 2]`. -/
example (solve : (RVec 2 →L[ℝ] RVec 2) → RVec 2 → RVec 2) (opt : DogOpts ℝ) (he1 : 0 < opt.e1) (he2 : 0 ≤ opt.e2) : ∃ h k s,
    onGraph 2 1 10 false true false 2 [bowlFree] solve opt h k = .ok (.halt, s) ∧ Packed s.world.graph [bowlFree] (vecArr [2] s.p) ∧
      ‖bowl s.p‖ ^ 2 ≤ ‖bowl bowlAt‖ ^ 2 := by
  obtain ⟨h, hr, hv, hF⟩ := bowl_ready
  obtain ⟨k, s, e⟩ := C86_graph_terminates hr hv hF false true false solve opt he1 he2
  obtain ⟨pc, s', e', _, h1, h2⟩ := C86_graph_improves hr hv hF false true false solve opt k
  rw [e] at e'
  injection e' with e'
  injection e' with _ e'
  subst e'
  exact ⟨h, k, s, e, h1, h2⟩

end ADDemo
end Chumpy
