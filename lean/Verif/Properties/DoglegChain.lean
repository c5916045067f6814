import Verif.Properties.NoFail
/-!
# C86 with the chain rule

In C86 the objective is a differentiable function of the free variables by hypothesis (`IsFunction`).  For one free variable that is a whole `Ch` this
follows from C18: if each object between the objective and the variable returns its true partial Jacobians, at every value of the variable, then
`dr_wrt` is the derivative.
-/
namespace Chumpy
open scoped BigOperators Topology
open Dog

/-- The `Ch` `l`, of shape `sh`, as a free variable. -/
def wholeCh (l : Id) (sh : List ℕ) : Free := ⟨l, l, 0, sh, fun k => k⟩

/-- With the stack depth `f`, whatever array `x` of its shape the `Ch` `l` holds:
* the objective `o` has a value, of `m` entries;
* `o.dr_wrt(l)` returns a matrix (not `None`);
* the objects between `o` and `l` return their true partial Jacobians, and the graph is of the kind C18 is about. -/
structure SmoothIn (f m : ℕ) (o l : Id) (x0 : Arr) (g : Graph ClassDef Par) : Prop where
  value : ∀ x : Arr, x.shape = x0.shape → ∃ a, evalReq lib (withArr g l x) f (.r o) = .ok a ∧ a.size = m
  dr : ∀ x : Arr, x.shape = x0.shape → ∃ d, evalDr lib (withArr g l x) f o l = .ok (some d)
  chain : ∀ x : Arr, x.shape = x0.shape → ChainOk lib (withArr g l x) o l
  correct : ∀ x : Arr, x.shape = x0.shape → ∀ i, Reaches (withArr g l x) o i → i ≠ l → Correct (withArr g l x) l i

section
variable {f n m : ℕ} {o l : Id} {x0 : Arr} {g : Graph ClassDef Par}

/-- Values and derivatives at every point make a differentiable function. -/
theorem isFunction_of_jacobians (hl : IsLeaf g l) (hx : (g l).terms nmX = some (.arr x0)) (hn : x0.size = n)
    (H : ∀ x : Arr, x.shape = x0.shape → ∃ a d E, evalReq lib (withArr g l x) f (.r o) = .ok a ∧ a.size = m ∧
      evalDr lib (withArr g l x) f o l = .ok (some d) ∧ HasJacobian (withArr g l x) o l a x.atleast1 E ∧ d.Rep a.size x.atleast1.size E) :
    ∃ (F : RVec n → RVec m) (F' : RVec n → RVec n →L[ℝ] RVec m), IsFunction f o [wholeCh l x0.atleast1.shape] F F' g := by
  let X : RVec n → Arr := fun v => vecArr x0.shape v
  have hX : ∀ v k, (hk : k < n) → (X v).vec k = v ⟨k, hk⟩ := fun v k hk => vecArr_vec hn v hk
  choose a d E h1 h2 h3 h4 h5 using fun v : RVec n => H (X v) rfl
  -- the graphs that differ by a vector
  have hg : ∀ (v : RVec n) g', Spread g g' (vecArr [n] v) [wholeCh l x0.atleast1.shape] → g' = withArr g l (X v) := by
    intro v g' hs
    obtain ⟨y0, y1, e1, e2, e3, e4, _⟩ := hs.each (wholeCh l x0.atleast1.shape) (by simp)
    have e1' : (g l).terms nmX = some (.arr y0) := e1
    rw [hx] at e1'
    obtain rfl : x0 = y0 := by simpa using e1'
    have hy : y1 = X v := by
      refine Arr.ext_vec e3 fun k hk => ?_
      have hk' : k < n := by
        have : k < y1.shape.prod := hk
        rw [e3] at this
        rw [← hn]; exact this
      have hs1 : (wholeCh l x0.atleast1.shape).size = n := by
        show x0.atleast1.size = n
        rw [Arr.atleast1_size, hn]
      have := e4 (wholeCh l x0.atleast1.shape, 0) (by simp [offsets]) rfl k (by rw [hs1]; exact hk')
      have h6 : y1.vec k = (vecArr [n] v).vec (0 + k) := this
      rw [h6, Nat.zero_add, vecArr_vec (by simp) v hk', hX v k hk']
    funext j
    by_cases hj : j = l
    · subst hj
      rw [← hy]; exact e2
    · rw [hs.other j (by intro u hu; obtain rfl : u = wholeCh l x0.atleast1.shape := by simpa using hu
                         exact hj), withArr_other hj]
  refine ⟨fun v => WithLp.toLp 2 fun i : Fin m => (a v).vec i, fun v => matMap n m (E v), ?_, ?_, ?_⟩
  · intro v g' hs
    rw [hg v g' hs]
    exact ⟨a v, h1 v, h2 v, fun i => rfl⟩
  · intro v g' hs u hu
    obtain rfl : u = wholeCh l x0.atleast1.shape := by simpa using hu
    rw [hg v g' hs]
    exact ⟨d v, a v, (X v).atleast1, E v, h3 v, h4 v, h5 v⟩
  · intro v
    obtain ⟨F₀, ev, hd⟩ := (h4 v).deriv
    have hsz : (X v).atleast1.size = n := by rw [Arr.atleast1_size]; exact hn
    let Φ : RVec n →L[ℝ] (Fin (X v).atleast1.size → ℝ) := ContinuousLinearMap.pi fun k => (EuclideanSpace.proj (Fin.cast hsz k) : RVec n →L[ℝ] ℝ)
    have hΦ : ∀ w k, Φ w k = w (Fin.cast hsz k) := fun w k => rfl
    have hput : ∀ w, (X w).atleast1 = (X v).atleast1.put (Φ w) := by
      intro w
      refine Arr.ext_vec (atleast1_shape rfl) fun k hk => ?_
      have hk1 : k < (X v).atleast1.size := hk
      have hk' : k < n := by rw [← hsz]; exact hk1
      rw [Arr.atleast1_vec, hX w k hk', show ((X v).atleast1.put (Φ w)).vec k = Φ w ⟨k, hk1⟩ from Arr.vec_put _ _ ⟨k, hk1⟩]
      rfl
    have hdata : (X v).atleast1.data = Φ v := by
      have := hput v
      exact eq_of_heq (Arr.mk.inj (show (⟨_, (X v).atleast1.data⟩ : Arr) = ⟨(X v).atleast1.shape, Φ v⟩ from this)).2
    rw [hdata] at ev hd
    have hcont : Filter.Tendsto Φ (𝓝 v) (𝓝 (Φ v)) := Φ.continuous.tendsto v
    have hev : ∀ᶠ w in 𝓝 v, a w = (a v).put (F₀ (Φ w)) := by
      filter_upwards [hcont.eventually ev] with w hw
      have hm : Means lib (withArr g l (X w)) (.r o) (.ok ((a v).put (F₀ (Φ w)))) := by
        refine means_other (w := l) (vw := (X v).atleast1.put (Φ w)) (fun i hi => ?_) (means_setTo _ _ _) ?_ hw
        · rw [withArr_other hi]; simp [setTo, hi, withArr_other hi]
        · rw [← hput w]
          exact means_leaf (isLeaf_withArr hl).1 (by unfold withArr; rw [if_pos rfl]; rfl)
      have := Means.unique hm ⟨by simp, f, h1 w⟩
      injection this with this
      exact this.symm
    have hcomp : ∀ i : Fin m, HasFDerivAt (fun w : RVec n => (a w).vec i) ((ContinuousLinearMap.proj i : (Fin m → ℝ) →L[ℝ] ℝ) ∘L
        (Ent.lin m n (E v) ∘L (EuclideanSpace.equiv (Fin n) ℝ).toContinuousLinearMap)) v := by
      intro i
      have hi : (i : ℕ) < (a v).size := by rw [h2 v]; exact i.2
      have e1 := (hasFDerivAt_pi'.1 (hd.comp v Φ.hasFDerivAt)) ⟨i, hi⟩
      have e2 : (fun w : RVec n => (a w).vec i) =ᶠ[𝓝 v] fun w => (F₀ ∘ Φ) w ⟨i, hi⟩ := by
        filter_upwards [hev] with w hw
        rw [hw]
        exact Arr.vec_put _ _ ⟨i, hi⟩
      refine (e1.congr_of_eventuallyEq e2).congr_fderiv ?_
      ext w
      show Ent.lin (a v).size (X v).atleast1.size (E v) (Φ w) ⟨i, hi⟩ = Ent.lin m n (E v) w.ofLp i
      rw [Ent.lin_apply, Ent.lin_apply]
      exact Fintype.sum_equiv (finCongr hsz) _ _ fun j => rfl
    have := hasFDerivAt_pi'.2 hcomp
    exact ((EuclideanSpace.equiv (Fin m) ℝ).symm.toContinuousLinearMap.hasFDerivAt).comp v this

/-- C18 makes the objective a differentiable function of the variable. -/
theorem SmoothIn.isFunction (hs : SmoothIn f m o l x0 g) (hl : IsLeaf g l) (hx : (g l).terms nmX = some (.arr x0)) (hn : x0.size = n) (hol : o ≠ l) :
    ∃ (F : RVec n → RVec m) (F' : RVec n → RVec n →L[ℝ] RVec m), IsFunction f o [wholeCh l x0.atleast1.shape] F F' g := by
  refine isFunction_of_jacobians hl hx hn fun x hsh => ?_
  obtain ⟨a, e1, e2⟩ := hs.value x hsh
  obtain ⟨d, e3⟩ := hs.dr x hsh
  have hm : Means lib (withArr g l x) (.r l) (.ok x.atleast1) :=
    means_leaf (isLeaf_withArr hl).1 (by unfold withArr; rw [if_pos rfl]; rfl)
  obtain ⟨vy, E, hJ, hR⟩ := jacobian (hs.chain x hsh) hm (hs.correct x hsh) hol ⟨by simp, f, e3⟩
  have : vy = a := by
    have := hJ.valY.unique ⟨by simp, f, e1⟩
    injection this
  subst this
  exact ⟨vy, d, E, e1, e2, e3, hJ, hR⟩
end

section
variable {f fm n m : ℕ} {o l : Id} {vs : List Free} {x0 : Arr} {F : RVec n → RVec m} {F' : RVec n → RVec n →L[ℝ] RVec m} {h : Heap ClassDef Par Arr Jac}

/-- C86 in terms of `objective.r`: `minimize` with the dogleg method ends, and the sum of squares of `objective.r` afterwards is at most what it was
before the call.  (That `.r` is this value, whatever has been cached, is C01.) -/
theorem C86_objective_decreases (hc : Called o vs h) (hv : FreeOk n f fm h.next vs) (hF : IsFunction f o vs F F' h.graph) (flip disp md ms : Bool)
    (solve : (RVec n →L[ℝ] RVec n) → RVec n → RVec n) (opt : DogOpts ℝ) (he1 : 0 < opt.e1) (he2 : 0 ≤ opt.e2) :
    ∃ (k : ℕ) (s : DogState ℝ (RVec n) (RVec m) (RVec n →L[ℝ] RVec m) (RVec n →L[ℝ] RVec n) (Heap ClassDef Par Arr Jac)) (before after : Arr),
      minimizeDogleg n m fm flip disp md ms o (vs.map Free.fv) solve opt h k = .ok (h.next, .halt, s) ∧
      OptReach s.world ∧ Means lib h.graph (.r o) (.ok before) ∧ Means lib s.world.graph (.r o) (.ok after) ∧ before.size = m ∧ after.size = m ∧
      ∑ i ∈ Finset.range m, after.vec i ^ 2 ≤ ∑ i ∈ Finset.range m, before.vec i ^ 2 ∧ Untouched h s.world h.next vs := by
  obtain ⟨v, hp, hk⟩ := C86_minimize hc hv hF flip disp md ms solve opt
  obtain ⟨k, hh⟩ := C50_terminates_partial solve F F' (fun v _ => v) id F (fun _ => rfl) (fun w => hF.deriv w) (fun _ _ => rfl) (fun _ _ _ => rfl)
    opt he1 he2 v
  obtain ⟨s, e, h1, h2, h3, h5, _⟩ := hk k
  obtain ⟨_, i2⟩ := C46_dogleg_accepts_improvements_real (n := n) (m := m) (W := RVec n) solve F F' (fun v _ => v) id (fun _ _ _ => rfl) (fun _ => rfl) opt v k
  have hw := (C47_dogleg_returns_last_accepted (realOps solve F F' (fun v _ => v) id) (fun _ _ _ => rfl) opt v k).2
  have hps : (onVectors solve F F' opt v k).2.p = s.p := by rw [h1]; rfl
  have hw' : (onVectors solve F F' opt v k).2.world = s.p := hw.trans hps
  rw [hw'] at i2
  rw [hh] at e
  have hS := hF.sees (fun u hu => (hc.free u hu).1) hv.nodup hv.size
  obtain ⟨a0, a1, a2, a3⟩ := (hS v h.graph (spread_self (fun u hu => (hc.free u hu).1) hp)).1
  -- the objective is still this function
  obtain ⟨h', e0, hh0, _⟩ := setup_holds hc.reach hc.tags hc.obj hc.free hc.distinct hv.size hv.reach hS flip hp
  obtain ⟨s1, e1, hH⟩ := hh0.dogleg_holds hv disp md ms solve opt k
  have es : s1 = s := by
    have e1' : runM _ _ _ _ _ = _ := e1
    have e' := e
    unfold minimizeDogleg at e'
    rw [e0] at e'
    dsimp only at e'
    rw [e1'] at e'
    injection e' with e'
    injection e' with _ e'
    injection e' with _ e'
  subst es
  obtain ⟨b0, b1, b2, b3⟩ := (hH.sees s1.p s1.world.graph (spread_self (fun u hu => (hH.setup.free u hu).1) hH.packed)).1
  have sq : ∀ (a : Arr) (w : RVec n), (∀ i : Fin m, a.vec i = F w i) → ∑ i ∈ Finset.range m, a.vec i ^ 2 = ‖F w‖ ^ 2 := by
    intro a w hw
    rw [EuclideanSpace.norm_sq_eq, ← Fin.sum_univ_eq_sum_range (fun i => a.vec i ^ 2)]
    refine Finset.sum_congr rfl fun i _ => ?_
    rw [hw i, Real.norm_eq_abs, sq_abs]
  exact ⟨k, s1, a0, b0, e, h2, ⟨by simp, f, a1⟩, ⟨by simp, f, b1⟩, a2, b2, by rw [sq _ _ b3, sq _ _ a3]; exact i2, h5⟩

/-- C86 with C18: for an objective all of whose parts return their true partial Jacobians, `minimize` over one `Ch` ends, and has not made the sum
of squares of the objective larger.  Nothing is assumed of the function the objective computes. -/
theorem C86_chain_rule_ends (hc : Called o [wholeCh l x0.atleast1.shape] h) (hx : (h.graph l).terms nmX = some (.arr x0)) (hn : x0.size = n)
    (hol : o ≠ l) (hs : SmoothIn f m o l x0 h.graph) (hd1 : 5 ≤ fm) (hd2 : f < fm) (hd3 : h.next < fm) (flip disp md ms : Bool)
    (solve : (RVec n →L[ℝ] RVec n) → RVec n → RVec n) (opt : DogOpts ℝ) (he1 : 0 < opt.e1) (he2 : 0 ≤ opt.e2) :
    ∃ (k : ℕ) (s : DogState ℝ (RVec n) (RVec m) (RVec n →L[ℝ] RVec m) (RVec n →L[ℝ] RVec n) (Heap ClassDef Par Arr Jac)) (before after : Arr),
      minimizeDogleg n m fm flip disp md ms o [l] solve opt h k = .ok (h.next, .halt, s) ∧
      OptReach s.world ∧ Means lib h.graph (.r o) (.ok before) ∧ Means lib s.world.graph (.r o) (.ok after) ∧ before.size = m ∧ after.size = m ∧
      ∑ i ∈ Finset.range m, after.vec i ^ 2 ≤ ∑ i ∈ Finset.range m, before.vec i ^ 2 ∧ Untouched h s.world h.next [wholeCh l x0.atleast1.shape] := by
  obtain ⟨F, F', hF⟩ := hs.isFunction (hc.free (wholeCh l x0.atleast1.shape) (by simp)).1.leaf hx hn hol
  refine C86_objective_decreases hc ⟨by simp, ?_, by simp, ?_, ?_, hd2, hd3⟩ hF flip disp md ms solve opt he1 he2
  · show x0.atleast1.size + 0 = n
    rw [Nat.add_zero, Arr.atleast1_size, hn]
  · intro u hu
    obtain rfl : u = wholeCh l x0.atleast1.shape := by simpa using hu
    exact Nat.zero_le _
  · refine le_trans ?_ hd1
    simp [enough, wholeCh]
end

namespace ADDemo
/-- `a = Ch(x)` and `SumOfSquares(a)`. -/
noncomputable def sqOf (x : Arr) : List (ObjSpec ClassDef Par) := [leafO x, unO chSumSq 0]

theorem sqOf_ok (x : Arr) : WellBuilt lib (sqOf x) := by
  refine ⟨fun i o ho kw hkw => ?_, fun o ho => ?_, fun o ho => ?_, rfl⟩
  · rcases i with _ | _ | i
    · obtain rfl : leafO x = o := by simpa [sqOf] using ho
      obtain rfl : kw = .term nmX (.arr x) := by simpa [leafO] using hkw
      trivial
    · obtain rfl : unO chSumSq 0 = o := by simpa [sqOf] using ho
      obtain rfl : kw = .link nmA 0 := by simpa [unO] using hkw
      exact ⟨by simp [unO], by decide⟩
    · simp [sqOf] at ho
  · simp only [sqOf, List.mem_cons, List.not_mem_nil, or_false] at ho
    rcases ho with rfl | rfl <;> simp [leafO, unO]
  · simp only [sqOf, List.mem_cons, List.not_mem_nil, or_false] at ho
    rcases ho with rfl | rfl <;> rfl

theorem sqOf_withArr (x0 x : Arr) : withArr (buildGraph lib (sqOf x0)) 0 x = buildGraph lib (sqOf x) := by
  funext j
  rcases j with _ | j
  · unfold withArr
    rw [if_pos rfl]
    show ({ (leafO x0).node with terms := _ } : GNode ClassDef Par) = (leafO x).node
    simp only [ObjSpec.node, leafO, List.foldl]
    congr 1
    funext k
    by_cases hk : k = nmX
    · simp [hk]
    · show (if k = nmX then _ else ((leafO x0).node).terms k) = _
      rw [if_neg hk]
      show (if k = nmX then _ else none) = (if k = nmX then _ else none)
      rw [if_neg hk, if_neg hk]
  · rw [withArr_other (Nat.succ_ne_zero j)]
    rfl

theorem sq_evals {g : Graph ClassDef Par} {x : Arr} (h6 : IsA g 1 chSumSq [nmA] fun _ => 0) (hc : (g 0).cls = chLeaf)
    (h4 : (g 0).terms nmX = some (.arr x)) (h5 : x.atleast1 = x) (hd : (g 1).makeDense = false) (hs : (g 1).makeSparse = false) :
    evalReq lib g 5 (.r 1) = .ok (Arr.of [1] fun _ => ∑ k ∈ Finset.range x.size, x.vec k ^ 2) ∧
    evalDr lib g 5 1 0 = .ok (some (Jac.finish (.dense 1 x.size fun _ j => x.vec j * 2))) := by
  have hk : (g 1).dterms nmA = some 0 := h6.kid (0 : Fin 1)
  constructor
  · simp [evalReq, h6.cls, lib, chSumSq, evalProg, hk, hc, chLeaf, h4, h5]
  · have hcd : evalCompDr lib g 4 1 0 = .ok (some (.dense 1 x.size fun _ j => x.vec j * 2)) := by
      unfold evalCompDr
      rw [h6.cls, namesOf_one h6]
      simp [lib, chSumSq, evalProg, hk, evalReq, hc, chLeaf, h4, h5]
    simp [evalDr, evalSliced, hcd, evalTerms, h6.dnames, hk, sumD, hd, hs]
    rfl

/-- The hypotheses are met, at the shape `[2]`. -/
theorem sq_smooth : SmoothIn 5 1 1 0 ⟨[2], ![1, 2]⟩ (buildGraph lib (sqOf ⟨[2], ![1, 2]⟩)) := by
  have hA : ∀ x : Arr, IsA (buildGraph lib (sqOf x)) 1 chSumSq [nmA] fun _ => 0 := fun x => isA_un rfl
  have h5 : ∀ x : Arr, x.shape = [2] → x.atleast1 = x := fun x hsh => atleast1_of_ne (by rw [hsh]; simp)
  have hv : ∀ x : Arr, x.shape = [2] → Means lib (buildGraph lib (sqOf x)) (.r 0) (.ok x) ∧ Exactly (buildGraph lib (sqOf x)) 0 :=
    fun x hsh => leaf_means rfl (by rw [hsh]; simp)
  refine ⟨fun x hsh => ?_, fun x hsh => ?_, fun x hsh => ?_, fun x hsh i hi hne => ?_⟩ <;> rw [sqOf_withArr] at *
  · exact ⟨_, (sq_evals (hA x) rfl rfl (h5 x hsh) rfl rfl).1, rfl⟩
  · exact ⟨_, (sq_evals (hA x) rfl rfl (h5 x hsh) rfl rfl).2⟩
  · refine (sqOf_ok x).chainOk ?_
    intro o ho k k' p h1 h2 hp
    simp only [sqOf, List.mem_cons, List.not_mem_nil, or_false] at ho
    rcases ho with rfl | rfl <;> simp only [leafO, unO, List.mem_cons, List.not_mem_nil, or_false, KW.link.injEq, reduceCtorEq] at h1 h2
    exact h1.1.trans h2.1.symm
  · have := reaches_le (sqOf_ok x) hi
    interval_cases i
    · exact absurd rfl hne
    · exact (exactly_of_exact (hA x) (v := fun _ => x) (fun _ => (hv x hsh).1) exact_sumSq).correct 0

/-- So `minimize(SumOfSquares(a), [a])` ends, and the sum of squares is not larger than before. -/
example (flip : Bool) (solve : (RVec 2 →L[ℝ] RVec 2) → RVec 2 → RVec 2) (opt : DogOpts ℝ) (he1 : 0 < opt.e1) (he2 : 0 ≤ opt.e2) :
    ∃ h k s before after, minimizeDogleg 2 1 10 flip true true false 1 [0] solve opt h k = .ok (2, .halt, s) ∧
      Means lib h.graph (.r 1) (.ok before) ∧ Means lib s.world.graph (.r 1) (.ok after) ∧
      ∑ i ∈ Finset.range 1, after.vec i ^ 2 ≤ ∑ i ∈ Finset.range 1, before.vec i ^ 2 := by
  have hok := fun (i : ℕ) (o : ObjSpec ClassDef Par) (ho : (sqOf ⟨[2], ![1, 2]⟩)[i]? = some o) => (sqOf_ok _).earlier i o ho
  let ops : List (Op ClassDef Par Jac) := buildOps (sqOf ⟨[2], ![1, 2]⟩)
  have hn : NoFailingSets lib (Heap.empty lib) ops := ⟨trivial, trivial, trivial⟩
  have hp : PlainNews ops := ⟨⟨rfl, rfl⟩, ⟨rfl, rfl⟩, trivial⟩
  obtain ⟨hr, ht⟩ := NoFailingSets.run (s := lib) (m := ⟨False, True⟩) ops id (fun _ => hp) .init tagsLe_empty hn
  obtain ⟨hnx, hal⟩ := build_alive (s := lib) _ hok
  have hg : (run lib ops (Heap.empty lib)).graph = buildGraph lib (sqOf ⟨[2], ![1, 2]⟩) := build_graph _ hok
  have hnx : (run lib ops (Heap.empty lib)).next = 2 := hnx
  have hal0 : ((run lib ops (Heap.empty lib)).node 0).alive = true := by
    rw [hal]; simp [sqOf]
  have hal1 : ((run lib ops (Heap.empty lib)).node 1).alive = true := by
    rw [hal]; simp [sqOf]
  have hc : Called 1 [wholeCh 0 [2]] (run lib ops (Heap.empty lib)) := by
    refine ⟨optReach_of_reach hr, ?_, hal1, fun v hv => ?_, by simp⟩
    · by_cases hgi : 9999 ≤ (run lib ops (Heap.empty lib)).giter
      · exact Or.inl hgi
      · refine Or.inr fun j e => ?_
        have := ht j 9999 e
        omega
    · obtain rfl : v = wholeCh 0 [2] := by simpa using hv
      rw [hg]
      exact ⟨⟨isLeaf_leafO rfl, ⟨⟨[2], ![1, 2]⟩, rfl, .leaf⟩, fun i _ j _ e => e⟩, hal0⟩
  obtain ⟨k, s, b, a, e1, _, e2, e3, _, _, e4, _⟩ := C86_chain_rule_ends (x0 := ⟨[2], ![1, 2]⟩) (n := 2) (m := 1) (f := 5) (fm := 10) (o := 1) (l := 0) hc
    (by rw [hg]; rfl) rfl (by decide) (by rw [hg]; exact sq_smooth) (by decide) (by decide) (by rw [hnx]; decide) flip true true false solve opt he1 he2
  rw [hnx] at e1
  exact ⟨_, k, s, b, a, e1, e2, e3, e4⟩
end ADDemo
end Chumpy
