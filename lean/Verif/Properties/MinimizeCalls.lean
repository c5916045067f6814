import Verif.Properties.Minimize
import Verif.Properties.Reduce
import Mathlib.Analysis.Calculus.Deriv.Pow
/-!
# C54: the callbacks of `minimize` for methods other than dogleg, for all sequences of calls

`residuals` is right whatever was called before; `scalar_jacfunc` is right unless the caller overwrites an array it keeps a reference to;
`hess` and `hessp` always raise.
-/
namespace Chumpy
open scoped BigOperators Topology

/-- The states after arbitrary sequences of calls: the caller writes and reuses its arrays as it likes, callbacks may raise; other uses of
the objects between the calls are reads. -/
inductive AnyCalls (P : Problem) (h0 : Heap ClassDef Par Arr Jac) : MinSt → Prop
  | start (mem : ℕ → Arr) : AnyCalls P h0 (.start h0 mem)
  | step {st : MinSt} (c : Call) : AnyCalls P h0 st → (∀ op, c = .user op → op.IsRead) → AnyCalls P h0 (c.run P st).1

/-- `H` is the matrix `2·Jᵀ·J` (the Gauss-Newton approximation of the Hessian), `J` being the derivatives of the objective's vector with
respect to the entries of the vector `x`. -/
def HessianAt (g0 : Graph ClassDef Par) (o : Id) (vs : List Free) (x : Arr) (H : Jac) : Prop :=
  ∃ (g : Graph ClassDef Par) (vo : Arr) (J : ℕ → ℕ → ℝ), Spread g0 g x vs ∧ Means lib g (.r o) (.ok vo) ∧
    (∀ j < totalSize vs, PackedDeriv g0 o vo vs x j fun i => J i j) ∧
    Jac.Rep H (totalSize vs) (totalSize vs) fun i j => 2 * ∑ k ∈ Finset.range vo.size, J k i * J k j

/-- C54 in full: after any sequence of calls, called with a vector of the right length and enough stack depth, `residuals` returns the value
of the objective at that vector, `scalar_jacfunc` its gradient there, and `hess` (used if the objective is not a number itself) `2·Jᵀ·J`. -/
def C54_full : Prop :=
  ∀ (m : Mode) (h0 : Heap ClassDef Par Arr Jac) (P : Problem) (vs : List Free), Setting m h0 P.scalar vs → P.frees = vs.map Free.fv →
    (h0.node P.obj).alive = true → (∀ h, During m h0 vs h → LopRight h P.scalar vs) →
    ∀ st, AnyCalls P h0 st → ∀ r, (st.mem r).shape = [totalSize vs] →
      (∀ g vo, Spread h0.graph g (st.mem r) vs → Means lib g (.r P.scalar) (.ok vo) →
        ∃ f₀, ∀ f ≥ f₀, ((Call.residuals f r).run P st).2 = .number (vo.vec 0)) ∧
      (∃ f₀, ∀ f ≥ f₀, ∃ l, ((Call.gradient f r).run P st).2 = .row l ∧ GradientAt h0.graph P.scalar vs (st.mem r) l) ∧
      (P.scalar ≠ P.obj → ∃ f₀, ∀ f ≥ f₀, ∃ H, ((Call.hess f r).run P st).2 = .matrix H ∧ HessianAt h0.graph P.obj vs (st.mem r) H)

section
variable {m : Mode} {h0 h : Heap ClassDef Par Arr Jac} {o : Id} {vs : List Free} {P : Problem}

theorem lopRow_during (S : Setting m h0 o vs) (d : During m h0 vs h) {v : Free} (hv : v ∈ vs) (f : ℕ) : During m h0 vs (lopRow f o v.fv h).1 := by
  have dd := d.lop S.obj (S.free v hv).2.2.1 f (.dense 1 1 fun _ _ => 1)
  unfold lopRow
  dsimp only [M.bind]
  rcases hh : Chumpy.lop lib Jac.todense f o v.fv (.dense 1 1 fun _ _ => 1) h with ⟨h1, s1⟩
  rw [hh] at dd
  rcases s1 with e | (_ | d1)
  · exact dd
  · exact dd
  · exact dd

theorem lopRows_during (S : Setting m h0 o vs) (f : ℕ) : ∀ (us : List Free), (∀ v ∈ us, v ∈ vs) → ∀ h, During m h0 vs h →
    During m h0 vs (lopRows f o (us.map Free.fv) h).1
  | [], _, h, d => d
  | [v], hu, h, d => lopRow_during S d (hu v (by simp)) f
  | v :: u :: us, hu, h, d => by
    have a := lopRow_during S d (hu v (by simp)) f
    have ih := lopRows_during S f (u :: us) (fun v hv => hu v (by simp only [List.mem_cons] at hv ⊢; exact Or.inr hv))
    have e : lopRows f o ((v :: u :: us).map Free.fv) h = (M.bind (lopRow f o v.fv) fun l => M.bind (lopRows f o ((u :: us).map Free.fv)) fun r => M.pure (l ++ r)) h := rfl
    rw [e]
    dsimp only [M.bind]
    rcases hh : lopRow f o v.fv h with ⟨h1, s1⟩
    rw [hh] at a
    cases s1 with
    | error e => exact a
    | ok l1 =>
      have a2 := ih h1 a
      dsimp only
      rcases hh2 : lopRows f o ((u :: us).map Free.fv) h1 with ⟨h2, s2⟩
      rw [hh2] at a2
      cases s2 with
      | error e => exact a2
      | ok l2 => exact a2

theorem scalarJac_during (S : Setting m h0 o vs) (hP : P.scalar = o) (hF : P.frees = vs.map Free.fv) {st : MinSt} (d : During m h0 vs st.heap) (f r : ℕ) :
    During m h0 vs (scalarJac P f r st).1.heap := by
  unfold scalarJac
  dsimp only
  split
  · exact d
  · exact d
  · rw [hP, hF]
    obtain ⟨d1, _⟩ := changeVars_during S d f (st.mem r)
    dsimp only [M.bind]
    rcases hh : changeVars f (st.mem r) (vs.map Free.fv) 0 false st.heap with ⟨h1, s1⟩
    rw [hh] at d1
    cases s1 with
    | error e => exact d1
    | ok c =>
      dsimp only
      have d2 := lopRows_during S f vs (fun _ h => h) h1 d1
      rcases hh2 : lopRows f o (vs.map Free.fv) h1 with ⟨h2, s2⟩
      rw [hh2] at d2
      cases s2 with
      | error e => exact d2
      | ok l => exact d2

/-- After any sequence of calls the state is one during `minimize`. -/
theorem AnyCalls.during (S : Setting m h0 o vs) (hP : P.scalar = o) (hF : P.frees = vs.map Free.fv) (hobj : (h0.node P.obj).alive = true)
    {st : MinSt} (C : AnyCalls P h0 st) : During m h0 vs st.heap := by
  induction C with
  | start mem => exact S.start
  | @step st c _ hc ih =>
    cases c with
    | store r a => exact ih
    | scribble l => exact ih
    | residuals f r =>
      have := (residuals_any S ih P hP hF f (st.mem r)).1
      simp only [Call.run]
      rcases hh : Chumpy.residuals P f (st.mem r) st.heap with ⟨h1, s1⟩
      rw [hh] at this
      cases s1 with
      | ok x => exact this
      | error e => exact this
    | gradient f r => exact scalarJac_during S hP hF ih f r
    | hess f r =>
      have := (hessian_during S hF hobj ih false f r).1
      simp only [Call.run]
      rcases hh : hessian P false f r st with ⟨st', s1⟩
      rw [hh] at this
      cases s1 with
      | ok x => exact this
      | error e => exact this
    | hessp f r p =>
      have := (hessian_during S hF hobj ih true f r).1
      simp only [Call.run]
      rcases hh : hessian P true f r st with ⟨st', s1⟩
      rw [hh] at this
      cases s1 with
      | ok x =>
        dsimp only
        split
        · exact this
        · exact this
      | error e => exact this
    | user op =>
      have hop : op.IsRead := hc op rfl
      have hl : Legal lib m st.heap op := by cases hop <;> trivial
      exact ih.rframe (Reach.step op ih.reach hl) (step_read_frame hop)

/-- C54 for `residuals`: after any sequence of calls, and whatever the recursion limit, a number it returns is the value of the objective at
the vector passed in; and with a vector of the right length and enough stack depth it does return.  (`Spread h0.graph g x vs`: in `g` the
free variables have the entries of `x`, and everything else is as before the optimisation.)
Missing of C54: the Hessian, which always raises (`C54_hessian_always_raises`), and gradients after an array `scalar_jacfunc` keeps was
overwritten (`C54_full_refuted`); arrays with `NaN`. -/
theorem C54_residual_partial (S : Setting m h0 P.scalar vs) (hF : P.frees = vs.map Free.fv) (hobj : (h0.node P.obj).alive = true) {st : MinSt}
    (C : AnyCalls P h0 st) {r : ℕ} {g : Graph ClassDef Par} {vo : Arr} (hg : Spread h0.graph g (st.mem r) vs)
    (hvo : Means lib g (.r P.scalar) (.ok vo)) :
    (∀ f z, ((Call.residuals f r).run P st).2 = .number z → z = vo.vec 0) ∧
      ((st.mem r).shape = [totalSize vs] → vo.size ≠ 0 → ∃ f₀, ∀ f ≥ f₀, ((Call.residuals f r).run P st).2 = .number (vo.vec 0)) := by
  have d := C.during S rfl hF hobj
  refine ⟨fun f z hz => ?_, fun hx h1 => ?_⟩
  · have := (residuals_any S d P rfl hF f (st.mem r)).2
    simp only [Call.run] at hz
    rcases hh : Chumpy.residuals P f (st.mem r) st.heap with ⟨h1, s1⟩
    rw [hh] at this hz
    cases s1 with
    | error e => cases hz
    | ok x =>
      dsimp only at hz
      injection hz with hz
      rw [← hz]
      exact this x rfl g vo hg hvo
  · obtain ⟨f₀, hf⟩ := residuals_returns S d P rfl hF hx hg hvo h1
    refine ⟨f₀, fun f hff => ?_⟩
    have := hf f hff
    simp only [Call.run]
    rcases hh : Chumpy.residuals P f (st.mem r) st.heap with ⟨h1, s1⟩
    rw [hh] at this
    dsimp only at this
    subst this
    rfl

/-- C54 for `scalar_jacfunc`: after any sequence of calls in which the caller does not write into the array of its last successful gradient
call, nor into the gradient returned (`Fair`), and whatever the recursion limit, what it returns is the gradient at the vector passed in;
and with enough stack depth it does return, unless it never did before and the vector passed in consists of the number `1e16`, which stands
for "no vector yet" (optimization.py:108).  `LopRight` is C19 for the objective.
Missing of C54: see `C54_residual_partial`. -/
theorem C54_gradient_partial (S : Setting m h0 P.scalar vs) (hF : P.frees = vs.map Free.fv) (hobj : (h0.node P.obj).alive = true)
    (hL : ∀ h, During m h0 vs h → LopRight h P.scalar vs) {st : MinSt} (C : Calls P (totalSize vs) h0 st) {r : ℕ}
    (hx : (st.mem r).shape = [totalSize vs]) :
    (∀ f l, ((Call.gradient f r).run P st).2 = .row l → GradientAt h0.graph P.scalar vs (st.mem r) l) ∧
      (st.grad.out ≠ none ∨ (∃ k < totalSize vs, (st.mem r).vec k ≠ 10 ^ 16) →
        ∃ f₀, ∀ f ≥ f₀, ∃ l, ((Call.gradient f r).run P st).2 = .row l ∧ GradientAt h0.graph P.scalar vs (st.mem r) l) := by
  have R := C.running S hL rfl hF hobj
  have any := fun f => (scalarJac_any S hL R P rfl hF f r hx).2
  refine ⟨fun f l hl => any f l hl, fun hne => ?_⟩
  suffices h : ∃ f₀, ∀ f ≥ f₀, ∃ l, (scalarJac P f r st).2 = .row l by
    obtain ⟨f₀, hf⟩ := h
    exact ⟨f₀, fun f hff => (hf f hff).imp fun l hl => ⟨hl, any f l hl⟩⟩
  have hsz : ∀ w ∈ offsets vs 0, w.2 + w.1.size ≤ (st.mem r).size := fun w hw => by
    have := offsets_end vs 0 w hw
    unfold Arr.size; rw [hx]; simpa using this
  obtain ⟨v, hv⟩ := List.exists_mem_of_ne_nil _ S.nonempty
  have hpos : (st.mem r).size ≠ 0 := by
    obtain ⟨i, hi⟩ : ∃ i, (v, i) ∈ offsets vs 0 := by
      have : ∀ (us : List Free) (c : ℕ), v ∈ us → ∃ i, (v, i) ∈ offsets us c := by
        intro us
        induction us with
        | nil => intro c h; cases h
        | cons u us ih =>
          intro c h
          rcases List.mem_cons.1 h with rfl | h
          · exact ⟨c, by simp [offsets]⟩
          · obtain ⟨i, hi⟩ := ih (c + u.size) h
            exact ⟨i, by simp [offsets, hi]⟩
      exact this vs 0 hv
    have h1 := hsz _ hi
    have h2 := (S.free v hv).2.2.2
    dsimp only at h1
    omega
  -- the key has the right shape
  obtain ⟨t, ht⟩ : ∃ t, sameVec (st.mem r) ((st.grad.init (st.mem r)).key st.mem) = .ok t := by
    have hk : (st.mem r).shape = ((st.grad.init (st.mem r)).key st.mem).shape := by
      rw [hx]
      unfold OneMemo.key OneMemo.init
      dsimp only [Option.getD]
      rcases R.memo with ⟨h1 | h1, _⟩ | ⟨r', l, h1, h2, _⟩
      · rw [h1]; exact hx.symm
      · rw [h1]; rfl
      · rw [h1]; exact h2.symm
    unfold sameVec
    rw [if_pos ⟨hk, hpos⟩]
    exact ⟨_, rfl⟩
  cases t with
  | true =>
    refine ⟨0, fun f _ => ?_⟩
    have he := sameVec_far ht rfl
    unfold scalarJac
    dsimp only
    rw [ht]
    dsimp only
    have hout : ∃ l, (st.grad.init (st.mem r)).out = some l := by
      rcases R.memo with ⟨h1, h2⟩ | ⟨r', l, h1, _, _⟩
      · exfalso
        rcases hne with hne | ⟨k, hk, hne⟩
        · exact hne h2
        · apply hne
          rw [he]
          unfold OneMemo.key OneMemo.init
          dsimp only [Option.getD]
          rcases h1 with h1 | h1
          · rw [h1]
            show (far (st.mem r)).vec k = _
            unfold far
            rw [Arr.vec_of _ _ (by rw [hx]; simpa using hk)]
          · rw [h1]
            show (Arr.of [totalSize vs] fun _ => (10 : ℝ) ^ 16).vec k = _
            rw [Arr.vec_of _ _ (by simpa using hk)]
      · exact ⟨l, by rw [h1]; rfl⟩
    obtain ⟨l, hl⟩ := hout
    rw [hl]
    exact ⟨l, rfl⟩
  | false =>
    obtain ⟨G, N, f1, hf1⟩ := changeVars_returns S (st.mem r) hsz vs 0 false st.heap (fun w hw => hw) R.during
    obtain ⟨d1, _⟩ := changeVars_during S R.during f1 (st.mem r)
    obtain ⟨_, e1, _⟩ := hf1 f1 (Nat.le_refl _) st.heap R.during rfl rfl
    obtain ⟨vo, E, _, e2, _⟩ := (hL _ d1).at d1.reach
    rw [e1] at e2
    obtain ⟨f2, hf2⟩ := lopRows_returns S e2 vs S.nonempty (fun _ h => h)
    refine ⟨max f1 f2, fun f hf => ?_⟩
    unfold scalarJac
    dsimp only
    rw [ht]
    dsimp only
    rw [hF]
    obtain ⟨⟨c, e3⟩, e4, _⟩ := hf1 f (le_trans (le_max_left _ _) hf) st.heap R.during rfl rfl
    obtain ⟨d3, _⟩ := changeVars_during S R.during f (st.mem r)
    dsimp only [M.bind]
    rcases hh : changeVars f (st.mem r) (vs.map Free.fv) 0 false st.heap with ⟨h1, s1⟩
    rw [hh] at e3 e4 d3
    dsimp only at e3 e4 d3 ⊢
    subst e3
    dsimp only
    obtain ⟨l, e5⟩ := hf2 f (le_trans (le_max_right _ _) hf) h1 d3 e4
    rcases hh2 : lopRows f P.scalar (vs.map Free.fv) h1 with ⟨h2, s2⟩
    rw [hh2] at e5
    dsimp only at e5 ⊢
    subst e5
    exact ⟨l, rfl⟩

/-! ## The Hessian -/

/-- No Jacobian and no Hessian was ever computed. -/
def NoHess (st : MinSt) : Prop := st.ns.out = none ∧ st.hess.out = none

theorem nsJac_raises {st : MinSt} (hn : NoHess st) (P : Problem) (f r : ℕ) : NoHess (nsJac P f r st).1 ∧ ∃ e, (nsJac P f r st).2 = .error e := by
  unfold nsJac
  dsimp only
  have e1 : (st.ns.init (st.mem r)).out = none := hn.1
  split
  · exact ⟨⟨e1, hn.2⟩, _, rfl⟩
  · dsimp only
    rw [e1]
    exact ⟨⟨e1, hn.2⟩, _, rfl⟩
  · dsimp only [M.bind]
    rcases hh : changeVars f (st.mem r) P.frees 0 false st.heap with ⟨h1, s1⟩
    cases s1 with
    | error e => exact ⟨⟨e1, hn.2⟩, e, rfl⟩
    | ok c =>
      dsimp only
      rcases hh2 : drRows f P.obj P.frees h1 with ⟨h2, s2⟩
      cases s2 with
      | error e => exact ⟨⟨e1, hn.2⟩, e, rfl⟩
      | ok y => exact ⟨⟨e1, hn.2⟩, _, rfl⟩

theorem hessian_raises {st : MinSt} (hn : NoHess st) (P : Problem) (keep : Bool) (f r : ℕ) :
    NoHess (hessian P keep f r st).1 ∧ ∃ e, (hessian P keep f r st).2 = .error e := by
  unfold hessian
  rcases hh : changeVars f (st.mem r) P.frees 0 false st.heap with ⟨h1, s1⟩
  cases s1 with
  | error e => exact ⟨hn, e, rfl⟩
  | ok c =>
    dsimp only
    have e2 : (st.hess.init (st.mem r)).out = none := hn.2
    split
    · exact ⟨⟨hn.1, e2⟩, _, rfl⟩
    · dsimp only
      rw [e2]
      exact ⟨⟨hn.1, e2⟩, _, rfl⟩
    · obtain ⟨k1, e, k2⟩ := nsJac_raises (st := { st with heap := h1, hess := st.hess.init (st.mem r) }) ⟨hn.1, e2⟩ P f r
      split
      · next st' e' hs => rw [hs] at k1; exact ⟨k1, e', rfl⟩
      · next st' J hs => rw [hs] at k2; cases k2

theorem AnyCalls.noHess {st : MinSt} (C : AnyCalls P h0 st) : NoHess st := by
  induction C with
  | start mem => exact ⟨rfl, rfl⟩
  | @step st c _ hc ih =>
    cases c with
    | store r a => exact ih
    | scribble l => exact ih
    | residuals f r =>
      simp only [Call.run]
      split <;> exact ih
    | gradient f r =>
      simp only [Call.run, scalarJac]
      split
      · exact ih
      · exact ih
      · split <;> exact ih
    | hess f r =>
      obtain ⟨k, _⟩ := hessian_raises ih P false f r
      simp only [Call.run]
      split
      · next hs => rw [hs] at k; exact k
      · next hs => rw [hs] at k; exact k
    | hessp f r p =>
      obtain ⟨k, _⟩ := hessian_raises ih P true f r
      simp only [Call.run]
      split
      · next hs => rw [hs] at k; exact k
      · next hs =>
        rw [hs] at k
        split
        · exact k
        · exact k
    | user op => exact ih

/-- C54 fails for the Hessian, always: for every problem and after every sequence of calls, `hess` and `hessp` raise (`NameError`, as
`hstack` is not defined in the module, optimization.py:135; or an earlier error). -/
theorem C54_hessian_always_raises {st : MinSt} (C : AnyCalls P h0 st) (f r : ℕ) :
    (∃ e, ((Call.hess f r).run P st).2 = .raised e) ∧ ∀ p, ∃ e, ((Call.hessp f r p).run P st).2 = .raised e := by
  constructor
  · obtain ⟨_, e, k⟩ := hessian_raises C.noHess P false f r
    simp only [Call.run]
    rcases hh : hessian P false f r st with ⟨st', s⟩
    rw [hh] at k
    dsimp only at k
    subst k
    exact ⟨e, rfl⟩
  · intro p
    obtain ⟨_, e, k⟩ := hessian_raises C.noHess P true f r
    simp only [Call.run]
    rcases hh : hessian P true f r st with ⟨st', s⟩
    rw [hh] at k
    dsimp only at k
    subst k
    exact ⟨e, rfl⟩
end

/-! ## An example, and the refutation -/

theorem sumSq_lop {g : Graph ClassDef Par} {y a : Id} {x : Arr} (hy : IsA g y chSumSq [nmA] fun _ => a) (hv : Means lib g (.r a) (.ok x)) (hya : y ≠ a) :
    ∃ f d, evalLeft lib (lopStyle Jac.todense) g f y a (.dense 1 1 fun _ _ => 1) = .ok (some d) ∧ Jac.Rep d 1 x.size fun _ k => 2 * x.vec k := by
  have hE := exact_sumSq (tm := (g y).terms) (v := x)
  have hm := means_of_isA hy (v := fun _ => x) (fun _ => hv) hE.val
  have hc : CompIs lib g y a (some (.dense 1 x.size fun _ j => x.vec j * 2)) := by
    refine compIs_isA hy (v := fun _ => x) (fun _ => hv) hm hya ?_
    rw [namesOf_one hy]
    erw [env_one]
    exact ⟨0, by simp [lib, chSumSq, runBody, env1]⟩
  obtain ⟨f, hf⟩ := SlicedIs.some hc
  obtain ⟨z, hz, hr⟩ := Jac.superdot_rep (d := .dense 1 1 fun _ _ => 1) (e := .dense 1 x.size fun _ j => x.vec j * 2) (m := 1) (n := 1) (p := x.size)
    (A := fun _ _ => 1) (B := fun _ j => x.vec j * 2) ⟨rfl, rfl, fun _ _ _ _ => rfl⟩ ⟨rfl, rfl, fun _ _ _ _ => rfl⟩
  have hk : (g y).dterms nmA = some a := hy.kid (0 : Fin 1)
  refine ⟨f + 1, z.todense, ?_, ?_⟩
  · simp only [evalLeft, hf, Except.bind, leftDirect, lopStyle, if_true, Except.map, hy.dnames, evalLeftTerms, hk, liftO, sumD]
    rw [hz]
    rfl
  · refine Jac.rep_congr (fun i hi k hk => ?_) (Jac.todense_rep hr)
    simp [Ent.mul, mul_comm]

namespace ADDemo

/-- `a = Ch([1, 2])` and `SumOfSquares(a)`. -/
noncomputable def sqOs : List (ObjSpec ClassDef Par) := [leafO ⟨[2], ![1, 2]⟩, unO chSumSq 0]

def sqFree : Free := ⟨0, 0, 0, [2], fun k => k⟩
def sqProblem : Problem := ⟨1, 1, [0]⟩

theorem sq_state : ∃ h0, Setting ⟨False, True⟩ h0 sqProblem.scalar [sqFree] ∧ (h0.node sqProblem.obj).alive = true ∧
    (h0.graph 0).terms nmX = some (.arr ⟨[2], ![1, 2]⟩) ∧ IsA h0.graph 1 chSumSq [nmA] fun _ => 0 := by
  obtain ⟨h, hr, _, _, hj⟩ := built_state sqOs ⟨leafO_fits _ _, unO_fits (by decide), trivial⟩
  have g0 := hj 0 (by simp [sqOs])
  have g1 := hj 1 (by simp [sqOs])
  have t0 : (h.graph 0).terms nmX = some (.arr ⟨[2], ![1, 2]⟩) := by rw [g0.2]; rfl
  refine ⟨h, ⟨hr, trivial, g1.1, fun v hv => ?_, List.pairwise_singleton _ _, by simp⟩, g1.1, t0, isA_un g1.2⟩
  obtain rfl : v = sqFree := by simpa using hv
  exact ⟨⟨isLeaf_leafO g0.2, ⟨_, t0, .leaf⟩, fun i _ j _ e => e⟩, g0.1, g0.1, by decide⟩

/-- The value of the sum of squares. -/
theorem sq_means {h0 : Heap ClassDef Par Arr Jac} (h1 : IsA h0.graph 1 chSumSq [nmA] fun _ => 0) (hl : IsLeaf h0.graph 0)
    (ht : (h0.graph 0).terms nmX = some (.arr ⟨[2], ![1, 2]⟩)) {g : Graph ClassDef Par} {x : Arr} (hs : Spread h0.graph g x [sqFree]) {vo : Arr}
    (hvo : Means lib g (.r 1) (.ok vo)) : vo.vec 0 = x.vec 0 ^ 2 + x.vec 1 ^ 2 := by
  obtain ⟨x0, x1, a1, a2, a3, a4, _⟩ := hs.each sqFree (by simp)
  have e0 : x0 = ⟨[2], ![1, 2]⟩ := by
    have : (h0.graph 0).terms nmX = some (.arr x0) := a1
    rw [ht] at this
    simpa using this.symm
  subst e0
  have hx : x1.atleast1 = x1 := atleast1_of_ne (by rw [a3]; simp)
  have hg0 : g 0 = withArr h0.graph 0 x1 0 := a2
  have m0 := means_leaf (g := g) (l := 0) (x0 := x1) (by rw [hg0]; exact (isLeaf_withArr (l := 0) hl).1) (by rw [hg0, withArr_self])
  rw [hx] at m0
  have h1' : IsA g 1 chSumSq [nmA] fun _ => 0 := h1.congr (hs.other 1 (by intro v hv; obtain rfl : v = sqFree := by simpa using hv
                                                                          decide))
  have hm := means_of_isA h1' (v := fun _ => x1) (fun _ => m0) (exact_sumSq (tm := (g 1).terms)).val
  have := Means.unique hm hvo
  injection this with this
  rw [← this, Arr.vec_of _ _ (by decide)]
  have hsz : x1.size = 2 := by unfold Arr.size; rw [a3]; rfl
  rw [hsz, Finset.sum_range_succ, Finset.sum_range_succ, Finset.sum_range_zero, zero_add]
  have k0 := a4 (sqFree, 0) (by simp [offsets]) rfl 0 (by decide)
  have k1 := a4 (sqFree, 0) (by simp [offsets]) rfl 1 (by decide)
  have k0' : x1.vec 0 = x.vec 0 := k0
  have k1' : x1.vec 1 = x.vec 1 := k1
  rw [k0', k1']

/-- C19 holds for it in every state during `minimize`. -/
theorem sq_lopRight {h0 h : Heap ClassDef Par Arr Jac} (S : Setting ⟨False, True⟩ h0 sqProblem.scalar [sqFree])
    (ht0 : (h0.graph 0).terms nmX = some (.arr ⟨[2], ![1, 2]⟩)) (h1 : IsA h0.graph 1 chSumSq [nmA] fun _ => 0) (d : During ⟨False, True⟩ h0 [sqFree] h) : LopRight h sqProblem.scalar [sqFree] := by
  have hv : sqFree ∈ [sqFree] := by simp
  have hl : IsLeaf h.graph 0 := (d.free S hv).leaf
  obtain ⟨x0, x1, a1, a2, a3, _⟩ := d.kept.each sqFree hv
  have hlt := (reach_str S.reach).alive_lt S.obj
  have hy : IsA h.graph 1 chSumSq [nmA] fun _ => 0 := h1.congr (d.kept.other 1 hlt (by
    intro v hv; obtain rfl : v = sqFree := by simpa using hv
    decide))
  have ht : (h.graph 0).terms nmX = some (.arr x1) := by
    have : h.graph 0 = withArr h0.graph 0 x1 0 := a2
    rw [this, withArr_self]
  have m0 := means_leaf hl.1 ht
  obtain ⟨out, n1, n2, n3⟩ := C41_sum_of_squares d.reach hy m0
  have hk : (h.graph 1).dterms nmA = some 0 := hy.kid (0 : Fin 1)
  obtain ⟨vw, E, j1, j2⟩ := n2.deriv (fun k c hc => by
    have hk' : k ∈ (h.graph 1).dnames := (reach_str d.reach).dn _ _ _ hc
    rw [hy.dnames] at hk'
    obtain rfl : k = nmA := by simpa using hk'
    rw [hk] at hc
    obtain rfl : 0 = c := by simpa using hc
    exact hl) nmA 0 hk
  have ev := Means.unique j1.valW m0
  injection ev with ev
  subst ev
  have hsz : x1.atleast1.size = 2 := by
    have : (h0.graph 0).terms nmX = some (.arr x0) := a1
    rw [ht0] at this
    obtain rfl : x0 = ⟨[2], ![1, 2]⟩ := by simpa using this.symm
    unfold Arr.size; rw [a3]; rfl
  have ho : out.size = 1 := by unfold Arr.size; rw [n1.1]; rfl
  refine ⟨out, ho, fun v hv => ?_⟩
  obtain rfl : v = sqFree := by simpa using hv
  rw [ho] at j2
  have eq : Ent.EqOn 1 x1.atleast1.size (fun _ j => 2 * x1.atleast1.vec j) E := by
    obtain ⟨f1, r1⟩ := n3 hl
    obtain ⟨f2, r2⟩ := j2
    obtain ⟨o1, p1, q1⟩ := r1 (max f1 f2) (le_max_left _ _)
    obtain ⟨o2, p2, q2⟩ := r2 (max f1 f2) (le_max_right _ _)
    rw [p1] at p2
    obtain rfl : o1 = o2 := by simpa using p2
    exact repO_unique q1 q2
  refine ⟨_, _, j1.congr (M' := fun _ j => 2 * x1.atleast1.vec j) (by rw [ho]; exact fun i hi j hj => (eq i hi j hj).symm), ?_⟩
  obtain ⟨f, D, e1, e2⟩ := sumSq_lop hy m0 (by decide)
  refine ⟨f, fun f' hf => ⟨D, ?_, ?_⟩⟩
  · have m1 := evalLeft_mono (g := h.graph) (w := 0) (lopStyle_ok (todense := Jac.todense)) hf 1 (.dense 1 1 fun _ _ => 1)
    rw [Le, e1] at m1
    have ag := (lop_agree d.reach f' 1 0 (.dense 1 1 fun _ _ => 1)).1
    dsimp only at ag
    rw [m1 (by simp)] at ag
    exact ag (by simp)
  · rw [hsz] at e2
    exact e2

/-- The hypotheses of `C54_residual_partial` and `C54_gradient_partial` are met. -/
example : ∃ h0 st, Setting ⟨False, True⟩ h0 sqProblem.scalar [sqFree] ∧ sqProblem.frees = [sqFree].map Free.fv ∧ (h0.node sqProblem.obj).alive = true ∧
    (∀ h, During ⟨False, True⟩ h0 [sqFree] h → LopRight h sqProblem.scalar [sqFree]) ∧ Calls sqProblem (totalSize [sqFree]) h0 st ∧
    AnyCalls sqProblem h0 st ∧ st.mem 1 = ⟨[2], ![3, 4]⟩ ∧ (st.mem 1).shape = [totalSize [sqFree]] ∧
    ∃ g vo, Spread h0.graph g (st.mem 1) [sqFree] ∧ Means lib g (.r sqProblem.scalar) (.ok vo) ∧ vo.size ≠ 0 := by
  obtain ⟨h0, S, ho, ht, h1⟩ := sq_state
  let c1 := Call.gradient 20 0
  let c2 := Call.residuals 20 0
  let mem : ℕ → Arr := fun i => if i = 1 then ⟨[2], ![3, 4]⟩ else ⟨[2], ![5, 6]⟩
  have hm : (c1.run sqProblem (.start h0 mem)).1.mem = mem := by
    show (scalarJac _ _ _ _).1.mem = mem
    unfold scalarJac
    dsimp only
    split
    · rfl
    · rfl
    · split <;> rfl
  have hm2 : (c2.run sqProblem (c1.run sqProblem (.start h0 mem)).1).1.mem = mem := by
    show (match Chumpy.residuals _ _ _ _ with | (h, .ok x) => _ | (h, .error e) => _ : MinSt × Answer).1.mem = mem
    split
    · exact hm
    · exact hm
  have hl : ∀ h, During ⟨False, True⟩ h0 [sqFree] h → LopRight h sqProblem.scalar [sqFree] := fun h d => sq_lopRight S ht h1 d
  have e1 : mem 1 = ⟨[2], ![3, 4]⟩ := rfl
  have hd := (S.free sqFree (by simp)).1.leaf
  refine ⟨h0, (c2.run sqProblem (c1.run sqProblem (.start h0 mem)).1).1, S, rfl, ho, hl, .step _ (.step _ (.start _) ?_) trivial,
    .step _ (.step _ (.start _) fun op h => (by simp [c1] at h)) fun op h => (by simp [c2] at h), ?_⟩
  · rfl
  rw [hm2]
  refine ⟨rfl, rfl, withArr h0.graph 0 ⟨[2], ![3, 4]⟩, Arr.of [1] fun _ => ∑ k ∈ Finset.range 2, (⟨[2], ![3, 4]⟩ : Arr).vec k ^ 2, ⟨fun v hv => ?_, fun j hj => ?_⟩, ?_, by decide⟩
  · obtain rfl : v = sqFree := by simpa using hv
    refine ⟨_, ⟨[2], ![3, 4]⟩, ht, rfl, rfl, fun w hw _ k hk => ?_, fun p hp hno => ?_⟩
    · obtain rfl : w = (sqFree, 0) := by simpa [offsets] using hw
      dsimp only
      rw [Nat.zero_add]; rfl
    · exact absurd rfl (hno sqFree (by simp) rfl p hp)
  · exact withArr_other (hj sqFree (by simp))
  · have m0 := means_leaf (g := withArr h0.graph 0 ⟨[2], ![3, 4]⟩) (l := 0) (isLeaf_withArr (l := 0) hd).1 (withArr_self _ _ _)
    exact means_of_isA (h1.congr (withArr_other (by decide))) (v := fun _ => _) (fun _ => m0) (exact_sumSq (tm := _)).val

/-- The derivative of the sum of squares with respect to the first entry. -/
theorem sq_deriv {h0 : Heap ClassDef Par Arr Jac} (h1 : IsA h0.graph 1 chSumSq [nmA] fun _ => 0) (hl : IsLeaf h0.graph 0)
    (ht : (h0.graph 0).terms nmX = some (.arr ⟨[2], ![1, 2]⟩)) {x : Arr} (hx : x.shape = [2]) {l : List (Option ℝ)}
    (hg : GradientAt h0.graph 1 [sqFree] x l) : l[0]? = some (some (2 * x.vec 0)) := by
  obtain ⟨g, vo, _, _, hv, _, hd⟩ := hg
  obtain ⟨z, hz, F, hF, hder⟩ := hd 0 (by decide)
  rw [hz]
  have hder := hder 0 (by omega)
  have h2 : HasDerivAt (fun t : ℝ => (x.vec 0 + t) ^ 2 + x.vec 1 ^ 2) (2 * x.vec 0) 0 := by
    have := (((hasDerivAt_id (0 : ℝ)).const_add (x.vec 0)).pow 2).add_const (x.vec 1 ^ 2)
    simpa using this
  have h3 : (fun t => (F t).vec 0) =ᶠ[𝓝 0] fun t : ℝ => (x.vec 0 + t) ^ 2 + x.vec 1 ^ 2 := by
    filter_upwards [hF] with t ht'
    obtain ⟨g', a, b, _⟩ := ht'
    rw [sq_means h1 hl ht a b]
    unfold bump
    rw [Arr.vec_of _ _ (by rw [hx]; decide), Arr.vec_of _ _ (by rw [hx]; decide)]
    simp
  have := hder.unique (h2.congr_of_eventuallyEq h3)
  exact congrArg (fun z => some (some z)) this

end ADDemo

/-- C54 fails for `scalar_jacfunc`: it keeps a reference to the vector it was called with, not a copy (optimization.py:124).  If the caller
overwrites that array and calls again with it, the old gradient comes back: for `SumOfSquares(a)` the gradient at `[1, 2]` is returned at
`[3, 4]`. -/
theorem C54_full_refuted : ¬ C54_full := by
  intro hall
  obtain ⟨h0, S, ho, ht, h1⟩ := ADDemo.sq_state
  have hl := fun h d => ADDemo.sq_lopRight (h := h) S ht h1 d
  have hlf := (S.free ADDemo.sqFree (by simp)).1.leaf
  obtain ⟨f1, g1⟩ := (C54_gradient_partial (P := ADDemo.sqProblem) S rfl ho hl (.start fun _ => ⟨[2], ![1, 2]⟩) (r := 0) rfl).2
    (Or.inr ⟨0, by decide, by show (⟨[2], ![1, 2]⟩ : Arr).vec 0 ≠ _; simp [Arr.vec]; norm_num⟩)
  obtain ⟨l, hl1, hg1⟩ := g1 f1 (Nat.le_refl _)
  have d1 := ADDemo.sq_deriv h1 hlf ht rfl hg1
  have C1 : AnyCalls ADDemo.sqProblem h0 ((Call.gradient f1 0).run ADDemo.sqProblem (.start h0 fun _ => ⟨[2], ![1, 2]⟩)).1 :=
    .step _ (.start _) fun op h => by cases h
  have hst : ((Call.gradient f1 0).run ADDemo.sqProblem (.start h0 fun _ => ⟨[2], ![1, 2]⟩)).1.grad = ⟨some (.ref 0), some l⟩ := by
    simp only [Call.run, scalarJac] at hl1 ⊢
    split at hl1
    · cases hl1
    · cases hl1
    · split at hl1
      · cases hl1
      · next h' l' e' =>
        injection hl1 with hl1
        show (⟨some (.ref 0), some l'⟩ : OneMemo (List (Option ℝ))) = _
        rw [hl1]
  generalize ((Call.gradient f1 0).run ADDemo.sqProblem (.start h0 fun _ => ⟨[2], ![1, 2]⟩)).1 = st1 at C1 hst
  have C2 := AnyCalls.step (.store 0 ⟨[2], ![3, 4]⟩) C1 fun op h => by cases h
  obtain ⟨_, ⟨f2, g2⟩, _⟩ := hall _ h0 ADDemo.sqProblem _ S rfl ho hl _ C2 0 rfl
  obtain ⟨l', hl2, hg2⟩ := g2 f2 (Nat.le_refl _)
  have d2 := ADDemo.sq_deriv h1 hlf ht rfl hg2
  have hsame : sameVec ⟨[2], ![3, 4]⟩ ⟨[2], ![3, 4]⟩ = .ok true := by
    unfold sameVec
    rw [if_pos ⟨rfl, by decide⟩]
    simp
  have hll : l = l' := by
    simp only [Call.run, scalarJac, hst, OneMemo.init, OneMemo.key, Option.getD, Held.deref, if_true, hsame] at hl2
    injection hl2
  rw [hll, d2] at d1
  have d3 : 2 * (⟨[2], ![3, 4]⟩ : Arr).vec 0 = 2 * (⟨[2], ![1, 2]⟩ : Arr).vec 0 := by
    have := Option.some.inj (Option.some.inj d1)
    exact this
  simp [Arr.vec] at d3
end Chumpy
