import Verif.Opt.Call
/-!
# C86: `minimize` with the dogleg method, from the call on
-/
namespace Chumpy
open scoped BigOperators Topology
open Dog

/-! ## Packing in the state of the user -/

theorem Nested.alive {h : Heap ClassDef Par Arr Jac} (hs : Str h) {l fv : Id} {sh osh : List ℕ} {d : ℕ} {pos : ℕ → ℕ}
    (hn : Nested h.graph l sh d fv osh pos) (hl : (h.node l).alive = true) : (h.node fv).alive = true := by
  cases hn with
  | leaf => exact hl
  | slice ht hy hp hq hn hi =>
    cases ha : (h.node fv).alive with
    | true => rfl
    | false =>
      have h1 := (hs.dead fv ha).2.1 nmA
      have h2 : (h.node fv).dterms nmA = _ := hy.kid ⟨0, by simp⟩
      rw [h1] at h2; cases h2

/-- Reading the free variables changes caches only. -/
theorem pack_state (f : ℕ) : ∀ (fvs : List Id) {h : Heap ClassDef Par Arr Jac}, OptReach h → (∀ fv ∈ fvs, (h.node fv).alive = true) →
    OptReach (pack f fvs h).1 ∧ RFrame h (pack f fvs h).1
  | [], h, hr, _ => ⟨hr, .refl h⟩
  | fv :: fvs, h, hr, ha => by
    have hf := read_pres (s := lib) (rframe_rel (C := ClassDef) (T := Par) (V := Arr) (D := Jac)) f (.r fv) h
    have hr1 : OptReach (read lib f (.r fv) h).1 := by
      have := OptReach.op (.readR f fv) hr trivial
      have e : (step lib (.readR f fv) h).1 = (Chumpy.read lib f (.r fv) h).1 := by
        simp only [step, ifAlive, ha fv (by simp), if_true, M.map']
      rw [e] at this; exact this
    obtain ⟨k1, k2⟩ := pack_state f fvs hr1 fun j hj => by rw [hf.alive]; exact ha j (by simp [hj])
    have k3 := rframe_rel.trans hf k2
    simp only [pack, M.bind]
    rcases hx : read lib f (.r fv) h with ⟨h1, r⟩
    rw [hx] at hr1 hf k1 k2 k3
    cases r with
    | error e => exact ⟨hr1, hf⟩
    | ok v =>
      dsimp only at k1 k3 ⊢
      rcases hy : pack f fvs h1 with ⟨h2, r⟩
      rw [hy] at k1 k3
      cases r with
      | error e => exact ⟨k1, k3⟩
      | ok xs => exact ⟨k1, k3⟩

/-- There is a vector with given segments. -/
theorem segments (val : Free → ℕ → ℝ) : ∀ (vs : List Free) (p : ℕ), ∃ x : ℕ → ℝ, ∀ w ∈ offsets vs p, ∀ k < w.1.size, x (w.2 + k) = val w.1 k
  | [], _ => ⟨fun _ => 0, fun w hw => by cases hw⟩
  | u :: us, p => by
    obtain ⟨x, hx⟩ := segments val us (p + u.size)
    refine ⟨fun k => if k < p + u.size then val u (k - p) else x k, fun w hw k hk => ?_⟩
    rcases List.mem_cons.1 hw with rfl | hw
    · dsimp only at hk ⊢
      rw [if_pos (by omega), Nat.add_sub_cancel_left]
    · have := offsets_le _ _ w hw
      dsimp only
      rw [if_neg (by omega)]
      exact hx w hw k hk

section
variable {n m f fm : ℕ} {o : Id} {vs : List Free} {F : RVec n → RVec m} {F' : RVec n → RVec n →L[ℝ] RVec m} {h : Heap ClassDef Par Arr Jac}

/-- The free variables hold one vector. -/
theorem packed_exists (hn : totalSize vs = n) : ∃ v : RVec n, Packed h.graph vs (vecArr [n] v) := by
  obtain ⟨x, hx⟩ := segments (fun u k => match (h.graph u.l).terms nmX with | some (.arr a) => a.vec (u.pos k) | _ => 0) vs 0
  refine ⟨WithLp.toLp 2 fun i : Fin n => x i, by show [n] = _; rw [hn], fun w hw a ha k hk => ?_⟩
  have := hx w hw k hk
  rw [ha] at this
  dsimp only at this
  have hlt : w.2 + k < n := by have := offsets_end vs 0 w hw; omega
  rw [vecArr_vec (by simp) _ hlt, ← this]

/-- `setup_objective`. -/
theorem setup_holds (hr : OptReach h) (h9 : 9999 ≤ h.giter ∨ ∀ j, (h.node j).itr ≠ some 9999) (ho : (h.node o).alive = true)
    (hfree : ∀ u ∈ vs, u.Ok h.graph ∧ (h.node u.l).alive = true) (hfv : (vs.map Free.fv).Nodup)
    (hn : totalSize vs = n) (hen : enough vs ≤ fm) (hF : Sees f o vs F F' h.graph) (flip : Bool) {v : RVec n}
    (hv : Packed h.graph vs (vecArr [n] v)) :
    ∃ h', stackedFor fm flip o (vs.map Free.fv) h = (h', .ok h.next) ∧ Holds h f h.next h.next o vs F F' v h' ∧
      ∀ j < h.next, h'.graph j = h.graph j := by
  have hs0 := hr.inv.str
  obtain ⟨r0, f0⟩ := pack_state fm (vs.map Free.fv) hr (by
    intro fv hfv
    obtain ⟨u, hu, rfl⟩ := List.mem_map.1 hfv
    obtain ⟨_, _, hN⟩ := (hfree u hu).1.arr
    exact hN.alive hs0 (hfree u hu).2)
  have hp : (pack fm (vs.map Free.fv) h).2 = .ok ((List.range (totalSize vs)).map fun k => (vecArr [n] v).vec (0 + k)) := by
    refine pack_spec vs 0 hr.inv fun w hw => ?_
    obtain ⟨x0, e0, hN⟩ := (hfree w.1 (mem_offsets hw)).1.arr
    have := enough_lt (mem_offsets hw)
    rw [hN.eval (hfree w.1 (mem_offsets hw)).1.leaf e0 rfl fm (by omega)]
    refine congrArg _ (Arr.of_congr fun k hk => ?_)
    rw [Arr.atleast1_vec, hv.entries w hw x0 e0 k hk]
  simp only [Nat.zero_add] at hp
  set xs := (List.range (totalSize vs)).map fun k => (vecArr [n] v).vec k with hxs
  have hlen : xs.length = n := by rw [hxs, List.length_map, List.length_range, hn]
  have hvec : ∀ k, (hk : k < n) → (listArr xs).vec k = v ⟨k, hk⟩ := by
    intro k hk
    unfold listArr
    rw [Arr.vec_of _ _ (by simpa [hlen] using hk)]
    have hk' : k < xs.length := by rw [hlen]; exact hk
    rw [List.getD_eq_getElem _ _ hk']
    simp only [hxs, List.getElem_map, List.getElem_range]
    exact vecArr_vec (by simp) v hk
  have hsz : (listArr xs).size = n := by
    show [xs.length].prod = n
    simp [hlen]
  obtain ⟨h', e', N⟩ := newStacked r0.inv.str (o := o) (by rw [f0.alive]; exact ho) flip (listArr xs)
  have hstep : stackedFor fm flip o (vs.map Free.fv) h = (h', .ok h.next) := by
    unfold stackedFor
    rw [if_neg (by rw [hfv.dedup]; simp), mbind_ok hp, e', f0.next]
  have r' : OptReach h' := by
    have := OptReach.op (.new chStacked [nmX, nmObj] false false (stackedKws flip o (listArr xs))) r0 ⟨fun hh => False.elim hh, fun _ => ⟨rfl, rfl⟩⟩
    have e2 : (step lib (.new chStacked [nmX, nmObj] false false (stackedKws flip o (listArr xs))) (pack fm (vs.map Free.fv) h).1).1 = h' := by
      simp only [step, M.map', e']
    rw [e2] at this; exact this
  have hN := f0.next
  obtain ⟨N1, N2, N3, N4, N5, N6⟩ := N
  rw [hN] at N2 N3 N4 N5
  rw [f0.graph] at N5
  have hyx : h.next ≠ h.next + 1 := Nat.ne_of_lt (Nat.lt_succ_self _)
  have hold : ∀ j < h.next, h'.graph j = h.graph j := fun j hj => N5 j (Nat.ne_of_lt hj) (Nat.ne_of_lt (Nat.lt_succ_of_lt hj))
  have hlt : ∀ u ∈ vs, u.l < h.next := fun u hu => hs0.alive_lt (hfree u hu).2
  have h9' : 9999 ≤ h'.giter ∨ ∀ j, (h'.node j).itr ≠ some 9999 := by
    rw [N1, f0.giter]
    refine h9.imp id fun h2 j => ?_
    rcases N6 j with h3 | h3
    · rw [h3]; simp
    · rw [h3, f0.itr]; exact h2 j
  have hok : ∀ u ∈ vs, u.Ok h'.graph := fun u hu => by
    refine (hfree u hu).1.congr (hold _ (hlt u hu)) fun i hi => ?_
    exact hold i (free_dterms hs0 hi).1
  have hal : ∀ u ∈ vs, (h'.node u.l).alive = true := fun u hu => by
    rw [N2, if_neg (Nat.ne_of_lt (Nat.lt_succ_of_lt (hlt u hu))), if_neg (Nat.ne_of_lt (hlt u hu)), f0.alive]
    exact (hfree u hu).2
  -- what is below the objective is old
  have key : ∀ i j, Anc h.graph i j → (h.node j).alive = true → (h.node i).alive = true := by
    intro i j ha
    induction ha with
    | refl => exact id
    | step k hk _ ih => exact fun _ => ih (hs0.child_alive hk)
  have hdead : ∀ i, h.next ≤ i → ¬ Anc h.graph i o := by
    intro i hi ha
    have := key i o ha ho
    rw [hs0.unborn _ hi] at this; cases this
  let gm : Graph ClassDef Par := fun j => if j = h.next then h'.graph h.next else h.graph j
  have o1 : SameOff h.graph gm h.next := fun j hj => if_neg hj
  have o2 : SameOff gm h'.graph (h.next + 1) := fun j hj => by
    by_cases hj' : j = h.next
    · subst hj'; exact (if_pos rfl).symm
    · rw [N5 j hj' hj]; exact (if_neg hj').symm
  have d1 := hdead h.next (le_refl _)
  have d2 : ¬ Anc gm (h.next + 1) o := fun ha =>
    hdead (h.next + 1) (Nat.le_succ _) (o1.symm.anc_other (fun hb => d1 ((o1.anc_iff o).1 hb)) ha)
  have hback : ∀ j, Anc h'.graph j o → Anc h.graph j o := fun j ha =>
    o1.symm.anc_other (fun hb => d1 ((o1.anc_iff o).1 hb)) (o2.symm.anc_other (fun hb => d2 ((o2.anc_iff o).1 hb)) ha)
  have hsees : Sees f o vs F F' h'.graph := by
    refine (hF.off o1 d1 fun u hu => ⟨(hfree u hu).1.leaf, Nat.ne_of_lt (hlt u hu)⟩).off o2 d2
      fun u hu => ⟨?_, Nat.ne_of_lt (Nat.lt_succ_of_lt (hlt u hu))⟩
    have h2 : gm u.l = h.graph u.l := if_neg (Nat.ne_of_lt (hlt u hu))
    have := (hfree u hu).1.leaf
    unfold IsLeaf at this ⊢
    rw [h2]; exact this
  have hst : Stacked h' h.next (h.next + 1) o vs (listArr xs).atleast1 := by
    refine ⟨by rw [N4]; simp, fun u hu => ⟨hok u hu, hal u hu, Nat.ne_of_lt (Nat.lt_succ_of_lt (hlt u hu))⟩, ?_, ?_, ?_, nines_fresh h9'⟩
    · unfold IsLeaf; rw [N3]; exact ⟨rfl, fun _ => rfl, rfl⟩
    · exact means_leaf (by rw [N3]) (by rw [N3]; rfl)
    · rw [Arr.atleast1_size, hsz, hn]
  refine ⟨h', hstep, ⟨⟨r', ⟨?_, by rw [N4], by rw [N4], by rw [N4]; rfl, fun u hu => ⟨hok u hu, hal u hu⟩, nines_fresh h9'⟩, h9', ⟨_, _, hst, ?_, ?_⟩, hsees, ?_, ?_, ?_⟩,
    ⟨hv.shape, ?_⟩⟩, hold⟩
  · rw [N2, if_neg hyx, if_pos rfl]
  · rw [Arr.atleast1_size, hsz]
  · intro k hk
    rw [Arr.atleast1_vec]; exact hvec k hk
  · exact fun ha => d1 (hback _ ha)
  · exact fun j ha => hs0.alive_lt (key j o (hback j ha) ho)
  · refine (Untouched.refl fun u hu => (hfree u hu).1).step (fun j ha => ?_) (fun j ha _ => hold j (hs0.alive_lt ha)) fun u hu =>
      ⟨(hfree u hu).2, Nat.ne_of_lt (hlt u hu)⟩
    have hj := hs0.alive_lt ha
    rw [N2, if_neg (Nat.ne_of_lt (Nat.lt_succ_of_lt hj)), if_neg (Nat.ne_of_lt hj), f0.alive]
    exact ha
  · intro w hw a ha k hk
    rw [hold _ (hlt _ (mem_offsets hw))] at ha
    exact hv.entries w hw a ha k hk

/-! ## The property -/

/-- What holds when the user calls `minimize` in the state `h`, reached by any history: the objective and the `Ch`s under the free variables exist, no
free variable is given twice, and no failed `set` has left a tag 9999 that the counter of the optimiser could meet (see C07). -/
structure Called (o : Id) (vs : List Free) (h : Heap ClassDef Par Arr Jac) : Prop where
  reach : OptReach h
  tags : 9999 ≤ h.giter ∨ ∀ j, (h.node j).itr ≠ some 9999
  obj : (h.node o).alive = true
  free : ∀ u ∈ vs, u.Ok h.graph ∧ (h.node u.l).alive = true
  distinct : (vs.map Free.fv).Nodup

/-- C86, from the call on.  `minimize` with the dogleg method, called after any history, with the stacked objective made by `setup_objective` (its
keywords being assigned in either order), never raises.  After every number of turns it is where the dogleg method on the function `F` is, started
from the vector the free variables held at the call; the free variables hold its parameters, no other object the user had has changed, and they held the parameters of the mathematical method at
every call of the callback. -/
theorem C86_minimize (hc : Called o vs h) (hv : FreeOk n f fm h.next vs) (hF : IsFunction f o vs F F' h.graph) (flip disp md ms : Bool)
    (solve : (RVec n →L[ℝ] RVec n) → RVec n → RVec n) (opt : DogOpts ℝ) :
    ∃ v : RVec n, Packed h.graph vs (vecArr [n] v) ∧ ∀ k, ∃ s, minimizeDogleg n m fm flip disp md ms o (vs.map Free.fv) solve opt h k =
        .ok (h.next, (onVectors solve F F' opt v k).1, s) ∧
      (onVectors solve F F' opt v k).2 = s.re (onVectors solve F F' opt v k).2.world (onVectors solve F F' opt v k).2.calls ∧
      OptReach s.world ∧ Packed s.world.graph vs (vecArr [n] s.p) ∧ Untouched h s.world h.next vs ∧
      List.Forall₂ (fun p w => OptReach w ∧ Packed w.graph vs (vecArr [n] p)) (onVectors solve F F' opt v k).2.calls s.calls := by
  obtain ⟨v, hp⟩ := packed_exists (h := h) hv.size
  obtain ⟨h', e, hh, _⟩ := setup_holds hc.reach hc.tags hc.obj hc.free hc.distinct hv.size hv.reach (hF.sees (fun u hu => (hc.free u hu).1) hv.nodup hv.size) flip hp
  refine ⟨v, hp, fun k => ?_⟩
  obtain ⟨s, e1, h1⟩ := hh.dogleg hv disp md ms solve opt k
  refine ⟨s, ?_, h1⟩
  unfold minimizeDogleg
  rw [e]
  dsimp only
  have e1' : runM _ _ _ _ _ = _ := e1
  rw [e1']

/-- C86, end to end: with a positive `e_1` and `e_2` not negative (the defaults) the call ends, and leaves the free variables at a vector at which the
sum of squares of the objective is at most what it was at the call. -/
theorem C86_minimize_ends (hc : Called o vs h) (hv : FreeOk n f fm h.next vs) (hF : IsFunction f o vs F F' h.graph) (flip disp md ms : Bool)
    (solve : (RVec n →L[ℝ] RVec n) → RVec n → RVec n) (opt : DogOpts ℝ) (he1 : 0 < opt.e1) (he2 : 0 ≤ opt.e2) :
    ∃ (v v' : RVec n) (k : ℕ) (s : DogState ℝ (RVec n) (RVec m) (RVec n →L[ℝ] RVec m) (RVec n →L[ℝ] RVec n) (Heap ClassDef Par Arr Jac)),
      Packed h.graph vs (vecArr [n] v) ∧ minimizeDogleg n m fm flip disp md ms o (vs.map Free.fv) solve opt h k = .ok (h.next, .halt, s) ∧
      Packed s.world.graph vs (vecArr [n] v') ∧ ‖F v'‖ ^ 2 ≤ ‖F v‖ ^ 2 ∧ Untouched h s.world h.next vs := by
  obtain ⟨v, hp, hk⟩ := C86_minimize hc hv hF flip disp md ms solve opt
  obtain ⟨k, hh⟩ := C50_terminates_partial solve F F' (fun v _ => v) id F (fun _ => rfl) (fun w => hF.deriv w) (fun _ _ => rfl) (fun _ _ _ => rfl)
    opt he1 he2 v
  obtain ⟨s, e, h1, _, h3, h5, _⟩ := hk k
  obtain ⟨_, i2⟩ := C46_dogleg_accepts_improvements_real (n := n) (m := m) (W := RVec n) solve F F' (fun v _ => v) id (fun _ _ _ => rfl) (fun _ => rfl) opt v k
  have hw := (C47_dogleg_returns_last_accepted (realOps solve F F' (fun v _ => v) id) (fun _ _ _ => rfl) opt v k).2
  have hps : (onVectors solve F F' opt v k).2.p = s.p := by rw [h1]; rfl
  have hw' : (onVectors solve F F' opt v k).2.world = s.p := hw.trans hps
  rw [hw'] at i2
  rw [hh] at e
  exact ⟨v, s.p, k, s, hp, e, h3, i2, h5⟩

/-- C86, one call after another.  After any number of turns of the first call (so also when it has ended), everything a call needs holds
again, and a second call, with its own options, is the dogleg method on the same function `F`, started from the parameters the first one had. -/
theorem C86_minimize_again (hc : Called o vs h) (hv : FreeOk n f fm h.next vs) (hF : IsFunction f o vs F F' h.graph) (flip disp md ms : Bool)
    (solve : (RVec n →L[ℝ] RVec n) → RVec n → RVec n) (opt : DogOpts ℝ) (k : ℕ)
    (y : Id) (pc : PC) (s : DogState ℝ (RVec n) (RVec m) (RVec n →L[ℝ] RVec m) (RVec n →L[ℝ] RVec n) (Heap ClassDef Par Arr Jac))
    (e : minimizeDogleg n m fm flip disp md ms o (vs.map Free.fv) solve opt h k = .ok (y, pc, s)) :
    Called o vs s.world ∧ ∀ (_ : FreeOk n f fm s.world.next vs) (flip' disp' md' ms' : Bool) (solve' : (RVec n →L[ℝ] RVec n) → RVec n → RVec n)
      (opt' : DogOpts ℝ) (k' : ℕ), ∃ s', minimizeDogleg n m fm flip' disp' md' ms' o (vs.map Free.fv) solve' opt' s.world k' =
        .ok (s.world.next, (onVectors solve' F F' opt' s.p k').1, s') ∧
      (onVectors solve' F F' opt' s.p k').2 = s'.re (onVectors solve' F F' opt' s.p k').2.world (onVectors solve' F F' opt' s.p k').2.calls ∧
      OptReach s'.world ∧ Packed s'.world.graph vs (vecArr [n] s'.p) ∧ Untouched s.world s'.world s.world.next vs := by
  obtain ⟨v, hp⟩ := packed_exists (h := h) hv.size
  obtain ⟨h', e0, hh, _⟩ := setup_holds hc.reach hc.tags hc.obj hc.free hc.distinct hv.size hv.reach
    (hF.sees (fun u hu => (hc.free u hu).1) hv.nodup hv.size) flip hp
  obtain ⟨s1, e1, hw⟩ := hh.dogleg_holds hv disp md ms solve opt k
  have e1' : runM _ _ _ _ _ = _ := e1
  unfold minimizeDogleg at e
  rw [e0] at e
  dsimp only at e
  rw [e1'] at e
  injection e with e
  injection e with _ e
  injection e with _ e
  subst e
  have hc' : Called o vs s1.world := ⟨hw.reach, hw.nines, hw.untouched.alive o hc.obj, hw.setup.free, hc.distinct⟩
  refine ⟨hc', fun hv' flip' disp' md' ms' solve' opt' k' => ?_⟩
  obtain ⟨h2, e2, hh2, _⟩ := setup_holds hc'.reach hc'.tags hc'.obj hc'.free hc'.distinct hv'.size hv'.reach hw.sees flip' hw.packed
  obtain ⟨s', e3, g1, g2, g3, g4, _⟩ := hh2.dogleg hv' disp' md' ms' solve' opt' k'
  have e3' : runM _ _ _ _ _ = _ := e3
  refine ⟨s', ?_, g1, g2, g3, g4⟩
  unfold minimizeDogleg
  rw [e2]
  dsimp only
  rw [e3']

/-- C86, the check of the free variables: with one given twice `minimize` raises, and nothing has happened. -/
theorem C86_minimize_duplicate (o : Id) (fvs : List Id) (hd : ¬ fvs.Nodup) (h : Heap ClassDef Par Arr Jac) (flip disp md ms : Bool)
    (solve : (RVec n →L[ℝ] RVec n) → RVec n → RVec n) (opt : DogOpts ℝ) (k : ℕ) :
    stackedFor fm flip o fvs h = (h, .error (.user 2)) ∧
    minimizeDogleg n m fm flip disp md ms o fvs solve opt h k = .error (.user 2) := by
  have h1 : stackedFor fm flip o fvs h = (h, .error (.user 2)) := by
    unfold stackedFor
    rw [if_pos fun e => hd (List.dedup_eq_self.1 ((List.dedup_sublist fvs).eq_of_length e))]
    rfl
  refine ⟨h1, ?_⟩
  unfold minimizeDogleg
  rw [h1]
end

/-! ## A case -/

namespace ADDemo

/-- `a = Ch([1, 2])` and `SumOfSquares(a)`: the user calls `minimize`. -/
theorem bowl_called : ∃ h, h.next = 2 ∧ Called 1 [bowlFree] h ∧ FreeOk 2 5 10 h.next [bowlFree] ∧ Packed h.graph [bowlFree] (vecArr [2] bowlAt) ∧
    IsFunction 5 1 [bowlFree] bowl (fun v => matMap 2 1 fun _ j => if h : j < 2 then 2 * v ⟨j, h⟩ else 0) h.graph := by
  obtain ⟨h, hr, hn, hg, hj, hu⟩ := built_untagged [leafO ⟨[2], ![1, 2]⟩, unO chSumSq 0] ⟨leafO_fits _ _, unO_fits (by decide), trivial⟩
  have hu := hu (by simp [leafO, unO])
  have g0 := hj 0 (by simp)
  have g1 := hj 1 (by simp)
  have hn : h.next = 2 := hn
  have l0 : IsLeaf h.graph 0 := isLeaf_leafO g0.2
  have t0 : (h.graph 0).terms nmX = some (.arr ⟨[2], ![1, 2]⟩) := by rw [g0.2]; rfl
  refine ⟨h, hn, ⟨optReach_of_reach hr, Or.inr fun j => by rw [hu]; simp, g1.1, fun v hv => ?_, by simp⟩, ?_, ⟨rfl, ?_⟩, bowl_function l0 t0 g1.2⟩
  · obtain rfl : v = bowlFree := by simpa using hv
    exact ⟨⟨l0, ⟨_, t0, .leaf⟩, fun i _ j _ e => e⟩, g0.1⟩
  · rw [hn]; exact ⟨by decide, rfl, by simp, by simp [bowlFree], by decide, by decide, by decide⟩
  · intro w hw a ha k hk
    obtain rfl : w = (bowlFree, 0) := by simpa [offsets] using hw
    have ha' : (h.graph 0).terms nmX = some (.arr a) := ha
    rw [t0] at ha'
    obtain rfl : (⟨[2], ![1, 2]⟩ : Arr) = a := by simpa using ha'
    have hk' : k < 2 := hk
    show (vecArr [2] bowlAt).vec (0 + k) = _
    rw [Nat.zero_add, vecArr_vec (by simp) _ hk']
    rcases (by omega : k = 0 ∨ k = 1) with rfl | rfl <;> simp [Arr.vec, bowlAt, bowlFree]

/-- So this call ends. -/
example (flip : Bool) (solve : (RVec 2 →L[ℝ] RVec 2) → RVec 2 → RVec 2) (opt : DogOpts ℝ) (he1 : 0 < opt.e1) (he2 : 0 ≤ opt.e2) : ∃ h k s,
    minimizeDogleg 2 1 10 flip true true false 1 [0] solve opt h k = .ok (2, .halt, s) := by
  obtain ⟨h, hn, hc, hv, _, hF⟩ := bowl_called
  obtain ⟨_, _, k, s, _, e, _⟩ := C86_minimize_ends hc hv hF flip true true false solve opt he1 he2
  rw [hn] at e
  exact ⟨h, k, s, e⟩

/-- And `minimize` may be called again in the state it leaves. -/
example (flip : Bool) (solve : (RVec 2 →L[ℝ] RVec 2) → RVec 2 → RVec 2) (opt : DogOpts ℝ) (k : ℕ) : ∃ h pc s,
    minimizeDogleg 2 1 10 flip true true false 1 [0] solve opt h k = .ok (2, pc, s) ∧ Called 1 [bowlFree] s.world := by
  obtain ⟨h, hn, hc, hv, _, hF⟩ := bowl_called
  obtain ⟨_, _, hk⟩ := C86_minimize hc hv hF flip true true false solve opt
  obtain ⟨s, e, _⟩ := hk k
  rw [hn] at e
  exact ⟨h, _, s, e, (C86_minimize_again hc hv hF flip true true false solve opt k _ _ _ e).1⟩

end ADDemo
end Chumpy
