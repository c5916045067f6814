import Verif.AD.Report
import Verif.Properties.Packing
import Verif.Properties.Objective
/-!
# C83: what the optimiser reports at each step
-/
namespace Chumpy
open scoped BigOperators

variable {L : Type} [LinearOrder L]

/-- The line is right for the state `g`: it shows the sum of squares of the value of `o`, and for each label that of the value of its
object; the labels are in increasing order, none missing, none twice. -/
structure ShowsLine (g : Graph ClassDef Par) (o : Id) (ls : List (L × Id)) (line : ReportLine L) : Prop where
  total : ∃ w, Means lib g (.r o) (.ok w) ∧ line.total = energy w
  order : line.parts.Pairwise fun a b => a.1 < b.1
  shown : ∀ l e, (l, e) ∈ line.parts ↔ ∃ i v, (l, i) ∈ ls ∧ Means lib g (.r i) (.ok v) ∧ e = energy v

/-- All objects to be shown have values. -/
def HaveValues (g : Graph ClassDef Par) (o : Id) (ls : List (L × Id)) : Prop :=
  (∃ w, Means lib g (.r o) (.ok w)) ∧ ∀ p ∈ ls, ∃ v, Means lib g (.r p.2) (.ok v)

/-- C83 in full: for all free variables that do not share entries. -/
def C83_full : Prop :=
  ∀ (h : Heap ClassDef Par Arr Jac), OptReach h → ∀ (y o : Id) (vs : List Free) (xv : Arr) (ls : List (ℕ × Id)), Setup h y o vs → Apart vs →
    xv.size = totalSize vs → (ls.map Prod.fst).Nodup →
    ∃ h1, setObj lib y [.wrap nmX (.arr xv)] h = (h1, .ok ()) ∧ ∀ g, Spread h1.graph g xv vs → HaveValues g o ls →
      ∃ line f₀, ShowsLine g o ls line ∧ ∀ f ≥ f₀, ∃ h', stepCallback f y (vs.map Free.fv) none true ls h1 = (h', .ok (some line)) ∧ h'.graph = g

/-! ## Proofs -/

theorem sumSq_eq (v : Arr) : sumSq v = energy v := by
  unfold sumSq energy
  rw [Finset.sum_range]
  rw [← List.sum_ofFn]
  congr 1
  rw [← List.map_coe_finRange_eq_range, List.map_map, List.ofFn_eq_map]
  rfl

theorem means_eval {g : Graph ClassDef Par} {q : Req} {v : Arr} (h : Means lib g q (.ok v)) : ∃ f₀, ∀ f ≥ f₀, evalReq lib g f q = .ok v := by
  obtain ⟨_, f₀, hf⟩ := h
  exact ⟨f₀, fun f hle => (evalReq_mono lib g hle q (by rw [hf]; simp)).trans hf⟩

theorem means_same {g : Graph ClassDef Par} {q : Req} {u v : Arr} (hu : Means lib g q (.ok u)) (hv : Means lib g q (.ok v)) : u = v := by
  obtain ⟨f₀, h0⟩ := means_eval hu
  obtain ⟨f₁, h1⟩ := means_eval hv
  have := (h0 _ (le_max_left f₀ f₁)).symm.trans (h1 _ (le_max_right f₀ f₁))
  cases this; rfl

omit [LinearOrder L] in
/-- Reading the labelled objects one after the other. -/
theorem reportParts_spec {g : Graph ClassDef Par} (ls : List (L × Id)) (hv : ∀ p ∈ ls, ∃ v, Means lib g (.r p.2) (.ok v)) :
    ∃ ps f₀, (ps.map Prod.fst = ls.map Prod.fst ∧ ∀ l e, (l, e) ∈ ps ↔ ∃ i v, (l, i) ∈ ls ∧ Means lib g (.r i) (.ok v) ∧ e = energy v) ∧
      ∀ f ≥ f₀, ∀ h : Heap ClassDef Par Arr Jac, Inv lib ⟨False, True⟩ h → h.graph = g →
        (reportParts f ls h).2 = .ok ps ∧ (reportParts f ls h).1.graph = g := by
  induction ls with
  | nil => exact ⟨[], 0, by simp, fun f _ h _ hg => ⟨rfl, hg⟩⟩
  | cons p ls ih =>
    obtain ⟨l, o⟩ := p
    obtain ⟨v, hm⟩ := hv (l, o) (by simp)
    obtain ⟨f₁, h1⟩ := means_eval hm
    obtain ⟨ps, f₀, ⟨e1, e2⟩, h0⟩ := ih fun p hp => hv p (by simp [hp])
    refine ⟨(l, energy v) :: ps, max f₀ f₁, ⟨by simp [e1], fun l' e' => ?_⟩, fun f hf h hi hg => ?_⟩
    · rw [List.mem_cons, e2]
      constructor
      · rintro (h | ⟨i, u, h2, h3, h4⟩)
        · cases h; exact ⟨o, v, by simp, hm, rfl⟩
        · exact ⟨i, u, by simp [h2], h3, h4⟩
      · rintro ⟨i, u, h2, h3, h4⟩
        rcases List.mem_cons.1 h2 with h5 | h5
        · cases h5
          left
          rw [h4, means_same h3 hm]
        · exact Or.inr ⟨i, u, h5, h3, h4⟩
    · have hrd : (read lib f (.r o) h).2 = .ok v := inv_read_ok hi (by rw [hg]; exact h1 f (by omega))
      have hfr := read_pres (s := lib) (rframe_rel (C := ClassDef) (T := Par) (V := Arr) (D := Jac)) f (.r o) h
      obtain ⟨k1, k2⟩ := h0 f (by omega) _ (read_inv hi f (.r o)) (hfr.graph.trans hg)
      simp only [reportParts]
      rw [mbind_ok hrd, mbind_ok k1, ← sumSq_eq]
      exact ⟨rfl, k2⟩

theorem sortLabels_perm (ls : List (L × Id)) : (sortLabels ls).Perm ls := List.mergeSort_perm _ _

theorem sortLabels_lt {ls : List (L × Id)} (hn : (ls.map Prod.fst).Nodup) : ((sortLabels ls).map Prod.fst).Pairwise (· < ·) := by
  have h1 : (sortLabels ls).Pairwise fun a b => a.1 ≤ b.1 := by
    have := List.pairwise_mergeSort (le := fun a b : L × Id => decide (a.1 ≤ b.1)) (fun a b c h h' => by
        simp only [decide_eq_true_eq] at h h' ⊢; exact le_trans h h') (fun a b => by
        simp only [Bool.or_eq_true, decide_eq_true_eq]; exact le_total _ _) ls
    exact this.imp fun h => by simpa using h
  have h2 : ((sortLabels ls).map Prod.fst).Nodup := ((sortLabels_perm ls).map _).nodup_iff.2 hn
  rw [List.pairwise_map]
  rw [List.Nodup, List.pairwise_map] at h2
  exact (h1.and h2).imp fun h => lt_of_le_of_ne h.1 h.2

section
variable {h : Heap ClassDef Par Arr Jac} {y o : Id} {vs : List Free}

/-- From what the read of the objective does to the line. -/
theorem line_of {g : Graph ClassDef Par} {ls : List (L × Id)} (hn : (ls.map Prod.fst).Nodup) (hv : HaveValues g o ls) {fvs : List Id} {w : Arr}
    (hw : Means lib g (.r o) (.ok w)) {f₁ : ℕ} (hst : ∀ f ≥ f₁, ∃ h', Inv lib ⟨False, True⟩ h' ∧ h'.graph = g ∧
      stackedR f y fvs h = (h', .ok (Arr.of [w.size] w.vec))) :
    ∃ line f₀, ShowsLine g o ls line ∧ ∀ f ≥ f₀, ∃ h', stepCallback f y fvs none true ls h = (h', .ok (some line)) ∧ h'.graph = g := by
  obtain ⟨ps, f₀, ⟨e1, e2⟩, h0⟩ := reportParts_spec (g := g) (sortLabels ls) fun p hp => hv.2 p ((sortLabels_perm ls).mem_iff.1 hp)
  refine ⟨⟨energy w, ps⟩, max f₀ f₁, ⟨⟨w, hw, rfl⟩, ?_, fun l e => ?_⟩, fun f hf => ?_⟩
  · have := sortLabels_lt hn
    rw [← e1, List.pairwise_map] at this
    exact this
  · show (l, e) ∈ ps ↔ _
    rw [e2]
    exact exists_congr fun i => exists_congr fun v => and_congr (sortLabels_perm ls).mem_iff Iff.rfl
  · obtain ⟨h', hi, hg, hs⟩ := hst f (by omega)
    obtain ⟨k1, k2⟩ := h0 f (by omega) h' hi hg
    have hsz : sumSq (Arr.of [w.size] w.vec) = energy w := by
      rw [sumSq_eq]
      unfold energy
      have hz : (Arr.of [w.size] w.vec).size = w.size := by simp [Arr.of, Arr.size]
      rw [hz]
      refine Finset.sum_congr rfl fun k hk => ?_
      rw [Arr.vec_of _ _ (by simpa using hk)]
    refine ⟨(reportParts f (sortLabels ls) h').1, ?_, k2⟩
    show M.bind (M.pure ()) _ h = _
    rw [mbind_ok (a := ()) rfl]
    show (if true = true then _ else _ : M ClassDef Par Arr Jac _) h = _
    rw [if_pos rfl, mbind_ok (a := Arr.of [w.size] w.vec) (by rw [hs]), hs, mbind_ok k1, hsz]
    rfl

/-- C83, after the optimiser assigned `obj.x`: the line shows the values the objects have with the assigned vector distributed over the
free variables `g`, whichever of them were read before; nothing else changes.
Missing: as for C53, several free variables that are slices of one `Ch`. -/
theorem C83_report_partial {ls : List (L × Id)} {xv : Arr} (hr : OptReach h) (hy : Setup h y o vs) (hnd : (vs.map Free.l).Nodup)
    (hsz : xv.size = totalSize vs) (hn : (ls.map Prod.fst).Nodup) :
    ∃ h1, setObj lib y [.wrap nmX (.arr xv)] h = (h1, .ok ()) ∧ ∀ g, Spread h1.graph g xv vs → HaveValues g o ls →
      ∃ line f₀, ShowsLine g o ls line ∧
        ∀ f ≥ f₀, ∃ h', stepCallback f y (vs.map Free.fv) none true ls h1 = (h', .ok (some line)) ∧ h'.graph = g := by
  obtain ⟨h1, e, r1, st, d1, c1, l1, g1⟩ := assign_x hr hy hsz
  refine ⟨h1, e, fun g hg hv => ?_⟩
  obtain ⟨w, hw⟩ := hv.1
  have hyl : ∀ v ∈ vs, y ≠ v.l := by
    rintro v hv rfl
    have := (hy.free v hv).1.leaf.2.1 nmObj
    rw [hy.linkO] at this; cases this
  have hgy : g y = h1.graph y := hg.other y hyl
  obtain ⟨_, f1, hf1⟩ := stacked_means (by rw [hgy]; exact c1) (by rw [hgy]; exact l1) hw
  refine line_of hn hv hw (f₁ := max (enough vs) f1) fun f hf => ?_
  obtain ⟨h', hi, e2, q⟩ := read_x r1 st d1 hnd (f := f) (by omega)
  have hgg : h'.graph = g := by
    refine Spread.unique q.spread (xv := xv.atleast1) ⟨fun v hv => ?_, hg.other⟩
    obtain ⟨x0, x1, k1, k2, k3, k4, k5⟩ := hg.each v hv
    exact ⟨x0, x1, k1, k2, k3, fun u hu hl k hk => by rw [Arr.atleast1_vec]; exact k4 u hu hl k hk, k5⟩
  have hfr := read_pres (s := lib) (rframe_rel (C := ClassDef) (T := Par) (V := Arr) (D := Jac)) f (.r y) h'
  refine ⟨_, read_inv hi f (.r y), hfr.graph.trans hgg, ?_⟩
  have hval : (read lib f (.r y) h').2 = .ok (Arr.of [w.size] w.vec) := inv_read_ok hi (by
    rw [hgg]
    exact (evalReq_mono lib g (show f1 ≤ f by omega) (.r y) (by rw [hf1]; simp)).trans hf1)
  rw [e2, ← hval]

/-- C83, when nothing is waiting to be distributed: the line shows the present values, after any history (also after writes by the
user), for any free variables. -/
theorem C83_report_now {ls : List (L × Id)} (hr : OptReach h) (hc : (h.graph y).cls = chStacked) (ho : (h.graph y).dterms nmObj = some o)
    (hd : (h.node y).dirty = []) (fvs : List Id) (hn : (ls.map Prod.fst).Nodup) (hv : HaveValues h.graph o ls) :
    ∃ line f₀, ShowsLine h.graph o ls line ∧
      ∀ f ≥ f₀, ∃ h', stepCallback f y fvs none true ls h = (h', .ok (some line)) ∧ h'.graph = h.graph := by
  obtain ⟨w, hw⟩ := hv.1
  obtain ⟨_, f1, hf1⟩ := stacked_means hc ho hw
  refine line_of hn hv hw (f₁ := f1) fun f hf => ?_
  have hfr := read_pres (s := lib) (rframe_rel (C := ClassDef) (T := Par) (V := Arr) (D := Jac)) f (.r y) h
  refine ⟨_, read_inv hr.inv f (.r y), hfr.graph, ?_⟩
  have hval : (read lib f (.r y) h).2 = .ok (Arr.of [w.size] w.vec) := inv_read_ok hr.inv
    ((evalReq_mono lib h.graph hf (.r y) (by rw [hf1]; simp)).trans hf1)
  unfold stackedR
  rw [if_pos (by rw [hd]; rfl), ← hval]

/-- C83: `on_step` runs first; the line is then made in the state it leaves, and if it raises an exception the callback does too, writing
nothing.  Without `disp` nothing else happens. -/
theorem C83_on_step (f : ℕ) (y : Id) (fvs : List Id) (act : M ClassDef Par Arr Jac Unit) (ls : List (L × Id)) (h : Heap ClassDef Par Arr Jac) :
    (∀ h', act h = (h', .ok ()) → stepCallback f y fvs (some act) true ls h = stepCallback f y fvs none true ls h' ∧
      stepCallback f y fvs (some act) false ls h = (h', .ok none)) ∧
    ∀ h' e disp, act h = (h', .error e) → stepCallback f y fvs (some act) disp ls h = (h', .error e) := by
  refine ⟨fun h' e => ⟨?_, ?_⟩, fun h' e disp he => ?_⟩
  · unfold stepCallback
    rw [mbind_ok (a := ()) (show ((some act).getD (M.pure ()) h).2 = _ by simp [e]), mbind_ok (a := ()) (show ((none : Option (M ClassDef Par Arr Jac Unit)).getD (M.pure ()) h').2 = .ok () from rfl)]
    simp [e, M.pure]
  · unfold stepCallback
    rw [mbind_ok (a := ()) (show ((some act).getD (M.pure ()) h).2 = _ by simp [e])]
    simp [e, M.pure]
  · unfold stepCallback
    simp [M.bind, he]
end

namespace ADDemo
/-- The hypotheses of C83 are met: free variables `c[:1]` and `d`, the objective `c[1:]`, the labels `1` for `c` and `0` for `d`. -/
example : ∃ h, OptReach h ∧ Setup h 4 2 [freeA, freeC] ∧ ([freeA, freeC].map Free.l).Nodup ∧ (⟨[2], ![10, 20]⟩ : Arr).size = totalSize [freeA, freeC] ∧
    (([(1, 0), (0, 5)] : List (ℕ × Id)).map Prod.fst).Nodup ∧ ∃ h1, setObj lib 4 [.wrap nmX (.arr ⟨[2], ![10, 20]⟩)] h = (h1, .ok ()) ∧
      ∃ g, Spread h1.graph g ⟨[2], ![10, 20]⟩ [freeA, freeC] ∧ HaveValues g 2 ([(1, 0), (0, 5)] : List (ℕ × Id)) := by
  obtain ⟨h, hr, hs, hn, t0, h4, _, h2⟩ := slices_state
  have hs' := hs [freeA, freeC] (by simp)
  have hsz : (⟨[2], ![10, 20]⟩ : Arr).size = totalSize [freeA, freeC] := by decide
  obtain ⟨h1, e, r1, st, d1, c1, l1, g1⟩ := assign_x hr hs' hsz
  obtain ⟨h1', e', ⟨g, hg⟩, _⟩ := C53_objective_sees_writes_partial hr hs' (by decide) hsz
  rw [e] at e'; cases e'
  have leaf : ∀ v ∈ [freeA, freeC], ∃ x : Arr, IsLeaf g v.l ∧ Means lib g (.r v.l) (.ok x.atleast1) ∧
      ∃ x0, (h1.graph v.l).terms nmX = some (.arr x0) ∧ x.shape = x0.shape := by
    intro v hv
    obtain ⟨x0, x1, k1, k2, k3, _⟩ := hg.each v hv
    have hl : IsLeaf g v.l := by
      have := isLeaf_withArr (l := v.l) (x := x1) (st.free v hv).1.leaf
      unfold IsLeaf at this ⊢
      rw [k2]; exact this
    exact ⟨x1, hl, means_leaf hl.1 (by rw [k2]; simp [withArr]), x0, k1, k3⟩
  obtain ⟨x, _, m0, x0, k1, k2⟩ := leaf freeA (by simp)
  obtain ⟨x', _, m5, _⟩ := leaf freeC (by simp)
  refine ⟨h, hr, hs', by decide, hsz, by decide, h1, e, g, hg, ⟨?_, ?_⟩⟩
  · have e2 : g 2 = (unPO chSelect (.nats [1]) (.nats [1]) 0).node := by
      rw [hg.other 2 (by simp [freeA, freeC]), g1 2 (by rw [hn]; decide) (by decide)]; exact h2
    have k3 : (h1.graph 0).terms nmX = some (.arr x0) := k1
    rw [g1 0 (by rw [hn]; decide) (by decide), t0] at k3
    obtain rfl : _ = x0 := by simpa using k3
    have hsz2 : x.atleast1.size = 2 := by rw [Arr.atleast1_size]; unfold Arr.size; rw [k2]; rfl
    have hE := exact_select (tm := (g 2).terms) (v := x.atleast1) (idxs := [1]) (sh := [1]) (by rw [e2]; rfl) (by rw [e2]; rfl)
      (by rw [hsz2]; decide) (by decide)
    exact ⟨_, means_of_isA (isA_unP e2) (v := fun _ => x.atleast1) (fun _ => m0) hE.val⟩
  · intro p hp
    rcases (by simpa using hp : p = (1, 0) ∨ p = (0, 5)) with rfl | rfl
    · exact ⟨_, m0⟩
    · exact ⟨_, m5⟩
example : sortLabels ([(1, 0), (0, 5)] : List (ℕ × Id)) = [(0, 5), (1, 0)] := by
  simp [sortLabels, List.mergeSort]
end ADDemo

/-- C83 fails in full: with two slices of one `Ch` as free variables, the line after `obj.x = [10, 20]` shows the sum of squares for the old
vector. -/
theorem C83_refuted : ¬ C83_full := by
  intro hf
  obtain ⟨h, hr, hs, h1, e, hst, g, hg, hm⟩ := ADDemo.slices_after
  obtain ⟨h1', e', hh⟩ := hf h hr 4 2 _ ⟨[2], ![10, 20]⟩ [] hs ADDemo.slices_apart rfl (by simp)
  rw [e] at e'
  obtain rfl : h1 = h1' := (Prod.mk.inj e').1
  obtain ⟨line, f₀, ⟨⟨w, hw, ht⟩, _, _⟩, hl⟩ := hh g hg ⟨⟨_, hm⟩, by simp⟩
  obtain ⟨h', k, _⟩ := hl (max f₀ 10) (le_max_left _ _)
  obtain ⟨h2, h4, _⟩ := hst (max f₀ 10) (le_max_right _ _)
  have h5 : stackedR (max f₀ 10) 4 ([ADDemo.freeA, ADDemo.freeB].map Free.fv) h1 = _ := h4
  have h6 : stepCallback (max f₀ 10) 4 ([ADDemo.freeA, ADDemo.freeB].map Free.fv) none true ([] : List (ℕ × Id)) h1 =
      (h2, .ok (some ⟨sumSq (Arr.of [1] fun _ => 2), []⟩)) := by
    show M.bind (M.pure ()) _ h1 = _
    rw [mbind_ok (a := ()) rfl]
    show M.bind (stackedR _ _ _) _ h1 = _
    rw [mbind_ok (a := Arr.of [1] fun _ => 2) (by rw [h5]), h5]
    simp [sortLabels, reportParts, M.bind, M.pure]
  rw [h6] at k
  have k2 : (⟨sumSq (Arr.of [1] fun _ => 2), []⟩ : ReportLine ℕ) = line := by simpa using (Prod.mk.inj k).2
  have e1 : ∀ c : ℝ, energy (Arr.of [1] fun _ => c) = c ^ 2 := by
    intro c
    unfold energy
    rw [show (Arr.of [1] fun _ => c).size = 1 from rfl, Finset.sum_range_one, Arr.vec_of _ _ (by simp)]
  rw [← k2, means_same hw hm, e1] at ht
  have : sumSq (Arr.of [1] fun _ => (2 : ℝ)) = 2 ^ 2 := by rw [sumSq_eq, e1]
  dsimp only at ht
  rw [this] at ht
  norm_num at ht
end Chumpy
