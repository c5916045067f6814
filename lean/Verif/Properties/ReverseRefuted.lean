import Verif.Properties.Reverse
import Verif.Properties.Slices
import Verif.Properties.Reduce
import Verif.Properties.Links
/-!
# C19: where reverse mode is not forward mode

`lmult_wrt` skips the children that do not refer to the slice asked about (ch.py:662), although the derivative goes over what the slice is a
slice of; and it compares matrices with `None` by `!=` (ch.py:657), which raises for arrays with several entries.
-/
namespace Chumpy
open scoped BigOperators

/-- `y.dr_wrt(w, reverse_mode=True)` returns the matrix `E`. -/
def ReportsRev (h : Heap ClassDef Par Arr Jac) (y w : Id) (m n : ℕ) (E : Ent) : Prop :=
  ∃ f₀, ∀ f ≥ f₀, ∃ o, (drWrtRev lib Jac.neNone f y w h).2 = .ok o ∧ num.RepO o m n E

/-- C19 for reverse mode in full: it returns whatever forward mode does, also for slices `w`. -/
def C19_reverse_full : Prop :=
  ∀ (h : Heap ClassDef Par Arr Jac), Reach lib ⟨True, True⟩ h → ∀ (y w : Id) (m n : ℕ) (E : Ent), Reports h y w m n E → ReportsRev h y w m n E

/-- The same for the objects `w` that are not slices. -/
def C19_reverse_no_slices : Prop :=
  ∀ (h : Heap ClassDef Par Arr Jac), Reach lib ⟨True, True⟩ h → ∀ (y w : Id) (m n : ℕ) (E : Ent), lib.isPermute (h.graph w).cls = false →
    Reports h y w m n E → ReportsRev h y w m n E

/-- After `y.clear_cache()`. -/
theorem cleared {fr : Mode} {h : Heap ClassDef Par Arr Jac} (hr : Reach lib fr h) {y c : Id} {k : Name} (hk : (h.graph y).dterms k = some c) :
    ∃ h', Reach lib fr h' ∧ h'.graph = h.graph ∧ ∀ w, (h'.node y).drs w = none := by
  have hs := reach_str hr
  have ha : (h.node y).alive = true := by
    cases ha : (h.node y).alive with
    | true => rfl
    | false =>
      have hk' : (h.node y).dterms k = some c := hk
      rw [(hs.dead y ha).2.1 k] at hk'; cases hk'
  have e : (step lib (.clear y) h).1 = (clearCacheFull lib y none h).1 := by
    simp only [step, ifAlive]; rw [if_pos ha]; rfl
  obtain ⟨_, h2, _, h4, _⟩ := C04_clear_cache (s := lib) h (fun n hn => hs.par0 n hn) y
  refine ⟨_, .step (.clear y) hr trivial, ?_, ?_⟩
  · rw [e]; funext j; exact (h4 j).1
  · rw [e]; exact (h2 y (up_dependent.1 .refl)).2

theorem drWrtRev_eq {fr : Mode} {h : Heap ClassDef Par Arr Jac} (hi : Inv lib fr h) {y w : Id} (hd : (h.node y).drs w = none) {f₀ : ℕ}
    {r : Except Err (Option Jac)} (hne : r ≠ .error .fuel) (hf : evalRevSum lib Jac.neNone h.graph f₀ y w = r) :
    ∀ f ≥ f₀, ∃ b b', (drWrtRev lib Jac.neNone (f + 1) y w h).2 = r.map fun r => (r.map lib.finish).map (lib.outForm b b') := by
  intro f hle
  have h1 := callOnChanged_ok y h
  have hfr := callOnChanged_frame y h
  have hc' := callOnChanged_coh (s := lib) y hi.coh
  have hca := (callOnChanged_caches y h y).2.2
  simp only [drWrtRev, M.bind]
  rcases hmh : callOnChanged y h with ⟨h', r'⟩
  rw [hmh] at h1 hfr hc' hca
  dsimp only at h1 hca
  subst h1
  dsimp only
  rw [hca, hd]
  dsimp only
  obtain ⟨hsim, hmono⟩ := revSum_simM (s := lib) (n := Jac.neNone) (P := True) (W := Wf lib fr) (g := h.graph) f y w
  obtain ⟨_, _, hag⟩ := hsim h' hc' hfr.graph
  have e := hmono hle
  dsimp only at e
  rw [Le, hf] at e
  have e := e hne
  have h2 := (hag trivial).1 (by dsimp only; rw [e]; exact hne)
  dsimp only at h2
  rw [e] at h2
  rcases hrs : revSum lib Jac.neNone f y w h' with ⟨h3, r3⟩
  rw [hrs] at h2
  dsimp only at h2
  subst h2
  cases r3 with
  | error e => exact ⟨false, false, rfl⟩
  | ok r3 =>
    dsimp only
    have hst : ∃ h4, storeDr y w (r3.map lib.finish) h3 = (h4, .ok ()) := by
      unfold storeDr; split <;> exact ⟨_, rfl⟩
    obtain ⟨h4, hst⟩ := hst
    rw [hst]
    exact ⟨_, _, rfl⟩

theorem not_reportsRev_none {fr : Mode} {h : Heap ClassDef Par Arr Jac} (hi : Inv lib fr h) {y w : Id} (hd : (h.node y).drs w = none) {f₀ : ℕ}
    (hf : evalRevSum lib Jac.neNone h.graph f₀ y w = .ok none) {m n : ℕ} {E : Ent} (hE : ¬ Ent.EqOn m n E 0) : ¬ ReportsRev h y w m n E := by
  rintro ⟨f1, h1⟩
  obtain ⟨o, ho, hE'⟩ := h1 (max f₀ f1 + 1) (by omega)
  obtain ⟨b, b', e⟩ := drWrtRev_eq hi hd (by simp) hf (max f₀ f1) (by omega)
  rw [e] at ho
  cases ho
  exact hE hE'

theorem not_reportsRev_raises {fr : Mode} {h : Heap ClassDef Par Arr Jac} (hi : Inv lib fr h) {y w : Id} (hd : (h.node y).drs w = none) {f₀ : ℕ}
    {e : Err} (hf : evalRevSum lib Jac.neNone h.graph f₀ y w = .error e) (he : e ≠ .fuel) {m n : ℕ} {E : Ent} : ¬ ReportsRev h y w m n E := by
  rintro ⟨f1, h1⟩
  obtain ⟨o, ho, hE'⟩ := h1 (max f₀ f1 + 1) (by omega)
  obtain ⟨b, b', e⟩ := drWrtRev_eq hi hd (by intro h; injection h with h; exact he h) hf (max f₀ f1) (by omega)
  rw [e] at ho
  cases ho

namespace ADDemo
/-- `a = Ch([1,2]); w = a[[1,0]]; q = -a; p = -q; y = -p` -/
noncomputable def behind : List (ObjSpec ClassDef Par) :=
  [leafO (vec2 1 2), unPO chSelect (.nats [1, 0]) (.nats [2]) 0, unO chNegative 0, unO chNegative 2, unO chNegative 3]

theorem behind_fits : FitsFrom 0 behind :=
  ⟨leafO_fits _ _, unPO_fits (by decide), unO_fits (by decide), unO_fits (by decide), unO_fits (by decide), trivial⟩

/-- `a = Ch([1,2]); q = SumOfSquares(a); y = exp(q)` -/
noncomputable def dense : List (ObjSpec ClassDef Par) := [leafO (vec2 1 2), unO chSumSq 0, unO chExp 1]

theorem dense_fits : FitsFrom 0 dense := ⟨leafO_fits _ _, unO_fits (by decide), unO_fits (by decide), trivial⟩

/-- The derivative of a unary operation about its operand, and about other things. -/
theorem neg_facts {g : Graph ClassDef Par} {y a : Id} (hy : IsA g y chNegative [nmA] fun _ => a) {v : Arr} (hv : Means lib g (.r a) (.ok v))
    (hs : v.shape = [2]) (hya : y ≠ a) : (∃ out : Arr, Means lib g (.r y) (.ok out) ∧ out.shape = [2]) ∧
    (∃ d, CompIs lib g y a (some d) ∧ Jac.Rep d 2 2 (diagMat fun _ => -1)) ∧
    (∀ F p, y ≠ p → p ≠ a → evalCompDr lib g F y p = .ok none) := by
  have hE := exact_unary (f := fun x => -x) (d := fun _ => -1) (g y).terms (v := v) (Or.inl ⟨2, [], hs, by decide⟩) (fun _ _ => (hasDerivAt_id _).neg)
  have hsz : v.size = 2 := by unfold Arr.size; rw [hs]; rfl
  refine ⟨⟨_, means_of_isA hy (fun _ => hv) hE.val, hs⟩, ?_, ?_⟩
  · obtain ⟨d, h1, h2⟩ := comp_one hy hv hE hya
    have h2 : num.RepO d v.size v.size (diagMat fun _ => -1) := h2
    rw [hsz] at h2
    cases d with
    | none =>
      have := h2 0 (by decide) 0 (by decide)
      simp [selMat] at this
    | some d => exact ⟨d, h1, h2⟩
  · intro F p hyp hpa
    have hn : (g y).dterms nmA = some a := hy.kid (0 : Fin 1)
    have hnm : (g y).namesOf p = [] := by
      unfold GNode.namesOf
      rw [hy.dnames, List.filter_cons_of_neg (by rw [hn]; simpa using Ne.symm hpa)]; rfl
    have hb : (y == p) = false := by simpa using hyp
    unfold evalCompDr
    rw [hb, hnm, lib_localDr]; rfl
end ADDemo

open ADDemo in
/-- Reverse mode is wrong for slices: with `w = a[[1,0]]`, `(-(-(-a))).dr_wrt(w, reverse_mode=True)` is `None`, and `(-(-(-a))).dr_wrt(w)` is not. -/
theorem C19_reverse_refuted_for_slices : ¬ C19_reverse_full := by
  intro hall
  obtain ⟨h0, hr0, hg0⟩ := behind_fits.reach ⟨True, True⟩
  obtain ⟨h, hr, hg, hcl⟩ := cleared hr0 (y := 4) (k := nmA) (c := 3) (by rw [hg0]; rfl)
  have hg : h.graph = buildGraph lib behind := hg.trans hg0
  have hi := reach_inv lib_propsOk (fun _ => lib_localDr) hr
  have v0 : Means lib h.graph (.r 0) (.ok (vec2 1 2)) := by rw [hg]; exact (leaf_means rfl (by simp [vec2])).1
  have leaf0 : IsLeaf h.graph 0 := by rw [hg]; exact isLeaf_leafO rfl
  have is1 : IsA h.graph 1 chSelect [nmA] fun _ => 0 := by rw [hg]; exact isA_unP rfl
  have is2 : IsA h.graph 2 chNegative [nmA] fun _ => 0 := by rw [hg]; exact isA_un rfl
  have is3 : IsA h.graph 3 chNegative [nmA] fun _ => 2 := by rw [hg]; exact isA_un rfl
  have is4 : IsA h.graph 4 chNegative [nmA] fun _ => 3 := by rw [hg]; exact isA_un rfl
  have n1 : (h.graph 1).dterms nmA = some 0 := is1.kid (0 : Fin 1)
  have n2 : (h.graph 2).dterms nmA = some 0 := is2.kid (0 : Fin 1)
  have n3 : (h.graph 3).dterms nmA = some 2 := is3.kid (0 : Fin 1)
  have n4 : (h.graph 4).dterms nmA = some 3 := is4.kid (0 : Fin 1)
  have perm1 : lib.isPermute (h.graph 1).cls = true := by rw [is1.cls]; rfl
  have perm0 : lib.isPermute (h.graph 0).cls = false := by rw [leaf0.1]; rfl
  obtain ⟨⟨v2, m2, s2⟩, ⟨d2, c2, r2⟩, z2⟩ := neg_facts is2 v0 rfl (by decide)
  obtain ⟨⟨v3, m3, s3⟩, ⟨d3, c3, r3⟩, z3⟩ := neg_facts is3 m2 s2 (by decide)
  obtain ⟨_, ⟨d4, c4, r4⟩, z4⟩ := neg_facts is4 m3 s3 (by decide)
  obtain ⟨j, hj, rj⟩ : ∃ d, CompIs lib h.graph 1 0 (some d) ∧ Jac.Rep d 2 2 (selMat swap fun _ => 1) := by
    obtain ⟨d, h1, h2⟩ := comp_one is1 v0 (exact_swap (by rw [hg]; rfl) (by rw [hg]; rfl) _ rfl) (by decide)
    cases d with
    | none =>
      have := h2 0 (by decide) 1 (by decide)
      simp [selMat, swap] at this
    | some d => exact ⟨d, h1, h2⟩
  -- neither `y` nor `p` uses the slice or `a`
  have slice_none : ∀ i, (∀ F p, i ≠ p → p ≠ 0 + (i - 1) → evalCompDr lib h.graph F i p = .ok none) → i = 3 ∨ i = 4 →
      ∀ F, evalSliced lib h.graph (F + 1 + 1) i 1 = .ok none := by
    intro i hz hi F
    unfold evalSliced
    rw [hz _ 1 (by rcases hi with rfl | rfl <;> decide) (by rcases hi with rfl | rfl <;> decide)]; dsimp only
    rw [evalSlice_perm perm1 n1, if_neg (by rcases hi with rfl | rfl <;> decide),
      hz _ 0 (by rcases hi with rfl | rfl <;> decide) (by rcases hi with rfl | rfl <;> decide)]; dsimp only
    rw [evalSlice_base perm0]
  have sl3 := slice_none 3 z3 (Or.inl rfl)
  have sl4 := slice_none 4 z4 (Or.inr rfl)
  -- forward mode
  have m01 : MeansDr lib h.graph 0 1 (.ok none) := by
    have hn : (h.graph 0).namesOf 1 = [] := by unfold GNode.namesOf; rw [leaf0.2.2]; rfl
    have : SlicedIs lib h.graph 0 1 none := by
      obtain ⟨f, hf⟩ := compIs_none lib_localDr (show (0 : Id) ≠ 1 by decide) hn
      refine ⟨f + 1, ?_⟩
      unfold evalSliced
      rw [evalCompDr_up (Nat.le_succ f) hf]; dsimp only
      rw [evalSlice_perm perm1 n1, if_pos rfl]
    exact drIs this (by rw [leaf0.2.2]; exact .nil ..) rfl
  obtain ⟨x, hx, rx⟩ := Jac.superdot_rep r2 (Jac.transp_rep rj)
  obtain ⟨e2, f2, g2⟩ := drIs_rep (slicedIs_detour perm1 n1 (by decide) ⟨0, z2 0 1 (by decide) (by decide)⟩ c2 hj hx)
    (by rw [is2.dnames]; exact .none n2 (by decide) m01 (.nil ..)) rfl rx
  obtain ⟨x3, hx3, rx3⟩ := Jac.superdot_rep r3 g2
  obtain ⟨e3, f3, g3⟩ := drIs_rep (direct := none) ⟨_, sl3 0⟩
    (by rw [is3.dnames]; exact .some n3 (by decide) f2 (.some c3) hx3 (.nil ..)) rfl rx3
  obtain ⟨x4, hx4, rx4⟩ := Jac.superdot_rep r4 g3
  obtain ⟨e4, f4, g4⟩ := drIs_rep (direct := none) ⟨_, sl4 0⟩
    (by rw [is4.dnames]; exact .some n4 (by decide) f3 (.some c4) hx4 (.nil ..)) rfl rx4
  have hfw := reports_of_meansDr hr f4 (o := some e4) g4
  -- reverse mode
  obtain ⟨F, hF⟩ := c4
  refine not_reportsRev_none hi (hcl 1) (f₀ := F + 1 + 1 + 1) ?_ ?_ (hall h hr 4 1 2 2 _ hfw)
  · have hkeep : isDrWrt lib h.graph (F + 1 + 1) 2 1 = some false := by
      rw [hg]; rfl
    have hsl : evalSliced lib h.graph (F + 1 + 1 + 1) 4 3 = .ok (some d4) := by
      unfold evalSliced
      rw [evalCompDr_up (show F ≤ F + 1 + 1 + 1 by omega) hF]
    have hlm : evalLmult lib Jac.neNone h.graph (F + 1 + 1 + 1) 3 1 (some d4) = .ok none := by
      show evalLeft lib _ h.graph (F + 1 + 1 + 1) 3 1 d4 = _
      simp only [evalLeft]
      rw [sl3 F, is3.dnames]
      simp only [Except.bind, leftDirect, evalLeftTerms, n3, liftO, lmultStyle, hkeep]
      rfl
    unfold evalRevSum
    rw [sl4 (F + 1), is4.dnames]
    simp only [Except.bind, evalRevTerms, n4]
    rw [if_neg (by decide), hsl]
    dsimp only
    rw [hlm]
    rfl
  · intro hz
    have := hz 0 (by decide) 1 (by decide)
    simp [Ent.mul, selMat, Ent.tr, swap] at this

open ADDemo in
/-- Reverse mode raises for dense Jacobians: `exp(SumOfSquares(a)).dr_wrt(a, reverse_mode=True)`, with `a` of two entries, raises `ValueError`,
and `exp(SumOfSquares(a)).dr_wrt(a)` returns. -/
theorem C19_reverse_refuted_for_dense : ¬ C19_reverse_no_slices := by
  intro hall
  obtain ⟨h0, hr0, hg0⟩ := dense_fits.reach ⟨True, True⟩
  obtain ⟨h, hr, hg, hcl⟩ := cleared hr0 (y := 2) (k := nmA) (c := 1) (by rw [hg0]; rfl)
  have hg : h.graph = buildGraph lib dense := hg.trans hg0
  have hi := reach_inv lib_propsOk (fun _ => lib_localDr) hr
  have v0 : Means lib h.graph (.r 0) (.ok (vec2 1 2)) := by rw [hg]; exact (leaf_means rfl (by simp [vec2])).1
  have leaf0 : IsLeaf h.graph 0 := by rw [hg]; exact isLeaf_leafO rfl
  have is1 : IsA h.graph 1 chSumSq [nmA] fun _ => 0 := by rw [hg]; exact isA_un rfl
  have is2 : IsA h.graph 2 chExp [nmA] fun _ => 1 := by rw [hg]; exact isA_un rfl
  have n1 : (h.graph 1).dterms nmA = some 0 := is1.kid (0 : Fin 1)
  have n2 : (h.graph 2).dterms nmA = some 1 := is2.kid (0 : Fin 1)
  have perm0 : lib.isPermute (h.graph 0).cls = false := by rw [leaf0.1]; rfl
  have hE := exact_sumSq (tm := (h.graph 1).terms) (v := vec2 1 2)
  have m1 := means_of_isA is1 (v := fun _ => vec2 1 2) (fun _ => v0) hE.val
  have c1 : CompIs lib h.graph 1 0 (some (.dense 1 2 fun _ j => (vec2 1 2).vec j * 2)) := by
    refine evalCompDr_of_returnsDr (by decide) m1 (envOf_kids_some is1 (v := fun _ => vec2 1 2) fun _ => v0) ?_
    rw [namesOf_one is1, is1.cls]
    erw [env_one]
    exact ⟨0, by simp [lib, chSumSq, runBody, env1]; rfl⟩
  have hE2 := exact_unary (f := Real.exp) (d := Real.exp) (h.graph 2).terms (v := Arr.of [1] fun _ => ∑ k ∈ Finset.range (vec2 1 2).size, (vec2 1 2).vec k ^ 2)
    (Or.inr (Or.inl rfl)) (fun _ _ => Real.hasDerivAt_exp _)
  obtain ⟨d2, c2, r2⟩ : ∃ d, CompIs lib h.graph 2 1 (some d) ∧ ∃ E, Jac.Rep d 1 1 E := by
    obtain ⟨d, h1, h2⟩ := comp_one is2 m1 hE2 (by decide)
    cases d with
    | none =>
      have := h2 0 (by decide) 0 (by decide)
      simp [selMat] at this
    | some d => exact ⟨d, h1, _, h2⟩
  obtain ⟨E2, r2⟩ := r2
  have r1 : Jac.Rep (.dense 1 2 fun _ j => (vec2 1 2).vec j * 2) 1 2 (fun _ j => (vec2 1 2).vec j * 2) := ⟨rfl, rfl, Ent.EqOn.refl _⟩
  obtain ⟨e1, f1, g1⟩ := drIs_rep (.some c1) (by rw [is1.dnames]; exact .wrt n1 (.nil ..)) rfl r1
  obtain ⟨x, hx, rx⟩ := Jac.superdot_rep r2 g1
  have z2 : ∀ F, evalCompDr lib h.graph F 2 0 = .ok none := fun F => evalCompDr_none (by decide) fun k hk => by
    have := (reach_str hr).dn _ _ _ hk
    have : k ∈ (h.graph 2).dnames := this
    rw [is2.dnames, List.mem_singleton] at this; subst this
    rw [n2] at hk; cases hk
  obtain ⟨e2, f2, g2⟩ := drIs_rep (direct := none) (SlicedIs.none ⟨0, z2 0⟩ perm0)
    (by rw [is2.dnames]; exact .some n2 (by decide) f1 (.some c2) hx (.nil ..)) rfl rx
  obtain ⟨F, hF⟩ := c1
  obtain ⟨F', hF'⟩ := c2
  refine not_reportsRev_raises hi (hcl 0) (f₀ := F + F' + 1) (e := .user 0) ?_ (by simp)
    (hall h hr 2 0 1 2 _ perm0 (reports_of_meansDr hr f2 (o := some e2) g2))
  have hs1 : evalSliced lib h.graph (F + F') 1 0 = .ok (some (.dense 1 2 fun _ j => (vec2 1 2).vec j * 2)) := by
    unfold evalSliced
    rw [evalCompDr_up (show F ≤ F + F' by omega) hF]
  have hs2 : evalSliced lib h.graph (F + F' + 1) 2 1 = .ok (some d2) := by
    unfold evalSliced
    rw [evalCompDr_up (show F' ≤ F + F' + 1 by omega) hF']
  have hs0 : evalSliced lib h.graph (F + F' + 1) 2 0 = .ok none := by
    unfold evalSliced
    rw [z2]; dsimp only
    rw [evalSlice_base perm0]
  unfold evalRevSum
  rw [hs0, is2.dnames]
  simp only [Except.bind, evalRevTerms, n2]
  rw [if_neg (by decide), hs2]
  dsimp only [evalLmult, evalLeft]
  rw [hs1]
  rfl
end Chumpy
