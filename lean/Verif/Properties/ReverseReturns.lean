import Verif.Properties.RevHist
/-!
# C19: reverse mode returns

`lmult_wrt` tests `direct_dr != None` (ch.py:657), which raises if the derivative is a dense array with several entries
(`C19_reverse_refuted_for_dense`).  If no object strictly between `y` and `w` computes such a derivative, reverse mode returns.
-/
namespace Chumpy
open scoped BigOperators

/-- What `i.compute_dr_wrt(w)` returns, if it returns, is not a dense array with several entries: it is a sparse matrix, a number, or an
array with at most one entry. -/
def DirectSparse (g : Graph ClassDef Par) (i w : Id) : Prop :=
  ∀ f d, evalCompDr lib g f i w = .ok (some d) → NotManyDense d

/-! ## Classes whose derivatives are never dense -/

/-- Every value the program may return satisfies `P`. -/
def Prog.Rets {T V α : Type} (P : α → Prop) : Prog T V α → Prop
  | .ret a => P a
  | .raise _ => True
  | .term _ k => ∀ t, (k t).Rets P
  | .child _ k => ∀ v, (k v).Rets P
  | .prop _ k => ∀ v, (k v).Rets P
  | .selfR k => ∀ v, (k v).Rets P

theorem Prog.Rets.eval {C T V α : Type} {P : α → Prop} {g : Graph C T} {ev : Req → Except Err V} {i : Id} {a : α} :
    ∀ {p : Prog T V α}, p.Rets P → evalProg g ev i p = .ok a → P a := by
  intro p
  induction p with
  | ret b => intro h e; cases e; exact h
  | raise c => intro _ e; cases e
  | term n k ih => intro h e; exact ih _ (h _) e
  | child n k ih =>
    intro h e
    simp only [evalProg] at e
    split at e
    · cases e
    · split at e
      · exact ih _ (h _) e
      · cases e
  | prop n k ih =>
    intro h e
    simp only [evalProg] at e
    split at e
    · exact ih _ (h _) e
    · cases e
  | selfR k ih =>
    intro h e
    simp only [evalProg] at e
    split at e
    · exact ih _ (h _) e
    · cases e

/-- The class never computes a dense derivative with several entries. -/
def NeverDense (c : ClassDef) : Prop := ∀ own S, (c.dr own S).Rets fun o => ∀ d, o = some d → NotManyDense d

theorem NeverDense.direct {g : Graph ClassDef Par} {i : Id} (h : NeverDense (g i).cls) (w : Id) : DirectSparse g i w :=
  fun _ d hd => Prog.Rets.eval (h _ _) hd d rfl

/-- An object that does not use `w` computes no derivative with respect to `w`. -/
theorem directSparse_of_not_uses {g : Graph ClassDef Par} {i w : Id} (hne : i ≠ w) (h : ¬ Uses g i w) : DirectSparse g i w := by
  intro f d hd
  rcases compDr_local hd with rfl | hu
  · exact absurd rfl hne
  · exact absurd hu h

theorem notManyDense_sparse {a b : ℕ} {E : Ent} : NotManyDense (.sparse a b E) := fun _ _ _ h => by cases h

theorem rets_none : (Prog.ret none : Prog Par Arr (Option Jac)).Rets fun o => ∀ d, o = some d → NotManyDense d := fun d hd => by cases hd

theorem notManyDense_one1 {sc : Bool} {c : ℝ} : NotManyDense (one1 sc c) := by
  intro a b E h
  cases sc with
  | false => simp only [one1, Bool.false_eq_true, if_false, Jac.dense.injEq] at h; obtain ⟨rfl, rfl, _⟩ := h; exact le_rfl
  | true => simp only [one1, if_true] at h; cases h

theorem retOr_rets {o : Option Jac} (h : ∀ d, o = some d → NotManyDense d) : (retOr o).Rets fun o => ∀ d, o = some d → NotManyDense d := by
  cases o with
  | none => trivial
  | some d => exact h

theorem broadcastMatrix_sparse {sa sb : List ℕ} {b sc : Bool} {e : ℕ → ℝ} : ∀ d, broadcastMatrix sa sb b sc e = some d → NotManyDense d := by
  intro d h
  unfold broadcastMatrix at h
  split at h
  · split at h <;> cases h
    · exact notManyDense_one1
    · exact notManyDense_sparse
  · split at h
    · cases h
    · split at h <;> split at h
      all_goals first
        | exact Option.some.inj h ▸ notManyDense_one1
        | exact Option.some.inj h ▸ notManyDense_sparse

theorem broadcastSetup_sparse {sa sb : List ℕ} {b : Bool} {e : ℕ → ℝ} : ∀ d, broadcastSetup sa sb b e = some d → NotManyDense d := by
  intro d h
  unfold broadcastSetup at h
  split at h
  · cases h; exact notManyDense_sparse
  · split at h <;> cases h
    exact notManyDense_sparse

/-- Leaves and the elementwise operators never compute a dense derivative with several entries, whatever their operands. -/
theorem C19_operators_never_dense : NeverDense chLeaf ∧ NeverDense chAdd ∧ NeverDense chSub ∧ NeverDense chMul ∧ NeverDense chDiv ∧
    NeverDense chPow := by
  refine ⟨fun own S => ?_, fun own S => ?_, fun own S => ?_, fun own S => ?_, fun own S => ?_, fun own S => ?_⟩
  · cases own with
    | false => exact rets_none
    | true => intro v d hd; cases hd; exact notManyDense_sparse
  · simp only [chAdd]
    split
    · exact rets_none
    · intro u v; exact retOr_rets broadcastMatrix_sparse
  · simp only [chSub]
    split
    · exact rets_none
    · intro u v; exact retOr_rets broadcastMatrix_sparse
  · simp only [chMul]
    split
    · exact rets_none
    · intro u v
      dsimp only
      cases bshape u.shape v.shape
      · trivial
      · exact retOr_rets broadcastMatrix_sparse
  · simp only [chDiv]
    split
    · exact rets_none
    · intro u v
      dsimp only
      cases bshape u.shape v.shape
      · trivial
      · exact retOr_rets broadcastSetup_sparse
  · simp only [chPow]
    split
    · exact rets_none
    · intro u v
      dsimp only
      cases bshape u.shape v.shape
      · trivial
      · exact retOr_rets broadcastMatrix_sparse

/-! ## Reverse mode returns -/

/-- C19, reverse mode does return, after any history of calls of either mode: under the conditions of C18, if all declared names are set, no
class raises, and no object strictly between `y` and `w` computes a dense derivative with respect to `w`.  Missing: `w` with one entry, on
which forward mode can raise too (`C18_single_entry_refuted`). -/
theorem C19_reverse_returns_partial {h : Heap ClassDef Par Arr Jac} (hr : ReachR lib Jac.neNone ⟨False, True⟩ h) {y w : Id}
    {vw : Arr} (hacc : Acc (fun a b => Uses h.graph b a) y) (hc : ChainOk lib h.graph y w)
    (hw : Means lib h.graph (.r w) (.ok vw)) (hsz : vw.size ≠ 1) (hob : ∀ i, Reaches h.graph y i → i ≠ w → Exactly h.graph i)
    (hset : ∀ i, Reaches h.graph y i → ∀ k ∈ (h.graph i).dnames, ∃ c, (h.graph i).dterms k = some c)
    (hden : ∀ i, Reaches h.graph y i → i ≠ y → i ≠ w → DirectSparse h.graph i w) (hyw : y ≠ w) :
    ∃ f₀, ∀ f ≥ f₀, ∃ o, (drWrtRev lib Jac.neNone f y w h).2 = .ok o := by
  obtain ⟨f₀, r, hr0⟩ := rev_returns hacc hc hw hsz hob hset
    (fun i f d hi hiy hiw hd => hden i hi hiy hiw f d (evalSliced_plain hc.wrt hd)) hyw
  have hi := reachR_revOk hr
  refine ⟨f₀ + 1, fun f hf => ?_⟩
  obtain ⟨f, rfl⟩ : ∃ f', f = f' + 1 := ⟨f - 1, by omega⟩
  simp only [drWrtRev, M.bind]
  have h1 := callOnChanged_ok y h
  have hfr := callOnChanged_frame y h
  have hc' := callOnChanged_coh (s := lib) y hi.coh
  rcases hmh : callOnChanged y h with ⟨h', r1⟩
  rw [hmh] at h1 hfr hc'
  dsimp only at h1
  subst h1
  dsimp only
  cases hd : (h'.node y).drs w with
  | some d => exact ⟨d, rfl⟩
  | none =>
    dsimp only
    have hs := revSum_simM (s := lib) (U := RevOk) (n := Jac.neNone) (P := True) (W := Wf lib ⟨False, True⟩) (g := h.graph) f y w
    have e := hs.mono (show f₀ ≤ f by omega)
    obtain ⟨_, _, hag⟩ := hs.sim h' hc' hfr.graph
    rw [Le, hr0] at e
    have e := e (by simp)
    have hag := (hag trivial).1
    dsimp only at hag
    rw [e] at hag
    have hag := hag (by simp)
    rcases hrs : revSum lib Jac.neNone f y w h' with ⟨h2, r2⟩
    rw [hrs] at hag
    dsimp only at hag
    subst hag
    dsimp only
    have hst : (storeDr y w (r.map lib.finish) h2).2 = .ok () := by unfold storeDr; split <;> rfl
    rcases hs2 : storeDr y w (r.map lib.finish) h2 with ⟨h3, r3⟩
    rw [hs2] at hst
    dsimp only at hst
    subst hst
    exact ⟨_, rfl⟩

/-- C18 and C19 together: after any history of calls of either mode, reverse mode returns the derivative of `y` with respect to `w`. -/
theorem C19_reverse_is_derivative_partial {h : Heap ClassDef Par Arr Jac} (hr : ReachR lib Jac.neNone ⟨False, True⟩ h) {y w : Id}
    {vw : Arr} (hacc : Acc (fun a b => Uses h.graph b a) y) (hc : ChainOk lib h.graph y w)
    (hw : Means lib h.graph (.r w) (.ok vw)) (hsz : vw.size ≠ 1) (hob : ∀ i, Reaches h.graph y i → i ≠ w → Exactly h.graph i)
    (hset : ∀ i, Reaches h.graph y i → ∀ k ∈ (h.graph i).dnames, ∃ c, (h.graph i).dterms k = some c)
    (hden : ∀ i, Reaches h.graph y i → i ≠ y → i ≠ w → DirectSparse h.graph i w)
    (hl : LeafBelow lib h.graph y) (hok : ∀ i, Reaches h.graph y i → SizesOk h.graph (objSize h.graph) i) (hyw : y ≠ w) :
    ∃ vy M, HasJacobian h.graph y w vy vw M ∧ ∃ f₀, ∀ f ≥ f₀, ∃ o, (drWrtRev lib Jac.neNone f y w h).2 = .ok o ∧ num.RepO o vy.size vw.size M := by
  obtain ⟨vy, M, hJ, hB⟩ := C19_jacobian_after_reverse_partial hr hacc hc hw hsz (fun i hi hiw => (hob i hi hiw).for w) hl hok hyw
  obtain ⟨f₀, h2⟩ := C19_reverse_returns_partial hr hacc hc hw hsz hob hset hden hyw
  refine ⟨vy, M, hJ, f₀, fun f hf => ?_⟩
  obtain ⟨o, ho⟩ := h2 f hf
  exact ⟨o, ho, hB.2 f o ho⟩

namespace ADDemo
/-- Reverse mode returns the derivative of `y = a*b + a` with respect to `a`, also after calls of both modes. -/
example (f f' f'' : ℕ) : ∃ h, ReachR lib Jac.neNone ⟨False, True⟩ h ∧ ∃ h0 : Heap ClassDef Par Arr Jac,
    h = (Chumpy.step lib (.readDr f'' 3 0) (stepRev lib Jac.neNone f' 2 1 (stepRev lib Jac.neNone f 3 0 h0).1).1).1 ∧
    ∃ vy M, HasJacobian h.graph 3 0 vy (vec2 1 2) M ∧
      ∃ f₀, ∀ f ≥ f₀, ∃ o, (drWrtRev lib Jac.neNone f 3 0 h).2 = .ok o ∧ num.RepO o vy.size 2 M := by
  obtain ⟨h0, hr0, hg0⟩ := sharing_ok.reach ⟨False, True⟩
  have hr1 := ReachR.reverse (ne := Jac.neNone) f 3 0 hr0.reachR
  have hr2 := ReachR.reverse f' 2 1 hr1
  have hr3 := ReachR.step (.readDr f'' 3 0) hr2 trivial
  refine ⟨_, hr3, h0, rfl, ?_⟩
  have hg : (Chumpy.step lib (.readDr f'' 3 0) (stepRev lib Jac.neNone f' 2 1 (stepRev lib Jac.neNone f 3 0 h0).1).1).1.graph =
      buildGraph lib sharing := by
    rw [(step_read_frame (s := lib) (.dr _ _ _)).graph, (C09_reverse_changes_no_link _ _ _ _).1, (C09_reverse_changes_no_link _ _ _ _).1, hg0]
  generalize (Chumpy.step lib (.readDr f'' 3 0) (stepRev lib Jac.neNone f' 2 1 (stepRev lib Jac.neNone f 3 0 h0).1).1).1 = h at *
  have l0 := leaf_means (g := buildGraph lib sharing) (i := 0) (v := vec2 1 2) rfl (by simp [vec2])
  refine C19_reverse_is_derivative_partial hr3 (y := 3) (w := 0) (vw := vec2 1 2) (by rw [hg]; exact sharing_ok.acc 3)
    (by rw [hg]; exact sharing_chain) (by rw [hg]; exact l0.1) (by show (2 : ℕ) ≠ 1; decide) ?_ (by rw [hg]; exact sharing_set) ?_
    (by rw [hg]; exact sharing_leafGraph.below 3) ?_ (by decide)
  · rw [hg]
    intro i hi _
    exact sharing_exact i (Nat.lt_succ_of_le (reaches_le sharing_ok hi))
  · rw [hg]
    intro i hi h3 h0
    have := reaches_le sharing_ok hi
    interval_cases i
    · exact absurd rfl h0
    · exact NeverDense.direct C19_operators_never_dense.1 0
    · exact NeverDense.direct C19_operators_never_dense.2.2.2.1 0
    · exact absurd rfl h3
  · rw [hg]
    intro i hi
    exact sharing_sizes i (Nat.lt_succ_of_le (reaches_le sharing_ok hi))
end ADDemo
end Chumpy
