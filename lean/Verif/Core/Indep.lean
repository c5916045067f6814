import Verif.Core.SpecLemmas
/-! Evaluation depends only on what is below an object. -/
namespace Chumpy
variable {C T V D α : Type}

/-- `Anc g i j`: object `j` is `i`, or depends on `i` through differentiable links. -/
inductive Anc (g : Graph C T) (i : Id) : Id → Prop
  | refl : Anc g i i
  | step {j c : Id} (k : Name) : (g j).dterms k = some c → Anc g i c → Anc g i j

theorem Anc.trans {g : Graph C T} {a b c : Id} (h1 : Anc g a b) (h2 : Anc g b c) : Anc g a c := by
  induction h2 with
  | refl => exact h1
  | step k hk _ ih => exact Anc.step k hk ih

/-- `g'` differs from `g` at most in object `i`. -/
def SameOff (g g' : Graph C T) (i : Id) : Prop := ∀ j, j ≠ i → g' j = g j

theorem SameOff.symm {g g' : Graph C T} {i : Id} (h : SameOff g g' i) : SameOff g' g i :=
  fun j hj => (h j hj).symm

theorem SameOff.anc {g g' : Graph C T} {i : Id} (h : SameOff g g' i) {j : Id} (ha : Anc g i j) :
    Anc g' i j := by
  induction ha with
  | refl => exact Anc.refl
  | @step j c k hk _ ih =>
    by_cases hj : j = i
    · subst hj; exact Anc.refl
    · exact Anc.step k (by rw [h j hj]; exact hk) ih

theorem SameOff.anc_iff {g g' : Graph C T} {i : Id} (h : SameOff g g' i) (j : Id) :
    Anc g' i j ↔ Anc g i j := ⟨h.symm.anc, h.anc⟩

theorem not_anc_ne {g : Graph C T} {i j : Id} (h : ¬ Anc g i j) : j ≠ i := by
  rintro rfl; exact h Anc.refl

theorem not_anc_child {g : Graph C T} {i j c : Id} {k : Name} (h : ¬ Anc g i j)
    (hk : (g j).dterms k = some c) : ¬ Anc g i c := fun hc => h (Anc.step k hk hc)

theorem evalProg_congr {g g' : Graph C T} {ev ev' : Req → Except Err V} {j : Id} (hg : g' j = g j)
    (hc : ∀ k c, (g j).dterms k = some c → ev' (.r c) = ev (.r c))
    (hp : ∀ p, ev' (.prop j p) = ev (.prop j p)) (hr : ev' (.r j) = ev (.r j)) (p : Prog T V α) :
    evalProg g' ev' j p = evalProg g ev j p := by
  induction p with
  | ret a => rfl
  | raise c => rfl
  | term n k ih => simp only [evalProg]; rw [hg]; exact ih _
  | child n k ih =>
    simp only [evalProg, hg]
    cases hd : (g j).dterms n with
    | none => rfl
    | some c =>
      dsimp only
      rw [hc n c hd]
      cases ev (.r c) with
      | ok v => exact ih v
      | error e => rfl
  | prop p k ih =>
    simp only [evalProg, hp]
    cases ev (.prop j p) with
    | ok v => exact ih v
    | error e => rfl
  | selfR k ih =>
    simp only [evalProg, hr]
    cases ev (.r j) with
    | ok v => exact ih v
    | error e => rfl

/-- Values of objects that do not depend on `i` are the same in both graphs. -/
theorem evalReq_off (s : Sig C T V D) {g g' : Graph C T} {i : Id} (h : SameOff g g' i) (f : Nat) :
    ∀ j, ¬ Anc g i j → evalReq s g' f (.r j) = evalReq s g f (.r j) ∧
      ∀ p, evalReq s g' f (.prop j p) = evalReq s g f (.prop j p) := by
  induction f with
  | zero => intro j _; exact ⟨rfl, fun _ => rfl⟩
  | succ f ih =>
    intro j hj
    have hgj := h j (not_anc_ne hj)
    have hcong : ∀ p : Prog T V V, evalProg g' (evalReq s g' f) j p = evalProg g (evalReq s g f) j p :=
      evalProg_congr hgj (fun k c hk => (ih c (not_anc_child hj hk)).1) (ih j hj).2 (ih j hj).1
    refine ⟨?_, fun p => ?_⟩
    · simp only [evalReq, hgj]; exact hcong _
    · simp only [evalReq, hgj]
      cases s.propDecl (g j).cls p with
      | none => rfl
      | some d => exact hcong _

/-- A property whose declared names lead to nothing that changed keeps its value, even if its owner
depends on what changed through other names. -/
theorem evalProp_off (s : Sig C T V D) (hs : s.PropsOk) {g g' : Graph C T} {i : Id} (h : SameOff g g' i)
    {j : Id} (hcls : (g' j).cls = (g j).cls) (f : Nat) : ∀ p d, s.propDecl (g j).cls p = some d →
      (∀ k ∈ d.1, (g' j).terms k = (g j).terms k ∧ (g' j).dterms k = (g j).dterms k) →
      (∀ k ∈ d.1, ∀ c, (g j).dterms k = some c → ¬ Anc g i c) →
      evalReq s g' f (.prop j p) = evalReq s g f (.prop j p) := by
  induction f with
  | zero => intros; rfl
  | succ f ih =>
    intro p d hd h1 h2
    simp only [evalReq, hcls, hd]
    have hon := hs _ _ _ hd
    generalize d.2 = pr at hon
    induction pr with
    | ret a => rfl
    | raise c => rfl
    | term n k ihk =>
      simp only [Prog.Only] at hon
      simp only [evalProg]
      rw [(h1 n hon.1).1]
      exact ihk _ (hon.2 _)
    | child n k ihk =>
      simp only [Prog.Only] at hon
      simp only [evalProg]
      rw [(h1 n hon.1).2]
      cases hc : (g j).dterms n with
      | none => rfl
      | some c =>
        dsimp only
        rw [(evalReq_off s h f c (h2 n hon.1 c hc)).1]
        cases evalReq s g f (.r c) with
        | ok v => exact ihk v (hon.2 v)
        | error e => rfl
    | prop q k ihk =>
      simp only [Prog.Only] at hon
      obtain ⟨⟨ds, hds, hsub⟩, hrest⟩ := hon
      simp only [evalProg]
      cases hq : s.propDecl (g j).cls q with
      | none => rw [hq] at hds; cases hds
      | some d' =>
        rw [hq] at hds
        simp only [Option.map_some, Option.some.injEq] at hds
        subst hds
        rw [ih q d' hq (fun k hk => h1 k (hsub k hk)) (fun k hk => h2 k (hsub k hk))]
        cases evalReq s g f (.prop j q) with
        | ok v => exact ihk v (hrest v)
        | error e => rfl
    | selfR k ihk => exact absurd hon (by simp [Prog.Only])

theorem evalCompDr_off (s : Sig C T V D) {g g' : Graph C T} {i : Id} (h : SameOff g g' i) (f : Nat)
    {j : Id} (hj : ¬ Anc g i j) (w : Id) : evalCompDr s g' f j w = evalCompDr s g f j w := by
  unfold evalCompDr
  have hgj := h j (not_anc_ne hj)
  rw [hgj]
  exact evalProg_congr hgj (fun k c hk => (evalReq_off s h f c (not_anc_child hj hk)).1)
    (evalReq_off s h f j hj).2 (evalReq_off s h f j hj).1 _

/-- The objects met when walking down `.a` from `x` through `Permute` objects. -/
inductive PermChain (s : Sig C T V D) (g : Graph C T) (x : Id) : Id → Prop
  | refl : PermChain s g x x
  | step {y z : Id} : PermChain s g x y → s.isPermute (g y).cls = true →
      (g y).dterms s.permArg = some z → PermChain s g x z

/-- `i` is not met on the chain under `x`, except possibly as its end, keeping its class. -/
def ChainAvoid (s : Sig C T V D) (g g' : Graph C T) (i x : Id) : Prop :=
  ∀ y, PermChain s g x y → (s.isPermute (g y).cls = true ∨ (g' i).cls ≠ (g i).cls) → y ≠ i

theorem ChainAvoid.tail {s : Sig C T V D} {g g' : Graph C T} {i x y : Id} (h : ChainAvoid s g g' i x)
    (hp : s.isPermute (g x).cls = true) (hy : (g x).dterms s.permArg = some y) :
    ChainAvoid s g g' i y := by
  intro z hz hpz
  refine h z ?_ hpz
  clear hpz
  induction hz with
  | refl => exact PermChain.step PermChain.refl hp hy
  | step _ a b ih => exact PermChain.step ih a b

theorem PermChain.not_anc {s : Sig C T V D} {g : Graph C T} {i x y : Id} (hx : ¬ Anc g i x)
    (hy : PermChain s g x y) : ¬ Anc g i y := by
  induction hy with
  | refl => exact hx
  | step _ _ b ih => exact not_anc_child ih b

theorem chainAvoid_of_not_anc (s : Sig C T V D) {g g' : Graph C T} {i x : Id} (hx : ¬ Anc g i x) :
    ChainAvoid s g g' i x :=
  fun _ hy _ => not_anc_ne (hy.not_anc hx)

theorem evalSlice_off (s : Sig C T V D) {g g' : Graph C T} {i : Id} (h : SameOff g g' i) (f : Nat)
    {j : Id} (hj : ¬ Anc g i j) (n : Nat) : ∀ x, ChainAvoid s g g' i x →
      evalSlice s g' f j n x = evalSlice s g f j n x := by
  induction n with
  | zero => intro x _; rfl
  | succ n ih =>
    intro x hx
    simp only [evalSlice]
    have hc : (g' x).cls = (g x).cls := by
      by_cases hxi : x = i
      · subst hxi
        exact Classical.byContradiction fun hne => hx x PermChain.refl (Or.inr hne) rfl
      · rw [h x hxi]
    rw [hc]
    by_cases hp : s.isPermute (g x).cls = true
    · have hxi := hx x PermChain.refl (Or.inl hp)
      rw [if_pos hp, if_pos hp, h x hxi]
      cases hd : (g x).dterms s.permArg with
      | none => rfl
      | some y =>
        dsimp only
        split
        · rfl
        · rw [evalCompDr_off s h f hj y]
          cases evalCompDr s g f j y with
          | error e => rfl
          | ok o =>
            cases o with
            | some d => rfl
            | none => exact ih y (hx.tail hp hd)
    · rw [if_neg hp, if_neg hp]

/-- What is needed about a `wrt` object for its derivatives to be unaffected by a change at `i`. -/
structure WrtOff (s : Sig C T V D) (g g' : Graph C T) (i w : Id) : Prop where
  chain : ChainAvoid s g g' i w
  tail : ∀ j, ¬ Anc g i j → ∀ f inner d, evalSlice s g f j f w = .ok (some (inner, d)) →
    evalCompDr s g' f w inner = evalCompDr s g f w inner

theorem wrtOff_of_not_anc (s : Sig C T V D) {g g' : Graph C T} {i w : Id} (h : SameOff g g' i)
    (hw : ¬ Anc g i w) : WrtOff s g g' i w where
  chain := chainAvoid_of_not_anc s hw
  tail _ _ f inner _ _ := evalCompDr_off s h f hw inner

theorem permChain_of_not_permute (s : Sig C T V D) (g : Graph C T) {w y : Id}
    (hp : s.isPermute (g w).cls = false) (h : PermChain s g w y) : y = w := by
  induction h with
  | refl => rfl
  | step _ a _ ih => subst ih; rw [hp] at a; cases a

theorem wrtOff_of_not_permute (s : Sig C T V D) {g g' : Graph C T} {i w : Id}
    (hcls : (g' i).cls = (g i).cls) (hp : s.isPermute (g w).cls = false) : WrtOff s g g' i w where
  chain := by
    intro y hy hpy
    have := permChain_of_not_permute s g hp hy
    subst this
    rcases hpy with h | h
    · rw [hp] at h; cases h
    · exact absurd hcls h
  tail := by
    intro j _ f inner d he
    cases f with
    | zero => simp [evalSlice] at he
    | succ f => simp [evalSlice, hp] at he

theorem evalSliced_off (s : Sig C T V D) {g g' : Graph C T} {i : Id} (h : SameOff g g' i) (f : Nat) {j w : Id} (hj : ¬ Anc g i j) (hw : WrtOff s g g' i w) :
    evalSliced s g' f j w = evalSliced s g f j w := by
  simp only [evalSliced]
  rw [evalCompDr_off s h f hj w, evalSlice_off s h f hj f w hw.chain]
  cases evalCompDr s g f j w with
  | error e => rfl
  | ok o =>
    cases o with
    | some d => rfl
    | none =>
      dsimp only
      cases hes : evalSlice s g f j f w with
      | error e => rfl
      | ok o =>
        cases o with
        | none => rfl
        | some x =>
          obtain ⟨inner, d⟩ := x
          dsimp only
          rw [hw.tail j hj f inner d hes]

theorem evalTerms_off (s : Sig C T V D) {g g' : Graph C T} {i : Id} (h : SameOff g g' i) (f : Nat) {j w : Id} (hj : ¬ Anc g i j)
    {ev ev' : Id → Except Err (Option D)} (hev : ∀ p, ¬ Anc g i p → ev' p = ev p) (ks : List Name) :
    ∀ acc, evalTerms s g' f j w ev' ks acc = evalTerms s g f j w ev ks acc := by
  induction ks with
  | nil => intro acc; rfl
  | cons k ks ih =>
    intro acc
    simp only [evalTerms, h j (not_anc_ne hj)]
    cases hd : (g j).dterms k with
    | none => exact ih acc
    | some p =>
      dsimp only
      have hp := not_anc_child hj hd
      rw [hev p hp, evalSliced_off s h f hj (wrtOff_of_not_anc s h hp)]
      split
      · exact ih acc
      · cases ev p with
        | error e => rfl
        | ok o =>
          cases o with
          | none => exact ih acc
          | some d2 =>
            dsimp only
            cases evalSliced s g f j p with
            | error e => rfl
            | ok o =>
              cases o with
              | none => exact ih acc
              | some d =>
                dsimp only
                cases s.superdot d d2 with
                | error e => rfl
                | ok x => exact ih _

/-- Derivatives of objects that do not depend on `i` are the same in both graphs. -/
theorem evalDr_off (s : Sig C T V D) {g g' : Graph C T} {i : Id} (h : SameOff g g' i) {w : Id} (hw : WrtOff s g g' i w) (f : Nat) :
    ∀ j, ¬ Anc g i j → evalDr s g' f j w = evalDr s g f j w := by
  induction f with
  | zero => intro j _; rfl
  | succ f ih =>
    intro j hj
    rw [evalDr, evalDr, evalSliced_off s h f hj hw]
    cases evalSliced s g f j w with
    | error e => rfl
    | ok o =>
      dsimp only
      rw [h j (not_anc_ne hj), evalTerms_off s h f hj ih]

end Chumpy
