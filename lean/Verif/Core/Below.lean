import Verif.Core.Indep
/-! Evaluation looks only at a set of objects closed under links: two graphs equal there give the same results there. -/
namespace Chumpy
variable {C T V D α : Type}

/-- `g'` is `g` on the set `P`, which is closed under the links of `g`. -/
structure EqOnClosed (g g' : Graph C T) (P : Id → Prop) : Prop where
  same : ∀ j, P j → g' j = g j
  closed : ∀ j, P j → ∀ k c, (g j).dterms k = some c → P c

variable {g g' : Graph C T} {P : Id → Prop} (s : Sig C T V D)

theorem EqOnClosed.req (h : EqOnClosed g g' P) (f : Nat) : ∀ j, P j → evalReq s g' f (.r j) = evalReq s g f (.r j) ∧
    ∀ p, evalReq s g' f (.prop j p) = evalReq s g f (.prop j p) := by
  induction f with
  | zero => intro j _; exact ⟨rfl, fun _ => rfl⟩
  | succ f ih =>
    intro j hj
    have hgj := h.same j hj
    have hcong : ∀ p : Prog T V V, evalProg g' (evalReq s g' f) j p = evalProg g (evalReq s g f) j p :=
      evalProg_congr hgj (fun k c hk => (ih c (h.closed j hj k c hk)).1) (ih j hj).2 (ih j hj).1
    refine ⟨?_, fun p => ?_⟩
    · simp only [evalReq, hgj]; exact hcong _
    · simp only [evalReq, hgj]
      cases s.propDecl (g j).cls p with
      | none => rfl
      | some d => exact hcong _

/-- A property whose declared names have not changed and lead into the set keeps its value. -/
theorem EqOnClosed.prop (h : EqOnClosed g g' P) (hs : s.PropsOk) {j : Id} (hcls : (g' j).cls = (g j).cls) (f : Nat) :
    ∀ p d, s.propDecl (g j).cls p = some d →
      (∀ k ∈ d.1, (g' j).terms k = (g j).terms k ∧ (g' j).dterms k = (g j).dterms k) →
      (∀ k ∈ d.1, ∀ c, (g j).dterms k = some c → P c) →
      evalReq s g' f (.prop j p) = evalReq s g f (.prop j p) := by
  induction f with
  | zero => intros; rfl
  | succ f ih =>
    intro p d hd h1 h2
    simp only [evalReq, hcls, hd]
    have hon := hs _ _ _ hd
    generalize d.2 = pr at hon
    induction pr with
    | ret a => rfl
    | raise c => rfl
    | term n k ihk =>
      simp only [Prog.Only] at hon
      simp only [evalProg]
      rw [(h1 n hon.1).1]
      exact ihk _ (hon.2 _)
    | child n k ihk =>
      simp only [Prog.Only] at hon
      simp only [evalProg]
      rw [(h1 n hon.1).2]
      cases hc : (g j).dterms n with
      | none => rfl
      | some c =>
        dsimp only
        rw [(h.req s f c (h2 n hon.1 c hc)).1]
        cases evalReq s g f (.r c) with
        | ok v => exact ihk v (hon.2 v)
        | error e => rfl
    | prop q k ihk =>
      simp only [Prog.Only] at hon
      obtain ⟨⟨ds, hds, hsub⟩, hrest⟩ := hon
      simp only [evalProg]
      cases hq : s.propDecl (g j).cls q with
      | none => rw [hq] at hds; cases hds
      | some d' =>
        rw [hq] at hds
        simp only [Option.map_some, Option.some.injEq] at hds
        subst hds
        rw [ih q d' hq (fun k hk => h1 k (hsub k hk)) (fun k hk => h2 k (hsub k hk))]
        cases evalReq s g f (.prop j q) with
        | ok v => exact ihk v (hrest v)
        | error e => rfl
    | selfR k ihk => exact absurd hon (by simp [Prog.Only])

theorem EqOnClosed.compDr (h : EqOnClosed g g' P) (f : Nat) {j : Id} (hj : P j) (w : Id) :
    evalCompDr s g' f j w = evalCompDr s g f j w := by
  unfold evalCompDr
  rw [h.same j hj]
  exact evalProg_congr (h.same j hj) (fun k c hk => (h.req s f c (h.closed j hj k c hk)).1)
    (h.req s f j hj).2 (h.req s f j hj).1 _

/-- A `wrt` object for which nothing changes: it is in the set, or it is not a slice. -/
def WrtSame (s : Sig C T V D) (g g' : Graph C T) (P : Id → Prop) (w : Id) : Prop :=
  P w ∨ (s.isPermute (g w).cls = false ∧ s.isPermute (g' w).cls = false)

theorem EqOnClosed.slice (h : EqOnClosed g g' P) (f : Nat) {j : Id} (hj : P j) (n : Nat) : ∀ x, WrtSame s g g' P x →
    evalSlice s g' f j n x = evalSlice s g f j n x := by
  induction n with
  | zero => intro x _; rfl
  | succ n ih =>
    intro x hx
    simp only [evalSlice]
    rcases hx with hx | ⟨h1, h2⟩
    · rw [h.same x hx]
      split
      · cases hd : (g x).dterms s.permArg with
        | none => rfl
        | some y =>
          dsimp only
          split
          · rfl
          · rw [h.compDr s f hj y]
            cases evalCompDr s g f j y with
            | error e => rfl
            | ok o =>
              cases o with
              | some d => rfl
              | none => exact ih y (Or.inl (h.closed x hx _ y hd))
      · rfl
    · rw [h1, h2]; rfl

theorem EqOnClosed.sliced (h : EqOnClosed g g' P) (f : Nat) {j w : Id} (hj : P j) (hw : WrtSame s g g' P w) :
    evalSliced s g' f j w = evalSliced s g f j w := by
  simp only [evalSliced]
  rw [h.compDr s f hj w, h.slice s f hj f w hw]
  cases evalCompDr s g f j w with
  | error e => rfl
  | ok o =>
    cases o with
    | some d => rfl
    | none =>
      dsimp only
      rcases hw with hw | ⟨h1, _⟩
      · cases evalSlice s g f j f w with
        | error e => rfl
        | ok o =>
          cases o with
          | none => rfl
          | some x => obtain ⟨inner, d⟩ := x; dsimp only; rw [h.compDr s f hw inner]
      · cases f with
        | zero => rfl
        | succ f => simp [evalSlice, h1]

theorem EqOnClosed.tms (h : EqOnClosed g g' P) (f : Nat) {j w : Id} (hj : P j)
    {ev ev' : Id → Except Err (Option D)} (hev : ∀ p, P p → ev' p = ev p) (ks : List Name) :
    ∀ acc, evalTerms s g' f j w ev' ks acc = evalTerms s g f j w ev ks acc := by
  induction ks with
  | nil => intro acc; rfl
  | cons k ks ih =>
    intro acc
    simp only [evalTerms, h.same j hj]
    cases hd : (g j).dterms k with
    | none => exact ih acc
    | some p =>
      dsimp only
      have hp := h.closed j hj k p hd
      rw [hev p hp, h.sliced s f hj (Or.inl hp)]
      split
      · exact ih acc
      · cases ev p with
        | error e => rfl
        | ok o =>
          cases o with
          | none => exact ih acc
          | some d2 =>
            dsimp only
            cases evalSliced s g f j p with
            | error e => rfl
            | ok o =>
              cases o with
              | none => exact ih acc
              | some d =>
                dsimp only
                cases s.superdot d d2 with
                | error e => rfl
                | ok x => exact ih _

theorem EqOnClosed.dr (h : EqOnClosed g g' P) {w : Id} (hw : WrtSame s g g' P w) (f : Nat) :
    ∀ j, P j → evalDr s g' f j w = evalDr s g f j w := by
  induction f with
  | zero => intro j _; rfl
  | succ f ih =>
    intro j hj
    rw [evalDr, evalDr, h.sliced s f hj hw]
    cases evalSliced s g f j w with
    | error e => rfl
    | ok o =>
      dsimp only
      rw [h.same j hj, h.tms s f hj ih]

end Chumpy
