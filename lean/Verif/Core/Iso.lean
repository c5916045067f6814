import Verif.Core.Spec
/-! Values and derivatives do not depend on which identities the objects have. -/
namespace Chumpy
variable {C T V D α : Type} {s : Sig C T V D}

/-- On the objects in `A` (closed under links) the graph `g'` is `g` with identities renamed by `ρ`. -/
structure Iso (A : Id → Prop) (ρ : Id → Id) (g g' : Graph C T) : Prop where
  cls : ∀ j, A j → (g' (ρ j)).cls = (g j).cls
  terms : ∀ j, A j → (g' (ρ j)).terms = (g j).terms
  dnames : ∀ j, A j → (g' (ρ j)).dnames = (g j).dnames
  dterms : ∀ j, A j → ∀ k, (g' (ρ j)).dterms k = ((g j).dterms k).map ρ
  md : ∀ j, A j → (g' (ρ j)).makeDense = (g j).makeDense
  ms : ∀ j, A j → (g' (ρ j)).makeSparse = (g j).makeSparse
  closed : ∀ j, A j → ∀ k c, (g j).dterms k = some c → A c
  inj : ∀ i j, A i → A j → ρ i = ρ j → i = j

namespace Iso
variable {A : Id → Prop} {ρ : Id → Id} {g g' : Graph C T}

/-- The special case of graphs that agree on `A`. -/
theorem of_eq (he : ∀ j, A j → g' j = g j) (hc : ∀ j, A j → ∀ k c, (g j).dterms k = some c → A c) : Iso A id g g' where
  cls j hj := by rw [id, he j hj]
  terms j hj := by rw [id, he j hj]
  dnames j hj := by rw [id, he j hj]
  dterms j hj k := by rw [id, he j hj]; simp
  md j hj := by rw [id, he j hj]
  ms j hj := by rw [id, he j hj]
  closed := hc
  inj i j _ _ h := h

theorem prog (x : Iso A ρ g g') {ev ev' : Req → Except Err V} {j : Id} (hj : A j)
    (hr : ∀ c, A c → ev' (.r (ρ c)) = ev (.r c)) (hp : ∀ p, ev' (.prop (ρ j) p) = ev (.prop j p)) (p : Prog T V α) :
    evalProg g' ev' (ρ j) p = evalProg g ev j p := by
  induction p with
  | ret a => rfl
  | raise c => rfl
  | term n k ih => simp only [evalProg, x.terms j hj]; exact ih _
  | child n k ih =>
    simp only [evalProg, x.dterms j hj]
    cases hc : (g j).dterms n with
    | none => rfl
    | some c =>
      simp only [Option.map_some]
      rw [hr c (x.closed j hj n c hc)]
      cases ev (.r c) with
      | ok v => exact ih v
      | error e => rfl
  | prop p k ih =>
    simp only [evalProg, hp]
    cases ev (.prop j p) with
    | ok v => exact ih v
    | error e => rfl
  | selfR k ih =>
    simp only [evalProg, hr j hj]
    cases ev (.r j) with
    | ok v => exact ih v
    | error e => rfl

theorem req (x : Iso A ρ g g') (f : Nat) : ∀ j, A j → evalReq s g' f (.r (ρ j)) = evalReq s g f (.r j) ∧
    ∀ p, evalReq s g' f (.prop (ρ j) p) = evalReq s g f (.prop j p) := by
  induction f with
  | zero => intro j _; exact ⟨rfl, fun _ => rfl⟩
  | succ f ih =>
    intro j hj
    have hcong : ∀ p : Prog T V V, evalProg g' (evalReq s g' f) (ρ j) p = evalProg g (evalReq s g f) j p :=
      x.prog hj (fun c hc => (ih c hc).1) (ih j hj).2
    refine ⟨?_, fun p => ?_⟩
    · simp only [evalReq, x.cls j hj]; exact hcong _
    · simp only [evalReq, x.cls j hj]
      cases s.propDecl (g j).cls p with
      | none => rfl
      | some d => exact hcong _

theorem namesOf (x : Iso A ρ g g') {j w : Id} (hj : A j) (hw : A w) :
    (g' (ρ j)).namesOf (ρ w) = (g j).namesOf w := by
  unfold GNode.namesOf
  rw [x.dnames j hj]
  apply List.filter_congr
  intro k _
  rw [x.dterms j hj]
  cases hc : (g j).dterms k with
  | none => simp
  | some c =>
    simp only [Option.map_some, Option.some.injEq, decide_eq_decide]
    exact ⟨fun h => x.inj c w (x.closed j hj k c hc) hw h, fun h => by rw [h]⟩

theorem compDr (x : Iso A ρ g g') (f : Nat) {j w : Id} (hj : A j) (hw : A w) :
    evalCompDr s g' f (ρ j) (ρ w) = evalCompDr s g f j w := by
  unfold evalCompDr
  have hb : ((ρ j) == (ρ w)) = (j == w) := by
    by_cases h : j = w
    · subst h; simp
    · have : ρ j ≠ ρ w := fun e => h (x.inj j w hj hw e)
      rw [beq_eq_false_iff_ne.2 h, beq_eq_false_iff_ne.2 this]
  rw [x.cls j hj, hb, x.namesOf hj hw]
  exact x.prog hj (fun c hc => (x.req f c hc).1) (x.req f j hj).2 _

theorem slice (x : Iso A ρ g g') (f : Nat) {j : Id} (hj : A j) (n : Nat) : ∀ w, A w →
    evalSlice s g' f (ρ j) n (ρ w) = (evalSlice s g f j n w).map (fun o => o.map (fun p => (ρ p.1, p.2))) ∧
    ∀ inner d, evalSlice s g f j n w = .ok (some (inner, d)) → A inner := by
  induction n with
  | zero => intro w _; exact ⟨rfl, fun _ _ h => by cases h⟩
  | succ n ih =>
    intro w hw
    simp only [evalSlice, x.cls w hw]
    by_cases hp : s.isPermute (g w).cls = true
    · rw [if_pos hp, if_pos hp, x.dterms w hw]
      cases hd : (g w).dterms s.permArg with
      | none => exact ⟨rfl, fun _ _ h => by cases h⟩
      | some y =>
        have hy := x.closed w hw _ y hd
        simp only [Option.map_some]
        by_cases hyj : y = j
        · subst hyj; simp [Except.map]
        · have : ρ y ≠ ρ j := fun e => hyj (x.inj y j hy hj e)
          rw [if_neg hyj, if_neg this, x.compDr f hj hy]
          cases evalCompDr s g f j y with
          | error e => exact ⟨rfl, fun _ _ h => by cases h⟩
          | ok o =>
            cases o with
            | none => exact ih y hy
            | some d =>
              refine ⟨rfl, fun inner d' h => ?_⟩
              simp only [Except.ok.injEq, Option.some.injEq, Prod.mk.injEq] at h
              exact h.1 ▸ hy
    · rw [if_neg hp, if_neg hp]
      exact ⟨rfl, fun _ _ h => by cases h⟩

theorem sliced (x : Iso A ρ g g') (f : Nat) {j w : Id} (hj : A j) (hw : A w) :
    evalSliced s g' f (ρ j) (ρ w) = evalSliced s g f j w := by
  simp only [evalSliced]
  obtain ⟨h1, h2⟩ := x.slice (s := s) f hj f w hw
  rw [x.compDr f hj hw, h1]
  cases evalCompDr s g f j w with
  | error e => rfl
  | ok o =>
    cases o with
    | some d => rfl
    | none =>
      dsimp only
      cases hes : evalSlice s g f j f w with
      | error e => rfl
      | ok o =>
        cases o with
        | none => rfl
        | some q =>
          obtain ⟨inner, d⟩ := q
          simp only [Except.map, Option.map_some]
          rw [x.compDr f hw (h2 inner d hes)]

theorem evTerms (x : Iso A ρ g g') (f : Nat) {j w : Id} (hj : A j) (hw : A w) {ev ev' : Id → Except Err (Option D)}
    (hev : ∀ p, A p → ev' (ρ p) = ev p) (ks : List Name) :
    ∀ acc, evalTerms s g' f (ρ j) (ρ w) ev' ks acc = evalTerms s g f j w ev ks acc := by
  induction ks with
  | nil => intro acc; rfl
  | cons k ks ih =>
    intro acc
    simp only [evalTerms, x.dterms j hj]
    cases hd : (g j).dterms k with
    | none => exact ih acc
    | some p =>
      have hp := x.closed j hj k p hd
      simp only [Option.map_some]
      rw [hev p hp, x.sliced f hj hp]
      by_cases hpw : p = w
      · subst hpw; rw [if_pos rfl, if_pos rfl]; exact ih acc
      · have : ρ p ≠ ρ w := fun e => hpw (x.inj p w hp hw e)
        rw [if_neg hpw, if_neg this]
        cases ev p with
        | error e => rfl
        | ok o =>
          cases o with
          | none => exact ih acc
          | some d2 =>
            dsimp only
            cases evalSliced s g f j p with
            | error e => rfl
            | ok o =>
              cases o with
              | none => exact ih acc
              | some d =>
                dsimp only
                cases s.superdot d d2 with
                | error e => rfl
                | ok x => exact ih _

/-- Derivatives do not depend on identities. -/
theorem dr (x : Iso A ρ g g') (f : Nat) : ∀ j w, A j → A w → evalDr s g' f (ρ j) (ρ w) = evalDr s g f j w := by
  induction f with
  | zero => intro j w _ _; rfl
  | succ f ih =>
    intro j w hj hw
    rw [evalDr, evalDr, x.sliced f hj hw]
    cases evalSliced s g f j w with
    | error e => rfl
    | ok o =>
      dsimp only
      rw [x.dnames j hj, x.md j hj, x.ms j hj, x.evTerms f hj hw (fun p hp => ih p w hp hw)]

end Iso
end Chumpy
