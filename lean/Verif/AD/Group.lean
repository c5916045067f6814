import Verif.AD.Lambda
import Verif.Core.GroupBuild
import Verif.Properties.Fresh
/-! What `dr_wrt` of a `ChGroup` returns. -/
namespace Chumpy
open scoped BigOperators
variable {C T V D : Type} {s : Sig C T V D} {gr : Grp} {st : GSt C T V D}

theorem Ent.isZero_mul_right {m n p : ℕ} {A B : Ent} (h : Ent.IsZero n p B) : Ent.IsZero m p (Ent.mul n A B) := by
  intro i _ j hj
  exact Finset.sum_eq_zero fun k hk => by rw [h k (Finset.mem_range.1 hk) j hj]; exact mul_zero _

theorem Ent.isZero_mul_left {m n p : ℕ} {A B : Ent} (h : Ent.IsZero m n A) : Ent.IsZero m p (Ent.mul n A B) := by
  intro i hi j _
  exact Finset.sum_eq_zero fun k hk => by rw [h i hi k (Finset.mem_range.1 hk)]; exact zero_mul _

theorem regroup_cls (g : Graph C T) (i : Id) : (regroup s gr g i).cls = (g i).cls := by
  unfold regroup; split <;> rfl

/-- `dr_wrt` of another object, in the middle of a computation. -/
theorem drWrt_agreeG {g : Graph C T} (hpf : s.PlainForm) {h : Heap C T V D} (hi : Inv s ⟨False, True⟩ h) (hg : h.graph = g) {i w : Id}
    (hw : s.isPermute (g w).cls = false) {f : ℕ} : Agree (drWrt s f i w h).2 (fun f => evalDr s g f i w) f := by
  subst hg
  exact (drWrt_sim f i w h hi.coh rfl).2.2 ⟨⟨hpf, fun j => hi.flags trivial j⟩, trivial, Or.inr hw⟩

theorem drWrt_meansG {g : Graph C T} (hpf : s.PlainForm) {h : Heap C T V D} (hi : Inv s ⟨False, True⟩ h) (hg : h.graph = g) {i w : Id}
    (hw : s.isPermute (g w).cls = false) {f : ℕ} {o : Option D} (ho : (drWrt s f i w h).2 = .ok o) : MeansDr s g i w (.ok o) := by
  obtain ⟨f', hf'⟩ := (drWrt_agreeG hpf hi hg hw).2 (by rw [ho]; simp)
  exact ⟨by simp, f', hf'.trans ho⟩

theorem drWrt_returnsG {g : Graph C T} (hpf : s.PlainForm) {h : Heap C T V D} (hi : Inv s ⟨False, True⟩ h) (hg : h.graph = g) {i w : Id}
    (hw : s.isPermute (g w).cls = false) {f₀ f : ℕ} (hf : f₀ ≤ f) {o : Option D} (ho : evalDr s g f₀ i w = .ok o) :
    (drWrt s f i w h).2 = .ok o := by
  have e := evalDr_mono s g hf i w (by rw [ho]; simp)
  rw [ho] at e
  have := (drWrt_agreeG hpf hi hg hw (f := f) (i := i)).1 (by dsimp only; rw [e]; simp)
  dsimp only at this
  rw [this, e]

/-- What the group's own body says about an object that is not a slice is what the result says. -/
theorem drSlicedG_plain (gr : Grp) {g : Graph C T} (hG : Unused g gr.G) (hne : gr.res ≠ gr.G) {h : Heap C T V D} (hg : h.graph = g) {w : Id}
    (hwG : w ≠ gr.G) (hw : s.isPermute (g w).cls = false) (f : ℕ) {o : Option D} :
    (drSlicedG s gr (f + 1) w h).2 = .ok o ↔ (drWrt s (f + 1) gr.res w h).2 = .ok o := by
  have hq := drWrt_quietG (s := s) hG (f + 1) hne hwG h hg
  unfold drSlicedG
  simp only [M.bind]
  rcases hd : drWrt s (f + 1) gr.res w h with ⟨h1, r⟩
  rw [hd] at hq
  have hg1 := hq.apart.graph.trans hg
  have hcl : (h1.node w).cls = (g w).cls := by rw [← hg1]; rfl
  cases r with
  | error e => simp
  | ok o' =>
    cases o' with
    | some d => simp [M.pure]
    | none =>
      simp only [sliceLoopG, M.bind, hcl, hw, Bool.false_eq_true, if_false, M.pure]

/-- The contributions of the arguments. -/
theorem drTermsG_rep (N : Num s) (hpf : s.PlainForm) {g : Graph C T} (hG : Unused g gr.G) (hne : gr.res ≠ gr.G) {w : Id} (hwG : w ≠ gr.G)
    (hw : s.isPermute (g w).cls = false)
    (hp : ∀ k p d, (g gr.G).dterms k = some p → p ≠ w → MeansDr s g p w (.ok (some d)) → s.isPermute (g p).cls = false) {m n : ℕ}
    (sz : Id → ℕ) (K P : Id → Ent)
    (hP : ∀ k p o, (g gr.G).dterms k = some p → p ≠ w → MeansDr s g p w (.ok o) → N.RepO o (sz p) n (P p))
    (hK : ∀ k p d o, (g gr.G).dterms k = some p → p ≠ w → MeansDr s g p w (.ok (some d)) → MeansDr s g gr.res p (.ok o) →
      N.RepO o m (sz p) (K p)) (f : ℕ) :
    ∀ (ks : List Name) (acc ds : List D) (E : Ent) (h : Heap C T V D), Inv s ⟨False, True⟩ h → h.graph = g → SumRep N acc m n E →
      (drTermsG s gr (f + 1) w ks acc h).2 = .ok ds →
      SumRep N ds m n (E + ((ks.filter fun k => ((g gr.G).dterms k).isSome).map fun k =>
        if (g gr.G).kid k = w then 0 else Ent.mul (sz ((g gr.G).kid k)) (K ((g gr.G).kid k)) (P ((g gr.G).kid k))).sum) := by
  intro ks
  induction ks with
  | nil => intro acc ds E h _ _ hE ho; cases ho; simpa using hE
  | cons k ks ih =>
    intro acc ds E h hi hg hE ho
    simp only [drTermsG] at ho
    have hk' : (h.node gr.G).dterms k = (g gr.G).dterms k := by rw [← hg]; rfl
    rw [hk'] at ho
    cases hk : (g gr.G).dterms k with
    | none =>
      rw [hk] at ho
      have := ih _ _ _ h hi hg hE ho
      rw [List.filter_cons]; simpa [hk] using this
    | some p =>
      have hkid : (g gr.G).kid k = p := by simp [GNode.kid, hk]
      have hpG : p ≠ gr.G := fun e => hG gr.G k (by rw [hk, e])
      rw [hk] at ho; dsimp only at ho
      rw [List.filter_cons]
      simp only [hk, Option.isSome_some, if_true, List.map_cons, List.sum_cons, hkid]
      have skip : ∀ {X : Ent} {h1 : Heap C T V D}, Inv s ⟨False, True⟩ h1 → h1.graph = g → Ent.IsZero m n X →
          (drTermsG s gr (f + 1) w ks acc h1).2 = .ok ds →
          SumRep N ds m n (E + (X + ((ks.filter fun k => ((g gr.G).dterms k).isSome).map fun k =>
        if (g gr.G).kid k = w then 0 else Ent.mul (sz ((g gr.G).kid k)) (K ((g gr.G).kid k)) (P ((g gr.G).kid k))).sum)) := by
        intro X h1 hi1 hg1 hX ho
        refine (ih _ _ _ h1 hi1 hg1 hE ho).congr ?_
        refine (Ent.EqOn.refl E).add ?_
        intro a ha b hb
        have := hX a ha b hb
        simp only [Pi.add_apply]
        rw [this]; simp
      by_cases hpw : p = w
      · rw [if_pos hpw] at ho
        rw [if_pos hpw]
        exact skip hi hg (fun _ _ _ _ => rfl) ho
      · rw [if_neg hpw] at ho
        rw [if_neg hpw]
        have q1 := drWrt_quietG (s := s) hG (f + 1) hpG hwG h hg
        simp only [M.bind] at ho
        rcases hd1 : drWrt s (f + 1) p w h with ⟨h1, r1⟩
        rw [hd1] at ho q1
        have hi1 := q1.inv hi
        have hg1 := q1.apart.graph.trans hg
        cases r1 with
        | error e => cases ho
        | ok o1 =>
          have m0 := drWrt_meansG hpf hi hg hw (i := p) (o := o1) (by rw [hd1])
          have m1 := hP k p o1 hk hpw m0
          cases o1 with
          | none => exact skip hi1 hg1 (Ent.isZero_mul_right m1) ho
          | some d2 =>
            have hpp := hp k p d2 hk hpw m0
            have q2 := drSlicedG_quiet (s := s) hG hne (f + 1) hpG h1 hg1
            have e2 := fun o => drSlicedG_plain (s := s) gr hG hne hg1 hpG hpp f (o := o)
            dsimp only [M.bind] at ho
            rcases hd2 : drSlicedG s gr (f + 1) p h1 with ⟨h2, r2⟩
            rw [hd2] at ho q2 e2
            have hi2 := q2.inv hi1
            have hg2 := q2.apart.graph.trans hg1
            cases r2 with
            | error e => cases ho
            | ok o2 =>
              have m2 := hK k p d2 o2 hk hpw m0 (drWrt_meansG hpf hi1 hg1 hpp ((e2 o2).1 rfl))
              cases o2 with
              | none => exact skip hi2 hg2 (Ent.isZero_mul_left m2) ho
              | some d =>
                dsimp only [M.lift] at ho
                cases hx : s.superdot d d2 with
                | error e => rw [hx] at ho; cases ho
                | ok x =>
                  rw [hx] at ho
                  have hrep := N.superdot m2 m1 hx
                  have := ih _ _ _ h2 hi2 hg2 (hE.append hrep) ho
                  simpa [add_assoc] using this

/-- What `group.dr_wrt(w)` returns: the derivative of the result, and for every argument other than `w` the product of the derivative of
the result wrt the argument and that of the argument wrt `w`. -/
theorem drWrtG_rep (N : Num s) (hpo : s.PropsOk) (hpf : s.PlainForm) (hi : GInv s gr st) {g : Graph C T} (hg : g = regroup s gr st.heap.graph)
    {w : Id} (hwG : w ≠ gr.G) (hw : s.isPermute (g w).cls = false)
    (hp : ∀ k p d, (g gr.G).dterms k = some p → p ≠ w → MeansDr s g p w (.ok (some d)) → s.isPermute (g p).cls = false) {m n : ℕ} (sz : Id → ℕ) (J : Ent) (K P : Id → Ent)
    (hJ : ∀ o, MeansDr s g gr.res w (.ok o) → N.RepO o m n J)
    (hP : ∀ k p o, (g gr.G).dterms k = some p → p ≠ w → MeansDr s g p w (.ok o) → N.RepO o (sz p) n (P p))
    (hK : ∀ k p d o, (g gr.G).dterms k = some p → p ≠ w → MeansDr s g p w (.ok (some d)) → MeansDr s g gr.res p (.ok o) →
      N.RepO o m (sz p) (K p)) {f : ℕ} {o : Option D}
    (ho : (drWrtG s gr f w st).2 = .ok o) :
    N.RepO o m n (J + (((g gr.G).dnames.filter fun k => ((g gr.G).dterms k).isSome).map fun k =>
        if (g gr.G).kid k = w then 0 else Ent.mul (sz ((g gr.G).kid k)) (K ((g gr.G).kid k)) (P ((g gr.G).kid k))).sum) := by
  obtain ⟨a1, a2, a3, a4, ⟨u, a5⟩, _⟩ := callOnChangedG_spec hpo hi
  rcases hq : callOnChangedG s gr st with ⟨st1, r⟩
  rw [hq] at a1 a2 a3
  dsimp only at a1 a2 a3
  subst a1
  rw [← hg] at a3
  have hG : Unused g gr.G := a3 ▸ a2.ok.unused
  simp only [drWrtG, hq, M.bind] at ho
  cases f with
  | zero => simp [drSlicedG, drWrt, M.bind, M.throw] at ho
  | succ f =>
    have q1 := drSlicedG_quiet (s := s) hG a2.ok.ne (f + 1) hwG st1.heap a3
    have e1 := fun o => drSlicedG_plain (s := s) gr hG a2.ok.ne a3 hwG hw f (o := o)
    rcases hd1 : drSlicedG s gr (f + 1) w st1.heap with ⟨h1, r1⟩
    rw [hd1] at ho q1 e1
    have hi1 := q1.inv a2.inv
    have hg1 := q1.apart.graph.trans a3
    cases r1 with
    | error e => cases ho
    | ok direct =>
      have m1 := hJ direct (drWrt_meansG hpf a2.inv a3 hw ((e1 direct).1 rfl))
      have hE : SumRep N direct.toList m n J := by
        cases direct with
        | none => exact (SumRep.nil m n).congr (fun a ha b hb => (m1 a ha b hb).symm)
        | some d => exact ⟨[J], .cons m1 .nil, by simpa using Ent.EqOn.refl J⟩
      dsimp only at ho
      have hdn : (h1.node gr.G).dnames = (g gr.G).dnames := by rw [← hg1]; rfl
      rw [hdn] at ho
      rcases hd2 : drTermsG s gr (f + 1) w (g gr.G).dnames direct.toList h1 with ⟨h2, r2⟩
      rw [hd2] at ho
      cases r2 with
      | error e => cases ho
      | ok ds =>
        have m2 := drTermsG_rep N hpf hG a2.ok.ne hwG hw hp sz K P hP hK f _ _ _ _ h1 hi1 hg1 hE (by rw [hd2])
        dsimp only [M.lift] at ho
        cases hs : sumD s ds with
        | error e => rw [hs] at ho; cases ho
        | ok x =>
          rw [hs] at ho
          dsimp only at ho
          cases ho
          have := sumD_rep m2 hs
          cases x with
          | none => exact this
          | some d => exact N.outForm _ _ (N.finish this)

/-- `group.dr_wrt(w)` asks the result about `w`. -/
theorem drWrtG_direct (hpo : s.PropsOk) (hpf : s.PlainForm) (hi : GInv s gr st) {g : Graph C T} (hg : g = regroup s gr st.heap.graph)
    {w : Id} (hwG : w ≠ gr.G) (hw : s.isPermute (g w).cls = false) {f : ℕ} {o : Option D} (ho : (drWrtG s gr f w st).2 = .ok o) :
    ∃ d, MeansDr s g gr.res w (.ok d) := by
  obtain ⟨a1, a2, a3, a4, ⟨u, a5⟩, _⟩ := callOnChangedG_spec hpo hi
  rcases hq : callOnChangedG s gr st with ⟨st1, r⟩
  rw [hq] at a1 a2 a3
  dsimp only at a1 a2 a3
  subst a1
  rw [← hg] at a3
  have hG : Unused g gr.G := a3 ▸ a2.ok.unused
  simp only [drWrtG, hq, M.bind] at ho
  cases f with
  | zero => simp [drSlicedG, drWrt, M.bind, M.throw] at ho
  | succ f =>
    have e1 := fun o => drSlicedG_plain (s := s) gr hG a2.ok.ne a3 hwG hw f (o := o)
    rcases hd1 : drSlicedG s gr (f + 1) w st1.heap with ⟨h1, r1⟩
    rw [hd1] at ho e1
    cases r1 with
    | error e => cases ho
    | ok direct => exact ⟨direct, drWrt_meansG hpf a2.inv a3 hw ((e1 direct).1 rfl)⟩

/-- If no other argument depends on `w`, `group.dr_wrt(w)` returns what `dr_wrt` of the result does. -/
theorem drWrtG_exact (hpo : s.PropsOk) (hpf : s.PlainForm) (hi : GInv s gr st) {g : Graph C T} (hg : g = regroup s gr st.heap.graph)
    {w : Id} (hwG : w ≠ gr.G) (hw : s.isPermute (g w).cls = false) {d : Option D} (hd : MeansDr s g gr.res w (.ok d))
    (hP : ∀ k p, (g gr.G).dterms k = some p → p ≠ w → MeansDr s g p w (.ok none)) :
    ∃ f₀, ∀ f ≥ f₀, (drWrtG s gr f w st).2 = .ok (d.map s.finish) := by
  obtain ⟨a1, a2, a3, a4, ⟨u, a5⟩, _⟩ := callOnChangedG_spec hpo hi
  rcases hq : callOnChangedG s gr st with ⟨st1, r⟩
  rw [hq] at a1 a2 a3
  dsimp only at a1 a2 a3
  subst a1
  rw [← hg] at a3
  have hG : Unused g gr.G := a3 ▸ a2.ok.unused
  obtain ⟨_, f1, hf1⟩ := hd
  have hks : ∀ ks : List Name, ∃ f₀, ∀ f ≥ f₀, ∀ (acc : List D) (h : Heap C T V D), Inv s ⟨False, True⟩ h → h.graph = g →
      (drTermsG s gr f w ks acc h).2 = .ok acc ∧ (drTermsG s gr f w ks acc h).1.graph = g := by
    intro ks
    induction ks with
    | nil => exact ⟨0, fun f _ acc h _ hg => ⟨rfl, hg⟩⟩
    | cons k ks ih =>
      obtain ⟨f0, hf0⟩ := ih
      cases hk : (g gr.G).dterms k with
      | none =>
        refine ⟨f0, fun f hf acc h hi hg => ?_⟩
        have hk' : (h.node gr.G).dterms k = none := by rw [← hk, ← hg]; rfl
        simp only [drTermsG, hk']
        exact hf0 f hf acc h hi hg
      | some p =>
        have hpG : p ≠ gr.G := fun e => hG gr.G k (by rw [hk, e])
        by_cases hpw : p = w
        · refine ⟨f0, fun f hf acc h hi hg => ?_⟩
          have hk' : (h.node gr.G).dterms k = some p := by rw [← hk, ← hg]; rfl
          simp only [drTermsG, hk', if_pos hpw]
          exact hf0 f hf acc h hi hg
        · obtain ⟨_, f2, hf2⟩ := hP k p hk hpw
          refine ⟨max f0 f2, fun f hf acc h hi hg => ?_⟩
          have hk' : (h.node gr.G).dterms k = some p := by rw [← hk, ← hg]; rfl
          have e := drWrt_returnsG hpf hi hg hw (le_trans (le_max_right f0 f2) hf) hf2
          have q := drWrt_quietG (s := s) hG f hpG hwG h hg
          simp only [drTermsG, hk', if_neg hpw, M.bind]
          rcases hdd : drWrt s f p w h with ⟨h1, r1⟩
          rw [hdd] at e q
          dsimp only at e
          subst e
          exact hf0 f (le_trans (le_max_left f0 f2) hf) acc h1 (q.inv hi) (q.apart.graph.trans hg)
  obtain ⟨f2, hf2⟩ := hks (g gr.G).dnames
  refine ⟨max (f1 + 1) f2, fun f hf => ?_⟩
  obtain ⟨f, rfl⟩ : ∃ f', f = f' + 1 := ⟨f - 1, by have := le_trans (le_max_left (f1 + 1) f2) hf; omega⟩
  have e := drWrt_returnsG hpf a2.inv a3 hw (by have := le_trans (le_max_left (f1 + 1) f2) hf; omega : f1 ≤ f + 1) hf1
  have e1 := (drSlicedG_plain (s := s) gr hG a2.ok.ne a3 hwG hw f (o := d)).2 e
  have q1 := drSlicedG_quiet (s := s) hG a2.ok.ne (f + 1) hwG st1.heap a3
  simp only [drWrtG, hq, M.bind]
  rcases hd1 : drSlicedG s gr (f + 1) w st1.heap with ⟨h1, r1⟩
  rw [hd1] at e1 q1
  dsimp only at e1
  subst e1
  have hg1 := q1.apart.graph.trans a3
  have hi1 := q1.inv a2.inv
  have hdn : (h1.node gr.G).dnames = (g gr.G).dnames := by rw [← hg1]; rfl
  dsimp only
  rw [hdn]
  obtain ⟨e2, e3⟩ := hf2 (f + 1) (le_trans (le_max_right _ f2) hf) d.toList h1 hi1 hg1
  have q2 := drTermsG_quiet (s := s) hG a2.ok.ne (f + 1) hwG (g gr.G).dnames d.toList h1 hg1
  rcases hd2 : drTermsG s gr (f + 1) w (g gr.G).dnames d.toList h1 with ⟨h2, r2⟩
  rw [hd2] at e2 e3 q2
  dsimp only at e2 e3
  subst e2
  have hfl : (h2.node gr.G).makeDense = false ∧ (h2.node gr.G).makeSparse = false := (q2.inv hi1).flags trivial gr.G
  cases d with
  | none => simp [sumD, M.lift]
  | some d => simp [sumD, M.lift, hfl.1, hfl.2, pure, Except.pure, Except.map, hpf (s.finish d)]

end Chumpy
