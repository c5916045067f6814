import Verif.Core.Inv
/-!
# Histories that use reverse mode

`dr_wrt(wrt, reverse_mode=True)` stores what it computes where `dr_wrt(wrt)` looks it up (ch.py:742, 820-821), so after it the cached
derivatives need not be the ones forward mode would compute.  Here: histories of the operations of `Verif/Core/Step.lean` and
reverse-mode calls, and what a claim `U` about cached derivatives must satisfy to hold after all of them.
-/
namespace Chumpy
variable {C T V D α : Type} {s : Sig C T V D} {fr : Mode} {U : Graph C T → Id → Id → Option D → Prop}

theorem lmultWrt_pres {R : Heap C T V D → Heap C T V D → Prop} (hR : ReadRel R) (ne : D → Except Err Bool) (f : Nat) (i w : Id) (o : Option D) :
    Pres R (lmultWrt s ne f i w o) := by
  cases o with
  | none => exact Pres.const hR (fun _ => rfl)
  | some L => exact leftMul_pres hR _ f i w L

theorem revTerms_pres {R : Heap C T V D → Heap C T V D → Prop} (hR : ReadRel R) (ne : D → Except Err Bool) (f : Nat) (i w : Id) :
    ∀ ks acc, Pres R (revTerms s ne f i w ks acc) := by
  intro ks
  induction ks with
  | nil => intro acc; exact Pres.const hR (fun _ => rfl)
  | cons k ks ih =>
    intro acc
    refine Pres.bind hR (Pres.const hR (fun _ => rfl)) (fun o => ?_)
    cases o with
    | none => exact ih acc
    | some p =>
      dsimp only
      split
      · exact ih acc
      · refine Pres.bind hR (drSliced_pres hR f i p) (fun l => ?_)
        refine Pres.bind hR (lmultWrt_pres hR ne f p w l) (fun o => ?_)
        cases o with
        | none => exact ih acc
        | some x => exact ih _

theorem drWrtRev_pres {R : Heap C T V D → Heap C T V D → Prop} (hR : ReadRel R) (ne : D → Except Err Bool) (f : Nat) (i w : Id) :
    Pres R (drWrtRev s ne f i w) := by
  cases f with
  | zero => exact Pres.const hR (fun _ => rfl)
  | succ f =>
    refine Pres.bind hR (hR.onChanged i) (fun _ h => ?_)
    cases (h.node i).drs w with
    | some d => exact hR.refl h
    | none =>
      refine Pres.bind hR ?_ (fun r => ?_) h
      · refine Pres.bind hR (drSliced_pres hR f i w) (fun direct => ?_)
        exact Pres.bind hR (fun h => revTerms_pres hR ne f i w _ _ h) (fun ds => Pres.const hR (fun _ => rfl))
      · exact Pres.bind hR (hR.storeDr i w _) (fun _ => Pres.const hR (fun _ => rfl))

/-! ## What a forward walk adds up, when the children report something for which `U` holds -/

/-- The summands over the names `ks`. -/
inductive TermsBy (s : Sig C T V D) (U : Graph C T → Id → Id → Option D → Prop) (g : Graph C T) (i w : Id) : List Name → List D → Prop
  | nil : TermsBy s U g i w [] []
  | unset {k ks xs} : (g i).dterms k = none → TermsBy s U g i w ks xs → TermsBy s U g i w (k :: ks) xs
  | direct {k ks xs} : (g i).dterms k = some w → TermsBy s U g i w ks xs → TermsBy s U g i w (k :: ks) xs
  | zero {k p ks xs} : (g i).dterms k = some p → p ≠ w → U g p w none → TermsBy s U g i w ks xs → TermsBy s U g i w (k :: ks) xs
  | blind {k p d2 f ks xs} : (g i).dterms k = some p → p ≠ w → U g p w (some d2) → evalSliced s g f i p = .ok none →
      TermsBy s U g i w ks xs → TermsBy s U g i w (k :: ks) xs
  | term {k p d2 d x f ks xs} : (g i).dterms k = some p → p ≠ w → U g p w (some d2) → evalSliced s g f i p = .ok (some d) →
      s.superdot d d2 = .ok x → TermsBy s U g i w ks xs → TermsBy s U g i w (k :: ks) (x :: xs)

/-- What is stored by a forward walk over children for which `U` holds. -/
def ForwardOk (s : Sig C T V D) (U : Graph C T → Id → Id → Option D → Prop) (W : Graph C T → Id → Prop) (g : Graph C T) : Prop :=
  ∀ f i w direct xs r, Plain s g → W g w → evalSliced s g f i w = .ok direct → TermsBy s U g i w (g i).dnames xs →
    sumD s (direct.toList ++ xs) = .ok r → U g i w (r.map s.finish)

/-- What is stored by reverse mode. -/
def ReverseOk (s : Sig C T V D) (ne : D → Except Err Bool) (U : Graph C T → Id → Id → Option D → Prop) (W : Graph C T → Id → Prop)
    (g : Graph C T) : Prop :=
  ∀ f i w r, Plain s g → W g w → evalRevSum s ne g f i w = .ok r → U g i w (r.map s.finish)

section
variable {W : Graph C T → Id → Prop} {g : Graph C T}

theorem sliced_ok {f : Nat} {i p : Id} {h : Heap C T V D} (hc : Coh s U W h) (hg : h.graph = g) :
    Coh s U W (drSliced s f i p h).1 ∧ Frame h (drSliced s f i p h).1 ∧
      ∀ o, (drSliced s f i p h).2 = .ok o → ∃ f', evalSliced s g f' i p = .ok o := by
  obtain ⟨a, b, c⟩ := drSliced_sim (P := True) (g := g) f i p h hc hg
  refine ⟨a, b, fun o ho => ?_⟩
  obtain ⟨f', hf'⟩ := (c trivial).2 (by rw [ho]; simp)
  exact ⟨f', hf'.trans ho⟩

theorem drTerms_by {f : Nat} {i w : Id} {rec : Id → M C T V D (Option D)}
    (hrec : ∀ p h, Coh s U W h → h.graph = g → Coh s U W (rec p h).1 ∧ Frame h (rec p h).1 ∧
      ∀ o, (rec p h).2 = .ok o → Plain s g → W g w → U g p w o) :
    ∀ ks acc h, Coh s U W h → h.graph = g → Coh s U W (drTerms s f i w rec ks acc h).1 ∧ Frame h (drTerms s f i w rec ks acc h).1 ∧
      ∀ ds, (drTerms s f i w rec ks acc h).2 = .ok ds → Plain s g → W g w → ∃ xs, ds = acc ++ xs ∧ TermsBy s U g i w ks xs := by
  intro ks
  induction ks with
  | nil =>
    intro acc h hc hg
    refine ⟨hc, Frame.rfl, fun ds hd _ _ => ⟨[], ?_, .nil⟩⟩
    cases hd; simp
  | cons k ks ih =>
    intro acc h hc hg
    have hk : (h.node i).dterms k = (g i).dterms k := by rw [← hg]; rfl
    simp only [drTerms, hk]
    cases hd : (g i).dterms k with
    | none =>
      dsimp only
      obtain ⟨a, b, c⟩ := ih acc h hc hg
      refine ⟨a, b, fun ds hds hp hw => ?_⟩
      obtain ⟨xs, h1, h2⟩ := c ds hds hp hw
      exact ⟨xs, h1, .unset hd h2⟩
    | some p =>
      dsimp only
      split
      · rename_i hpw
        obtain ⟨a, b, c⟩ := ih acc h hc hg
        refine ⟨a, b, fun ds hds hp hw => ?_⟩
        obtain ⟨xs, h1, h2⟩ := c ds hds hp hw
        exact ⟨xs, h1, .direct (hpw ▸ hd) h2⟩
      · rename_i hpw
        obtain ⟨a, b, c⟩ := hrec p h hc hg
        simp only [M.bind]
        rcases hm : rec p h with ⟨h1, r⟩
        rw [hm] at a b c
        have hg1 : h1.graph = g := b.graph.trans hg
        cases r with
        | error e => exact ⟨a, b, fun ds hds => by cases hds⟩
        | ok o =>
          cases o with
          | none =>
            dsimp only
            obtain ⟨a2, b2, c2⟩ := ih acc h1 a hg1
            refine ⟨a2, b.trans b2, fun ds hds hp hw => ?_⟩
            obtain ⟨xs, e1, e2⟩ := c2 ds hds hp hw
            exact ⟨xs, e1, .zero hd hpw (c _ rfl hp hw) e2⟩
          | some d2 =>
            dsimp only
            obtain ⟨a2, b2, c2⟩ := sliced_ok (f := f) (i := i) (p := p) a hg1
            simp only [M.bind]
            rcases hm2 : drSliced s f i p h1 with ⟨h2, r2⟩
            rw [hm2] at a2 b2 c2
            have hg2 : h2.graph = g := b2.graph.trans hg1
            cases r2 with
            | error e => exact ⟨a2, b.trans b2, fun ds hds => by cases hds⟩
            | ok o2 =>
              obtain ⟨f', hf'⟩ := c2 o2 rfl
              cases o2 with
              | none =>
                dsimp only
                obtain ⟨a3, b3, c3⟩ := ih acc h2 a2 hg2
                refine ⟨a3, (b.trans b2).trans b3, fun ds hds hp hw => ?_⟩
                obtain ⟨xs, e1, e2⟩ := c3 ds hds hp hw
                exact ⟨xs, e1, .blind hd hpw (c _ rfl hp hw) hf' e2⟩
              | some d =>
                dsimp only
                cases hx : s.superdot d d2 with
                | error e => exact ⟨a2, b.trans b2, fun ds hds => by cases hds⟩
                | ok x =>
                  simp only [M.bind, M.lift]
                  obtain ⟨a3, b3, c3⟩ := ih (acc ++ [x]) h2 a2 hg2
                  refine ⟨a3, (b.trans b2).trans b3, fun ds hds hp hw => ?_⟩
                  obtain ⟨xs, e1, e2⟩ := c3 ds hds hp hw
                  exact ⟨x :: xs, by rw [e1]; simp, .term hd hpw (c _ rfl hp hw) hf' hx e2⟩

/-- Storing a result and returning it. -/
theorem store_and_return {i w : Id} {o : Option D} {h : Heap C T V D} (hc : Coh s U W h) (hg : h.graph = g)
    (hU : Plain s g → W g w → U g i w o) :
    ∀ out, out = M.bind (storeDr i w o) (fun _ h => (h, .ok (o.map (s.outForm (h.node i).makeDense (h.node i).makeSparse)))) h →
      Coh s U W out.1 ∧ Frame h out.1 ∧ ∀ o', out.2 = .ok o' → Plain s g → W g w → U g i w o' := by
  intro out he
  have hsok : (storeDr i w o h).2 = .ok () := by unfold storeDr; split <;> rfl
  have hsf := storeDr_frame i w o h
  have hco : Coh s U W (storeDr i w o h).1 := storeDr_coh i w o hc (by rw [hg]; exact hU)
  simp only [M.bind] at he
  rcases hst : storeDr i w o h with ⟨h2, r2⟩
  rw [hst] at hsf hco hsok he
  dsimp only at hsok
  subst hsok he
  refine ⟨hco, hsf, fun o' ho hp hw => ?_⟩
  have hgn : (h2.node i).toGNode = g i := by
    have : h2.graph = g := hsf.graph.trans hg
    rw [← this]; rfl
  have e1 : (h2.node i).makeDense = false := by rw [hgn]; exact (hp.2 i).1
  have e2 : (h2.node i).makeSparse = false := by rw [hgn]; exact (hp.2 i).2
  dsimp only at ho
  rw [e1, e2] at ho
  have : o.map (s.outForm false false) = o := by
    cases o with
    | none => rfl
    | some d => simp [hp.1]
  rw [this] at ho
  cases ho
  exact hU hp hw

/-- A forward walk, whatever is claimed of what is cached. -/
theorem drWrt_by (hfw : ForwardOk s U W g) (f : Nat) : ∀ i w h, Coh s U W h → h.graph = g →
    Coh s U W (drWrt s f i w h).1 ∧ Frame h (drWrt s f i w h).1 ∧
      ∀ o, (drWrt s f i w h).2 = .ok o → Plain s g → W g w → U g i w o := by
  induction f with
  | zero => intro i w h hc hg; exact ⟨hc, Frame.rfl, fun o ho => by cases ho⟩
  | succ f ih =>
    intro i w h hc hg
    have h1 := callOnChanged_ok i h
    have hfr := callOnChanged_frame i h
    have hc' := callOnChanged_coh (s := s) i hc
    simp only [drWrt, M.bind]
    rcases hmh : callOnChanged i h with ⟨h', r⟩
    rw [hmh] at h1 hfr hc'
    dsimp only at h1
    subst h1
    dsimp only
    have hg' : h'.graph = g := hfr.graph.trans hg
    cases hd : (h'.node i).drs w with
    | some d =>
      refine ⟨hc', hfr, fun o ho hp hw => ?_⟩
      cases ho
      have := hc'.d (hg' ▸ hp) i w d (hg' ▸ hw) hd
      rwa [hg'] at this
    | none =>
      dsimp only
      obtain ⟨a1, b1, c1⟩ := sliced_ok (f := f) (i := i) (p := w) hc' hg'
      rcases hm1 : drSliced s f i w h' with ⟨h1, r1⟩
      rw [hm1] at a1 b1 c1
      have hg1 : h1.graph = g := b1.graph.trans hg'
      cases r1 with
      | error e => exact ⟨a1, hfr.trans b1, fun o ho => by cases ho⟩
      | ok direct =>
        obtain ⟨f', hf'⟩ := c1 direct rfl
        dsimp only
        have hdn : (h1.node i).dnames = (g i).dnames := by rw [← hg1]; rfl
        rw [hdn]
        obtain ⟨a2, b2, c2⟩ := drTerms_by (f := f) (i := i) (w := w) (rec := fun p => drWrt s f p w) (fun p h => ih p w h)
          (g i).dnames direct.toList h1 a1 hg1
        rcases hm2 : drTerms s f i w (fun p => drWrt s f p w) (g i).dnames direct.toList h1 with ⟨h2, r2⟩
        rw [hm2] at a2 b2 c2
        have hg2 : h2.graph = g := b2.graph.trans hg1
        cases r2 with
        | error e => exact ⟨a2, (hfr.trans b1).trans b2, fun o ho => by cases ho⟩
        | ok ds =>
          dsimp only
          simp only [M.lift]
          cases hsm : sumD s ds with
          | error e => exact ⟨a2, (hfr.trans b1).trans b2, fun o ho => by cases ho⟩
          | ok r =>
            dsimp only
            obtain ⟨a3, b3, c3⟩ := store_and_return (i := i) (w := w) (o := r.map s.finish) a2 hg2 (fun hp hw => by
              obtain ⟨xs, e1, e2⟩ := c2 ds rfl hp hw
              subst e1
              exact hfw f' i w direct xs r hp hw hf' e2 hsm) _ rfl
            exact ⟨a3, ((hfr.trans b1).trans b2).trans b3, c3⟩

/-- A reverse-mode call. -/
theorem drWrtRev_by {ne : D → Except Err Bool} (hrv : ReverseOk s ne U W g) (f : Nat) (i w : Id) (h : Heap C T V D) (hc : Coh s U W h)
    (hg : h.graph = g) : Coh s U W (drWrtRev s ne f i w h).1 ∧ Frame h (drWrtRev s ne f i w h).1 ∧
      ∀ o, (drWrtRev s ne f i w h).2 = .ok o → Plain s g → W g w → U g i w o := by
  cases f with
  | zero => exact ⟨hc, Frame.rfl, fun o ho => by cases ho⟩
  | succ f =>
    have h1 := callOnChanged_ok i h
    have hfr := callOnChanged_frame i h
    have hc' := callOnChanged_coh (s := s) i hc
    simp only [drWrtRev, M.bind]
    rcases hmh : callOnChanged i h with ⟨h', r⟩
    rw [hmh] at h1 hfr hc'
    dsimp only at h1
    subst h1
    dsimp only
    have hg' : h'.graph = g := hfr.graph.trans hg
    cases hd : (h'.node i).drs w with
    | some d =>
      refine ⟨hc', hfr, fun o ho hp hw => ?_⟩
      cases ho
      have := hc'.d (hg' ▸ hp) i w d (hg' ▸ hw) hd
      rwa [hg'] at this
    | none =>
      dsimp only
      obtain ⟨a1, b1, hag⟩ := (revSum_simM (s := s) (U := U) (n := ne) (P := True) (W := W) (g := g) f i w).sim h' hc' hg'
      rcases hm1 : revSum s ne f i w h' with ⟨h1, r1⟩
      rw [hm1] at a1 b1 hag
      have hg1 : h1.graph = g := b1.graph.trans hg'
      cases r1 with
      | error e => exact ⟨a1, hfr.trans b1, fun o ho => by cases ho⟩
      | ok r =>
        obtain ⟨f', hf'⟩ := (hag trivial).2 (by simp)
        dsimp only
        obtain ⟨a3, b3, c3⟩ := store_and_return (i := i) (w := w) (o := r.map s.finish) a1 hg1 (fun hp hw => hrv f' i w r hp hw hf') _ rfl
        exact ⟨a3, (hfr.trans b1).trans b3, c3⟩
end

/-! ## Histories -/

/-- `obj.dr_wrt(w, reverse_mode=True)` as an operation: both objects must exist. -/
def stepRev (s : Sig C T V D) (ne : D → Except Err Bool) (f : Nat) (i w : Id) : M C T V D (Option D) :=
  ifAlive i (ifAlive w (drWrtRev s ne f i w))

/-- States reached by legal operations and reverse-mode calls, in any order. -/
inductive ReachR (s : Sig C T V D) (ne : D → Except Err Bool) (fr : Mode) : Heap C T V D → Prop
  | init : ReachR s ne fr (Heap.empty s)
  | step {h : Heap C T V D} (op : Op C T D) : ReachR s ne fr h → Legal s fr h op → ReachR s ne fr (step s op h).1
  | reverse {h : Heap C T V D} (f : Nat) (i w : Id) : ReachR s ne fr h → ReachR s ne fr (stepRev s ne f i w h).1

theorem Reach.reachR {ne : D → Except Err Bool} {h : Heap C T V D} (hr : Reach s fr h) : ReachR s ne fr h := by
  induction hr with
  | init => exact .init
  | step op _ hl ih => exact .step op ih hl

/-- Objects refer to others only under declared names. -/
def NamesDeclared (g : Graph C T) : Prop := ∀ i k c, (g i).dterms k = some c → k ∈ (g i).dnames

theorem drWrtRev_invU {ne : D → Except Err Bool} {h : Heap C T V D} (hi : InvU s U fr h) {f : Nat} {i w : Id}
    (hc : Coh s U (Wf s fr) (drWrtRev s ne f i w h).1) : InvU s U fr (drWrtRev s ne f i w h).1 := by
  have b := drWrtRev_pres rframe_rel (s := s) ne f i w h
  exact ⟨hi.str.rframe b, hc, fun hfr n => by rw [b.graph]; exact hi.perm hfr n, fun hp n => by rw [b.graph]; exact hi.flags hp n⟩

theorem reachR_inv [Local s U] {ne : D → Except Err Bool} (hpo : s.PropsOk) (hloc : fr.frozen → s.LocalDr)
    (hfw : ∀ g, NamesDeclared g → ForwardOk s U (Wf s fr) g) (hrv : ∀ g, NamesDeclared g → ReverseOk s ne U (Wf s fr) g)
    {h : Heap C T V D} (hr : ReachR s ne fr h) : InvU s U fr h := by
  induction hr with
  | init => exact inv_empty
  | @step h op _ hl ih =>
    exact step_invU hpo hloc ih op hl (fun f i w => (drWrt_by (hfw h.graph (fun i k c => ih.str.dn i k c)) f i w h ih.coh rfl).1)
  | @reverse h f i w _ ih =>
    unfold stepRev ifAlive
    split
    · split
      · exact drWrtRev_invU ih (drWrtRev_by (hrv h.graph (fun i k c => ih.str.dn i k c)) f i w h ih.coh rfl).1
      · exact ih
    · exact ih

/-- Nothing is claimed of cached derivatives. -/
def NoClaim : Graph C T → Id → Id → Option D → Prop := fun _ _ _ _ => True

instance : Local s (NoClaim : Graph C T → Id → Id → Option D → Prop) := ⟨fun _ _ _ _ _ => trivial, fun _ _ => trivial⟩

theorem reachR_values {ne : D → Except Err Bool} (hpo : s.PropsOk) (hloc : fr.frozen → s.LocalDr) {h : Heap C T V D}
    (hr : ReachR s ne fr h) : InvU s NoClaim fr h :=
  reachR_inv hpo hloc (fun _ _ _ _ _ _ _ _ _ _ _ _ _ => trivial) (fun _ _ _ _ _ _ _ _ _ => trivial) hr
end Chumpy
