import Verif.AD.Group
import Verif.Core.GroupCache
/-!
# What is kept in the derivative cache of a group
-/
namespace Chumpy
variable {C T V D : Type} {s : Sig C T V D} {gr : Grp}

/-- The contributions of the arguments, as a relation on the graph. -/
inductive TermsG (s : Sig C T V D) (g : Graph C T) (gr : Grp) (w : Id) : List Name → List D → List D → Prop
  | nil (acc) : TermsG s g gr w [] acc acc
  | absent {k ks acc out} : (g gr.G).dterms k = none → TermsG s g gr w ks acc out → TermsG s g gr w (k :: ks) acc out
  | self {k ks acc out} : (g gr.G).dterms k = some w → TermsG s g gr w ks acc out → TermsG s g gr w (k :: ks) acc out
  | apart {k ks acc out p} : (g gr.G).dterms k = some p → p ≠ w → MeansDr s g p w (.ok none) → TermsG s g gr w ks acc out →
      TermsG s g gr w (k :: ks) acc out
  | unseen {k ks acc out p d2} : (g gr.G).dterms k = some p → p ≠ w → s.isPermute (g p).cls = false → MeansDr s g p w (.ok (some d2)) →
      MeansDr s g gr.res p (.ok none) → TermsG s g gr w ks acc out → TermsG s g gr w (k :: ks) acc out
  | take {k ks acc out p d2 d x} : (g gr.G).dterms k = some p → p ≠ w → s.isPermute (g p).cls = false → MeansDr s g p w (.ok (some d2)) →
      MeansDr s g gr.res p (.ok (some d)) → s.superdot d d2 = .ok x → TermsG s g gr w ks (acc ++ [x]) out → TermsG s g gr w (k :: ks) acc out

/-- The derivative of a group, as a relation on the graph. -/
def GroupDr (s : Sig C T V D) (g : Graph C T) (gr : Grp) (w : Id) (d : Option D) : Prop :=
  ∃ direct ds r, MeansDr s g gr.res w (.ok direct) ∧ TermsG s g gr w (g gr.G).dnames direct.toList ds ∧ sumD s ds = .ok r ∧ d = r.map s.finish

/-- The restriction on the variable: neither it nor an argument through which it is reached is a slice. -/
def NoSliceG (s : Sig C T V D) (gr : Grp) (g : Graph C T) (w : Id) : Prop :=
  s.isPermute (g w).cls = false ∧ ∀ k p, (g gr.G).dterms k = some p → p ≠ w → s.isPermute (g p).cls = true → MeansDr s g p w (.ok none)

theorem termsG_sound (hpf : s.PlainForm) {g : Graph C T} (hG : Unused g gr.G) (hne : gr.res ≠ gr.G) {w : Id} (hwG : w ≠ gr.G)
    (hns : NoSliceG s gr g w) (f : ℕ) (ks : List Name) : ∀ (acc : List D) (h : Heap C T V D), Inv s ⟨False, True⟩ h → h.graph = g →
    ∀ out, (drTermsG s gr (f + 1) w ks acc h).2 = .ok out → TermsG s g gr w ks acc out := by
  induction ks with
  | nil =>
    intro acc h _ _ out ho
    simp only [drTermsG, M.pure, Except.ok.injEq] at ho
    subst ho; exact .nil _
  | cons k ks ih =>
    intro acc h hi hg out ho
    cases hk : (g gr.G).dterms k with
    | none =>
      have hk' : (h.node gr.G).dterms k = none := by rw [← hk, ← hg]; rfl
      simp only [drTermsG, hk'] at ho
      exact .absent hk (ih acc h hi hg out ho)
    | some p =>
      have hpG : p ≠ gr.G := fun e => hG gr.G k (by rw [hk, e])
      have hk' : (h.node gr.G).dterms k = some p := by rw [← hk, ← hg]; rfl
      by_cases hpw : p = w
      · simp only [drTermsG, hk', if_pos hpw] at ho
        exact .self (hpw ▸ hk) (ih acc h hi hg out ho)
      · simp only [drTermsG, hk', if_neg hpw, M.bind] at ho
        have hm := fun o => drWrt_meansG (f := f + 1) (o := o) hpf hi hg (i := p) hns.1
        have q := drWrt_quietG (s := s) hG (f + 1) hpG hwG h hg
        rcases hdd : drWrt s (f + 1) p w h with ⟨h1, r1⟩
        rw [hdd] at hm q ho
        have hi1 := q.inv hi
        have hg1 := q.apart.graph.trans hg
        cases r1 with
        | error e => cases ho
        | ok o =>
          have hm := hm o rfl
          cases o with
          | none => exact .apart hk hpw hm (ih acc h1 hi1 hg1 out ho)
          | some d2 =>
            have hpp : s.isPermute (g p).cls = false := by
              cases hc : s.isPermute (g p).cls with
              | false => rfl
              | true => have := hm.unique (hns.2 k p hk hpw hc); cases this
            dsimp only [M.bind] at ho
            have e1 := fun o => drSlicedG_plain (s := s) gr hG hne hg1 hpG hpp f (o := o)
            have q1 := drSlicedG_quiet (s := s) hG hne (f + 1) hpG h1 hg1
            rcases hd1 : drSlicedG s gr (f + 1) p h1 with ⟨h2, r2⟩
            rw [hd1] at e1 q1 ho
            have hi2 := q1.inv hi1
            have hg2 := q1.apart.graph.trans hg1
            cases r2 with
            | error e => cases ho
            | ok o =>
              have hm2 := drWrt_meansG hpf hi1 hg1 hpp ((e1 o).1 rfl)
              cases o with
              | none => exact .unseen hk hpw hpp hm hm2 (ih acc h2 hi2 hg2 out ho)
              | some d =>
                dsimp only [M.lift] at ho
                cases hx : s.superdot d d2 with
                | error e => rw [hx] at ho; cases ho
                | ok x =>
                  rw [hx] at ho
                  exact .take hk hpw hpp hm hm2 hx (ih _ h2 hi2 hg2 out ho)

theorem termsG_complete (hpf : s.PlainForm) {g : Graph C T} (hG : Unused g gr.G) (hne : gr.res ≠ gr.G) {w : Id} (hwG : w ≠ gr.G)
    (hw : s.isPermute (g w).cls = false) {ks : List Name} {acc out : List D} (ht : TermsG s g gr w ks acc out) :
    ∃ f₀, ∀ f ≥ f₀, ∀ (h : Heap C T V D), Inv s ⟨False, True⟩ h → h.graph = g → (drTermsG s gr (f + 1) w ks acc h).2 = .ok out := by
  induction ht with
  | nil acc => exact ⟨0, fun f _ h _ _ => rfl⟩
  | @absent k ks acc out hk _ ih =>
    obtain ⟨f0, h0⟩ := ih
    refine ⟨f0, fun f hf h hi hg => ?_⟩
    have hk' : (h.node gr.G).dterms k = none := by rw [← hk, ← hg]; rfl
    simp only [drTermsG, hk']
    exact h0 f hf h hi hg
  | @self k ks acc out hk _ ih =>
    obtain ⟨f0, h0⟩ := ih
    refine ⟨f0, fun f hf h hi hg => ?_⟩
    have hk' : (h.node gr.G).dterms k = some w := by rw [← hk, ← hg]; rfl
    simp only [drTermsG, hk', if_true]
    exact h0 f hf h hi hg
  | @apart k ks acc out p hk hpw hm _ ih =>
    obtain ⟨f0, h0⟩ := ih
    obtain ⟨_, f2, hf2⟩ := hm
    have hpG : p ≠ gr.G := fun e => hG gr.G k (by rw [hk, e])
    refine ⟨max f0 f2, fun f hf h hi hg => ?_⟩
    have hk' : (h.node gr.G).dterms k = some p := by rw [← hk, ← hg]; rfl
    have e := drWrt_returnsG hpf hi hg hw (by omega : f2 ≤ f + 1) hf2
    have q := drWrt_quietG (s := s) hG (f + 1) hpG hwG h hg
    simp only [drTermsG, hk', if_neg hpw, M.bind]
    rcases hdd : drWrt s (f + 1) p w h with ⟨h1, r1⟩
    rw [hdd] at e q
    dsimp only at e
    subst e
    exact h0 f (by omega) h1 (q.inv hi) (q.apart.graph.trans hg)
  | @unseen k ks acc out p d2 hk hpw hpp hm hm2 _ ih =>
    obtain ⟨f0, h0⟩ := ih
    obtain ⟨_, f2, hf2⟩ := hm
    obtain ⟨_, f3, hf3⟩ := hm2
    have hpG : p ≠ gr.G := fun e => hG gr.G k (by rw [hk, e])
    refine ⟨max (max f0 f2) f3, fun f hf h hi hg => ?_⟩
    have hk' : (h.node gr.G).dterms k = some p := by rw [← hk, ← hg]; rfl
    have e := drWrt_returnsG hpf hi hg hw (by omega : f2 ≤ f + 1) hf2
    have q := drWrt_quietG (s := s) hG (f + 1) hpG hwG h hg
    simp only [drTermsG, hk', if_neg hpw, M.bind]
    rcases hdd : drWrt s (f + 1) p w h with ⟨h1, r1⟩
    rw [hdd] at e q
    dsimp only at e
    subst e
    have hi1 := q.inv hi
    have hg1 := q.apart.graph.trans hg
    have e2 := (drSlicedG_plain (s := s) gr hG hne hg1 hpG hpp f (o := none)).2 (drWrt_returnsG hpf hi1 hg1 hpp (by omega : f3 ≤ f + 1) hf3)
    have q1 := drSlicedG_quiet (s := s) hG hne (f + 1) hpG h1 hg1
    simp only [M.bind]
    rcases hd1 : drSlicedG s gr (f + 1) p h1 with ⟨h2, r2⟩
    rw [hd1] at e2 q1
    dsimp only at e2
    subst e2
    exact h0 f (by omega) h2 (q1.inv hi1) (q1.apart.graph.trans hg1)
  | @take k ks acc out p d2 d x hk hpw hpp hm hm2 hx _ ih =>
    obtain ⟨f0, h0⟩ := ih
    obtain ⟨_, f2, hf2⟩ := hm
    obtain ⟨_, f3, hf3⟩ := hm2
    have hpG : p ≠ gr.G := fun e => hG gr.G k (by rw [hk, e])
    refine ⟨max (max f0 f2) f3, fun f hf h hi hg => ?_⟩
    have hk' : (h.node gr.G).dterms k = some p := by rw [← hk, ← hg]; rfl
    have e := drWrt_returnsG hpf hi hg hw (by omega : f2 ≤ f + 1) hf2
    have q := drWrt_quietG (s := s) hG (f + 1) hpG hwG h hg
    simp only [drTermsG, hk', if_neg hpw, M.bind]
    rcases hdd : drWrt s (f + 1) p w h with ⟨h1, r1⟩
    rw [hdd] at e q
    dsimp only at e
    subst e
    have hi1 := q.inv hi
    have hg1 := q.apart.graph.trans hg
    have e2 := (drSlicedG_plain (s := s) gr hG hne hg1 hpG hpp f (o := some d)).2 (drWrt_returnsG hpf hi1 hg1 hpp (by omega : f3 ≤ f + 1) hf3)
    have q1 := drSlicedG_quiet (s := s) hG hne (f + 1) hpG h1 hg1
    simp only [M.bind]
    rcases hd1 : drSlicedG s gr (f + 1) p h1 with ⟨h2, r2⟩
    rw [hd1] at e2 q1
    dsimp only at e2
    subst e2
    simp only [M.lift, hx]
    exact h0 f (by omega) h2 (q1.inv hi1) (q1.apart.graph.trans hg1)

/-- What `dr_wrt` of a group computes. -/
theorem drWrtG_sound {st : GSt C T V D} (hpo : s.PropsOk) (hpf : s.PlainForm) (hi : GInv s gr st) {w : Id} (hwG : w ≠ gr.G)
    (hns : NoSliceG s gr (regroup s gr st.heap.graph) w) {f : ℕ} {o : Option D} (ho : (drWrtG s gr f w st).2 = .ok o) :
    GroupDr s (regroup s gr st.heap.graph) gr w o := by
  obtain ⟨a1, a2, a3, a4, ⟨u, a5⟩, _⟩ := callOnChangedG_spec hpo hi
  rcases hq : callOnChangedG s gr st with ⟨st1, r⟩
  rw [hq] at a1 a2 a3
  dsimp only at a1 a2 a3
  subst a1
  have hG : Unused (regroup s gr st.heap.graph) gr.G := a3 ▸ a2.ok.unused
  simp only [drWrtG, hq, M.bind] at ho
  cases f with
  | zero => simp [drSlicedG, drWrt, M.bind, M.throw] at ho
  | succ f =>
    have e1 := fun o => drSlicedG_plain (s := s) gr hG a2.ok.ne a3 hwG hns.1 f (o := o)
    have q1 := drSlicedG_quiet (s := s) hG a2.ok.ne (f + 1) hwG st1.heap a3
    rcases hd1 : drSlicedG s gr (f + 1) w st1.heap with ⟨h1, r1⟩
    rw [hd1] at ho e1 q1
    cases r1 with
    | error e => cases ho
    | ok direct =>
      have hg1 := q1.apart.graph.trans a3
      have hi1 := q1.inv a2.inv
      have hdn : (h1.node gr.G).dnames = (regroup s gr st.heap.graph gr.G).dnames := by rw [← hg1]; rfl
      dsimp only at ho
      rw [hdn] at ho
      have ht := termsG_sound hpf hG a2.ok.ne hwG hns f (regroup s gr st.heap.graph gr.G).dnames direct.toList h1 hi1 hg1
      have q2 := drTermsG_quiet (s := s) hG a2.ok.ne (f + 1) hwG (regroup s gr st.heap.graph gr.G).dnames direct.toList h1 hg1
      rcases hd2 : drTermsG s gr (f + 1) w (regroup s gr st.heap.graph gr.G).dnames direct.toList h1 with ⟨h2, r2⟩
      rw [hd2] at ho ht q2
      cases r2 with
      | error e => cases ho
      | ok ds =>
        have hfl : (h2.node gr.G).makeDense = false ∧ (h2.node gr.G).makeSparse = false := (q2.inv hi1).flags trivial gr.G
        dsimp only [M.lift] at ho
        cases hs : sumD s ds with
        | error e => rw [hs] at ho; cases ho
        | ok r =>
          rw [hs] at ho
          refine ⟨direct, ds, r, drWrt_meansG hpf a2.inv a3 hns.1 ((e1 direct).1 rfl), ht ds rfl, hs, ?_⟩
          simp only [Except.ok.injEq] at ho
          rw [← ho, hfl.1, hfl.2]
          cases r with
          | none => rfl
          | some r => simp [hpf (s.finish r)]

/-- … and that it does so with enough stack depth. -/
theorem drWrtG_complete {st : GSt C T V D} (hpo : s.PropsOk) (hpf : s.PlainForm) (hi : GInv s gr st) {w : Id} (hwG : w ≠ gr.G)
    (hw : s.isPermute (regroup s gr st.heap.graph w).cls = false) {o : Option D} (ho : GroupDr s (regroup s gr st.heap.graph) gr w o) :
    ∃ f₀, ∀ f ≥ f₀, (drWrtG s gr f w st).2 = .ok o := by
  obtain ⟨a1, a2, a3, a4, ⟨u, a5⟩, _⟩ := callOnChangedG_spec hpo hi
  rcases hq : callOnChangedG s gr st with ⟨st1, r⟩
  rw [hq] at a1 a2 a3
  dsimp only at a1 a2 a3
  subst a1
  have hG : Unused (regroup s gr st.heap.graph) gr.G := a3 ▸ a2.ok.unused
  obtain ⟨direct, ds, r, ⟨_, f1, hf1⟩, ht, hs, rfl⟩ := ho
  obtain ⟨f2, hf2⟩ := termsG_complete hpf hG a2.ok.ne hwG hw ht
  refine ⟨max f1 f2 + 1, fun f hf => ?_⟩
  obtain ⟨f, rfl⟩ : ∃ f', f = f' + 1 := ⟨f - 1, by omega⟩
  have e := drWrt_returnsG hpf a2.inv a3 hw (by omega : f1 ≤ f + 1) hf1
  have e1 := (drSlicedG_plain (s := s) gr hG a2.ok.ne a3 hwG hw f (o := direct)).2 e
  have q1 := drSlicedG_quiet (s := s) hG a2.ok.ne (f + 1) hwG st1.heap a3
  simp only [drWrtG, hq, M.bind]
  rcases hd1 : drSlicedG s gr (f + 1) w st1.heap with ⟨h1, r1⟩
  rw [hd1] at e1 q1
  dsimp only at e1
  subst e1
  have hg1 := q1.apart.graph.trans a3
  have hi1 := q1.inv a2.inv
  have hdn : (h1.node gr.G).dnames = (regroup s gr st.heap.graph gr.G).dnames := by rw [← hg1]; rfl
  dsimp only
  rw [hdn]
  have e2 := hf2 f (by omega) h1 hi1 hg1
  have q2 := drTermsG_quiet (s := s) hG a2.ok.ne (f + 1) hwG (regroup s gr st.heap.graph gr.G).dnames direct.toList h1 hg1
  rcases hd2 : drTermsG s gr (f + 1) w (regroup s gr st.heap.graph gr.G).dnames direct.toList h1 with ⟨h2, r2⟩
  rw [hd2] at e2 q2
  dsimp only at e2
  subst e2
  have hfl : (h2.node gr.G).makeDense = false ∧ (h2.node gr.G).makeSparse = false := (q2.inv hi1).flags trivial gr.G
  simp only [M.lift, hs, hfl.1, hfl.2]
  cases r with
  | none => rfl
  | some r => simp [hpf (s.finish r)]

/-! ## A change elsewhere -/

theorem meansDr_off {g g' : Graph C T} {i : Id} (h : SameOff g g' i) (hcls : (g' i).cls = (g i).cls) {j w : Id}
    (hw : s.isPermute (g w).cls = false) (hj : ¬ Anc g i j) {r : Except Err (Option D)} (hm : MeansDr s g j w r) : MeansDr s g' j w r := by
  obtain ⟨hne, f, hf⟩ := hm
  exact ⟨hne, f, (evalDr_off s h (wrtOff_of_not_permute s hcls hw) f j hj).trans hf⟩

theorem termsG_off {g g' : Graph C T} {i : Id} (h : SameOff g g' i) (hcls : (g' i).cls = (g i).cls) (hG : ¬ Anc g i gr.G) (hres : ¬ Anc g i gr.res)
    {w : Id} (hw : s.isPermute (g w).cls = false) {ks : List Name} {acc out : List D} (ht : TermsG s g gr w ks acc out) : TermsG s g' gr w ks acc out := by
  have hGg : g' gr.G = g gr.G := h _ (not_anc_ne hG)
  have hp : ∀ {k p}, (g gr.G).dterms k = some p → ¬ Anc g i p := fun hk hc => hG (.step _ hk hc)
  have hpc : ∀ {k p}, (g gr.G).dterms k = some p → (g' p).cls = (g p).cls := fun hk => by rw [h _ (not_anc_ne (hp hk))]
  induction ht with
  | nil acc => exact .nil _
  | absent hk _ ih => exact .absent (by rw [hGg]; exact hk) ih
  | self hk _ ih => exact .self (by rw [hGg]; exact hk) ih
  | apart hk hpw hm _ ih => exact .apart (by rw [hGg]; exact hk) hpw (meansDr_off h hcls hw (hp hk) hm) ih
  | unseen hk hpw hpp hm hm2 _ ih =>
    exact .unseen (by rw [hGg]; exact hk) hpw (by rw [hpc hk]; exact hpp) (meansDr_off h hcls hw (hp hk) hm) (meansDr_off h hcls hpp hres hm2) ih
  | take hk hpw hpp hm hm2 hx _ ih =>
    exact .take (by rw [hGg]; exact hk) hpw (by rw [hpc hk]; exact hpp) (meansDr_off h hcls hw (hp hk) hm) (meansDr_off h hcls hpp hres hm2) hx ih

theorem GroupDr.off {g g' : Graph C T} {i : Id} (h : SameOff g g' i) (hcls : (g' i).cls = (g i).cls) (hG : ¬ Anc g i gr.G) (hres : ¬ Anc g i gr.res)
    {w : Id} (hw : s.isPermute (g w).cls = false) {d : Option D} (hd : GroupDr s g gr w d) : GroupDr s g' gr w d := by
  obtain ⟨direct, ds, r, h1, h2, h3, h4⟩ := hd
  refine ⟨direct, ds, r, meansDr_off h hcls hw hres h1, ?_, h3, h4⟩
  rw [h _ (not_anc_ne hG)]
  exact termsG_off h hcls hG hres hw h2

/-! ## Histories -/

/-- The cache is right. -/
structure KInv (s : Sig C T V D) (gr : Grp) (st : GCSt C T V D) : Prop where
  base : GInv s gr st.base
  drs : ∀ u, (st.base.heap.node gr.G).cacheR = some u → ∀ w d, st.drs w = some d → (st.base.heap.node gr.G).dirty = [] ∧
    s.isPermute (st.base.heap.graph w).cls = false ∧ GroupDr s st.base.heap.graph gr w d

/-- As `LegalG`, and derivatives of the group are not taken with respect to slices. -/
def LegalK (s : Sig C T V D) (gr : Grp) (st : GSt C T V D) (op : GOp T) : Prop :=
  LegalG s gr st op ∧ ∀ f w, op = .groupDr f w → NoSliceG s gr (regroup s gr st.heap.graph) w

/-- States of a program with a group that keeps its derivatives. -/
inductive KReach (s : Sig C T V D) (gr : Grp) : GCSt C T V D → Prop
  | made {h : Heap C T V D} : Reach s ⟨False, True⟩ h → GroupOk s gr h → Synced s gr h.graph → KReach s gr ⟨⟨h, none⟩, fun _ => none⟩
  | step {st : GCSt C T V D} (op : GOp T) : KReach s gr st → LegalK s gr st.base op → KReach s gr (stepC s gr op st)

variable {st : GCSt C T V D}

/-- `_call_on_changed` keeps only what is right. -/
theorem keptDrs_spec (hpo : s.PropsOk) (hi : KInv s gr st) {w : Id} {d : Option D} (hd : keptDrs s gr st w = some d) :
    st.drs w = some d ∧ regroup s gr st.base.heap.graph = st.base.heap.graph ∧
      s.isPermute (st.base.heap.graph w).cls = false ∧ GroupDr s st.base.heap.graph gr w d := by
  have a := syncG_spec (s := s) hpo (st.base.heap.node gr.G).dirty gr.args hi.base.inv hi.base.ok (fun e he => he) hi.base.ok.one
  unfold keptDrs at hd
  cases hc : ((syncG s gr.G (st.base.heap.node gr.G).dirty gr.args st.base.heap).1.node gr.G).cacheR with
  | none => rw [hc] at hd; cases hd
  | some u =>
    rw [hc] at hd
    obtain ⟨h1, h2, h3⟩ := hi.drs u (a.cache u hc) w d hd
    exact ⟨hd, regroup_synced fun e he => (hi.base.sync e he).resolve_left (by rw [h1]; simp), h2, h3⟩

theorem kinv_after (hpo : s.PropsOk) (hi : KInv s gr st) {b : GSt C T V D} (hb : GInv s gr b) (hgr : b.heap.graph = regroup s gr st.base.heap.graph)
    (hd : (b.heap.node gr.G).dirty = []) : KInv s gr ⟨b, keptDrs s gr st⟩ := by
  refine ⟨hb, fun u _ w d hw => ⟨hd, ?_⟩⟩
  obtain ⟨_, e, h2, h3⟩ := keptDrs_spec hpo hi hw
  rw [show (GCSt.base ⟨b, keptDrs s gr st⟩) = b from rfl, hgr, e]
  exact ⟨h2, h3⟩

/-- A computation leaves the group clean, on the graph its arguments ask for. -/
theorem drWrtG_clean {st : GSt C T V D} (hpo : s.PropsOk) (hi : GInv s gr st) (f : Nat) {w : Id} (hw : w ≠ gr.G) :
    (drWrtG s gr f w st).1.heap.graph = regroup s gr st.heap.graph ∧ ((drWrtG s gr f w st).1.heap.node gr.G).dirty = [] := by
  obtain ⟨a1, a2, a3, a4, ⟨u, a5⟩, _⟩ := callOnChangedG_spec hpo hi
  rcases hq : callOnChangedG s gr st with ⟨st1, r⟩
  rw [hq] at a1 a2 a3 a4
  dsimp only at a1 a2 a3 a4
  subst a1
  have hres : (drWrtG s gr f w st).1 = ⟨(M.bind (drSlicedG s gr f w) (fun direct =>
        M.bind (fun h => drTermsG s gr f w (h.node gr.G).dnames direct.toList h) fun ds =>
        M.bind (M.lift (sumD s ds)) fun r => fun h =>
          (h, .ok ((r.map s.finish).map (s.outForm (h.node gr.G).makeDense (h.node gr.G).makeSparse)))) st1.heap).1, st1.val⟩ := by
    simp only [drWrtG, hq]
  have hqu : QuietG s gr.G st1.heap (drWrtG s gr f w st).1.heap := by
    rw [hres]
    refine (bind_quietG (drSlicedG_quiet a2.ok.unused a2.ok.ne f hw st1.heap rfl) fun o h1 h1a => ?_)
    refine bind_quietG (drTermsG_quiet a2.ok.unused a2.ok.ne f hw _ _ h1 h1a.apart.graph) fun ds h2 h2a => ?_
    exact bind_quietG (m := M.lift (sumD s ds)) (.refl h2) fun x h3 h3a => .refl h3
  exact ⟨hqu.apart.graph.trans a3, by rw [hqu.apart.node]; exact a4⟩

theorem readG_clean {st : GSt C T V D} (hpo : s.PropsOk) (hi : GInv s gr st) (f : Nat) :
    (readG s gr f st).1.heap.graph = regroup s gr st.heap.graph ∧ ((readG s gr f st).1.heap.node gr.G).dirty = [] := by
  obtain ⟨a1, a2, a3, a4, ⟨u, a5⟩, _⟩ := callOnChangedG_spec hpo hi
  rcases hq : callOnChangedG s gr st with ⟨st1, r⟩
  rw [hq] at a1 a2 a3 a4
  dsimp only at a1 a2 a3 a4
  subst a1
  cases hv : st1.val with
  | some v =>
    have hres : readG s gr f st = (st1, .ok v) := by simp [readG, hq, hv]
    rw [hres]; exact ⟨a3, a4⟩
  | none =>
    have qu := read_quietG (s := s) a2.ok.unused f (.r gr.res) st1.heap rfl a2.ok.ne
    rcases hrd : read s f (.r gr.res) st1.heap with ⟨h2, o⟩
    rw [hrd] at qu
    have hres : (readG s gr f st).1.heap = h2 := by
      cases o <;> simp [readG, hq, hv, hrd]
    rw [hres]; exact ⟨qu.apart.graph.trans a3, by rw [qu.apart.node]; exact a4⟩

theorem KInv.set (hpo : s.PropsOk) (hi : KInv s gr st) {i : Id} (ha : (st.base.heap.node i).alive = true) {kw : KW T}
    (hl : LegalG s gr st.base (.set i kw)) : KInv s gr ⟨⟨(setattr s i none kw st.base.heap).1, st.base.val⟩, st.drs⟩ := by
  refine ⟨hi.base.set hpo ha hl, fun u hu w d hw => ?_⟩
  obtain ⟨hk, hG, hhd, hbelow⟩ := hl
  rcases Classical.em ((setattr s i none kw st.base.heap).2 = .ok ()) with ho | ho
  case inr =>
    dsimp only at hu ⊢
    rw [setattr_fail hi.base.inv.str hk ho] at hu ⊢
    exact hi.drs u hu w d hw
  have hgr := setattr_graph (s := s) hi.base.inv.str hk ho
  have hs := setattr_assigned (s := s) hi.base.inv.str i kw ho
  have hoff : SameOff st.base.heap.graph (setattr s i none kw st.base.heap).1.graph i := fun j hj => by rw [hgr]; exact if_neg hj
  have hdi := hs.dirty gr.G hi.base.ok.liveG
  dsimp only at hu ⊢
  have hanc : ¬ Anc (setattr s i none kw st.base.heap).1.graph i gr.G := fun hc => by
    have := (hs.cleared gr.G hi.base.ok.liveG hc).1
    rw [this] at hu; cases hu
  obtain ⟨hdirty, hwp, hgd⟩ := hi.drs u (by rw [← (hs.kept gr.G hi.base.ok.liveG hanc).1]; exact hu) w d hw
  have hsync : regroup s gr st.base.heap.graph = st.base.heap.graph :=
    regroup_synced fun e he => (hi.base.sync e he).resolve_left (by rw [hdirty]; simp)
  rw [hoff.anc_iff] at hanc
  rw [hsync] at hbelow
  have hres : ¬ Anc st.base.heap.graph i gr.res := fun hc => hanc (hbelow hc)
  have hcls : ∀ j, ((setattr s i none kw st.base.heap).1.graph j).cls = (st.base.heap.graph j).cls := fun j => by
    rw [hgr]; dsimp only; split
    · rename_i e; rw [assign_cls', e]
    · rfl
  refine ⟨?_, by rw [hcls]; exact hwp, hgd.off hoff (hcls i) hanc hres hwp⟩
  refine List.eq_nil_iff_forall_not_mem.2 fun k hkm => ?_
  rcases (hdi k).1 hkm with h1 | ⟨h1, _⟩ | ⟨c, hc, hca⟩
  · rw [hdirty] at h1; cases h1
  · exact hanc (h1 ▸ Anc.refl)
  · refine hanc ((hoff.anc_iff gr.G).1 (Anc.step k hc hca))

theorem KInv.quiet (hi : KInv s gr st) {h : Heap C T V D} (hq : QuietG s gr.G st.base.heap h) : KInv s gr ⟨⟨h, st.base.val⟩, st.drs⟩ := by
  refine ⟨hi.base.quiet hq, fun u hu w d hw => ?_⟩
  dsimp only at hu ⊢
  rw [hq.apart.node] at hu ⊢
  rw [hq.apart.graph]
  exact hi.drs u hu w d hw

/-- `dr_wrt` of a group: the state stays right, and what is returned is what a computation returns. -/
theorem drWrtC_spec (hpo : s.PropsOk) (hpf : s.PlainForm) (hi : KInv s gr st) (f : Nat) {w : Id} (hwG : w ≠ gr.G)
    (hns : NoSliceG s gr (regroup s gr st.base.heap.graph) w) : KInv s gr (drWrtC s gr f w st).1 ∧
    (∀ d, (drWrtC s gr f w st).2 = .ok d → GroupDr s (regroup s gr st.base.heap.graph) gr w d) ∧
    ((drWrtG s gr f w st.base).2 ≠ (drWrtC s gr f w st).2 → ∃ d, (drWrtC s gr f w st).2 = .ok d) := by
  obtain ⟨a1, a2, a3, a4, a5, _⟩ := callOnChangedG_spec hpo hi.base
  rcases hq : callOnChangedG s gr st.base with ⟨b, r⟩
  rw [hq] at a1 a2 a3 a4
  dsimp only at a1 a2 a3 a4
  subst a1
  cases hk : keptDrs s gr st w with
  | some d =>
    have hres : drWrtC s gr f w st = (⟨b, keptDrs s gr st⟩, .ok d) := by simp only [drWrtC, hq, hk]
    rw [hres]
    obtain ⟨_, e, _, h3⟩ := keptDrs_spec hpo hi hk
    refine ⟨kinv_after hpo hi a2 a3 a4, fun d' hd' => ?_, fun _ => ⟨d, rfl⟩⟩
    cases hd'; rw [e]; exact h3
  | none =>
    have c1 := drWrtG_inv hpo hi.base f hwG
    obtain ⟨c2, c3⟩ := drWrtG_clean hpo hi.base f hwG
    have c4 := fun o => drWrtG_sound (f := f) (o := o) hpo hpf hi.base hwG hns
    rcases hd : drWrtG s gr f w st.base with ⟨b', r'⟩
    rw [hd] at c1 c2 c3 c4
    dsimp only at c1 c2 c3 c4
    cases r' with
    | error e =>
      have hres : drWrtC s gr f w st = (⟨b', keptDrs s gr st⟩, .error e) := by simp only [drWrtC, hq, hk, hd]
      rw [hres]
      exact ⟨kinv_after hpo hi c1 c2 c3, fun d' hd' => (by cases hd'), fun h => absurd rfl h⟩
    | ok d =>
      have hres : drWrtC s gr f w st = (⟨b', fun j => if j = w then some d else keptDrs s gr st j⟩, .ok d) := by simp only [drWrtC, hq, hk, hd]
      rw [hres]
      have hg := c4 d rfl
      have hc := kinv_after hpo hi c1 c2 c3
      refine ⟨⟨c1, fun u hu j d' hj => ?_⟩, fun d' hd' => by cases hd'; exact hg, fun h => absurd rfl h⟩
      dsimp only at hj ⊢
      by_cases e : j = w
      · subst e
        simp only [if_true, Option.some.injEq] at hj
        subst hj
        rw [c2]; exact ⟨c3, hns.1, hg⟩
      · rw [if_neg e] at hj
        exact hc.drs u hu j d' hj

theorem syncG_none (G : Id) (l : List (Name × Id)) (h : Heap C T V D) : syncG s G [] l h = (h, .ok ()) := by
  induction l with
  | nil => rfl
  | cons x l ih => obtain ⟨a, hd⟩ := x; simp only [syncG, List.not_mem_nil, if_false]; exact ih

theorem drWrtG_mark {st : GSt C T V D} (hpo : s.PropsOk) (hi : GInv s gr st) (f : Nat) {w : Id} (hw : w ≠ gr.G) :
    ∃ u, ((drWrtG s gr f w st).1.heap.node gr.G).cacheR = some u := by
  obtain ⟨a1, a2, a3, a4, ⟨u, a5⟩, _⟩ := callOnChangedG_spec hpo hi
  rcases hq : callOnChangedG s gr st with ⟨st1, r⟩
  rw [hq] at a1 a2 a3 a4 a5
  dsimp only at a1 a2 a3 a4 a5
  subst a1
  have hqu : QuietG s gr.G st1.heap (drWrtG s gr f w st).1.heap := by
    simp only [drWrtG, hq]
    refine (bind_quietG (drSlicedG_quiet a2.ok.unused a2.ok.ne f hw st1.heap rfl) fun o h1 h1a => ?_)
    refine bind_quietG (drTermsG_quiet a2.ok.unused a2.ok.ne f hw _ _ h1 h1a.apart.graph) fun ds h2 h2a => ?_
    exact bind_quietG (m := M.lift (sumD s ds)) (.refl h2) fun x h3 h3a => .refl h3
  exact ⟨u, by rw [hqu.apart.node]; exact a5⟩

/-- After an answer the derivative is in the cache. -/
theorem drWrtC_kept (hpo : s.PropsOk) (hi : KInv s gr st) {f : Nat} {w : Id} (hwG : w ≠ gr.G) {d : Option D} (hd : (drWrtC s gr f w st).2 = .ok d) :
    keptDrs s gr (drWrtC s gr f w st).1 w = some d := by
  have fin : ∀ (b : GSt C T V D) (m : Id → Option (Option D)), (b.heap.node gr.G).dirty = [] → (∃ u, (b.heap.node gr.G).cacheR = some u) →
      keptDrs s gr ⟨b, m⟩ = m := by
    intro b m h1 ⟨u, h2⟩
    simp only [keptDrs, h1, syncG_none, h2]
  obtain ⟨a1, a2, a3, a4, a5, _⟩ := callOnChangedG_spec hpo hi.base
  have c5 := drWrtG_mark hpo hi.base f hwG
  obtain ⟨c2, c3⟩ := drWrtG_clean hpo hi.base f hwG
  rcases hq : callOnChangedG s gr st.base with ⟨b, r⟩
  rw [hq] at a1 a2 a3 a4 a5
  dsimp only at a1 a2 a3 a4 a5
  subst a1
  cases hk : keptDrs s gr st w with
  | some d' =>
    have hres : drWrtC s gr f w st = (⟨b, keptDrs s gr st⟩, .ok d') := by simp only [drWrtC, hq, hk]
    rw [hres] at hd ⊢
    cases hd
    rw [fin b _ a4 a5]; exact hk
  | none =>
    rcases hd' : drWrtG s gr f w st.base with ⟨b', r'⟩
    rw [hd'] at c2 c3 c5
    cases r' with
    | error e =>
      have hres : drWrtC s gr f w st = (⟨b', keptDrs s gr st⟩, .error e) := by simp only [drWrtC, hq, hk, hd']
      rw [hres] at hd; cases hd
    | ok d' =>
      have hres : drWrtC s gr f w st = (⟨b', fun j => if j = w then some d' else keptDrs s gr st j⟩, .ok d') := by simp only [drWrtC, hq, hk, hd']
      rw [hres] at hd ⊢
      cases hd
      rw [fin b' _ c3 c5, if_pos rfl]

theorem KInv.step (hpo : s.PropsOk) (hpf : s.PlainForm) (hi : KInv s gr st) {op : GOp T} (hl : LegalK s gr st.base op) : KInv s gr (stepC s gr op st) := by
  cases op with
  | set i kw =>
    simp only [stepC, stepG, setObj]
    split
    · rename_i ha; exact hi.set hpo ha hl.1
    · exact hi
  | readR f i =>
    simp only [stepC, stepG]
    split
    · exact hi.quiet (read_quietG hi.base.ok.unused f (.r i) st.base.heap rfl hl.1)
    · exact hi
  | readDr f i w =>
    simp only [stepC, stepG]
    split
    · exact hi.quiet (drWrt_quietG hi.base.ok.unused f hl.1.1 hl.1.2 st.base.heap rfl)
    · exact hi
  | group f =>
    exact kinv_after hpo hi (readG_spec hpo hi.base f).1 (readG_clean hpo hi.base f).1 (readG_clean hpo hi.base f).2
  | groupDr f w =>
    simp only [stepC]
    split
    · exact (drWrtC_spec hpo hpf hi f hl.1 (hl.2 f w rfl)).1
    · exact hi

theorem kreach_inv (hpo : s.PropsOk) (hpf : s.PlainForm) (hr : KReach s gr st) : KInv s gr st := by
  induction hr with
  | made h1 h2 h3 => exact ⟨greach_inv hpo (.made h1 h2 h3), fun u _ w d hw => by cases hw⟩
  | step op _ hl ih => exact ih.step hpo hpf hl

/-- The objects behave as if the group computed its derivatives anew. -/
theorem kreach_base (hpo : s.PropsOk) (hpf : s.PlainForm) (hr : KReach s gr st) : GReach s gr st.base := by
  induction hr with
  | made h1 h2 h3 => exact .made h1 h2 h3
  | @step st op hr hl ih =>
    have hi := kreach_inv hpo hpf hr
    cases op with
    | set i kw => exact ih.step _ hl.1
    | readR f i => exact ih.step _ hl.1
    | readDr f i w => exact ih.step _ hl.1
    | group f => exact ih.step (.group f) hl.1
    | groupDr f w =>
      simp only [stepC]
      split
      · rename_i ha
        obtain ⟨a1, a2, a3, a4, ⟨u, a5⟩, _⟩ := callOnChangedG_spec hpo hi.base
        rcases hq : callOnChangedG s gr st.base with ⟨b, r⟩
        rw [hq] at a1
        dsimp only at a1
        subst a1
        cases hk : keptDrs s gr st w with
        | some d =>
          have hres : drWrtC s gr f w st = (⟨b, keptDrs s gr st⟩, .ok d) := by simp only [drWrtC, hq, hk]
          rw [hres]
          have := ih.step (.group 0) trivial
          have e : stepG s gr (.group 0) st.base = b := by
            show (readG s gr 0 st.base).1 = b
            cases hv : b.val with
            | some v => simp [readG, hq, hv]
            | none => simp [readG, hq, hv, read, M.throw]; rw [← hv]
          rw [e] at this; exact this
        | none =>
          have := ih.step (.groupDr f w) hl.1
          rw [show stepG s gr (.groupDr f w) st.base = (drWrtG s gr f w st.base).1 from if_pos ha] at this
          rcases hd : drWrtG s gr f w st.base with ⟨b', r'⟩
          rw [hd] at this
          cases r' with
          | error e =>
            have hres : drWrtC s gr f w st = (⟨b', keptDrs s gr st⟩, .error e) := by simp only [drWrtC, hq, hk, hd]
            rw [hres]; exact this
          | ok d =>
            have hres : drWrtC s gr f w st = (⟨b', fun j => if j = w then some d else keptDrs s gr st j⟩, .ok d) := by simp only [drWrtC, hq, hk, hd]
            rw [hres]; exact this
      · exact ih
end Chumpy
