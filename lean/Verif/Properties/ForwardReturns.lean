import Verif.Properties.ReverseReturns
/-!
# C18, C19: forward mode returns after reverse-mode calls

Forward mode that meets derivatives which reverse mode cached, possibly stored in another form, does not raise either.
-/
namespace Chumpy
open scoped BigOperators

theorem eventually_all {α : Type} {P : α → ℕ → Prop} : ∀ {l : List α}, (∀ k ∈ l, ∃ f₀, ∀ f ≥ f₀, P k f) → ∃ f₀, ∀ f ≥ f₀, ∀ k ∈ l, P k f
  | [], _ => ⟨0, fun _ _ k hk => by cases hk⟩
  | k :: l, h => by
    obtain ⟨f₁, h1⟩ := h k (List.mem_cons_self ..)
    obtain ⟨f₂, h2⟩ := eventually_all (l := l) fun k hk => h k (List.mem_cons_of_mem _ hk)
    refine ⟨max f₁ f₂, fun f hf j hj => ?_⟩
    rcases List.mem_cons.1 hj with rfl | hj
    · exact h1 f ((Nat.le_max_left _ _).trans hf)
    · exact h2 f ((Nat.le_max_right _ _).trans hf) j hj

section
variable {g : Graph ClassDef Par} {w : Id}

/-- The heap's local derivatives return what the graph's do. -/
theorem drSliced_returns {h : Heap ClassDef Par Arr Jac} (hc : Coh lib RevOk (Wf lib ⟨False, True⟩) h) (hg : h.graph = g) {f : ℕ} {i p : Id}
    {o : Option Jac} (he : evalSliced lib g f i p = .ok o) : (drSliced lib f i p h).2 = .ok o := by
  obtain ⟨_, _, c⟩ := drSliced_sim (s := lib) (U := RevOk) (W := Wf lib ⟨False, True⟩) (P := True) (g := g) f i p h hc hg
  have := (c trivial).1
  dsimp only at this
  rw [he] at this
  exact this (by simp)

/-- The walk over the names of one object, when the children's derivatives return. -/
theorem drTerms_returns {y : Id} {f m n : ℕ} (hdecl : NamesDeclared g) (sz : Id → ℕ)
    (hrec : ∀ p, Uses g y p → p ≠ w → ∀ h, Coh lib RevOk (Wf lib ⟨False, True⟩) h → h.graph = g →
      ∃ o, (drWrt lib f p w h).2 = .ok o ∧ (o = none ∨ (Reaches g p w ∧ ∃ E, num.RepO o (sz p) n E)))
    (hsl : ∀ p, Uses g y p → p ≠ w → Reaches g p w → ∃ d, evalSliced lib g f y p = .ok d ∧ ∃ E, num.RepO d m (sz p) E) :
    ∀ (ks : List Name) (acc : List Jac) (h : Heap ClassDef Par Arr Jac), Coh lib RevOk (Wf lib ⟨False, True⟩) h → h.graph = g →
      (∀ e ∈ acc, ∃ A, Jac.Rep e m n A) →
      ∃ ds, (drTerms lib f y w (fun p => drWrt lib f p w) ks acc h).2 = .ok ds ∧ ∀ e ∈ ds, ∃ A, Jac.Rep e m n A := by
  intro ks
  induction ks with
  | nil => intro acc h _ _ ha; exact ⟨acc, rfl, ha⟩
  | cons k ks ih =>
    intro acc h hc hg ha
    have hk : (h.node y).dterms k = (g y).dterms k := by rw [← hg]; rfl
    simp only [drTerms, hk]
    cases hd : (g y).dterms k with
    | none => exact ih acc h hc hg ha
    | some p =>
      dsimp only
      split
      · exact ih acc h hc hg ha
      · rename_i hpw
        have hu : Uses g y p := ⟨k, hdecl y k p hd, hd⟩
        obtain ⟨o, ho, hoE⟩ := hrec p hu hpw h hc hg
        obtain ⟨a1, b1, _⟩ := drWrt_by (forwardOk hdecl) f p w h hc hg
        simp only [M.bind]
        rcases hm : drWrt lib f p w h with ⟨h1, r⟩
        rw [hm] at ho a1 b1
        dsimp only at ho
        subst ho
        have hg1 : h1.graph = g := b1.graph.trans hg
        cases o with
        | none => exact ih acc h1 a1 hg1 ha
        | some d2 =>
          dsimp only
          rcases hoE with h0 | ⟨hrw, E, hE⟩
          · cases h0
          obtain ⟨d, hd', A, hA⟩ := hsl p hu hpw hrw
          have hs := drSliced_returns a1 hg1 hd'
          obtain ⟨a2, b2, _⟩ := sliced_ok (f := f) (i := y) (p := p) a1 hg1
          simp only [M.bind]
          rcases hm2 : drSliced lib f y p h1 with ⟨h2, r2⟩
          rw [hm2] at hs a2 b2
          dsimp only at hs
          subst hs
          have hg2 : h2.graph = g := b2.graph.trans hg1
          cases d with
          | none => exact ih acc h2 a2 hg2 ha
          | some d =>
            dsimp only
            obtain ⟨x, hx, hxr⟩ := Jac.superdot_rep hA hE
            rw [hx]
            refine ih (acc ++ [x]) h2 a2 hg2 ?_
            intro e he
            rcases List.mem_append.1 he with he | he
            · exact ha e he
            · rw [List.mem_singleton] at he; subst he; exact ⟨_, hxr⟩

theorem revOk_reaches {p : Id} {d : Jac} (hp : lib.isPermute (g w).cls = false) (h : RevOk g p w (some d)) : Reaches g p w := by
  rcases h hp with ⟨_, h⟩ | ⟨h, _⟩
  · cases h
  · exact h

/-- If only one of the objects `y` uses depends on `w`, at most one matrix is added up. -/
theorem termsBy_short {y : Id} (hp : lib.isPermute (g w).cls = false) (hdecl : NamesDeclared g)
    (honce : ∀ k k' p, (g y).dterms k = some p → (g y).dterms k' = some p → p ≠ w → Reaches g p w → k = k') (h1 : OneWay g w y)
    {ks : List Name} {xs : List Jac} (hn : ks.Nodup) (ht : TermsBy lib RevOk g y w ks xs) :
    xs.length ≤ 1 ∧ (Uses g y w → xs = []) := by
  have skip : ∀ {ks : List Name} {xs : List Jac}, TermsBy lib RevOk g y w ks xs →
      (∀ k ∈ ks, ∀ p, (g y).dterms k = some p → p ≠ w → ¬ Reaches g p w) → xs = [] := by
    intro ks xs ht
    induction ht with
    | nil => intro _; rfl
    | unset _ _ ih => intro h; exact ih fun k hk => h k (List.mem_cons_of_mem _ hk)
    | direct _ _ ih => intro h; exact ih fun k hk => h k (List.mem_cons_of_mem _ hk)
    | zero _ _ _ _ ih => intro h; exact ih fun k hk => h k (List.mem_cons_of_mem _ hk)
    | blind _ _ _ _ _ ih => intro h; exact ih fun k hk => h k (List.mem_cons_of_mem _ hk)
    | term hk hpw hu _ _ _ _ => intro h; exact absurd (revOk_reaches hp hu) (h _ (List.mem_cons_self ..) _ hk hpw)
  refine ⟨?_, fun hu => skip ht fun k hk p hkp hpw hr => hpw (h1 p w ⟨k, hdecl y k p hkp, hkp⟩ hu hr .refl)⟩
  induction ht with
  | nil => simp
  | unset _ _ ih => exact ih (List.nodup_cons.1 hn).2
  | direct _ _ ih => exact ih (List.nodup_cons.1 hn).2
  | zero _ _ _ _ ih => exact ih (List.nodup_cons.1 hn).2
  | blind _ _ _ _ _ ih => exact ih (List.nodup_cons.1 hn).2
  | @term k p d2 d x f ks xs hk hpw hu _ _ ht ih =>
    have hr := revOk_reaches hp hu
    have := skip ht fun k2 hk2 q hq hqw hqr => by
      have := h1 p q ⟨k, hdecl y k p hk, hk⟩ ⟨k2, hdecl y k2 q hq, hq⟩ hr hqr
      subst this
      exact (List.nodup_cons.1 hn).1 (honce k k2 p hk hq hpw hr ▸ hk2)
    rw [this]; simp

/-- `dr_wrt` in forward mode does not raise, whatever either mode left in the caches. -/
theorem forward_returns {vw : Arr} (hp : Plain lib g) (hdecl : NamesDeclared g) (hw : Means lib g (.r w) (.ok vw)) {y : Id}
    (hsz : vw.size = 1 → ∀ i v, Reaches g y i → i ≠ w → Means lib g (.r i) (.ok v) → v.size = 1 → OneWay g w i)
    (hacc : Acc (fun a b => Uses g b a) y) (hc : ChainOk lib g y w) (hob : ∀ i, Reaches g y i → i ≠ w → ExactlyFor g w i)
    (hl : LeafBelow lib g y) (hok : ∀ i, Reaches g y i → SizesOk g (objSize g) i) (hyw : y ≠ w) :
    ∃ f₀, ∀ f ≥ f₀, ∀ h, Coh lib RevOk (Wf lib ⟨False, True⟩) h → h.graph = g → ∃ o, (drWrt lib f y w h).2 = .ok o := by
  induction hacc with
  | intro y hacc ih =>
  have hnd := hc.nodup y .refl
  obtain ⟨out, v, P, hout, hv, hE⟩ := hob y .refl hyw
  obtain ⟨f1, direct, hf1, E1, hE1⟩ := sliced_total hnd hout hv hE hyw (fun a ha => by rw [GNode.kid, ha]; exact .refl) hw (fun h => by
    have h' := hc.wrt
    rw [h] at h'; cases h')
  have hW : Wf lib ⟨False, True⟩ g w := ⟨trivial, Or.inr hc.wrt⟩
  have kids : ∀ k ∈ (g y).dnames, ∃ f₀, ∀ f ≥ f₀, ∀ p, (g y).dterms k = some p → p ≠ w →
      (∀ h, Coh lib RevOk (Wf lib ⟨False, True⟩) h → h.graph = g →
        ∃ o, (drWrt lib f p w h).2 = .ok o ∧ (o = none ∨ (Reaches g p w ∧ ∃ E, num.RepO o (objSize g p) vw.size E))) ∧
      (Reaches g p w → ∃ d, evalSliced lib g f y p = .ok d ∧ ∃ E, num.RepO d out.size (objSize g p) E) := by
    intro k hk
    cases hd : (g y).dterms k with
    | none => exact ⟨0, fun _ _ p h => by cases h⟩
    | some p =>
      by_cases hpw : p = w
      · exact ⟨0, fun _ _ q h hq => by cases h; exact absurd hpw hq⟩
      have hu : Uses g y p := ⟨k, hk, hd⟩
      have hr : Reaches g y p := .single hu
      obtain ⟨f₂, h2⟩ := ih p hu (fun h i v hi => hsz h i v (hr.trans hi)) (hc.sub hr) (fun i hi => hob i (hr.trans hi)) (hl.sub hr) (fun i hi => hok i (hr.trans hi)) hpw
      obtain ⟨d₁, hd₁⟩ := dr_returns_of (hacc p hu) (hc.sub hr) hw (fun h i v hi hiw hv h1 => Or.inl (hsz h i v (hr.trans hi) hiw hv h1)) (fun i hi => hob i (hr.trans hi)) hpw
      obtain ⟨vp, M, hJ, hM⟩ := jacobian (hc.sub hr) hw (fun i hi hiw => (hob i (hr.trans hi) hiw).correct) hpw hd₁
      have hyp : y ≠ p := by
        rintro rfl
        exact hc.acyclic _ .refl (.single hu)
      obtain ⟨f₃, d, hf₃⟩ : ∃ f d, Reaches g p w → evalSliced lib g f y p = .ok d ∧ ∃ E, num.RepO d out.size vp.size E := by
        by_cases hrw : Reaches g p w
        · obtain ⟨f, d, a, b⟩ := sliced_total hnd hout hv hE hyp (fun a ha => by rw [GNode.kid, ha]; exact hrw) hJ.valY
            (fun h f => hc.slice y k p .refl hd h f)
          exact ⟨f, d, fun _ => ⟨a, b⟩⟩
        · exact ⟨0, none, fun h => absurd h hrw⟩
      refine ⟨max f₂ f₃, fun f hf q hq _ => ?_⟩
      cases hq
      refine ⟨fun h hco hg => ?_, fun hrw => ?_⟩
      · obtain ⟨o, ho⟩ := h2 f ((Nat.le_max_left _ _).trans hf) h hco hg
        refine ⟨o, ho, ?_⟩
        obtain ⟨_, _, c⟩ := drWrt_by (forwardOk hdecl) f p w h hco hg
        rcases c o ho hp hW hc.wrt with ⟨_, h0⟩ | ⟨hrw, hh⟩
        · exact Or.inl h0
        · have := hh (hl.sub hr) (fun i hi => hok i (hr.trans hi)) d₁ hd₁ M (by rwa [objSize_eq hJ.valY, objSize_eq hw])
          rw [objSize_eq hw] at this
          exact Or.inr ⟨hrw, M, this⟩
      · obtain ⟨a, b⟩ := hf₃ hrw
        have e := evalSliced_mono lib g ((Nat.le_max_right f₂ f₃).trans hf) y p
        rw [Le, a] at e
        rw [objSize_eq hJ.valY]
        exact ⟨d, e (by simp), b⟩
  obtain ⟨f₀, hf₀⟩ := eventually_all kids
  refine ⟨max f₀ f1 + 1, fun f hf h hco hg => ?_⟩
  obtain ⟨f, rfl⟩ : ∃ f', f = f' + 1 := ⟨f - 1, by omega⟩
  have hf0 : f₀ ≤ f := (Nat.le_max_left f₀ f1).trans (by omega)
  have hf1' : f1 ≤ f := (Nat.le_max_right f₀ f1).trans (by omega)
  have h1 := callOnChanged_ok y h
  have hfr := callOnChanged_frame y h
  have hc' := callOnChanged_coh (s := lib) y hco
  simp only [drWrt, M.bind]
  rcases hmh : callOnChanged y h with ⟨h', r⟩
  rw [hmh] at h1 hfr hc'
  dsimp only at h1
  subst h1
  dsimp only
  have hg' : h'.graph = g := hfr.graph.trans hg
  cases hd : (h'.node y).drs w with
  | some d => exact ⟨d, rfl⟩
  | none =>
    dsimp only
    have e := evalSliced_mono lib g hf1' y w
    rw [Le, hf1] at e
    have hs := drSliced_returns hc' hg' (e (by simp))
    obtain ⟨a1, b1, _⟩ := sliced_ok (f := f) (i := y) (p := w) hc' hg'
    rcases hm1 : drSliced lib f y w h' with ⟨h1', r1⟩
    rw [hm1] at hs a1 b1
    dsimp only at hs
    subst hs
    have hg1 : h1'.graph = g := b1.graph.trans hg'
    dsimp only
    have hdn : (h1'.node y).dnames = (g y).dnames := by rw [← hg1]; rfl
    rw [hdn]
    obtain ⟨ds, hds, hr⟩ := drTerms_returns (m := out.size) (n := vw.size) hdecl (objSize g)
      (fun p ⟨k, hk, hkp⟩ hpw => (hf₀ f hf0 k hk p hkp hpw).1) (fun p ⟨k, hk, hkp⟩ hpw => (hf₀ f hf0 k hk p hkp hpw).2)
      (g y).dnames direct.toList h1' a1 hg1 (by
        intro e he
        cases direct with
        | none => simp at he
        | some d => simp at he; subst he; exact ⟨E1, hE1⟩)
    rcases hm2 : drTerms lib f y w (fun p => drWrt lib f p w) (g y).dnames direct.toList h1' with ⟨h2, r2⟩
    rw [hm2] at hds
    dsimp only at hds
    subst hds
    dsimp only
    obtain ⟨r, hr'⟩ : ∃ r, sumD lib ds = .ok r := by
      by_cases h1 : out.size = 1 ∧ vw.size = 1
      · refine sumD_short ?_
        obtain ⟨_, _, c2⟩ := drTerms_by (s := lib) (U := RevOk) (W := Wf lib ⟨False, True⟩) (g := g) (f := f) (i := y) (w := w)
          (rec := fun p => drWrt lib f p w) (fun p h => drWrt_by (forwardOk hdecl) f p w h) (g y).dnames direct.toList h1' a1 hg1
        rw [hm2] at c2
        obtain ⟨xs, rfl, ht⟩ := c2 ds rfl hp hW
        obtain ⟨hs1, hs2⟩ := termsBy_short hc.wrt hdecl (fun k k' p => hc.once y k k' p .refl) (hsz h1.2 y out .refl hyw hout h1.1) hnd ht
        cases direct with
        | none => simpa using hs1
        | some d =>
          rcases compDr_local (evalSliced_plain hc.wrt hf1) with h | h
          · exact absurd h.symm hyw
          · rw [hs2 h]; simp
      · exact sumD_total_of h1 hr
    simp only [M.lift, hr']
    have hst : (storeDr y w (r.map lib.finish) h2).2 = .ok () := by unfold storeDr; split <;> rfl
    rcases hs2 : storeDr y w (r.map lib.finish) h2 with ⟨h3, r3⟩
    rw [hs2] at hst
    dsimp only at hst
    subst hst
    exact ⟨_, rfl⟩
end

/-- C18 after any history of calls of either mode: forward mode returns the derivative of `y` with respect to `w`, also where it meets
derivatives that reverse mode cached.  Conditions as in `C19_jacobian_after_reverse_partial`; if `w` has one
entry, of the objects that an object of one entry uses only one may depend on `w`. -/
theorem C19_forward_returns_after_reverse_partial {h : Heap ClassDef Par Arr Jac} (hr : ReachR lib Jac.neNone ⟨False, True⟩ h) {y w : Id}
    {vw : Arr} (hacc : Acc (fun a b => Uses h.graph b a) y) (hc : ChainOk lib h.graph y w)
    (hw : Means lib h.graph (.r w) (.ok vw))
    (hsz : vw.size = 1 → ∀ i v, Reaches h.graph y i → i ≠ w → Means lib h.graph (.r i) (.ok v) → v.size = 1 → OneWay h.graph w i)
    (hob : ∀ i, Reaches h.graph y i → i ≠ w → ExactlyFor h.graph w i)
    (hl : LeafBelow lib h.graph y) (hok : ∀ i, Reaches h.graph y i → SizesOk h.graph (objSize h.graph) i) (hyw : y ≠ w) :
    ∃ vy M, HasJacobian h.graph y w vy vw M ∧ ∃ f₀, ∀ f ≥ f₀, ∃ o, (drWrt lib f y w h).2 = .ok o ∧ num.RepO o vy.size vw.size M := by
  obtain ⟨vy, M, hJ, hB⟩ := C19_jacobian_after_reverse_of_partial hr hacc hc hw (fun h i v hi hiw hv h1 => Or.inl (hsz h i v hi hiw hv h1)) hob hl hok hyw
  have hi := reachR_revOk hr
  obtain ⟨f₀, h2⟩ := forward_returns ⟨lib_plainForm, fun j => hi.flags trivial j⟩ (fun i k c => hi.str.dn i k c) hw hsz hacc hc hob hl hok hyw
  refine ⟨vy, M, hJ, f₀, fun f hf => ?_⟩
  obtain ⟨o, ho⟩ := h2 f hf h hi.coh rfl
  exact ⟨o, ho, hB.1 f o ho⟩

namespace ADDemo
/-- Forward mode returns the derivative of `y = a*b + a` with respect to `a`, after reverse-mode calls at `y` and below it. -/
example (f f' f'' : ℕ) : ∃ h, ReachR lib Jac.neNone ⟨False, True⟩ h ∧ ∃ h0 : Heap ClassDef Par Arr Jac,
    h = (stepRev lib Jac.neNone f'' 3 1 (stepRev lib Jac.neNone f' 2 0 (stepRev lib Jac.neNone f 2 1 h0).1).1).1 ∧
    ∃ vy M, HasJacobian h.graph 3 0 vy (vec2 1 2) M ∧
      ∃ f₀, ∀ f ≥ f₀, ∃ o, (drWrt lib f 3 0 h).2 = .ok o ∧ num.RepO o vy.size 2 M := by
  obtain ⟨h0, hr0, hg0⟩ := sharing_ok.reach ⟨False, True⟩
  have hr3 := ReachR.reverse f'' 3 1 (ReachR.reverse f' 2 0 (ReachR.reverse (ne := Jac.neNone) f 2 1 hr0.reachR))
  refine ⟨_, hr3, h0, rfl, ?_⟩
  have hg : (stepRev lib Jac.neNone f'' 3 1 (stepRev lib Jac.neNone f' 2 0 (stepRev lib Jac.neNone f 2 1 h0).1).1).1.graph =
      buildGraph lib sharing := by
    rw [(C09_reverse_changes_no_link _ _ _ _).1, (C09_reverse_changes_no_link _ _ _ _).1, (C09_reverse_changes_no_link _ _ _ _).1, hg0]
  generalize (stepRev lib Jac.neNone f'' 3 1 (stepRev lib Jac.neNone f' 2 0 (stepRev lib Jac.neNone f 2 1 h0).1).1).1 = h at *
  have l0 := leaf_means (g := buildGraph lib sharing) (i := 0) (v := vec2 1 2) rfl (by simp [vec2])
  refine C19_forward_returns_after_reverse_partial hr3 (y := 3) (w := 0) (vw := vec2 1 2) (by rw [hg]; exact sharing_ok.acc 3)
    (by rw [hg]; exact sharing_chain) (by rw [hg]; exact l0.1) (fun h => absurd (show (2 : ℕ) = 1 from h) (by decide)) ?_
    (by rw [hg]; exact sharing_leafGraph.below 3) ?_ (by decide)
  · rw [hg]
    intro i hi _
    exact (sharing_exact i (Nat.lt_succ_of_le (reaches_le sharing_ok hi))).for 0
  · rw [hg]
    intro i hi
    exact sharing_sizes i (Nat.lt_succ_of_le (reaches_le sharing_ok hi))
end ADDemo
end Chumpy
