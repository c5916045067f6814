import Verif.AD.RevHist
/-!
# C01, C09, C19: histories that use reverse mode

`y.dr_wrt(w, reverse_mode=True)` may occur anywhere: `ReachR` (`Verif/Core/RevHist.lean`).
-/
namespace Chumpy
open scoped BigOperators

/-! ## Values -/

section
variable {C T V D : Type} {s : Sig C T V D} {ne : D → Except Err Bool}

/-- C01 for histories in which reverse mode is used anywhere: no value is stale. -/
theorem C01_values_with_reverse_partial (hp : s.PropsOk) {h : Heap C T V D} (hr : ReachR s ne ⟨False, False⟩ h) (f : Nat) (i : Id) :
    ReadFresh s h f (.r i) (read s f (.r i) h).2 :=
  readFresh_of_agree ((read_sim (P := True) f (.r i) h (reachR_values hp (fun h => False.elim h) hr).coh rfl).2.2 trivial)

/-- C09 for reverse mode: a call, raising or not, changes nothing an object refers to. -/
theorem C09_reverse_changes_no_link (f : Nat) (i w : Id) (h : Heap C T V D) :
    (stepRev s ne f i w h).1.graph = h.graph ∧ (∀ j, ((stepRev s ne f i w h).1.node j).parents = (h.node j).parents) ∧
    (∀ j, ((stepRev s ne f i w h).1.node j).alive = (h.node j).alive) ∧ (stepRev s ne f i w h).1.next = h.next := by
  have r : RFrame h (stepRev s ne f i w h).1 := by
    unfold stepRev ifAlive
    split
    · split
      · exact drWrtRev_pres rframe_rel ne f i w h
      · exact RFrame.refl h
    · exact RFrame.refl h
  exact ⟨r.graph, r.parents, r.alive, r.next⟩

/-- C09 for reverse mode: a later value read gives the same outcome with and without the call. -/
theorem C09_reverse_does_not_disturb_values_partial (hp : s.PropsOk) {h : Heap C T V D} (hr : ReachR s ne ⟨False, False⟩ h)
    (fr : Nat) (i w : Id) (f f' : Nat) (q : Req) (h1 : (read s f q h).2 ≠ .error .fuel)
    (h2 : (read s f' q (stepRev s ne fr i w h).1).2 ≠ .error .fuel) :
    (read s f' q (stepRev s ne fr i w h).1).2 = (read s f q h).2 := by
  have a1 := (read_sim (P := True) f q h (reachR_values hp (fun h => False.elim h) hr).coh rfl).2.2 trivial
  have a2 := (read_sim (P := True) f' q _ (reachR_values hp (fun h => False.elim h) (ReachR.reverse fr i w hr)).coh rfl).2.2 trivial
  obtain ⟨n1, e1⟩ := a1.2 h1
  obtain ⟨n2, e2⟩ := a2.2 h2
  rw [(C09_reverse_changes_no_link fr i w h).1] at e2
  exact (Means.unique ⟨h1, n1, e1⟩ ⟨h2, n2, e2⟩).symm
end

/-! ## Derivatives -/

/-- "`y.dr_wrt(w)` and `y.dr_wrt(w, reverse_mode=True)` return the matrix `M`, or raise." -/
def BothReturn (h : Heap ClassDef Par Arr Jac) (y w : Id) (m n : ℕ) (M : Ent) : Prop :=
  (∀ f o, (drWrt lib f y w h).2 = .ok o → num.RepO o m n M) ∧ ∀ f o, (drWrtRev lib Jac.neNone f y w h).2 = .ok o → num.RepO o m n M

theorem both_of_revOk {h : Heap ClassDef Par Arr Jac} (hr : ReachR lib Jac.neNone ⟨False, True⟩ h) {y w : Id} {f : ℕ} {o : Option Jac}
    (hp : lib.isPermute (h.graph w).cls = false) :
    ((drWrt lib f y w h).2 = .ok o → RevOk h.graph y w o) ∧ ((drWrtRev lib Jac.neNone f y w h).2 = .ok o → RevOk h.graph y w o) := by
  have hi := reachR_revOk hr
  have hd : NamesDeclared h.graph := fun i k c => hi.str.dn i k c
  have hpl : Plain lib h.graph := ⟨lib_plainForm, fun j => hi.flags trivial j⟩
  have hW : Wf lib ⟨False, True⟩ h.graph w := ⟨trivial, Or.inr hp⟩
  exact ⟨fun ho => (drWrt_by (forwardOk hd) f y w h hi.coh rfl).2.2 o ho hpl hW,
    fun ho => (drWrtRev_by (reverseOk hd) f y w h hi.coh rfl).2.2 o ho hpl hW⟩

/-- C19 for histories in which reverse mode is used anywhere: if forward mode without caches gives the derivative `d₁`, both modes return
that matrix, whatever either of them left in the caches before.  Conditions as in `C19_reverse_is_forward_partial`. -/
theorem C19_after_reverse_partial {h : Heap ClassDef Par Arr Jac} (hr : ReachR lib Jac.neNone ⟨False, True⟩ h) {y w : Id}
    {vy vw : Arr} (hy : Means lib h.graph (.r y) (.ok vy)) (hw : Means lib h.graph (.r w) (.ok vw))
    (hp : lib.isPermute (h.graph w).cls = false) (hl : LeafBelow lib h.graph y)
    (hok : ∀ i, Reaches h.graph y i → SizesOk h.graph (objSize h.graph) i) {d₁ : Option Jac} (hd : MeansDr lib h.graph y w (.ok d₁)) :
    ∃ M, num.RepO d₁ vy.size vw.size M ∧ BothReturn h y w vy.size vw.size M := by
  have hdecl : NamesDeclared h.graph := fun i k c => (reachR_revOk hr).str.dn i k c
  by_cases hrw : Reaches h.graph y w
  · obtain ⟨M, hM⟩ : ∃ M, num.RepO d₁ (objSize h.graph y) (objSize h.graph w) M := by
      cases d₁ with
      | none => exact ⟨0, Ent.EqOn.refl _⟩
      | some d =>
        obtain ⟨_, f1, hf1⟩ := hd
        obtain ⟨E, hE⟩ := (evalDr_sizes (hok w hrw) f1 y d hok hdecl hf1).2
        exact ⟨E, hE⟩
    have key : ∀ o, RevOk h.graph y w o → num.RepO o vy.size vw.size M := by
      intro o ho
      rcases ho hp with ⟨hn, _⟩ | ⟨_, hh⟩
      · exact absurd hrw hn
      · have := hh hl hok d₁ hd M hM
        rwa [objSize_eq hy, objSize_eq hw] at this
    refine ⟨M, ?_, fun f o ho => key o ((both_of_revOk hr hp).1 ho), fun f o ho => key o ((both_of_revOk hr hp).2 ho)⟩
    rwa [objSize_eq hy, objSize_eq hw] at hM
  · have key : ∀ o, RevOk h.graph y w o → num.RepO o vy.size vw.size 0 := by
      intro o ho
      rcases ho hp with ⟨_, rfl⟩ | ⟨hh, _⟩
      · exact Ent.EqOn.refl _
      · exact absurd hh hrw
    refine ⟨0, ?_, fun f o ho => key o ((both_of_revOk hr hp).1 ho), fun f o ho => key o ((both_of_revOk hr hp).2 ho)⟩
    obtain ⟨_, f1, hf1⟩ := hd
    rw [evalDr_none_of_not_reach lib_localDr hp hdecl f1 y d₁ hrw hf1]
    exact Ent.EqOn.refl _

/-- C18 and C19 together, for histories in which reverse mode is used anywhere: both modes return the derivative, or raise. -/
theorem C19_jacobian_after_reverse_of_partial {h : Heap ClassDef Par Arr Jac} (hr : ReachR lib Jac.neNone ⟨False, True⟩ h) {y w : Id}
    {vw : Arr} (hacc : Acc (fun a b => Uses h.graph b a) y) (hc : ChainOk lib h.graph y w)
    (hw : Means lib h.graph (.r w) (.ok vw))
    (hsz : vw.size = 1 → ∀ i v, Reaches h.graph y i → i ≠ w → Means lib h.graph (.r i) (.ok v) → v.size = 1 → OneWay h.graph w i ∨ NoSparse h.graph w i)
    (hob : ∀ i, Reaches h.graph y i → i ≠ w → ExactlyFor h.graph w i)
    (hl : LeafBelow lib h.graph y) (hok : ∀ i, Reaches h.graph y i → SizesOk h.graph (objSize h.graph) i) (hyw : y ≠ w) :
    ∃ vy M, HasJacobian h.graph y w vy vw M ∧ BothReturn h y w vy.size vw.size M := by
  obtain ⟨o, ho⟩ := dr_returns_of hacc hc hw hsz hob hyw
  obtain ⟨vy, M, hJ, hM⟩ := jacobian hc hw (fun i hi hiw => (hob i hi hiw).correct) hyw ho
  obtain ⟨M', hM', hb⟩ := C19_after_reverse_partial hr hJ.valY hw hc.wrt hl hok ho
  have e := repO_unique hM' hM
  exact ⟨vy, M, hJ, fun f o ho => num.repO_congr e (hb.1 f o ho), fun f o ho => num.repO_congr e (hb.2 f o ho)⟩

/-- C18 and C19 together, for histories in which reverse mode is used anywhere: both modes return the derivative, or raise. -/
theorem C19_jacobian_after_reverse_partial {h : Heap ClassDef Par Arr Jac} (hr : ReachR lib Jac.neNone ⟨False, True⟩ h) {y w : Id}
    {vw : Arr} (hacc : Acc (fun a b => Uses h.graph b a) y) (hc : ChainOk lib h.graph y w)
    (hw : Means lib h.graph (.r w) (.ok vw)) (hsz : vw.size ≠ 1) (hob : ∀ i, Reaches h.graph y i → i ≠ w → ExactlyFor h.graph w i)
    (hl : LeafBelow lib h.graph y) (hok : ∀ i, Reaches h.graph y i → SizesOk h.graph (objSize h.graph) i) (hyw : y ≠ w) :
    ∃ vy M, HasJacobian h.graph y w vy vw M ∧ BothReturn h y w vy.size vw.size M :=
  C19_jacobian_after_reverse_of_partial hr hacc hc hw (fun h => absurd h hsz) hob hl hok hyw

/-- C19 for `lop`, for histories in which reverse mode is used anywhere. -/
theorem C19_lop_after_reverse_partial {h : Heap ClassDef Par Arr Jac} (hr : ReachR lib Jac.neNone ⟨False, True⟩ h) {y w : Id}
    {vy vw : Arr} (hy : Means lib h.graph (.r y) (.ok vy)) (hw : Means lib h.graph (.r w) (.ok vw))
    (hok : ∀ i, Reaches h.graph y i ∨ i = w → SizesOk h.graph (objSize h.graph) i) {d₁ : Option Jac} (hd : MeansDr lib h.graph y w (.ok d₁)) :
    ∃ M, num.RepO d₁ vy.size vw.size M ∧ ∀ (f : ℕ) (L : Jac) (m : ℕ) (A : Ent) (o : Option Jac), Jac.Rep L m vy.size A →
      (lop lib Jac.todense f y w L h).2 = .ok o → num.RepO o m vw.size (Ent.mul vy.size A M) := by
  have hi := reachR_revOk hr
  have hdecl := fun i k c hk => hi.str.dn i k c hk
  obtain ⟨_, f1, hf1⟩ := hd
  obtain ⟨M, hM⟩ : ∃ M, num.RepO d₁ (objSize h.graph y) (objSize h.graph w) M := by
    cases d₁ with
    | none => exact ⟨0, Ent.EqOn.refl _⟩
    | some d =>
      obtain ⟨E, hE⟩ := (evalDr_sizes (hok w (Or.inr rfl)) f1 y d (fun i hi => hok i (Or.inl hi)) hdecl hf1).2
      exact ⟨E, hE⟩
  refine ⟨M, by rwa [objSize_eq hy, objSize_eq hw] at hM, fun f L m A o hL ho => ?_⟩
  obtain ⟨f2, hf2⟩ := simM_ok hi (leftMul_simM lopStyle_ok f y w L) ho
  have := left_rep lopStyle_styleOk (hok w (Or.inr rfl)) hdecl f2 y f1 L d₁ o m A M (fun i hi => hok i (Or.inl hi)) (fun _ _ => trivial) hf1 hM
    (by rw [objSize_eq hy]; exact hL) hf2
  rwa [objSize_eq hy, objSize_eq hw] at this

namespace ADDemo
/-- The hypotheses are met by `y = a*b + a`, `w = a`, after `y.dr_wrt(a, reverse_mode=True)`, `(a*b).dr_wrt(b, reverse_mode=True)` and
a forward call. -/
example (f f' f'' : ℕ) : ∃ h, ReachR lib Jac.neNone ⟨False, True⟩ h ∧
    (∃ vy M, HasJacobian h.graph 3 0 vy (vec2 1 2) M ∧ BothReturn h 3 0 vy.size 2 M) := by
  obtain ⟨h0, hr0, hg0⟩ := sharing_ok.reach ⟨False, True⟩
  have hr1 := ReachR.reverse (ne := Jac.neNone) f 3 0 hr0.reachR
  have hr2 := ReachR.reverse f' 2 1 hr1
  have hr3 := ReachR.step (.readDr f'' 3 0) hr2 trivial
  refine ⟨_, hr3, ?_⟩
  have hg : (Chumpy.step lib (.readDr f'' 3 0) (stepRev lib Jac.neNone f' 2 1 (stepRev lib Jac.neNone f 3 0 h0).1).1).1.graph =
      buildGraph lib sharing := by
    rw [(step_read_frame (s := lib) (.dr _ _ _)).graph, (C09_reverse_changes_no_link _ _ _ _).1, (C09_reverse_changes_no_link _ _ _ _).1, hg0]
  generalize (Chumpy.step lib (.readDr f'' 3 0) (stepRev lib Jac.neNone f' 2 1 (stepRev lib Jac.neNone f 3 0 h0).1).1).1 = h at *
  have l0 := leaf_means (g := buildGraph lib sharing) (i := 0) (v := vec2 1 2) rfl (by simp [vec2])
  exact C19_jacobian_after_reverse_partial hr3 (y := 3) (w := 0) (vw := vec2 1 2) (by rw [hg]; exact sharing_ok.acc 3)
    (by rw [hg]; exact sharing_chain) (by rw [hg]; exact l0.1) (by show (2 : ℕ) ≠ 1; decide)
    (by
      rw [hg]
      intro i hi _
      exact (sharing_exact i (Nat.lt_succ_of_le (reaches_le sharing_ok hi))).for 0)
    (by rw [hg]; exact sharing_leafGraph.below 3)
    (by
      rw [hg]
      intro i hi
      exact sharing_sizes i (Nat.lt_succ_of_le (reaches_le sharing_ok hi))) (by decide)
end ADDemo
end Chumpy
