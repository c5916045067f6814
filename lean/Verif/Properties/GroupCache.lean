import Verif.AD.GroupCache
import Verif.Properties.Group
/-!
# C75: the derivatives a `ChGroup` keeps

`G.dr_wrt(w)` is kept and returned again until something below the group changes.  It is never stale: what is returned is what a computation
in the present state returns.
-/
namespace Chumpy
variable {C T V D : Type} {s : Sig C T V D} {gr : Grp} {st : GCSt C T V D}

/-- C75: after every history of assignments, of reads, of values and derivatives of the group, `G.dr_wrt(w)` returns, if it returns, what the
group would compute now without its cache. -/
theorem C75_kept_derivative_current (hp : s.PropsOk) (hpf : s.PlainForm) (hr : KReach s gr st) {w : Id} (hwG : w ≠ gr.G)
    (hns : NoSliceG s gr (regroup s gr st.base.heap.graph) w) {f : Nat} {d : Option D} (hd : (drWrtC s gr f w st).2 = .ok d) :
    GReach s gr st.base ∧ ∃ f₀, ∀ f' ≥ f₀, (drWrtG s gr f' w st.base).2 = .ok d := by
  have hi := kreach_inv hp hpf hr
  exact ⟨kreach_base hp hpf hr, drWrtG_complete hp hpf hi.base hwG hns.1 ((drWrtC_spec hp hpf hi f hwG hns).2.1 d hd)⟩

/-- … and it returns whenever that computation does. -/
theorem C75_kept_derivative_returns (hp : s.PropsOk) (hpf : s.PlainForm) (hr : KReach s gr st) {w : Id} (hwG : w ≠ gr.G)
    (hns : NoSliceG s gr (regroup s gr st.base.heap.graph) w) {f : Nat} {d : Option D} (hd : (drWrtG s gr f w st.base).2 = .ok d) :
    (drWrtC s gr f w st).2 = .ok d := by
  have hi := kreach_inv hp hpf hr
  have h1 := drWrtC_spec hp hpf hi f hwG hns
  by_cases e : (drWrtG s gr f w st.base).2 = (drWrtC s gr f w st).2
  · rw [← e]; exact hd
  · obtain ⟨d', hd'⟩ := h1.2.2 e
    obtain ⟨f1, e1⟩ := drWrtG_complete hp hpf hi.base hwG hns.1 (h1.2.1 d' hd')
    obtain ⟨f2, e2⟩ := drWrtG_complete hp hpf hi.base hwG hns.1 (drWrtG_sound hp hpf hi.base hwG hns hd)
    have h3 := (e1 (max f1 f2) (Nat.le_max_left _ _)).symm.trans (e2 (max f1 f2) (Nat.le_max_right _ _))
    rw [hd', h3]

/-- C75: asked again with nothing in between, the group computes nothing: the same answer comes without any stack depth. -/
theorem C75_kept_derivative_hit (hp : s.PropsOk) (hpf : s.PlainForm) (hr : KReach s gr st) {w : Id} (hwG : w ≠ gr.G)
    (hns : NoSliceG s gr (regroup s gr st.base.heap.graph) w) {f : Nat} {d : Option D} (hd : (drWrtC s gr f w st).2 = .ok d) :
    (drWrtC s gr 0 w (drWrtC s gr f w st).1).2 = .ok d := by
  have hi := kreach_inv hp hpf hr
  have hk := drWrtC_kept hp hi hwG hd
  have hi1 := (drWrtC_spec hp hpf hi f hwG hns).1
  have a1 := (callOnChangedG_spec hp hi1.base).1
  rcases hq : callOnChangedG s gr (drWrtC s gr f w st).1.base with ⟨b, r⟩
  rw [hq] at a1
  dsimp only at a1
  subst a1
  rw [drWrtC, hq]
  simp only [hk]

/-- C75, true derivatives: let no argument other than `w` depend on `w`.  If `G.dr_wrt(w)` returns, from the cache or not, it returns the
derivative of the present value of the group wrt the entries of `w`. -/
theorem C75_kept_derivative_is_jacobian_partial {st : GCSt ClassDef Par Arr Jac} (hr : KReach lib gr st) {w : Id} (hwG : w ≠ gr.G) {vw : Arr}
    (hns : NoSliceG lib gr (regroup lib gr st.base.heap.graph) w) (hv : Means lib (regroup lib gr st.base.heap.graph) (.r w) (.ok vw))
    (hc : PassChain (regroup lib gr st.base.heap.graph) gr.res w)
    (hyw : gr.res ≠ w) (hs : ¬ Straight (regroup lib gr st.base.heap.graph) w gr.res ∨ vw.size = 1)
    (hP : ∀ k p, (regroup lib gr st.base.heap.graph gr.G).dterms k = some p → p ≠ w → ¬ Reaches (regroup lib gr st.base.heap.graph) p w)
    {f : ℕ} {o : Option Jac} (hd : (drWrtC lib gr f w st).2 = .ok o) :
    ∃ vy M, HasJacobian (regroup lib gr st.base.heap.graph) gr.res w vy vw M ∧ num.RepO o vy.size vw.size M := by
  obtain ⟨hb, f0, h0⟩ := C75_kept_derivative_current lib_propsOk lib_plainForm hr hwG hns hd
  exact C75_derivative_is_jacobian_partial hb hwG hv hc hyw hs hP (h0 f0 (Nat.le_refl _))

/-! ## Examples -/
namespace GroupDemo
open Demo

/-- The derivative is asked for, twice, then `x` changes and it is asked for again. -/
abbrev asked : List (GOp Demo.Arr) := [.groupDr 9 0, .groupDr 0 0, .set 0 (.term x [3, 4]), .groupDr 9 0]

theorem noSlice (g : Graph Cls Demo.Arr) (w : Id) : NoSliceG sig grp g w := ⟨rfl, fun _ _ _ _ h => by cases h⟩

theorem kreach : KReach sig grp ⟨⟨made.1, none⟩, fun _ => none⟩ := by
  obtain ⟨h1, h2, h3, _⟩ := makeGroup_spec (s := sig) (gcls := .group) (hcls := .handle) (u := []) rfl reach (reach_inv propsOk (fun h => False.elim h) reach).str alive.1
    (by simp [alive.2]) (by simp) made_eq
  exact .made h1 h2 h3

theorem asked_reach : KReach sig grp (runC sig grp asked ⟨⟨made.1, none⟩, fun _ => none⟩) := by
  refine .step (.groupDr 9 0) (.step (.set 0 (.term x [3, 4])) (.step (.groupDr 0 0) (.step (.groupDr 9 0) kreach ?_) ?_) ?_) ?_
  · exact ⟨by show (0 : Id) ≠ 5; decide, fun _ _ _ => noSlice _ _⟩
  · exact ⟨by show (0 : Id) ≠ 5; decide, fun _ _ _ => noSlice _ _⟩
  · refine ⟨⟨trivial, by simp, by simp, fun _ => .step (c := 2) a ?_ (.step (c := 0) a ?_ .refl)⟩, fun _ _ h => by cases h⟩ <;> decide +kernel
  · exact ⟨by show (0 : Id) ≠ 5; decide, fun _ _ _ => noSlice _ _⟩

/-- The cache answers where a computation would run out of stack; after the change to `x` it is empty. -/
example : (drWrtC sig grp 0 0 (runC sig grp (asked.take 1) ⟨⟨made.1, none⟩, fun _ => none⟩)).2 = .ok (some ([[2, 0], [0, 2]], true)) ∧
    (drWrtG sig grp 0 0 (runC sig grp (asked.take 1) ⟨⟨made.1, none⟩, fun _ => none⟩).base).2 ≠ .ok (some ([[2, 0], [0, 2]], true)) ∧
    (drWrtC sig grp 0 0 (runC sig grp (asked.take 3) ⟨⟨made.1, none⟩, fun _ => none⟩)).2 ≠ .ok (some ([[2, 0], [0, 2]], true)) := by
  decide +kernel

example : ∃ f₀, ∀ f' ≥ f₀, (drWrtG sig grp f' 0 (runC sig grp asked ⟨⟨made.1, none⟩, fun _ => none⟩).base).2 = .ok (some ([[2, 0], [0, 2]], true)) :=
  (C75_kept_derivative_current propsOk plainForm asked_reach (by decide) (noSlice _ _) (f := 0) (by decide +kernel)).2
end GroupDemo
end Chumpy
