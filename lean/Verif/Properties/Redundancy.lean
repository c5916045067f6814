import Verif.Core.Redundancy
import Verif.Properties.Fresh
/-! C14: `remove_redundancy`. -/
namespace Chumpy
variable {C T V D : Type} {s : Sig C T V D} {u : Ident C} [DecidableEq C] [DecidableEq T]

/-- C14 in full, first half: after `y.remove_redundancy()` every `i.dr_wrt(w)` is what the chain rule gave on
the graph before. -/
def C14_full_dr (s : Sig C T V D) (u : Ident C) : Prop :=
  ∀ (h : Heap C T V D), Reach s ⟨True, True⟩ h → ∀ (f : Nat) (y i w : Id),
    let h' := (removeRedundancy s u f y h).1
    evalDr s h.graph f i w ≠ .error .fuel → (drWrt s f i w h').2 = evalDr s h.graph f i w

/-- Nothing refers to `i` any more: Python collects it. -/
def Unreferenced (h : Heap C T V D) (i : Id) : Prop :=
  ∀ j < h.next, ∀ k ∈ (h.graph j).dnames, (h.graph j).dterms k ≠ some i

/-- C14 in full, second half: later assignments to leaves are seen by later reads, also when an object that
has become superfluous is collected in between. -/
def C14_full_later (s : Sig C T V D) (u : Ident C) : Prop :=
  ∀ (h : Heap C T V D), Reach s ⟨True, True⟩ h → ∀ (f : Nat) (y d l i : Id) (t : T),
    let h' := (removeRedundancy s u f y h).1
    (removeRedundancy s u f y h).2 = .ok () → Unreferenced h' d → d ≠ y → (h.graph l).cls = s.base →
    let h'' := (step s (.set l [.term s.xname t]) (collect d h')).1
    ReadFresh s h'' f (.r i) (read s f (.r i) h'').2

/-- C14, the part that holds.  In every state reached by a history, `y.remove_redundancy()` – whether it
returns or raises – changes the value of no object: evaluation from scratch gives the same on the new
graph as on the old one, with any recursion limit, and every read afterwards returns that.  It assumes
that classes declare the parameters they use (`TermsOk`).  Missing: derivatives and later assignments, for
which the claim is false (below). -/
theorem C14_values_unchanged_partial (hp : s.PropsOk) (ht : s.TermsOk u) {h : Heap C T V D}
    (hr : Reach s ⟨False, False⟩ h) (f : Nat) (y : Id) :
    let h' := (removeRedundancy s u f y h).1
    (∀ n q, evalReq s h'.graph n q = evalReq s h.graph n q) ∧
    (∀ n i, ReadFresh s h' n (.r i) (read s n (.r i) h').2 ∧ ReadFresh s h n (.r i) (read s n (.r i) h').2) := by
  have hi := reach_inv hp (fun h => False.elim h) hr
  obtain ⟨c1, fr1, -⟩ := read_sim (P := True) f (.r y) h hi.coh rfl
  have main : SameVals s h.graph (removeRedundancy s u f y h).1.graph ∧
      Coh s (Fresh s) (fun _ _ => False) (removeRedundancy s u f y h).1 := by
    have base : ∀ h', Coh s (Fresh s) (Wf s ⟨False, False⟩) h' → Coh s (Fresh s) (fun _ _ => False) h' :=
      fun h' c => ⟨c.r, c.p, fun _ _ _ _ h => False.elim h, c.k⟩
    simp only [removeRedundancy, M.bind]
    split
    · next h1 a e =>
      rw [e] at c1 fr1
      have hd : Declared h1.graph := by rw [fr1.graph]; exact hi.str.dn
      have hI : RedInv s u h1.graph h1 [] := ⟨fun _ _ => rfl, hd, fun e he => by cases he⟩
      obtain ⟨k1, k2⟩ := redIter_post ht f f y [] h1 hI
      refine ⟨fr1.graph ▸ k2, ?_⟩
      have means : ∀ q r, Means s h1.graph q r → Means s (redIter u f f y [] h1).1.graph q r :=
        fun q r ⟨m1, n, m2⟩ => ⟨m1, n, (k2 n q).trans m2⟩
      exact ⟨fun i v hv => means _ _ (c1.r i v (k1.r i ▸ hv)), fun i q v hv => means _ _ (c1.p i q v (k1.p i ▸ hv)),
        fun _ _ _ _ h => False.elim h, fun i w d hd => by rw [k1.alive]; exact c1.k i w d (k1.d i ▸ hd)⟩
    · next h1 a e =>
      rw [e] at c1 fr1
      refine ⟨?_, base _ c1⟩
      rw [fr1.graph]; exact fun _ _ => rfl
  obtain ⟨m1, m2⟩ := main
  refine ⟨m1, fun n i => ?_⟩
  have h1 := readFresh_of_agree ((read_sim (P := True) n (.r i) _ m2 rfl).2.2 trivial)
  refine ⟨h1, ?_⟩
  have means : ∀ q r, Means s (removeRedundancy s u f y h).1.graph q r → Means s h.graph q r :=
    fun q r ⟨e1, n, e2⟩ => ⟨e1, n, (m1 n q).symm.trans e2⟩
  refine ⟨fun v hv => means _ _ (h1.1 v hv), fun e he hne => means _ _ (h1.2.1 e he hne), ?_⟩
  rw [← m1]
  exact h1.2.2

namespace Demo
/-- The parameters the example classes declare. -/
def ident : Ident Cls where
  tnames := fun
    | .leaf => [x]
    | .select => [idxs]
    | _ => []

theorem termsOk : sig.TermsOk ident := by
  constructor
  · intro c
    cases c <;> simp only [sig, computeR, ident, Prog.TermsIn]
    · exact ⟨by simp, fun t => by cases t <;> trivial⟩
    · exact fun _ _ => trivial
    · exact fun _ _ => trivial
    · exact fun v => ⟨by simp, fun t => by cases t <;> trivial⟩
    · intro v; split <;> trivial
    · exact fun _ _ => trivial
  · intro c q d h
    cases c <;> simp only [sig] at h
    all_goals try cases h
    split at h
    · cases h; simp [Prog.TermsIn]
    · cases h

theorem legal_new {h : Heap Cls Arr Arr Jac} {c : Cls} {ns : List Name} {kws : List (KW Arr)}
    (hp : sig.isPermute c = false) : Legal sig ⟨True, True⟩ h (.new c ns false false kws) := by
  refine ⟨fun _ => ?_, fun _ => ⟨rfl, rfl⟩⟩
  intro hc; rw [hp] at hc; cases hc

/-- p1 = a+b, p2 = a+b, y = p1*p2. -/
def ex14 : List (Op Cls Arr Jac) := [leaf [3], leaf [4], bin .add 0 1, bin .add 0 1, bin .mul 2 3]

theorem ex14_reach : Reach sig ⟨True, True⟩ (hist ex14) :=
  reach_run ex14 .init ⟨legal_new rfl, legal_new rfl, legal_new rfl, legal_new rfl, legal_new rfl, trivial⟩

/-- The second factor is replaced by the first, the value stays, the derivative is doubled. -/
example : ((removeRedundancy sig ident 9 4 (hist ex14)).1.node 4).dterms b = some 2 := by decide +kernel
example : (read sig 9 (.r 4) (removeRedundancy sig ident 9 4 (hist ex14)).1).2 = .ok [49] := by decide +kernel
example : (drWrt sig 9 4 0 (hist ex14)).2 = .ok (some ([[14]], true)) := by decide +kernel
example : (drWrt sig 9 4 0 (removeRedundancy sig ident 9 4 (hist ex14)).1).2 = .ok (some ([[28]], true)) := by
  decide +kernel

/-- z = a+b, w = a+b, m = w*c, y = z+m. -/
def ex14' : List (Op Cls Arr Jac) :=
  [leaf [3], leaf [4], leaf [5], bin .add 0 1, bin .add 0 1, bin .mul 4 2, bin .add 3 5]

theorem ex14'_reach : Reach sig ⟨True, True⟩ (hist ex14') :=
  reach_run ex14' .init ⟨legal_new rfl, legal_new rfl, legal_new rfl, legal_new rfl, legal_new rfl, legal_new rfl,
    legal_new rfl, trivial⟩
end Demo

/-- Derivatives are not preserved by the code. -/
theorem C14_full_dr_refuted : ¬ C14_full_dr Demo.sig Demo.ident := by
  intro h
  have h1 := h (Demo.hist Demo.ex14) Demo.ex14_reach 9 4 4 0
  have h2 : evalDr Demo.sig (Demo.hist Demo.ex14).graph 9 4 0 = .ok (some ([[14]], true)) := by decide +kernel
  have h3 : (drWrt Demo.sig 9 4 0 (removeRedundancy Demo.sig Demo.ident 9 4 (Demo.hist Demo.ex14)).1).2
      = .ok (some ([[28]], true)) := by decide +kernel
  dsimp only at h1
  rw [h2, h3] at h1
  have := h1 (by simp)
  revert this; decide

/-- Later assignments are missed: the new link `m → z` has no back-link, and once `w` is collected nothing
tells `m` that `a` changed. -/
theorem C14_full_later_refuted : ¬ C14_full_later Demo.sig Demo.ident := by
  intro h
  have h1 := h (Demo.hist Demo.ex14') Demo.ex14'_reach 9 6 4 0 6 [10] (by decide +kernel) ?_ (by decide) (by decide +kernel)
  · have h2 : evalReq Demo.sig (step Demo.sig (.set 0 [.term 0 [10]]) (collect 4
        (removeRedundancy Demo.sig Demo.ident 9 6 (Demo.hist Demo.ex14')).1)).1.graph 9 (.r 6) = .ok [84] := by decide +kernel
    have h3 : (read Demo.sig 9 (.r 6) (step Demo.sig (.set 0 [.term 0 [10]]) (collect 4
        (removeRedundancy Demo.sig Demo.ident 9 6 (Demo.hist Demo.ex14')).1)).1).2 = .ok [49] := by decide +kernel
    have h4 := h1.2.2
    have e : Demo.sig.xname = 0 := rfl
    rw [e, h2, h3] at h4
    have := h4 (by simp)
    revert this; decide
  · unfold Unreferenced; decide +kernel
end Chumpy
