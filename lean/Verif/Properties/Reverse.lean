import Verif.AD.Reverse
import Verif.Properties.Jacobian
/-!
# C19: reverse mode and forward mode agree

`lop` is `L` times `dr_wrt`, and `dr_wrt(w, reverse_mode=True)` is `dr_wrt(w)`, as matrices; the code for the two walks
is in `Verif/Core/Reverse.lean`.
-/
namespace Chumpy
open scoped BigOperators

/-- `y.lop(w, L)` is the matrix product of `L` with `y.dr_wrt(w)`: whenever both return (at whatever recursion depth),
and `L` is a matrix with as many columns as `y` has entries. -/
def LopIsProduct (h : Heap ClassDef Par Arr Jac) (y w : Id) (vy vw : Arr) : Prop :=
  ∀ (f f' : ℕ) (L : Jac) (m : ℕ) (A : Ent) (o o' : Option Jac), Jac.Rep L m vy.size A →
    (drWrt lib f y w h).2 = .ok o → (lop lib Jac.todense f' y w L h).2 = .ok o' →
    ∃ M, num.RepO o vy.size vw.size M ∧ num.RepO o' m vw.size (Ent.mul vy.size A M)

/-- `y.dr_wrt(w, reverse_mode=True)` is the same matrix as `y.dr_wrt(w)`, whenever both return. -/
def ReverseIsForward (h : Heap ClassDef Par Arr Jac) (y w : Id) (vy vw : Arr) : Prop :=
  ∀ (f f' : ℕ) (o o' : Option Jac), (drWrt lib f y w h).2 = .ok o → (drWrtRev lib Jac.neNone f' y w h).2 = .ok o' →
    ∃ M, num.RepO o vy.size vw.size M ∧ num.RepO o' vy.size vw.size M

theorem simM_ok {α : Type} {U : Graph ClassDef Par → Id → Id → Option Jac → Prop} {h : Heap ClassDef Par Arr Jac} {fr : Mode}
    (hi : InvU lib U fr h) {m : M ClassDef Par Arr Jac α} {q : ℕ → Except Err α} {f : ℕ} (hs : SimM lib U (Wf lib fr) True h.graph m q f) {a : α} (ha : (m h).2 = .ok a) :
    ∃ f', q f' = .ok a := by
  obtain ⟨_, _, hag⟩ := hs.sim h hi.coh rfl
  obtain ⟨f', hf'⟩ := (hag trivial).2 (by rw [ha]; simp)
  exact ⟨f', by rw [hf', ha]⟩

theorem lop_aux {h : Heap ClassDef Par Arr Jac} {fr : Mode} (hi : Inv lib fr h) {y w : Id} {vy vw : Arr}
    (hy : Means lib h.graph (.r y) (.ok vy)) (hw : Means lib h.graph (.r w) (.ok vw))
    (hok : ∀ i, Reaches h.graph y i ∨ i = w → SizesOk h.graph (objSize h.graph) i)
    (hdr : ∀ f o, (drWrt lib f y w h).2 = .ok o → MeansDr lib h.graph y w (.ok o)) : LopIsProduct h y w vy vw := by
  intro f f' L m A o o' hL hd hl
  obtain ⟨_, f1, hf1⟩ := hdr f o hd
  obtain ⟨f2, hf2⟩ := simM_ok hi (leftMul_simM lopStyle_ok f' y w L) hl
  have hdecl := fun i k c hk => hi.str.dn i k c hk
  obtain ⟨M, hM⟩ : ∃ M, num.RepO o (objSize h.graph y) (objSize h.graph w) M := by
    cases o with
    | none => exact ⟨0, Ent.EqOn.refl _⟩
    | some d =>
      obtain ⟨E, hE⟩ := (evalDr_sizes (hok w (Or.inr rfl)) f1 y d (fun i hi => hok i (Or.inl hi)) hdecl hf1).2
      exact ⟨E, hE⟩
  have := left_rep lopStyle_styleOk (hok w (Or.inr rfl)) hdecl f2 y f1 L o o' m A M (fun i hi => hok i (Or.inl hi)) (fun _ _ => trivial) hf1 hM
    (by rw [objSize_eq hy]; exact hL) hf2
  rw [objSize_eq hy, objSize_eq hw] at hM this
  exact ⟨M, hM, this⟩

/-- C19 for `lop`.  In every reachable state and for every `w` that is not a slice: if the classes under `y`, and of
`w`, return matrices of the right sizes, `y.lop(w, L)` is `L` times `y.dr_wrt(w)`.  There is no condition on cycles,
sharing or the entries of the matrices; `y.dr_wrt(w)` need not be the true derivative. -/
theorem C19_lop_is_product_partial {h : Heap ClassDef Par Arr Jac} (hr : Reach lib ⟨False, True⟩ h) {y w : Id}
    {vy vw : Arr} (hy : Means lib h.graph (.r y) (.ok vy)) (hw : Means lib h.graph (.r w) (.ok vw))
    (hp : lib.isPermute (h.graph w).cls = false)
    (hok : ∀ i, Reaches h.graph y i ∨ i = w → SizesOk h.graph (objSize h.graph) i) : LopIsProduct h y w vy vw :=
  lop_aux (reach_inv lib_propsOk (fun _ => lib_localDr) hr) hy hw hok
    fun f o hd => (C02_derivative_never_stale_partial lib_propsOk lib_plainForm hr f y w hp).1 o hd

/-- C19 for `lop` with respect to slices, if no slice is assigned to after its construction. -/
theorem C19_lop_wrt_slices_partial {h : Heap ClassDef Par Arr Jac} (hr : Reach lib ⟨True, True⟩ h) {y w : Id}
    {vy vw : Arr} (hy : Means lib h.graph (.r y) (.ok vy)) (hw : Means lib h.graph (.r w) (.ok vw))
    (hok : ∀ i, Reaches h.graph y i ∨ i = w → SizesOk h.graph (objSize h.graph) i) : LopIsProduct h y w vy vw :=
  lop_aux (reach_inv lib_propsOk (fun _ => lib_localDr) hr) hy hw hok
    fun f o hd => (C02_derivative_wrt_slices_partial lib_propsOk lib_localDr lib_plainForm hr f y w).1 o hd

/-- C19, `lop` does return, and returns `L` times the derivative: under the conditions of C18, if all declared names are
set and no class raises.  Unlike for `dr_wrt` itself (`C18_single_entry_refuted`), `w` may have one entry. -/
theorem C19_lop_returns_partial {h : Heap ClassDef Par Arr Jac} (hr : Reach lib ⟨False, True⟩ h) {y w : Id}
    {vw : Arr} (hacc : Acc (fun a b => Uses h.graph b a) y) (hc : ChainOk lib h.graph y w)
    (hw : Means lib h.graph (.r w) (.ok vw)) (hob : ∀ i, Reaches h.graph y i → i ≠ w → Exactly h.graph i)
    (hset : ∀ i, Reaches h.graph y i → ∀ k ∈ (h.graph i).dnames, ∃ c, (h.graph i).dterms k = some c)
    (hyw : y ≠ w) {vy : Arr} (hy : Means lib h.graph (.r y) (.ok vy)) {L : Jac} {m : ℕ} {A : Ent} (hL : Jac.Rep L m vy.size A) :
    ∃ f₀ E, ∀ f ≥ f₀, ∃ o, (lop lib Jac.todense f y w L h).2 = .ok o ∧ num.RepO o m vw.size E := by
  obtain ⟨f₀, o, E, ho, hE⟩ := lop_returns hacc hc hw hob hset hyw vy hy L m A hL
  refine ⟨f₀, E, fun f hf => ⟨o, ?_, hE⟩⟩
  have e := evalLeft_mono (g := h.graph) (w := w) (lopStyle_ok (todense := Jac.todense)) hf y L
  rw [Le, ho] at e
  have hi := reach_inv lib_propsOk (fun _ => lib_localDr) hr
  obtain ⟨_, _, hag⟩ := (leftMul_simM (s := lib) (P := True) (W := Wf lib ⟨False, True⟩) (lopStyle_ok (todense := Jac.todense)) f y w L).sim h hi.coh rfl
  exact ((hag trivial).1 (fun h' => by have := (e (by simp)).symm.trans h'; cases this)).trans (e (by simp))

/-- C19, the two together: `lop` returns `L` times the derivative of `y` with respect to `w`. -/
theorem C19_lop_is_derivative_partial {h : Heap ClassDef Par Arr Jac} (hr : Reach lib ⟨False, True⟩ h) {y w : Id}
    {vw : Arr} (hacc : Acc (fun a b => Uses h.graph b a) y) (hc : ChainOk lib h.graph y w)
    (hw : Means lib h.graph (.r w) (.ok vw)) (hsz : vw.size ≠ 1) (hob : ∀ i, Reaches h.graph y i → i ≠ w → Exactly h.graph i)
    (hset : ∀ i, Reaches h.graph y i → ∀ k ∈ (h.graph i).dnames, ∃ c, (h.graph i).dterms k = some c)
    (hok : ∀ i, Reaches h.graph y i ∨ i = w → SizesOk h.graph (objSize h.graph) i) (hyw : y ≠ w) :
    ∃ vy M, HasJacobian h.graph y w vy vw M ∧ ∀ (L : Jac) (m : ℕ) (A : Ent), Jac.Rep L m vy.size A →
      ∃ f₀, ∀ f ≥ f₀, ∃ o, (lop lib Jac.todense f y w L h).2 = .ok o ∧ num.RepO o m vw.size (Ent.mul vy.size A M) := by
  obtain ⟨vy, M, hJ, f₁, h1⟩ := C18_dr_wrt_returns_partial hr hacc hc hw hsz (fun i hi hiw => (hob i hi hiw).for w) hyw
  refine ⟨vy, M, hJ, fun L m A hL => ?_⟩
  obtain ⟨f₀, E, h2⟩ := C19_lop_returns_partial hr hacc hc hw hob hset hyw hJ.valY hL
  refine ⟨f₀, fun f hf => ?_⟩
  obtain ⟨o, ho, _⟩ := h2 f hf
  obtain ⟨d, hd, hdM⟩ := h1 f₁ le_rfl
  obtain ⟨M', hM', hMo⟩ := C19_lop_is_product_partial hr hJ.valY hw hc.wrt hok f₁ f L m A d o hL hd ho
  exact ⟨o, ho, num.repO_congr (Ent.mul_congr (Ent.EqOn.refl A) (repO_unique hM' hdM)) hMo⟩

/-- What reverse mode returns: what is cached, which forward mode computed, or its own sum. -/
theorem drWrtRev_ok {h : Heap ClassDef Par Arr Jac} (hi : Inv lib ⟨False, True⟩ h) {y w : Id}
    (hp : lib.isPermute (h.graph w).cls = false) {f : ℕ} {o : Option Jac} (ho : (drWrtRev lib Jac.neNone (f + 1) y w h).2 = .ok o) :
    MeansDr lib h.graph y w (.ok o) ∨ ∃ f' r b b', evalRevSum lib Jac.neNone h.graph f' y w = .ok r ∧
      o = (r.map lib.finish).map (lib.outForm b b') := by
  simp only [drWrtRev, M.bind] at ho
  have h1 := callOnChanged_ok y h
  have hfr := callOnChanged_frame y h
  have hc' := callOnChanged_coh (s := lib) y hi.coh
  rcases hmh : callOnChanged y h with ⟨h', r⟩
  rw [hmh] at h1 hfr hc' ho
  dsimp only at h1
  subst h1
  dsimp only at ho
  cases hd : (h'.node y).drs w with
  | some d =>
    rw [hd] at ho
    cases ho
    left
    have hpl : Plain lib h'.graph := by
      rw [hfr.graph]; exact ⟨lib_plainForm, fun j => hi.flags trivial j⟩
    have := hc'.d hpl y w _ (by rw [hfr.graph]; exact ⟨trivial, Or.inr hp⟩) hd
    rwa [hfr.graph] at this
  | none =>
    right
    rw [hd] at ho
    dsimp only at ho
    obtain ⟨_, _, hag⟩ := (revSum_simM (s := lib) (n := Jac.neNone) (P := True) (W := Wf lib ⟨False, True⟩) f y w).sim h' hc' hfr.graph
    rcases hrs : revSum lib Jac.neNone f y w h' with ⟨h2, r⟩
    rw [hrs] at ho hag
    cases r with
    | error e => cases ho
    | ok r =>
      obtain ⟨f', hf'⟩ := (hag trivial).2 (by simp)
      dsimp only at ho
      rcases hst : storeDr y w (r.map lib.finish) h2 with ⟨h3, r3⟩
      rw [hst] at ho
      cases r3 with
      | error e => cases ho
      | ok _ => cases ho; exact ⟨f', r, _, _, hf', rfl⟩

/-- C19 for reverse mode.  In every reachable state and for every `w` that is not a slice: if the classes under `y`, and
of `w`, return matrices of the right sizes, `y.dr_wrt(w, reverse_mode=True)` and `y.dr_wrt(w)` are the same matrix.
Missing: slices `w` and dense Jacobians, on which reverse mode raises (`Verif/Properties/ReverseRefuted.lean`).  Histories in which
reverse mode was used before are in `Verif/Properties/RevHist.lean`. -/
theorem C19_reverse_is_forward_partial {h : Heap ClassDef Par Arr Jac} (hr : Reach lib ⟨False, True⟩ h) {y w : Id}
    {vy vw : Arr} (hy : Means lib h.graph (.r y) (.ok vy)) (hw : Means lib h.graph (.r w) (.ok vw))
    (hp : lib.isPermute (h.graph w).cls = false) (hl : LeafGraph lib h.graph)
    (hok : ∀ i, Reaches h.graph y i ∨ i = w → SizesOk h.graph (objSize h.graph) i) : ReverseIsForward h y w vy vw := by
  intro f f' o o' hd hd'
  have hi := reach_inv lib_propsOk (fun _ => lib_localDr) hr
  have hdecl := fun i k c hk => hi.str.dn i k c hk
  obtain ⟨hne, f1, hf1⟩ := (C02_derivative_never_stale_partial lib_propsOk lib_plainForm hr f y w hp).1 o hd
  obtain ⟨M, hM⟩ : ∃ M, num.RepO o (objSize h.graph y) (objSize h.graph w) M := by
    cases o with
    | none => exact ⟨0, Ent.EqOn.refl _⟩
    | some d =>
      obtain ⟨E, hE⟩ := (evalDr_sizes (hok w (Or.inr rfl)) f1 y d (fun i hi => hok i (Or.inl hi)) hdecl hf1).2
      exact ⟨E, hE⟩
  suffices h2 : num.RepO o' (objSize h.graph y) (objSize h.graph w) M by
    rw [objSize_eq hy, objSize_eq hw] at hM h2
    exact ⟨M, hM, h2⟩
  cases f' with
  | zero => cases hd'
  | succ f' =>
    rcases drWrtRev_ok hi hp hd' with hm | ⟨f2, r, b, b', hr2, rfl⟩
    · have := hm.unique ⟨hne, f1, hf1⟩
      injection this with this
      subst this; exact hM
    · have h3 := rev_rep (lmultStyle_styleOk hp hdecl) (hok w (Or.inr rfl)) hdecl (fun i hi => hok i (Or.inl hi)) (fun i _ => hl.below i) hf1 hM hr2
      cases r with
      | none => exact h3
      | some d => exact Jac.outForm_rep _ _ (Jac.finish_rep h3)

namespace ADDemo
theorem sharing_leafGraph : LeafGraph lib (buildGraph lib sharing) := by
  intro i h
  unfold buildGraph at h ⊢
  split at h
  · next o ho =>
    have := List.mem_of_getElem? ho
    simp only [sharing, List.mem_cons, List.not_mem_nil, or_false] at this
    rcases this with rfl | rfl | rfl | rfl
    · rfl
    · rfl
    · cases h
    · cases h
  · rfl

theorem sharing_set : ∀ i, Reaches (buildGraph lib sharing) 3 i → ∀ k ∈ (buildGraph lib sharing i).dnames,
    ∃ c, (buildGraph lib sharing i).dterms k = some c := by
  intro i hi k hk
  have := reaches_le sharing_ok hi
  interval_cases i
  · cases hk
  · cases hk
  · simp only [buildGraph, sharing, binO, ObjSpec.node] at hk
    rcases List.mem_pair.1 hk with rfl | rfl
    · exact ⟨0, rfl⟩
    · exact ⟨1, rfl⟩
  · rcases List.mem_pair.1 hk with rfl | rfl
    · exact ⟨2, rfl⟩
    · exact ⟨0, rfl⟩

/-- The hypotheses are met by `y = a*b + a` and `w = a`, where `a` is used twice: `lop` returns a product with the
derivative, and if reverse mode returns, it returns what forward mode does. -/
example : ∃ h, Reach lib ⟨False, True⟩ h ∧ (∃ vy M, HasJacobian h.graph 3 0 vy (vec2 1 2) M ∧
    ∀ (L : Jac) (m : ℕ) (A : Ent), Jac.Rep L m vy.size A → ∃ f₀, ∀ f ≥ f₀, ∃ o, (lop lib Jac.todense f 3 0 L h).2 = .ok o ∧
      num.RepO o m 2 (Ent.mul vy.size A M)) ∧ ∃ vy, ReverseIsForward h 3 0 vy (vec2 1 2) := by
  obtain ⟨h, hr, hg⟩ := sharing_ok.reach ⟨False, True⟩
  have h0 := leaf_means (g := buildGraph lib sharing) (i := 0) (v := vec2 1 2) rfl (by simp [vec2])
  have hok : ∀ i, Reaches h.graph 3 i ∨ i = 0 → SizesOk h.graph (objSize h.graph) i := by
    rw [hg]
    rintro i (hi | rfl)
    · exact sharing_sizes i (Nat.lt_succ_of_le (reaches_le sharing_ok hi))
    · exact sharing_sizes 0 (by decide)
  obtain ⟨vy, M, hJ, hL⟩ := C19_lop_is_derivative_partial hr (y := 3) (w := 0) (vw := vec2 1 2) (by rw [hg]; exact sharing_ok.acc 3)
    (by rw [hg]; exact sharing_chain) (by rw [hg]; exact h0.1) (by show (2 : ℕ) ≠ 1; decide)
    (by
      rw [hg]
      intro i hi _
      exact sharing_exact i (Nat.lt_succ_of_le (reaches_le sharing_ok hi))) (by rw [hg]; exact sharing_set) hok (by decide)
  exact ⟨h, hr, ⟨vy, M, hJ, hL⟩, vy, C19_reverse_is_forward_partial hr hJ.valY hJ.valW (by rw [hg]; exact sharing_chain.wrt)
    (by rw [hg]; exact sharing_leafGraph) hok⟩
end ADDemo
end Chumpy
