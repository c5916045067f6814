import Verif.AD.Arith
import Verif.AD.Expr
import Verif.AD.Shape
import Verif.AD.Atleast
import Verif.AD.Steps
import Verif.Properties.Tags
/-!
# C18, C21, C22, C31

The specification is `HasJacobian` (`Verif/AD/Graph.lean`): a Fréchet derivative of the value of `y` as a function of
the entries of `w`.
-/
namespace Chumpy
open scoped BigOperators Topology

theorem lib_plainForm : lib.PlainForm := fun _ => rfl

/-! ## C18 -/

/-- C18 in full: for every reachable state in which no object depends on itself, if all classes that matter return the
true partial Jacobians, `dr_wrt` returns the derivative. -/
def C18_full : Prop :=
  ∀ (h : Heap ClassDef Par Arr Jac), Reach lib ⟨False, True⟩ h → (∀ i, ¬ Relation.TransGen (Uses h.graph) i i) →
    (∀ i, (h.graph i).dnames.Nodup) →
    ∀ (f : ℕ) (y w : Id) (vw : Arr) (o : Option Jac), Means lib h.graph (.r w) (.ok vw) →
      (∀ i, Reaches h.graph y i → Correct h.graph w i) → (drWrt lib f y w h).2 = .ok o →
      ∃ vy M, HasJacobian h.graph y w vy vw M ∧ num.RepO o vy.size vw.size M

/-- C18.  In every reachable state, if the classes of the objects between `y` and `w` return the true partial
Jacobians, `y.dr_wrt(w)`, if it returns, returns the derivative of the value of `y` as a function of the entries of
`w`, `None` standing for zero.  What is missing is `ChainOk` (no cycles; `w` is not a slice; no object other than `w`
is used twice by the same object; slices are not used together with what they are slices of) and `y ≠ w`; see the
refutations below. -/
theorem C18_dr_wrt_is_jacobian_partial {h : Heap ClassDef Par Arr Jac} (hr : Reach lib ⟨False, True⟩ h) {f : ℕ} {y w : Id}
    {vw : Arr} {o : Option Jac} (hc : ChainOk lib h.graph y w) (hw : Means lib h.graph (.r w) (.ok vw))
    (hob : ∀ i, Reaches h.graph y i → i ≠ w → Correct h.graph w i) (hyw : y ≠ w) (hd : (drWrt lib f y w h).2 = .ok o) :
    ∃ vy M, HasJacobian h.graph y w vy vw M ∧ num.RepO o vy.size vw.size M := by
  have := (C02_derivative_never_stale_partial lib_propsOk lib_plainForm hr f y w hc.wrt).1 o hd
  exact jacobian hc hw hob hyw this

/-- C18, `dr_wrt` does return: if moreover no class raises, then with enough stack depth `y.dr_wrt(w)` returns the
derivative.  If `w` has exactly one entry, an object of one entry must use only one object depending on `w`, or meet no sparse matrix;
otherwise the sum can raise, see `C18_single_entry_refuted`. -/
theorem C18_single_entry_returns_partial {h : Heap ClassDef Par Arr Jac} (hr : Reach lib ⟨False, True⟩ h) {y w : Id}
    {vw : Arr} (hacc : Acc (fun a b => Uses h.graph b a) y) (hc : ChainOk lib h.graph y w)
    (hw : Means lib h.graph (.r w) (.ok vw)) (hsz : vw.size = 1 → ∀ i v, Reaches h.graph y i → i ≠ w → Means lib h.graph (.r i) (.ok v) → v.size = 1 → OneWay h.graph w i ∨ NoSparse h.graph w i)
    (hob : ∀ i, Reaches h.graph y i → i ≠ w → ExactlyFor h.graph w i) (hyw : y ≠ w) :
    ∃ vy M, HasJacobian h.graph y w vy vw M ∧
      ∃ f₀, ∀ f ≥ f₀, ∃ o, (drWrt lib f y w h).2 = .ok o ∧ num.RepO o vy.size vw.size M := by
  obtain ⟨o, ho⟩ := dr_returns_of hacc hc hw hsz hob hyw
  obtain ⟨vy, M, hJ, hM⟩ := jacobian hc hw (fun i hi hiw => (hob i hi hiw).correct) hyw ho
  obtain ⟨_, f₀, hf₀⟩ := ho
  refine ⟨vy, M, hJ, f₀, fun f hf => ⟨o, ?_, hM⟩⟩
  have e := evalDr_mono lib h.graph hf y w
  rw [Le, hf₀] at e
  have := (C02_derivative_never_stale_partial lib_propsOk lib_plainForm hr f y w hc.wrt).2.2
  rw [e (by simp)] at this
  exact this (by simp)

/-- C18, `dr_wrt` does return, for `w` that does not have exactly one entry. -/
theorem C18_dr_wrt_returns_partial {h : Heap ClassDef Par Arr Jac} (hr : Reach lib ⟨False, True⟩ h) {y w : Id}
    {vw : Arr} (hacc : Acc (fun a b => Uses h.graph b a) y) (hc : ChainOk lib h.graph y w)
    (hw : Means lib h.graph (.r w) (.ok vw)) (hsz : vw.size ≠ 1)
    (hob : ∀ i, Reaches h.graph y i → i ≠ w → ExactlyFor h.graph w i) (hyw : y ≠ w) :
    ∃ vy M, HasJacobian h.graph y w vy vw M ∧
      ∃ f₀, ∀ f ≥ f₀, ∃ o, (drWrt lib f y w h).2 = .ok o ∧ num.RepO o vy.size vw.size M :=
  C18_single_entry_returns_partial hr hacc hc hw (fun h => absurd h hsz) hob hyw

/-- C18 for `y = w`, a leaf: the identity. -/
theorem C18_leaf_wrt_itself {h : Heap ClassDef Par Arr Jac} (hr : Reach lib ⟨False, True⟩ h) {y : Id} {v : Arr}
    (hv : Means lib h.graph (.r y) (.ok v)) (hc : (h.graph y).cls = chLeaf) (hd : ∀ k, (h.graph y).dterms k = none)
    {f : ℕ} {o : Option Jac} (ho : (drWrt lib f y y h).2 = .ok o) :
    HasJacobian h.graph y y v v Ent.one ∧ num.RepO o v.size v.size Ent.one := by
  refine ⟨⟨hv, hv, fun t => t, Filter.Eventually.of_forall fun t => means_setTo _ _ _, ?_⟩, ?_⟩
  · rw [Ent.lin_one]; exact hasFDerivAt_id _
  · have hm := (C02_derivative_never_stale_partial lib_propsOk lib_plainForm hr f y y (by rw [hc]; rfl)).1 o ho
    obtain ⟨_, f', hf⟩ := hm
    cases f' with
    | zero => cases hf
    | succ f' =>
      have hterms : ∀ (ks : List Name) acc, evalTerms lib h.graph f' y y (fun p => evalDr lib h.graph f' p y) ks acc = .ok acc := by
        intro ks
        induction ks with
        | nil => intro acc; rfl
        | cons k ks ih => intro acc; simp only [evalTerms, hd k]; exact ih acc
      simp only [evalDr] at hf
      have hs : ∀ o', evalSliced lib h.graph f' y y = .ok o' → o' = some (.sparse v.size v.size Ent.one) := by
        intro o' h'
        have hcd : ∀ o'', evalCompDr lib h.graph f' y y = .ok o'' → o'' = some (.sparse v.size v.size Ent.one) := by
          intro o'' h''
          unfold evalCompDr at h''
          rw [show (y == y) = true from by simp, hc] at h''
          simp only [chLeaf, evalProg] at h''
          split at h''
          · next u hu =>
            have : u = v := by
              have := (show Means lib h.graph (.r y) (.ok u) from ⟨by simp, _, hu⟩).unique hv
              injection this
            subst this
            cases h''; rfl
          · cases h''
        unfold evalSliced at h'
        split at h'
        · cases h'
        · next e => cases h'; exact hcd _ e
        · next e => have := hcd _ e; cases this
      split at hf
      · cases hf
      · next direct hdir =>
        have := hs _ hdir
        subst this
        rw [hterms] at hf
        simp only [sumD, Option.toList, List.foldlM] at hf
        cases hf
        exact Jac.outForm_rep _ _ (Jac.finish_rep (d := .sparse v.size v.size Ent.one) ⟨rfl, rfl, Ent.EqOn.refl _⟩)

namespace ADDemo
/-- The vector `(x, y)`. -/
def vec2 (x y : ℝ) : Arr := ⟨[2], ![x, y]⟩
/-- The vector `(x)`. -/
def vec1 (x : ℝ) : Arr := ⟨[1], fun _ => x⟩

/-- `a = Ch([1,2]); b = Ch([3,4]); m = a*b; y = m + a` -/
noncomputable def sharing : List (ObjSpec ClassDef Par) :=
  [leafO (vec2 1 2), leafO (vec2 3 4), binO chMul 0 1, binO chAdd 2 0]

theorem sharing_ok : WellBuilt lib sharing :=
  OkFrom.wellBuilt ⟨leafO_ok _ _, leafO_ok _ _, binO_ok (by decide) (by decide) rfl, binO_ok (by decide) (by decide) rfl, trivial⟩ rfl

theorem sharing_exact : ∀ i < 4, Exactly (buildGraph lib sharing) i := by
  have h0 := leaf_means (g := buildGraph lib sharing) (i := 0) (v := vec2 1 2) rfl (by simp [vec2])
  have h1 := leaf_means (g := buildGraph lib sharing) (i := 1) (v := vec2 3 4) rfl (by simp [vec2])
  have h2 := bin_means (g := buildGraph lib sharing) (i := 2) (a := 0) (b := 1) (c := chMul) rfl h0.1 h1.1
    (exact_mul _ (o := [2]) (by rfl))
  have h3 := bin_means (g := buildGraph lib sharing) (i := 3) (a := 2) (b := 0) (c := chAdd) rfl h2.1 h0.1
    (exact_add _ (o := [2]) (by rfl))
  intro i hi
  interval_cases i
  · exact h0.2
  · exact h1.2
  · exact h2.2
  · exact h3.2

theorem sharing_chain : ChainOk lib (buildGraph lib sharing) 3 0 := by
  refine sharing_ok.chainOk ?_
  intro o ho k k' p h1 h2 hp
  simp only [sharing, List.mem_cons, List.not_mem_nil, or_false] at ho
  rcases ho with rfl | rfl | rfl | rfl <;> simp only [leafO, binO, List.mem_cons, List.not_mem_nil, or_false, KW.link.injEq, reduceCtorEq] at h1 h2
  · rcases h1 with ⟨rfl, rfl⟩ | ⟨rfl, rfl⟩ <;> rcases h2 with ⟨rfl, h⟩ | ⟨rfl, h⟩ <;> first | rfl | cases h
  · rcases h1 with ⟨rfl, rfl⟩ | ⟨rfl, rfl⟩ <;> rcases h2 with ⟨rfl, h⟩ | ⟨rfl, h⟩ <;> first | rfl | cases h

theorem reaches_le {os : List (ObjSpec ClassDef Par)} (h : WellBuilt lib os) {y i : Id} (hr : Reaches (buildGraph lib os) y i) : i ≤ y := by
  induction hr with
  | refl => exact Nat.le_refl _
  | tail _ hu ih => exact (h.lt hu).le.trans ih

/-- The hypotheses of the two theorems are met by `y = a*b + a` and `w = a`, where `a` is used twice. -/
example : ∃ h, Reach lib ⟨False, True⟩ h ∧ ∃ vy M, HasJacobian h.graph 3 0 vy (vec2 1 2) M ∧
    ∃ f₀, ∀ f ≥ f₀, ∃ o, (drWrt lib f 3 0 h).2 = .ok o ∧ num.RepO o vy.size 2 M := by
  obtain ⟨h, hr, hg⟩ := sharing_ok.reach ⟨False, True⟩
  refine ⟨h, hr, ?_⟩
  have h0 := leaf_means (g := buildGraph lib sharing) (i := 0) (v := vec2 1 2) rfl (by simp [vec2])
  have := C18_dr_wrt_returns_partial hr (y := 3) (w := 0) (vw := vec2 1 2) (by rw [hg]; exact sharing_ok.acc 3)
    (by rw [hg]; exact sharing_chain) (by rw [hg]; exact h0.1) (by show (2 : ℕ) ≠ 1; decide)
    (by
      rw [hg]
      intro i hi _
      exact (sharing_exact i (Nat.lt_succ_of_le (reaches_le sharing_ok hi))).for 0) (by decide)
  exact this

/-- `w = Ch([3]); c = Ch([5]); b = Ch([1,2]); k = w*c; m = k*b; y = m + w` -/
noncomputable def scalarWrt : List (ObjSpec ClassDef Par) :=
  [leafO (vec1 3), leafO (vec1 5), leafO (vec2 1 2), binO chMul 0 1, binO chMul 3 2, binO chAdd 4 0]

theorem scalarWrt_ok : WellBuilt lib scalarWrt :=
  OkFrom.wellBuilt ⟨leafO_ok _ _, leafO_ok _ _, leafO_ok _ _, binO_ok (by decide) (by decide) rfl, binO_ok (by decide) (by decide) rfl,
    binO_ok (by decide) (by decide) rfl, trivial⟩ rfl

theorem leaf_uses {g : Graph ClassDef Par} {i c : Id} {v : Arr} (h : g i = (leafO v).node) : ¬ Uses g i c := by
  rintro ⟨k, hk, _⟩
  rw [h] at hk
  cases hk

theorem bin_uses {g : Graph ClassDef Par} {i a b c : Id} {cls : ClassDef} (h : g i = (binO cls a b).node) (hu : Uses g i c) : c = a ∨ c = b := by
  obtain ⟨k, hk, hc⟩ := hu
  rw [h] at hk hc
  have hk : k ∈ [nmA, nmB] := hk
  simp only [List.mem_cons, List.not_mem_nil, or_false] at hk
  rcases hk with rfl | rfl
  · left; injection hc with hc; exact hc.symm
  · right; injection hc with hc; exact hc.symm

/-- A variable of one entry, used twice: the hypotheses of the first theorem are met. -/
example : ∃ h, Reach lib ⟨False, True⟩ h ∧ ∃ vy M, HasJacobian h.graph 5 0 vy (vec1 3) M ∧
    ∃ f₀, ∀ f ≥ f₀, ∃ o, (drWrt lib f 5 0 h).2 = .ok o ∧ num.RepO o vy.size 1 M := by
  obtain ⟨h, hr, hg⟩ := scalarWrt_ok.reach ⟨False, True⟩
  refine ⟨h, hr, ?_⟩
  have h0 := leaf_means (g := buildGraph lib scalarWrt) (i := 0) (v := vec1 3) rfl (by simp [vec1])
  have h1 := leaf_means (g := buildGraph lib scalarWrt) (i := 1) (v := vec1 5) rfl (by simp [vec1])
  have h2 := leaf_means (g := buildGraph lib scalarWrt) (i := 2) (v := vec2 1 2) rfl (by simp [vec2])
  have h3 := bin_means (g := buildGraph lib scalarWrt) (i := 3) (a := 0) (b := 1) (c := chMul) rfl h0.1 h1.1 (exact_mul _ (o := [1]) (by rfl))
  have h4 := bin_means (g := buildGraph lib scalarWrt) (i := 4) (a := 3) (b := 2) (c := chMul) rfl h3.1 h2.1 (exact_mul _ (o := [2]) (by rfl))
  have h5 := bin_means (g := buildGraph lib scalarWrt) (i := 5) (a := 4) (b := 0) (c := chAdd) rfl h4.1 h0.1 (exact_add _ (o := [2]) (by rfl))
  refine C18_single_entry_returns_partial hr (y := 5) (w := 0) (vw := vec1 3) (by rw [hg]; exact scalarWrt_ok.acc 5) ?_ (by rw [hg]; exact h0.1)
    ?_ ?_ (by decide)
  · rw [hg]
    refine scalarWrt_ok.chainOk ?_
    intro o ho k k' p h1 h2 hp
    simp only [scalarWrt, List.mem_cons, List.not_mem_nil, or_false] at ho
    rcases ho with rfl | rfl | rfl | rfl | rfl | rfl <;> simp only [leafO, binO, List.mem_cons, List.not_mem_nil, or_false, KW.link.injEq, reduceCtorEq] at h1 h2
    all_goals rcases h1 with ⟨rfl, rfl⟩ | ⟨rfl, rfl⟩ <;> rcases h2 with ⟨rfl, h⟩ | ⟨rfl, h⟩ <;> first | rfl | cases h
  · rw [hg]
    intro _ i v hi hiw hv hs
    left
    have := reaches_le scalarWrt_ok hi
    have l1 : ¬ Reaches (buildGraph lib scalarWrt) 1 0 := fun h => by
      rcases Relation.ReflTransGen.cases_head h with h | ⟨c, hu, _⟩
      · cases h
      · exact leaf_uses (v := vec1 5) rfl hu
    interval_cases i
    · exact absurd rfl hiw
    · intro p q hp; exact absurd hp (leaf_uses (v := vec1 5) rfl)
    · intro p q hp; exact absurd hp (leaf_uses (v := vec2 1 2) rfl)
    · intro p q hp hq hpw hqw
      rcases bin_uses (cls := chMul) (a := 0) (b := 1) rfl hp with rfl | rfl
      · rcases bin_uses (cls := chMul) (a := 0) (b := 1) rfl hq with rfl | rfl
        · rfl
        · exact absurd hqw l1
      · exact absurd hpw l1
    · have := hv.unique h4.1; injection this with this; subst this; exact absurd hs (by show (2 : ℕ) ≠ 1; decide)
    · have := hv.unique h5.1; injection this with this; subst this; exact absurd hs (by show (2 : ℕ) ≠ 1; decide)
  · rw [hg]
    intro i hi _
    have := reaches_le scalarWrt_ok hi
    interval_cases i
    · exact h0.2.for 0
    · exact h1.2.for 0
    · exact h2.2.for 0
    · exact h3.2.for 0
    · exact h4.2.for 0
    · exact h5.2.for 0

theorem vec1_ext {u v : Arr} (hu : u.shape = [1]) (hv : v.shape = [1]) (h : u.vec 0 = v.vec 0) : u = v := by
  refine Arr.ext_vec (hu.trans hv.symm) ?_
  intro k hk
  have : k = 0 := by
    have h2 : k < u.shape.prod := hk
    rw [hu] at h2; simpa using h2
  rw [this]; exact h

theorem bcast_vec1 (f : ℝ → ℝ → ℝ) (x y : ℝ) : bcastVal f (vec1 x) (vec1 y) [1] = vec1 (f x y) := by
  refine vec1_ext rfl rfl ?_
  rw [bcastVal, Arr.vec_of _ _ (by decide)]
  simp [vec1, bidx, bidxR, Arr.vec]

theorem vec1_put (x : ℝ) (t : Fin (vec1 x).size → ℝ) : (vec1 x).put t = vec1 (t ⟨0, Nat.one_pos⟩) := by
  refine vec1_ext rfl rfl ?_
  simp [vec1, Arr.put, Arr.vec]; rfl

theorem bidx_one : bidx [1] [1] 0 = 0 := rfl

/-- `a = Ch([1]); b = Ch([0]); p = a + b; y = p*p` -/
noncomputable def twice : List (ObjSpec ClassDef Par) :=
  [leafO (vec1 1), leafO (vec1 0), binO chAdd 0 1, binO chMul 2 2]
theorem twice_ok : WellBuilt lib twice :=
  OkFrom.wellBuilt ⟨leafO_ok _ _, leafO_ok _ _, binO_ok (by decide) (by decide) rfl, binO_ok (by decide) (by decide) rfl, trivial⟩ rfl

theorem twice_vals (x : ℝ) (g : Graph ClassDef Par) (h0 : Means lib g (.r 0) (.ok (vec1 x))) (hg : ∀ i, i ≠ 0 → g i = buildGraph lib twice i) :
    (Means lib g (.r 1) (.ok (vec1 0)) ∧ Exactly g 1) ∧ (Means lib g (.r 2) (.ok (vec1 (x + 0))) ∧ Exactly g 2) ∧
      (Means lib g (.r 3) (.ok (vec1 ((x + 0) * (x + 0)))) ∧ Exactly g 3) := by
  have h1 := leaf_means (g := g) (i := 1) (v := vec1 0) (by rw [hg _ (by decide)]; rfl) (by simp [vec1])
  have h2 := bin_means (g := g) (i := 2) (a := 0) (b := 1) (c := chAdd) (by rw [hg _ (by decide)]; rfl) h0 h1.1
    (exact_add _ (o := [1]) (by rfl))
  rw [bcast_vec1] at h2
  have h3 := bin_means (g := g) (i := 3) (a := 2) (b := 2) (c := chMul) (by rw [hg _ (by decide)]; rfl) h2.1 h2.1
    (exact_mul _ (o := [1]) (by rfl))
  rw [bcast_vec1] at h3
  exact ⟨h1, h2, h3⟩

theorem twice_dr : MeansDr lib (buildGraph lib twice) 3 0 (.ok (some (.dense 1 1 fun _ _ => 4))) := by
  have h0 := leaf_means (g := buildGraph lib twice) (i := 0) (v := vec1 1) rfl (by simp [vec1])
  obtain ⟨h1, h2, h3⟩ := twice_vals 1 (buildGraph lib twice) h0.1 (fun _ _ => rfl)
  have np := twice_ok.notPermute
  have c20 : CompIs lib (buildGraph lib twice) 2 0 (some (.num 1)) :=
    compIs_bin (c := chAdd) rfl h0.1 h1.1 h2.1 (by decide) (S := [nmA]) rfl ⟨0, by simp [chAdd, runBody, env2, broadcastMatrix, one1, vec1, retOr]⟩
  have c32 : CompIs lib (buildGraph lib twice) 3 2 (some (.dense 1 1 fun _ _ => 2)) :=
    compIs_bin (c := chMul) rfl h2.1 h2.1 h3.1 (by decide) (S := [nmA, nmB]) rfl
      ⟨0, by simp [chMul, runBody, env2, broadcastMatrix, one1, vec1, retOr, bshape_self, Arr.vec, bidx_one]⟩
  have d20 := drIs (SlicedIs.some c20) (TermsIs.wrt (k := nmA) rfl (TermsIs.none (k := nmB) (p := 1) rfl (by decide)
    (leaf_none (i := 1) (w := 0) (v := vec1 0) rfl (by decide) (np 0)) (.nil _ _ _))) (r := some (.num 1)) rfl
  have e20 : (some (Jac.num 1)).map (fun d => lib.outForm (buildGraph lib twice 2).makeDense (buildGraph lib twice 2).makeSparse (lib.finish d)) = some (.dense 1 1 fun _ _ => 1) := by
    show some (Jac.finish (.num 1)) = _
    simp [Jac.finish]
  rw [e20] at d20
  have c30 : CompIs lib (buildGraph lib twice) 3 0 none := compIs_none lib_localDr (by decide) rfl
  have sd : Jac.superdot (.dense 1 1 fun _ _ => 2) (.dense 1 1 fun _ _ => 1) = .ok (.num 2) := by
    simp [Jac.superdot, Jac.unwrap, Jac.scale]
  have d30 := drIs (SlicedIs.none c30 (np 0)) (TermsIs.some (k := nmA) (p := 2) rfl (by decide) d20 (SlicedIs.some c32) sd
    (TermsIs.some (k := nmB) (p := 2) rfl (by decide) d20 (SlicedIs.some c32) sd (.nil _ _ _))) (r := some (.num 4)) (by
      have e : (2 : ℝ) + 2 = 4 := by norm_num
      simp [sumD, List.foldlM, Jac.add, bind, Except.bind, Except.map, pure, Except.pure, e])
  have e30 : (some (Jac.num 4)).map (fun d => lib.outForm (buildGraph lib twice 3).makeDense (buildGraph lib twice 3).makeSparse (lib.finish d)) = some (.dense 1 1 fun _ _ => 4) := by
    show some (Jac.finish (.num 4)) = _
    simp [Jac.finish]
  rw [e30] at d30
  exact d30

theorem twice_true : HasJacobian (buildGraph lib twice) 3 0 (vec1 1) (vec1 1) (fun _ _ => 2) := by
  have h0 := leaf_means (g := buildGraph lib twice) (i := 0) (v := vec1 1) rfl (by simp [vec1])
  obtain ⟨_, _, h3⟩ := twice_vals 1 (buildGraph lib twice) h0.1 (fun _ _ => rfl)
  refine ⟨by simpa using h3.1, h0.1, fun t _ => t ⟨0, Nat.one_pos⟩ * t ⟨0, Nat.one_pos⟩, Filter.Eventually.of_forall fun t => ?_, ?_⟩
  · obtain ⟨_, _, h⟩ := twice_vals (t ⟨0, Nat.one_pos⟩) (setTo (buildGraph lib twice) 0 ((vec1 1).put t))
      (by rw [← vec1_put]; exact means_setTo _ _ _) (fun i hi => by simp [setTo, hi])
    rw [show (vec1 1).put (fun _ => t ⟨0, Nat.one_pos⟩ * t ⟨0, Nat.one_pos⟩) = vec1 (t ⟨0, Nat.one_pos⟩ * t ⟨0, Nat.one_pos⟩) from vec1_put 1 _]
    simpa using h.1
  · rw [hasFDerivAt_pi']
    intro i
    have hp := hasFDerivAt_apply (𝕜 := ℝ) (⟨0, Nat.one_pos⟩ : Fin (vec1 1).size) (vec1 1).data
    refine (hp.mul hp).congr_fderiv ?_
    refine ContinuousLinearMap.ext fun x => ?_
    show _ = Ent.lin (vec1 1).size (vec1 1).size (fun _ _ => 2) x i
    rw [Ent.lin_apply]
    refine Eq.trans ?_ (Fin.sum_univ_one (fun j : Fin 1 => (2 : ℝ) * x j)).symm
    show (1 : ℝ) * x ⟨0, Nat.one_pos⟩ + 1 * x ⟨0, Nat.one_pos⟩ = 2 * x ⟨0, Nat.one_pos⟩
    ring
end ADDemo

open ADDemo in
/-- C18 in full is false: in `y = p*p` with an inner object `p` the contribution of `p` is counted twice. -/
theorem C18_full_refuted : ¬ C18_full := by
  intro hall
  obtain ⟨h, hr, hg⟩ := twice_ok.reach ⟨False, True⟩
  have h0 := leaf_means (g := buildGraph lib twice) (i := 0) (v := vec1 1) rfl (by simp [vec1])
  obtain ⟨h1, h2, h3⟩ := twice_vals 1 (buildGraph lib twice) h0.1 (fun _ _ => rfl)
  obtain ⟨_, f, hf⟩ := twice_dr
  have hd : (drWrt lib f 3 0 h).2 = .ok (some (.dense 1 1 fun _ _ => 4)) := by
    have := (C02_derivative_never_stale_partial lib_propsOk lib_plainForm hr f 3 0 (by rw [hg]; exact twice_ok.notPermute 0)).2.2
    rw [hg, hf] at this
    exact this (by simp)
  obtain ⟨vy, M, hJ, hM⟩ := hall h hr (by rw [hg]; exact twice_ok.acyclic)
    (by rw [hg]; exact twice_ok.dnames_nodup) f 3 0 (vec1 1) _ (by rw [hg]; exact h0.1)
    (by
      rw [hg]
      intro i hi
      have := reaches_le twice_ok hi
      interval_cases i
      · exact h0.2.correct 0
      · exact h1.2.correct 0
      · exact h2.2.correct 0
      · exact h3.2.correct 0) hd
  rw [hg] at hJ
  obtain ⟨rfl, _, he⟩ := hJ.unique twice_true
  have e1 := he 0 (by decide) 0 (by decide)
  have e2 := hM.2.2 0 (by decide) 0 (by decide)
  rw [← e2] at e1
  norm_num at e1

open ADDemo in
/-- Further: `p.dr_wrt(p)` of an inner object is `None`, not the identity. -/
theorem C18_inner_wrt_itself_refuted : ∃ h, Reach lib ⟨False, True⟩ h ∧
    (∃ f₀, ∀ f ≥ f₀, (drWrt lib f 2 2 h).2 = .ok none) ∧ HasJacobian h.graph 2 2 (vec1 1) (vec1 1) Ent.one := by
  obtain ⟨h, hr, hg⟩ := twice_ok.reach ⟨False, True⟩
  have h0 := leaf_means (g := buildGraph lib twice) (i := 0) (v := vec1 1) rfl (by simp [vec1])
  obtain ⟨_, h2, _⟩ := twice_vals 1 (buildGraph lib twice) h0.1 (fun _ _ => rfl)
  rw [add_zero] at h2
  have np := twice_ok.notPermute
  refine ⟨h, hr, ?_, ?_⟩
  · have c22 : CompIs lib (buildGraph lib twice) 2 2 none := ⟨0, by
      unfold evalCompDr
      rw [show (buildGraph lib twice 2).namesOf 2 = [] from rfl, show (buildGraph lib twice 2).cls = chAdd from rfl]
      simp [chAdd, evalProg]⟩
    have d := drIs (r := none) (SlicedIs.none c22 (np 2)) (TermsIs.none (k := nmA) (p := 0) rfl (by decide)
      (leaf_none (i := 0) (w := 2) (v := vec1 1) rfl (by decide) (np 2)) (TermsIs.none (k := nmB) (p := 1) rfl (by decide)
      (leaf_none (i := 1) (w := 2) (v := vec1 0) rfl (by decide) (np 2)) (.nil _ _ _))) rfl
    obtain ⟨_, f₀, hf₀⟩ := d
    refine ⟨f₀, fun f hf => ?_⟩
    have := (C02_derivative_never_stale_partial lib_propsOk lib_plainForm hr f 2 2 (by rw [hg]; exact np 2)).2.2
    rw [hg, evalDr_up hf hf₀] at this
    exact this (by simp)
  · rw [hg]
    refine ⟨h2.1, h2.1, fun t => t, Filter.Eventually.of_forall fun t => means_setTo _ _ _, ?_⟩
    rw [Ent.lin_one]; exact hasFDerivAt_id _

namespace ADDemo
/-- `a = Ch([1]); z = Ch([0]); y = a + a*z` -/
noncomputable def single : List (ObjSpec ClassDef Par) :=
  [leafO (vec1 1), leafO (vec1 0), binO chMul 0 1, binO chAdd 0 2]
theorem single_ok : WellBuilt lib single :=
  OkFrom.wellBuilt ⟨leafO_ok _ _, leafO_ok _ _, binO_ok (by decide) (by decide) rfl, binO_ok (by decide) (by decide) rfl, trivial⟩ rfl
end ADDemo

open ADDemo in
/-- C18 with a `w` of one entry: `y = a + a*z` at `z = 0` meets all other hypotheses, and `y.dr_wrt(a)` raises. -/
theorem C18_single_entry_refuted : ∃ h, Reach lib ⟨False, True⟩ h ∧ Acc (fun a b => Uses h.graph b a) 3 ∧
    ChainOk lib h.graph 3 0 ∧ Means lib h.graph (.r 0) (.ok (vec1 1)) ∧
    (∀ i, Reaches h.graph 3 i → i ≠ 0 → Exactly h.graph i) ∧
    ∃ e f₀, ∀ f ≥ f₀, (drWrt lib f 3 0 h).2 = .error e := by
  obtain ⟨h, hr, hg⟩ := single_ok.reach ⟨False, True⟩
  have np := single_ok.notPermute
  have h0 := leaf_means (g := buildGraph lib single) (i := 0) (v := vec1 1) rfl (by simp [vec1])
  have h1 := leaf_means (g := buildGraph lib single) (i := 1) (v := vec1 0) rfl (by simp [vec1])
  have h2 := bin_means (g := buildGraph lib single) (i := 2) (a := 0) (b := 1) (c := chMul) rfl h0.1 h1.1
    (exact_mul _ (o := [1]) (by rfl))
  rw [bcast_vec1] at h2
  have h3 := bin_means (g := buildGraph lib single) (i := 3) (a := 0) (b := 2) (c := chAdd) rfl h0.1 h2.1
    (exact_add _ (o := [1]) (by rfl))
  refine ⟨h, hr, by rw [hg]; exact single_ok.acc 3, ?_, by rw [hg]; exact h0.1, ?_, ?_⟩
  · rw [hg]
    refine single_ok.chainOk ?_
    intro o ho k k' p h1 h2 hp
    simp only [single, List.mem_cons, List.not_mem_nil, or_false] at ho
    rcases ho with rfl | rfl | rfl | rfl <;> simp only [leafO, binO, List.mem_cons, List.not_mem_nil, or_false, KW.link.injEq, reduceCtorEq] at h1 h2
    · rcases h1 with ⟨rfl, rfl⟩ | ⟨rfl, rfl⟩ <;> rcases h2 with ⟨rfl, h⟩ | ⟨rfl, h⟩ <;> first | rfl | cases h
    · rcases h1 with ⟨rfl, rfl⟩ | ⟨rfl, rfl⟩ <;> rcases h2 with ⟨rfl, h⟩ | ⟨rfl, h⟩ <;> first | rfl | cases h
  · rw [hg]
    intro i hi _
    have := reaches_le single_ok hi
    interval_cases i
    · exact h0.2
    · exact h1.2
    · exact h2.2
    · exact h3.2
  · have c20 : CompIs lib (buildGraph lib single) 2 0 (some (.dense 1 1 fun _ _ => 0)) :=
      compIs_bin (c := chMul) rfl h0.1 h1.1 h2.1 (by decide) (S := [nmA]) rfl
        ⟨0, by simp [chMul, runBody, env2, broadcastMatrix, one1, vec1, retOr, bshape_self, Arr.vec, bidx_one]⟩
    have d20 := drIs (SlicedIs.some c20) (TermsIs.wrt (k := nmA) rfl (TermsIs.none (k := nmB) (p := 1) rfl (by decide)
      (leaf_none (i := 1) (w := 0) (v := vec1 0) rfl (by decide) (np 0)) (.nil _ _ _))) (r := some (.dense 1 1 fun _ _ => 0)) rfl
    have e20 : (some (Jac.dense 1 1 fun _ _ => 0)).map (fun d => lib.outForm (buildGraph lib single 2).makeDense (buildGraph lib single 2).makeSparse (lib.finish d)) = some (.sparse 1 1 fun _ _ => 0) := by
      show some (Jac.finish (.dense 1 1 fun _ _ => 0)) = _
      simp [Jac.finish, Jac.nnz]
    rw [e20] at d20
    have c30 : CompIs lib (buildGraph lib single) 3 0 (some (.num 1)) :=
      compIs_bin (c := chAdd) rfl h0.1 h2.1 h3.1 (by decide) (S := [nmA]) rfl ⟨0, by simp [chAdd, runBody, env2, broadcastMatrix, one1, vec1, retOr]⟩
    have c32 : CompIs lib (buildGraph lib single) 3 2 (some (.num 1)) :=
      compIs_bin (c := chAdd) rfl h0.1 h2.1 h3.1 (by decide) (S := [nmB]) rfl ⟨0, by simp [chAdd, runBody, env2, broadcastMatrix, one1, vec1, retOr]⟩
    have sd : Jac.superdot (.num 1) (.sparse 1 1 fun _ _ => 0) = .ok (.sparse 1 1 fun _ _ => 0) := by
      simp [Jac.superdot, Jac.unwrap, Jac.scale]
    have d30 := drRaises (e := .user 0) (SlicedIs.some c30) (TermsIs.wrt (k := nmA) rfl (TermsIs.some (k := nmB) (p := 2) rfl (by decide) d20 (SlicedIs.some c32) sd
      (.nil _ _ _))) (by simp [sumD, List.foldlM, Jac.add, bind, Except.bind, Except.map]) (by simp)
    obtain ⟨_, f₀, hf₀⟩ := d30
    refine ⟨.user 0, f₀, fun f hf => ?_⟩
    have e : evalDr lib (buildGraph lib single) f 3 0 = .error (.user 0) := by
      have := evalDr_mono lib (buildGraph lib single) hf 3 0
      rw [Le, hf₀] at this; exact this (by simp)
    have := (C02_derivative_never_stale_partial lib_propsOk lib_plainForm hr f 3 0 (by rw [hg]; exact np 0)).2.2
    rw [hg, e] at this
    exact this (by simp)

/-- C18 for scalars: if `w` and everything between `y` and `w` has one entry and a nonzero derivative, and no class returns a sparse matrix,
`y.dr_wrt(w)` returns the derivative. -/
theorem C18_scalars_return_partial {h : Heap ClassDef Par Arr Jac} (hr : Reach lib ⟨False, True⟩ h) {y w : Id}
    {vw : Arr} (hacc : Acc (fun a b => Uses h.graph b a) y) (hc : ChainOk lib h.graph y w)
    (hw : Means lib h.graph (.r w) (.ok vw)) (hvw : vw.size = 1)
    (hob : ∀ i, Reaches h.graph y i → i ≠ w → ExactlyFor h.graph w i) (hyw : y ≠ w)
    (hown : ∀ i, Reaches h.graph y i → i ≠ w → ∀ p f d, Uses h.graph i p → Reaches h.graph p w →
      evalSliced lib h.graph f i p = .ok (some d) → d.NotSparse)
    (hnz : ∀ i v M, Reaches h.graph y i → i ≠ w → Reaches h.graph i w → HasJacobian h.graph i w v vw M → i ≠ y → v.size = 1 ∧ M 0 0 ≠ 0) :
    ∃ vy M, HasJacobian h.graph y w vy vw M ∧
      ∃ f₀, ∀ f ≥ f₀, ∃ o, (drWrt lib f y w h).2 = .ok o ∧ num.RepO o vy.size vw.size M := by
  have hp : ∀ i, (h.graph i).makeSparse = false := fun i => ((reach_inv lib_propsOk (fun h => False.elim h) hr).flags trivial i).2
  refine C18_single_entry_returns_partial hr hacc hc hw (fun _ i v hi hiw _ _ => Or.inr ?_) hob hyw
  refine noSparse_of_nonzero (hc.sub hi) hw hvw (fun j hj hjw => (hob j (hi.trans hj) hjw).correct) ?_ hiw hp
    (fun j hj => hown j (hi.trans hj)) (fun j v M hj hjw hjw' hJ hji => hnz j v M (hi.trans hj) hjw hjw' hJ ?_)
  · have key : ∀ j, Reaches h.graph y j → Acc (fun a b => Uses h.graph b a) j := by
      intro j hj
      induction hj with
      | refl => exact hacc
      | tail _ hu ih => exact ih.inv hu
    exact key i hi
  · rintro rfl
    rcases Relation.reflTransGen_iff_eq_or_transGen.1 hj with he | ht
    · exact hji he
    · exact hc.acyclic i hi (ht.trans_left hi)

open ADDemo in
/-- `a = Ch([1]); z = Ch([5]); y = a + a*z` meets the hypotheses: the derivative of `a*z` is not zero. -/
example : ∃ h, Reach lib ⟨False, True⟩ h ∧ ∃ vy M, HasJacobian h.graph 3 0 vy (vec1 1) M ∧
    ∃ f₀, ∀ f ≥ f₀, ∃ o, (drWrt lib f 3 0 h).2 = .ok o ∧ num.RepO o vy.size 1 M := by
  have ok : WellBuilt lib [leafO (vec1 1), leafO (vec1 5), binO chMul 0 1, binO chAdd 0 2] :=
    OkFrom.wellBuilt ⟨leafO_ok _ _, leafO_ok _ _, binO_ok (by decide) (by decide) rfl, binO_ok (by decide) (by decide) rfl, trivial⟩ rfl
  obtain ⟨h, hr, hg⟩ := ok.reach ⟨False, True⟩
  set g := buildGraph lib [leafO (vec1 1), leafO (vec1 5), binO chMul 0 1, binO chAdd 0 2] with hgd
  have np := ok.notPermute
  have h0 := leaf_means (g := g) (i := 0) (v := vec1 1) rfl (by simp [vec1])
  have h1 := leaf_means (g := g) (i := 1) (v := vec1 5) rfl (by simp [vec1])
  have h2 := bin_means (g := g) (i := 2) (a := 0) (b := 1) (c := chMul) rfl h0.1 h1.1 (exact_mul _ (o := [1]) (by rfl))
  rw [bcast_vec1] at h2
  have h3 := bin_means (g := g) (i := 3) (a := 0) (b := 2) (c := chAdd) rfl h0.1 h2.1 (exact_add _ (o := [1]) (by rfl))
  rw [bcast_vec1] at h3
  have c20 : CompIs lib g 2 0 (some (.dense 1 1 fun _ _ => 5)) :=
    compIs_bin (c := chMul) rfl h0.1 h1.1 h2.1 (by decide) (S := [nmA]) rfl
      ⟨0, by simp [chMul, runBody, env2, broadcastMatrix, one1, vec1, retOr, bshape_self, Arr.vec, bidx_one]⟩
  have d20 := drIs (SlicedIs.some c20) (TermsIs.wrt (k := nmA) rfl (TermsIs.none (k := nmB) (p := 1) rfl (by decide)
    (leaf_none (i := 1) (w := 0) (v := vec1 5) rfl (by decide) (np 0)) (.nil _ _ _))) (r := some (.dense 1 1 fun _ _ => 5)) rfl
  have e20 : (some (Jac.dense 1 1 fun _ _ => 5)).map (fun d => lib.outForm (g 2).makeDense (g 2).makeSparse (lib.finish d)) = some (.dense 1 1 fun _ _ => 5) := by
    show some (Jac.finish (.dense 1 1 fun _ _ => 5)) = _
    simp [Jac.finish, Jac.nnz]
  rw [e20] at d20
  have c30 : CompIs lib g 3 0 (some (.num 1)) :=
    compIs_bin (c := chAdd) rfl h0.1 h2.1 h3.1 (by decide) (S := [nmA]) rfl ⟨0, by simp [chAdd, runBody, env2, broadcastMatrix, one1, vec1, retOr]⟩
  have c32 : CompIs lib g 3 2 (some (.num 1)) :=
    compIs_bin (c := chAdd) rfl h0.1 h2.1 h3.1 (by decide) (S := [nmB]) rfl ⟨0, by simp [chAdd, runBody, env2, broadcastMatrix, one1, vec1, retOr]⟩
  have l1 : ¬ Reaches g 1 0 := fun h => by
    rcases Relation.ReflTransGen.cases_head h with h | ⟨c, hu, _⟩
    · cases h
    · exact leaf_uses (v := vec1 5) rfl hu
  have hch : ChainOk lib g 3 0 := by
    refine ok.chainOk ?_
    intro o ho k k' p h1 h2 hp
    simp only [List.mem_cons, List.not_mem_nil, or_false] at ho
    rcases ho with rfl | rfl | rfl | rfl <;> simp only [leafO, binO, List.mem_cons, List.not_mem_nil, or_false, KW.link.injEq, reduceCtorEq] at h1 h2
    all_goals rcases h1 with ⟨rfl, rfl⟩ | ⟨rfl, rfl⟩ <;> rcases h2 with ⟨rfl, h⟩ | ⟨rfl, h⟩ <;> first | rfl | cases h
  have hex : ∀ i, Reaches g 3 i → i ≠ 0 → ExactlyFor g 0 i := by
    intro i hi _
    have := reaches_le ok hi
    interval_cases i
    · exact h0.2.for 0
    · exact h1.2.for 0
    · exact h2.2.for 0
    · exact h3.2.for 0
  refine ⟨h, hr, ?_⟩
  refine C18_scalars_return_partial hr (y := 3) (w := 0) (vw := vec1 1) (by rw [hg]; exact ok.acc 3) (by rw [hg]; exact hch)
    (by rw [hg]; exact h0.1) rfl (by rw [hg]; exact hex) (by decide) ?_ ?_
  · rw [hg]
    intro i hi hi0 p f d hu hpw hd
    have := reaches_le ok hi
    interval_cases i
    · exact absurd rfl hi0
    · exact absurd hu (leaf_uses (v := vec1 5) rfl)
    · rcases bin_uses (cls := chMul) (a := 0) (b := 1) rfl hu with rfl | rfl
      · have := (SlicedIs.some c20).unique ⟨f, hd⟩
        injection this with this; subst this; intro a b E h; cases h
      · exact absurd hpw l1
    · rcases bin_uses (cls := chAdd) (a := 0) (b := 2) rfl hu with rfl | rfl
      · have := (SlicedIs.some c30).unique ⟨f, hd⟩
        injection this with this; subst this; intro a b E h; cases h
      · have := (SlicedIs.some c32).unique ⟨f, hd⟩
        injection this with this; subst this; intro a b E h; cases h
  · rw [hg]
    intro i v M hi hi0 hiw hJ hiy
    have := reaches_le ok hi
    interval_cases i
    · exact absurd rfl hi0
    · exact absurd hiw l1
    · obtain ⟨v', M', hJ', hM'⟩ := jacobian (hch.sub hi) h0.1 (fun j hj hjw => (hex j (hi.trans hj) hjw).correct) (by decide) d20
      have hv := hJ.valY.unique h2.1
      injection hv with hv
      subst hv
      obtain ⟨rfl, _, he⟩ := hJ.unique hJ'
      refine ⟨rfl, ?_⟩
      rw [he 0 (by decide) 0 (by decide), ← hM'.2.2 0 (by decide) 0 (by decide)]
      norm_num
    · exact absurd rfl hiy

/-! ## C21 -/

/-- C21.  For operands standing for an `m × n` and an `n × p` matrix (dense, sparse, 1×1, or a number standing for a
multiple of the identity), `_superdot` returns, and returns the product; it is `None` iff an operand is. -/
theorem C21_superdot_is_composition :
    (∀ (d e : Jac) (m n p : ℕ) (A B : Ent), d.RepI m n A → e.RepI n p B →
      ∃ x, Jac.superdotO (some d) (some e) = .ok (some x) ∧ x.RepI m p (Ent.mul n A B)) ∧
    ∀ d e : Option Jac, Jac.superdotO d e = .ok none ↔ d = none ∨ e = none := by
  constructor
  · intro d e m n p A B hd he
    obtain ⟨x, h1, h2⟩ := Jac.superdot_repI hd he
    exact ⟨x, by simp only [Jac.superdotO, h1]; rfl, h2⟩
  · intro d e
    cases d with
    | none => simp [Jac.superdotO]
    | some d =>
      cases e with
      | none => simp [Jac.superdotO]
      | some e =>
        simp only [Jac.superdotO, reduceCtorEq, or_self, iff_false]
        cases Jac.superdot d e <;> simp [Except.map]

/-- A number times a sparse matrix, and a dense 2×3 times a sparse 3×2. -/
example : (Jac.num 2).RepI 2 2 (fun i j => if i = j then 2 else 0) ∧ (Jac.sparse 2 3 fun i j => i + j).RepI 2 3 (fun i j => i + j) ∧
    (Jac.dense 2 3 fun i j => i * j).RepI 2 3 (fun i j => i * j) ∧ (Jac.sparse 3 2 fun i _ => i).RepI 3 2 (fun i _ => i) :=
  ⟨⟨rfl, fun _ _ _ _ => rfl⟩, ⟨rfl, rfl, fun _ _ _ _ => rfl⟩, ⟨rfl, rfl, fun _ _ _ _ => rfl⟩, ⟨rfl, rfl, fun _ _ _ _ => rfl⟩⟩

/-! ## C22 -/

/-- C22 in full. -/
def C22_full : Prop :=
  ∀ (h : Heap ClassDef Par Arr Jac), Reach lib ⟨False, True⟩ h → ∀ (f : ℕ) (y w : Id) (vy vw : Arr) (d : Jac),
    Means lib h.graph (.r y) (.ok vy) → Means lib h.graph (.r w) (.ok vw) → (drWrt lib f y w h).2 = .ok (some d) →
    d.dims = some (vy.size, vw.size)

/-- The number of entries of an object's value (0 if it has none). -/
noncomputable def objSize (g : Graph ClassDef Par) (i : Id) : ℕ :=
  open Classical in if h : ∃ v, Means lib g (.r i) (.ok v) then h.choose.size else 0

theorem objSize_eq {g : Graph ClassDef Par} {i : Id} {v : Arr} (h : Means lib g (.r i) (.ok v)) : objSize g i = v.size := by
  have he : ∃ v, Means lib g (.r i) (.ok v) := ⟨v, h⟩
  unfold objSize
  rw [dif_pos he]
  have := he.choose_spec.unique h
  injection this with this
  rw [this]

/-- C22.  In every reachable state, for every `w` that is not a slice: if the classes of the objects under `y`, and of
`w`, return matrices with as many rows and columns as the values have entries, so does `y.dr_wrt(w)`.  Missing: classes
that return a number whatever the size (`AtleastNd`, `ChHandle`, `ChLambda`); see `C22_full_refuted`.  There is no
condition on sharing, on differentiability or on what the entries are. -/
theorem C22_jacobian_shape_partial {h : Heap ClassDef Par Arr Jac} (hr : Reach lib ⟨False, True⟩ h) {f : ℕ} {y w : Id}
    {vy vw : Arr} {d : Jac} (hy : Means lib h.graph (.r y) (.ok vy)) (hw : Means lib h.graph (.r w) (.ok vw))
    (hp : lib.isPermute (h.graph w).cls = false)
    (hok : ∀ i, Reaches h.graph y i ∨ i = w → SizesOk h.graph (objSize h.graph) i)
    (hd : (drWrt lib f y w h).2 = .ok (some d)) : d.dims = some (vy.size, vw.size) := by
  obtain ⟨_, f', hf⟩ := (C02_derivative_never_stale_partial lib_propsOk lib_plainForm hr f y w hp).1 _ hd
  have := (evalDr_sizes (hok w (Or.inr rfl)) f' y d (fun i hi => hok i (Or.inl hi)) (fun i k c hk => (reach_str hr).dn i k c hk) hf).1
  rw [objSize_eq hy, objSize_eq hw] at this
  exact this

/-- C22 for slices `w` too, if no slice is assigned to after its construction. -/
theorem C22_jacobian_shape_wrt_slices_partial {h : Heap ClassDef Par Arr Jac} (hr : Reach lib ⟨True, True⟩ h) {f : ℕ} {y w : Id}
    {vy vw : Arr} {d : Jac} (hy : Means lib h.graph (.r y) (.ok vy)) (hw : Means lib h.graph (.r w) (.ok vw))
    (hok : ∀ i, Reaches h.graph y i ∨ i = w → SizesOk h.graph (objSize h.graph) i)
    (hd : (drWrt lib f y w h).2 = .ok (some d)) : d.dims = some (vy.size, vw.size) := by
  obtain ⟨_, f', hf⟩ := (C02_derivative_wrt_slices_partial lib_propsOk lib_localDr lib_plainForm hr f y w).1 _ hd
  have := (evalDr_sizes (hok w (Or.inr rfl)) f' y d (fun i hi => hok i (Or.inl hi)) (fun i k c hk => (reach_str hr).dn i k c hk) hf).1
  rw [objSize_eq hy, objSize_eq hw] at this
  exact this

/-- Classes that are exact return matrices of the right size. -/
theorem Exactly.sizesOk {g : Graph ClassDef Par} {i : Id} (h : Exactly g i) (hnd : (g i).dnames.Nodup)
    (hdecl : ∀ k c, (g i).dterms k = some c → k ∈ (g i).dnames)
    (hself : ∀ f d, evalCompDr lib g f i i = .ok (some d) → ∃ E, Jac.Rep d (objSize g i) (objSize g i) E) :
    SizesOk g (objSize g) i := by
  intro f p d hd
  by_cases hp : i = p
  · subst hp; exact hself f d hd
  · by_cases hS : (g i).namesOf p = []
    · have := CompIs.unique ⟨f, hd⟩ (compIs_none lib_localDr hp hS)
      cases this
    · obtain ⟨out, v, P, hout, hv, hE⟩ := h
      obtain ⟨k, hk⟩ := List.exists_mem_of_ne_nil _ hS
      have hkp : (g i).dterms k = some p := by
        simp only [GNode.namesOf, List.mem_filter, decide_eq_true_eq] at hk; exact hk.2
      have hkl : k ∈ (g i).links := by
        simp only [GNode.links, List.mem_filter]; exact ⟨hdecl k p hkp, by rw [hkp]; rfl⟩
      obtain ⟨a, ha⟩ := List.get_of_mem hkl
      have hx := hv a
      rw [ha, GNode.kid, hkp] at hx
      have hx' : Means lib g (.r p) (.ok (v a)) := hx
      obtain ⟨f', d', h1, E, h2⟩ := compDr_total hnd hout hv (hE.on (fun _ => True) _) hp (fun _ _ => trivial) hx'
      have := CompIs.unique (s := lib) (g := g) ⟨f, hd⟩ ⟨f', h1⟩
      subst this
      rw [objSize_eq hout, objSize_eq hx']
      exact ⟨E, h2⟩

open ADDemo in
/-- The hypothesis is met by all objects of `y = a*b + a`. -/
theorem ADDemo.sharing_sizes : ∀ i < 4, SizesOk (buildGraph lib sharing) (objSize (buildGraph lib sharing)) i := by
  intro i hi
  have hc := sharing_chain
  refine (sharing_exact i hi).sizesOk (WellBuilt.dnames_nodup sharing_ok i) (hc.decl i) ?_
  have leaf : ∀ i v, buildGraph lib sharing i = (leafO v).node → ∀ f d, evalCompDr lib (buildGraph lib sharing) f i i = .ok (some d) →
      ∃ E, Jac.Rep d (objSize (buildGraph lib sharing) i) (objSize (buildGraph lib sharing) i) E := by
    intro i v h f d hd
    unfold evalCompDr at hd
    rw [show (i == i) = true from by simp, show (buildGraph lib sharing i).cls = chLeaf from by rw [h]; rfl] at hd
    simp only [chLeaf, evalProg] at hd
    split at hd
    · next u hu =>
      cases hd
      rw [objSize_eq (show Means lib _ (.r i) (.ok u) from ⟨by simp, _, hu⟩)]
      exact ⟨_, rfl, rfl, Ent.EqOn.refl _⟩
    · cases hd
  have bin : ∀ i c a b, buildGraph lib sharing i = (binO c a b).node → c.dr true [] = .ret none → (binO c a b).node.namesOf i = [] →
      ∀ f d, evalCompDr lib (buildGraph lib sharing) f i i = .ok (some d) →
      ∃ E, Jac.Rep d (objSize (buildGraph lib sharing) i) (objSize (buildGraph lib sharing) i) E := by
    intro i c a b h hc hn f d hd
    unfold evalCompDr at hd
    rw [show (i == i) = true from by simp, h, hn, show (binO c a b).node.cls = c from rfl, show lib.computeDr c true [] = c.dr true [] from rfl, hc] at hd
    simp only [evalProg] at hd
    cases hd
  interval_cases i
  · exact leaf 0 (vec2 1 2) rfl
  · exact leaf 1 (vec2 3 4) rfl
  · exact bin 2 chMul 0 1 rfl rfl rfl
  · exact bin 3 chAdd 2 0 rfl rfl rfl

namespace ADDemo
/-- `a = Ch([1,2]); y = atleast_2d(a)` -/
noncomputable def lifted : List (ObjSpec ClassDef Par) :=
  [leafO (vec2 1 2), ⟨chAtleast, [nmA], [.link nmA 0, .term nmNdims (.nat 2)]⟩]
theorem lifted_ok : WellBuilt lib lifted := by
  refine OkFrom.wellBuilt ⟨leafO_ok _ _, ⟨?_, by simp, rfl⟩, trivial⟩ rfl
  intro kw hm
  simp only [List.mem_cons, List.not_mem_nil, or_false] at hm
  rcases hm with rfl | rfl
  · exact ⟨by simp, by decide⟩
  · trivial
end ADDemo

open ADDemo in
/-- C22 in full is false: `atleast_2d(a)` of a vector with 2 entries reports a 1×1 Jacobian. -/
theorem C22_full_refuted : ¬ C22_full := by
  intro hall
  obtain ⟨h, hr, hg⟩ := lifted_ok.reach ⟨False, True⟩
  have np := lifted_ok.notPermute
  have h0 := leaf_means (g := buildGraph lib lifted) (i := 0) (v := vec2 1 2) rfl (by simp [vec2])
  have h1 : Means lib (buildGraph lib lifted) (.r 1) (.ok (Arr.of [1, 2] (vec2 1 2).vec)) := by
    obtain ⟨_, f, hf⟩ := h0.1
    refine ⟨by simp, f + 1, ?_⟩
    simp only [evalReq]
    rw [show (buildGraph lib lifted 1).cls = chAtleast from rfl]
    simp only [chAtleast, evalProg]
    rw [show (buildGraph lib lifted 1).dterms nmA = some 0 from rfl]
    dsimp only
    rw [hf]
    dsimp only
    rw [show (buildGraph lib lifted 1).terms nmNdims = some (.nat 2) from rfl]
    simp [evalProg, atleastShape, vec2]
  have c10 : CompIs lib (buildGraph lib lifted) 1 0 (some (.num 1)) := ⟨0, by
    unfold evalCompDr
    rw [show (buildGraph lib lifted 1).namesOf 0 = [nmA] from rfl, show (buildGraph lib lifted 1).cls = chAtleast from rfl]
    simp [chAtleast, evalProg]⟩
  have d10 := drIs (SlicedIs.some c10) (TermsIs.wrt (k := nmA) rfl (.nil _ _ _)) (r := some (.num 1)) rfl
  have e10 : (some (Jac.num 1)).map (fun d => lib.outForm (buildGraph lib lifted 1).makeDense (buildGraph lib lifted 1).makeSparse (lib.finish d)) = some (.dense 1 1 fun _ _ => 1) := by
    show some (Jac.finish (.num 1)) = _
    simp [Jac.finish]
  rw [e10] at d10
  obtain ⟨_, f, hf⟩ := d10
  have hd := (C02_derivative_never_stale_partial lib_propsOk lib_plainForm hr f 1 0 (by rw [hg]; exact np 0)).2.2
  rw [hg, hf] at hd
  have := hall h hr f 1 0 _ _ _ (by rw [hg]; exact h1) (by rw [hg]; exact h0.1) (hd (by simp))
  have e : ((1, 1) : ℕ × ℕ) = (2, 2) := by
    injection this
  cases e
end Chumpy
