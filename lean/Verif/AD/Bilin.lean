import Verif.AD.Compose
import Verif.AD.NdIndex
/-!
# Classes computing sums of products of entries of two children
-/
namespace Chumpy
open scoped BigOperators Topology

/-- Two children that are different objects: `compute_dr_wrt` is never asked about both names at once. -/
theorem exactOn_distinct {c : ClassDef} {tm : Name → Option Par} {v w out : Arr} {P Q : Ent}
    (hv : Returns lib c tm (env2 v w) out) (F : (Fin v.size → ℝ) → (Fin w.size → ℝ) → Fin out.size → ℝ)
    (hr : ∀ᶠ p in 𝓝 (num.fn v.size v, num.fn w.size w), Returns lib c tm (env2 (v.put p.1) (w.put p.2)) (out.put (F p.1 p.2)))
    (hF : HasFDerivAt (fun p : (Fin v.size → ℝ) × (Fin w.size → ℝ) => F p.1 p.2)
      ((Ent.lin out.size v.size P).comp (ContinuousLinearMap.fst ℝ _ _) + (Ent.lin out.size w.size Q).comp (ContinuousLinearMap.snd ℝ _ _))
      (num.fn v.size v, num.fn w.size w))
    (ha : ∃ d, ReturnsDr lib c tm (env2 v w) out [nmA] d ∧ num.RepO d out.size v.size P)
    (hb : ∃ d, ReturnsDr lib c tm (env2 v w) out [nmB] d ∧ num.RepO d out.size w.size Q)
    (A : Fin [nmA, nmB].length → Prop) {I : Fin [nmA, nmB].length → Id} (hI : I (0 : Fin 2) ≠ I (1 : Fin 2)) :
    ExactOn c tm [nmA, nmB] ![v, w] out A I ![P, Q] := by
  have henv : envOf num [nmA, nmB] ![v, w] (fun a => num.fn ((![v, w] : Fin 2 → Arr) a).size ((![v, w] : Fin 2 → Arr) a)) = env2 v w := by
    rw [envOf_two (by decide)]
    show (fun k => if k = nmA then some (v.put (num.fn v.size v)) else if k = nmB then some (w.put (num.fn w.size w)) else Option.none) = _
    rw [put_fn, put_fn]; rfl
  refine ⟨by erw [henv]; exact hv, ?_, ?_⟩
  · let pr : ((a : Fin [nmA, nmB].length) → Fin ((![v, w] : Fin 2 → Arr) a).size → ℝ) →L[ℝ] (Fin v.size → ℝ) × (Fin w.size → ℝ) :=
      (ContinuousLinearMap.proj (R := ℝ) (φ := fun a : Fin 2 => Fin ((![v, w] : Fin 2 → Arr) a).size → ℝ) (0 : Fin 2)).prod
        (ContinuousLinearMap.proj (R := ℝ) (φ := fun a : Fin 2 => Fin ((![v, w] : Fin 2 → Arr) a).size → ℝ) (1 : Fin 2))
    refine ⟨fun u => F (u (0 : Fin 2)) (u (1 : Fin 2)), ?_, ?_⟩
    · have hc : Filter.Tendsto pr (𝓝 (fun a => num.fn _ ((![v, w] : Fin 2 → Arr) a))) (𝓝 (num.fn v.size v, num.fn w.size w)) :=
        pr.continuous.continuousAt
      refine Filter.Eventually.filter_mono nhdsWithin_le_nhds ?_
      filter_upwards [hc.eventually hr] with u hu
      rw [envOf_two (by decide)]
      exact hu
    · have h := HasFDerivAt.comp (fun a => num.fn _ ((![v, w] : Fin 2 → Arr) a)) (f := pr) hF pr.hasFDerivAt
      refine (h.congr_fderiv ?_).hasFDerivWithinAt
      erw [Fin.sum_univ_two]
      rfl
  · intro S x h1 h2 h3 h4
    have hS : S = [nmA] ∨ S = [nmB] := by
      have hn : ¬ (nmA ∈ S ∧ nmB ∈ S) := fun h => hI (h4 (0 : Fin 2) (1 : Fin 2) h.1 h.2)
      cases h2 with
      | cons _ h =>
        cases h with
        | cons _ h => cases h; exact absurd rfl h1
        | cons_cons _ h => cases h; exact Or.inr rfl
      | cons_cons _ h =>
        cases h with
        | cons _ h => cases h; exact Or.inl rfl
        | cons_cons _ h => cases h; exact absurd ⟨by simp, by simp⟩ hn
    erw [henv]
    rcases hS with rfl | rfl
    · have hx : v = x := (h3 (0 : Fin 2) (by simp)).1
      subst hx
      obtain ⟨d, h4, h5⟩ := ha
      refine ⟨d, h4, ?_⟩
      have : (∑ a : Fin 2 with ([nmA, nmB] : List Name).get a ∈ [nmA], (![P, Q] : Fin 2 → Ent) a) = P := by
        rw [Finset.sum_filter]; exact (Fin.sum_univ_two _).trans (by simp)
      erw [this]; exact h5
    · have hx : w = x := (h3 (1 : Fin 2) (by simp)).1
      subst hx
      obtain ⟨d, h4, h5⟩ := hb
      refine ⟨d, h4, ?_⟩
      have : (∑ a : Fin 2 with ([nmA, nmB] : List Name).get a ∈ [nmB], (![P, Q] : Fin 2 → Ent) a) = Q := by
        rw [Finset.sum_filter]; exact (Fin.sum_univ_two _).trans (by simp)
      erw [this]; exact h5

/-! ## Sums of products -/

/-- Each output entry `i` is the sum over `k < K` of a coefficient, an entry of the first and an entry of the second operand. -/
noncomputable def bilin (K : ℕ) (γ : ℕ → ℕ → ℝ) (σ τ : ℕ → ℕ → ℕ) (x y : ℕ → ℝ) (i : ℕ) : ℝ :=
  ∑ k ∈ Finset.range K, γ i k * (x (σ i k) * y (τ i k))

/-- The partial derivatives. -/
noncomputable def bilinMat (K : ℕ) (γ : ℕ → ℕ → ℝ) (σ τ : ℕ → ℕ → ℕ) (y : ℕ → ℝ) : Ent := fun i j =>
  ∑ k ∈ Finset.range K, if σ i k = j then γ i k * y (τ i k) else 0

theorem bilinMat_mul {K n : ℕ} {γ : ℕ → ℕ → ℝ} {σ τ : ℕ → ℕ → ℕ} {y x : ℕ → ℝ} {i : ℕ} (hσ : ∀ k < K, σ i k < n) :
    ∑ j ∈ Finset.range n, bilinMat K γ σ τ y i j * x j = bilin K γ σ τ x y i := by
  unfold bilinMat bilin
  simp_rw [Finset.sum_mul]
  rw [Finset.sum_comm]
  refine Finset.sum_congr rfl fun k hk => ?_
  rw [Finset.sum_eq_single (σ i k)]
  · rw [if_pos rfl]; ring
  · intro j _ hj; rw [if_neg (Ne.symm hj), zero_mul]
  · intro hn; exact absurd (Finset.mem_range.2 (hσ k (Finset.mem_range.1 hk))) hn

theorem bilinMat_lin {K n o : ℕ} {γ : ℕ → ℕ → ℝ} {σ τ : ℕ → ℕ → ℕ} {y : ℕ → ℝ} (hσ : ∀ i < o, ∀ k < K, σ i k < n) (x : ℕ → ℝ) (i : Fin o) :
    Ent.lin o n (bilinMat K γ σ τ y) (fun j => x j) i = bilin K γ σ τ x y i := by
  rw [Ent.lin_apply, ← bilinMat_mul (hσ i i.2)]
  exact Fin.sum_univ_eq_sum_range (fun j => bilinMat K γ σ τ y i j * x j) n

/-- A vector as a function of all naturals. -/
noncomputable def ext0 {n : ℕ} (x : Fin n → ℝ) (j : ℕ) : ℝ := if h : j < n then x ⟨j, h⟩ else 0

theorem ext0_val {n : ℕ} (x : Fin n → ℝ) (j : Fin n) : ext0 x j = x j := dif_pos j.2

theorem Arr.put_vec_ext (v : Arr) (x : Fin v.size → ℝ) : (v.put x).vec = ext0 x := rfl

theorem hasFDerivAt_ext0 {E : Type} [NormedAddCommGroup E] [NormedSpace ℝ E] {n : ℕ} {f : E → Fin n → ℝ} {f' : E →L[ℝ] Fin n → ℝ} {x : E}
    (h : HasFDerivAt f f' x) (j : ℕ) : ∃ L : E →L[ℝ] ℝ, HasFDerivAt (fun p => ext0 (f p) j) L x ∧ ∀ z, L z = ext0 (f' z) j := by
  by_cases hj : j < n
  · refine ⟨(ContinuousLinearMap.proj (R := ℝ) (φ := fun _ : Fin n => ℝ) ⟨j, hj⟩).comp f', ?_, fun z => ?_⟩
    · have := (hasFDerivAt_pi'.1 h) ⟨j, hj⟩
      have e : (fun p => ext0 (f p) j) = fun p => f p ⟨j, hj⟩ := by funext p; exact dif_pos hj
      rw [e]; exact this
    · show f' z ⟨j, hj⟩ = ext0 (f' z) j
      unfold ext0; rw [dif_pos hj]
  · refine ⟨0, ?_, fun z => by show 0 = ext0 (f' z) j; unfold ext0; rw [dif_neg hj]⟩
    have e : (fun p => ext0 (f p) j) = fun _ => 0 := by funext p; exact dif_neg hj
    rw [e]; exact hasFDerivAt_const _ _

theorem hasFDerivAt_bilin {n m o K : ℕ} (γ : ℕ → ℕ → ℝ) {σ τ : ℕ → ℕ → ℕ} (hσ : ∀ i < o, ∀ k < K, σ i k < n)
    (hτ : ∀ i < o, ∀ k < K, τ i k < m) (u : Fin n → ℝ) (v : Fin m → ℝ) :
    HasFDerivAt (fun p : (Fin n → ℝ) × (Fin m → ℝ) => fun i : Fin o => bilin K γ σ τ (ext0 p.1) (ext0 p.2) i)
      ((Ent.lin o n (bilinMat K γ σ τ (ext0 v))).comp (ContinuousLinearMap.fst ℝ _ _) +
        (Ent.lin o m (bilinMat K γ τ σ (ext0 u))).comp (ContinuousLinearMap.snd ℝ _ _)) (u, v) := by
  rw [hasFDerivAt_pi']
  intro i
  have h1 : ∀ j, ∃ L : (Fin n → ℝ) × (Fin m → ℝ) →L[ℝ] ℝ, HasFDerivAt (fun p : (Fin n → ℝ) × (Fin m → ℝ) => ext0 p.1 j) L (u, v) ∧ ∀ z, L z = ext0 z.1 j :=
    fun j => hasFDerivAt_ext0 (ContinuousLinearMap.fst ℝ (Fin n → ℝ) (Fin m → ℝ)).hasFDerivAt j
  have h2 : ∀ j, ∃ L : (Fin n → ℝ) × (Fin m → ℝ) →L[ℝ] ℝ, HasFDerivAt (fun p : (Fin n → ℝ) × (Fin m → ℝ) => ext0 p.2 j) L (u, v) ∧ ∀ z, L z = ext0 z.2 j :=
    fun j => hasFDerivAt_ext0 (ContinuousLinearMap.snd ℝ (Fin n → ℝ) (Fin m → ℝ)).hasFDerivAt j
  choose L1 hL1 hL1' using h1
  choose L2 hL2 hL2' using h2
  have h := HasFDerivAt.fun_sum (u := Finset.range K) fun k _ => ((hL1 (σ i k)).mul (hL2 (τ i k))).const_mul (γ i k)
  refine h.congr_fderiv ?_
  refine ContinuousLinearMap.ext fun z => ?_
  have e1 : Ent.lin o n (bilinMat K γ σ τ (ext0 v)) z.1 i = bilin K γ σ τ (ext0 z.1) (ext0 v) i := by
    rw [← bilinMat_lin hσ, show (fun j : Fin n => ext0 z.1 j) = z.1 from funext (ext0_val z.1)]
  have e2 : Ent.lin o m (bilinMat K γ τ σ (ext0 u)) z.2 i = bilin K γ τ σ (ext0 z.2) (ext0 u) i := by
    rw [← bilinMat_lin hτ, show (fun j : Fin m => ext0 z.2 j) = z.2 from funext (ext0_val z.2)]
  show _ = Ent.lin o n (bilinMat K γ σ τ (ext0 v)) z.1 i + Ent.lin o m (bilinMat K γ τ σ (ext0 u)) z.2 i
  rw [e1, e2]
  unfold bilin
  rw [← Finset.sum_add_distrib, sum_apply]
  refine Finset.sum_congr rfl fun k _ => ?_
  show γ i k * (ext0 u (σ i k) * L2 (τ i k) z + ext0 v (τ i k) * L1 (σ i k) z) = _
  rw [hL1', hL2']; ring

section
variable {c : ClassDef} {tm : Name → Option Par} {u v : Arr} {osh : List ℕ} {K : ℕ} {γ : ℕ → ℕ → ℝ} {σ τ : ℕ → ℕ → ℕ}

theorem exact_bilin (hσ : ∀ i < osh.prod, ∀ k < K, σ i k < u.size) (hτ : ∀ i < osh.prod, ∀ k < K, τ i k < v.size)
    (hc : ∀ u' v' : Arr, u'.shape = u.shape → v'.shape = v.shape → Returns lib c tm (env2 u' v') (Arr.of osh (bilin K γ σ τ u'.vec v'.vec)))
    (ha : ∃ d, ReturnsDr lib c tm (env2 u v) (Arr.of osh (bilin K γ σ τ u.vec v.vec)) [nmA] d ∧
      num.RepO d osh.prod u.size (bilinMat K γ σ τ v.vec))
    (hb : ∃ d, ReturnsDr lib c tm (env2 u v) (Arr.of osh (bilin K γ σ τ u.vec v.vec)) [nmB] d ∧
      num.RepO d osh.prod v.size (bilinMat K γ τ σ u.vec))
    (hab : u = v → ∃ d, ReturnsDr lib c tm (env2 u v) (Arr.of osh (bilin K γ σ τ u.vec v.vec)) [nmA, nmB] d ∧
      num.RepO d osh.prod u.size (bilinMat K γ σ τ v.vec + bilinMat K γ τ σ u.vec)) :
    Exact c tm [nmA, nmB] ![u, v] (Arr.of osh (bilin K γ σ τ u.vec v.vec)) ![bilinMat K γ σ τ v.vec, bilinMat K γ τ σ u.vec] := by
  refine exact_two (hc u v rfl rfl) (fun x y i => bilin K γ σ τ (ext0 x) (ext0 y) i) ?_ ?_ ha hb hab
  · exact Filter.Eventually.of_forall fun p => hc (u.put p.1) (v.put p.2) rfl rfl
  · rw [fn_eq, fn_eq]
    exact hasFDerivAt_bilin γ hσ hτ u.data v.data

theorem exactOn_bilin (hσ : ∀ i < osh.prod, ∀ k < K, σ i k < u.size) (hτ : ∀ i < osh.prod, ∀ k < K, τ i k < v.size)
    (hc : ∀ u' v' : Arr, u'.shape = u.shape → v'.shape = v.shape → Returns lib c tm (env2 u' v') (Arr.of osh (bilin K γ σ τ u'.vec v'.vec)))
    (ha : ∃ d, ReturnsDr lib c tm (env2 u v) (Arr.of osh (bilin K γ σ τ u.vec v.vec)) [nmA] d ∧
      num.RepO d osh.prod u.size (bilinMat K γ σ τ v.vec))
    (hb : ∃ d, ReturnsDr lib c tm (env2 u v) (Arr.of osh (bilin K γ σ τ u.vec v.vec)) [nmB] d ∧
      num.RepO d osh.prod v.size (bilinMat K γ τ σ u.vec))
    (A : Fin [nmA, nmB].length → Prop) {I : Fin [nmA, nmB].length → Id} (hI : I (0 : Fin 2) ≠ I (1 : Fin 2)) :
    ExactOn c tm [nmA, nmB] ![u, v] (Arr.of osh (bilin K γ σ τ u.vec v.vec)) A I ![bilinMat K γ σ τ v.vec, bilinMat K γ τ σ u.vec] := by
  refine exactOn_distinct (hc u v rfl rfl) (fun x y i => bilin K γ σ τ (ext0 x) (ext0 y) i) ?_ ?_ ha hb A hI
  · exact Filter.Eventually.of_forall fun p => hc (u.put p.1) (v.put p.2) rfl rfl
  · rw [fn_eq, fn_eq]
    exact hasFDerivAt_bilin γ hσ hτ u.data v.data
end
end Chumpy
