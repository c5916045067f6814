import Mathlib.Analysis.Calculus.FDeriv.Mul
import Mathlib.Analysis.Calculus.FDeriv.Add
import Mathlib.Analysis.Calculus.Deriv.Inv
import Mathlib.LinearAlgebra.Matrix.Charpoly.Basic
import Mathlib.LinearAlgebra.Matrix.NonsingularInverse
import Mathlib.Topology.Instances.Matrix
import Mathlib.Topology.MetricSpace.ProperSpace.Real
import Mathlib.Data.List.Sort
import Mathlib.Algebra.Polynomial.Roots
/-!
# Singular value decompositions: uniqueness, continuity and derivatives

Nothing here is about chumpy's code; these are the facts of linear algebra and calculus which C59 rests on.
-/
namespace Chumpy
open scoped BigOperators Topology Matrix
open Filter

variable {m n : ℕ}

/-- `A = U diag(d) Vᵀ` is a (thin) singular value decomposition. -/
structure IsSvd (A U : Matrix (Fin m) (Fin n) ℝ) (d : Fin n → ℝ) (V : Matrix (Fin n) (Fin n) ℝ) : Prop where
  eq : A = U * Matrix.diagonal d * Vᵀ
  uu : Uᵀ * U = 1
  vv : Vᵀ * V = 1
  nonneg : ∀ k, 0 ≤ d k
  sorted : Antitone d

namespace IsSvd
variable {A U U' : Matrix (Fin m) (Fin n) ℝ} {d d' : Fin n → ℝ} {V V' : Matrix (Fin n) (Fin n) ℝ}

theorem av (h : IsSvd A U d V) : A * V = U * Matrix.diagonal d := by
  rw [h.eq, Matrix.mul_assoc, h.vv, Matrix.mul_one]

theorem atu (h : IsSvd A U d V) : Aᵀ * U = V * Matrix.diagonal d := by
  rw [h.eq, Matrix.transpose_mul, Matrix.transpose_mul, Matrix.transpose_transpose, Matrix.diagonal_transpose, Matrix.mul_assoc,
    Matrix.mul_assoc, h.uu, Matrix.mul_one]

theorem vv' (h : IsSvd A U d V) : V * Vᵀ = 1 := mul_eq_one_comm.1 h.vv

theorem ata (h : IsSvd A U d V) : Aᵀ * A = V * Matrix.diagonal (fun k => d k * d k) * Vᵀ := by
  calc Aᵀ * A = Aᵀ * A * (V * Vᵀ) := by rw [h.vv', Matrix.mul_one]
    _ = Aᵀ * (A * V) * Vᵀ := by simp only [Matrix.mul_assoc]
    _ = V * (Matrix.diagonal d * Matrix.diagonal d) * Vᵀ := by rw [h.av, ← Matrix.mul_assoc, h.atu, Matrix.mul_assoc V]
    _ = _ := by rw [Matrix.diagonal_mul_diagonal]

theorem charpoly (h : IsSvd A U d V) : (Aᵀ * A).charpoly = ∏ k, (Polynomial.X - Polynomial.C (d k * d k)) := by
  rw [h.ata, Matrix.mul_assoc, Matrix.charpoly_mul_comm, Matrix.mul_assoc, h.vv, Matrix.mul_one, Matrix.charpoly_diagonal]
end IsSvd

theorem antitone_unique {f g : Fin n → ℝ} (hf : Antitone f) (hg : Antitone g)
    (h : Finset.univ.val.map f = Finset.univ.val.map g) : f = g := by
  have h1 : (List.ofFn f).Perm (List.ofFn g) := by
    rw [← Multiset.coe_eq_coe, List.ofFn_eq_map, List.ofFn_eq_map, ← Multiset.map_coe, ← Multiset.map_coe]
    exact h
  have := h1.eq_of_sortedGE hf.sortedGE_ofFn hg.sortedGE_ofFn
  exact List.ofFn_injective this

/-- The singular values of a matrix are unique. -/
theorem IsSvd.unique {A U U' : Matrix (Fin m) (Fin n) ℝ} {d d' : Fin n → ℝ} {V V' : Matrix (Fin n) (Fin n) ℝ}
    (h : IsSvd A U d V) (h' : IsSvd A U' d' V') : d = d' := by
  have hp : ∏ k, (Polynomial.X - Polynomial.C (d k * d k)) = ∏ k, (Polynomial.X - Polynomial.C (d' k * d' k)) := by
    rw [← h.charpoly, ← h'.charpoly]
  have hr := congrArg Polynomial.roots hp
  have hroots : ∀ e : Fin n → ℝ, (∏ k, (Polynomial.X - Polynomial.C (e k))).roots = Finset.univ.val.map e := by
    intro e
    rw [← Polynomial.roots_multiset_prod_X_sub_C (Finset.univ.val.map e), Multiset.map_map]; rfl
  rw [hroots fun k => d k * d k, hroots fun k => d' k * d' k] at hr
  have e := antitone_unique (f := fun k => d k * d k) (g := fun k => d' k * d' k)
    (fun a b hab => mul_le_mul (h.sorted hab) (h.sorted hab) (h.nonneg b) (h.nonneg a))
    (fun a b hab => mul_le_mul (h'.sorted hab) (h'.sorted hab) (h'.nonneg b) (h'.nonneg a)) hr
  funext k
  exact (mul_self_inj (h.nonneg k) (h'.nonneg k)).1 (congrFun e k)

/-- The two linear relations between the singular vectors of two matrices. -/
theorem svd_relations {A U A0 U0 : Matrix (Fin m) (Fin n) ℝ} {d d0 : Fin n → ℝ} {V V0 : Matrix (Fin n) (Fin n) ℝ}
    (h : IsSvd A U d V) (h0 : IsSvd A0 U0 d0 V0) (l k : Fin n) :
    (U0ᵀ * (A - A0) * V) l k = (U0ᵀ * U) l k * d k - d0 l * (V0ᵀ * V) l k ∧
      (V0ᵀ * (A - A0)ᵀ * U) l k = (V0ᵀ * V) l k * d k - d0 l * (U0ᵀ * U) l k := by
  constructor
  · have e : U0ᵀ * (A - A0) * V = U0ᵀ * U * Matrix.diagonal d - Matrix.diagonal d0 * (V0ᵀ * V) := by
      rw [Matrix.mul_sub, Matrix.sub_mul, Matrix.mul_assoc, h.av, ← Matrix.mul_assoc]
      congr 1
      have := congrArg Matrix.transpose h0.atu
      rw [Matrix.transpose_mul, Matrix.transpose_mul, Matrix.transpose_transpose, Matrix.diagonal_transpose] at this
      rw [this, Matrix.mul_assoc]
    rw [e, Matrix.sub_apply, Matrix.mul_diagonal, Matrix.diagonal_mul]
  · have e : V0ᵀ * (A - A0)ᵀ * U = V0ᵀ * V * Matrix.diagonal d - Matrix.diagonal d0 * (U0ᵀ * U) := by
      rw [Matrix.transpose_sub, Matrix.mul_sub, Matrix.sub_mul, Matrix.mul_assoc, h.atu, ← Matrix.mul_assoc]
      congr 1
      have := congrArg Matrix.transpose h0.av
      rw [Matrix.transpose_mul, Matrix.transpose_mul, Matrix.diagonal_transpose] at this
      rw [this, Matrix.mul_assoc]
    rw [e, Matrix.sub_apply, Matrix.mul_diagonal, Matrix.diagonal_mul]

/-- The products of the singular vectors of two matrices form an orthogonal matrix. -/
theorem svd_orth {V V0 : Matrix (Fin n) (Fin n) ℝ} (h : Vᵀ * V = 1) (h0 : V0ᵀ * V0 = 1) (k : Fin n) :
    ∑ l, (V0ᵀ * V) l k * (V0ᵀ * V) l k = 1 := by
  have : (V0ᵀ * V)ᵀ * (V0ᵀ * V) = 1 := by
    rw [Matrix.transpose_mul, Matrix.transpose_transpose, Matrix.mul_assoc, ← Matrix.mul_assoc V0, mul_eq_one_comm.1 h0, Matrix.one_mul, h]
  have := congrFun (congrFun this k) k
  rw [Matrix.mul_apply, Matrix.one_apply_eq] at this
  exact this

theorem sq_ne {d : Fin n → ℝ} (hn : ∀ k, 0 ≤ d k) (hd : Function.Injective d) {k l : Fin n} (h : k ≠ l) : d k * d k - d l * d l ≠ 0 := by
  intro e
  exact h (hd ((mul_self_inj (hn k) (hn l)).1 (sub_eq_zero.1 e)))

/-- Two decompositions of one matrix with distinct singular values differ in the signs of the columns only. -/
theorem svd_signs {A U U0 : Matrix (Fin m) (Fin n) ℝ} {d : Fin n → ℝ} {V V0 : Matrix (Fin n) (Fin n) ℝ}
    (h : IsSvd A U d V) (h0 : IsSvd A U0 d V0) (hd : Function.Injective d) :
    (∀ l k, l ≠ k → (V0ᵀ * V) l k = 0) ∧ ∀ k, (V0ᵀ * V) k k * (V0ᵀ * V) k k = 1 := by
  have hz : ∀ l k, l ≠ k → (V0ᵀ * V) l k = 0 := by
    intro l k hlk
    obtain ⟨h1, h2⟩ := svd_relations h h0 l k
    rw [sub_self] at h1 h2
    simp only [Matrix.mul_zero, Matrix.zero_mul, Matrix.transpose_zero, Matrix.zero_apply] at h1 h2
    have h3 : (V0ᵀ * V) l k * (d k * d k - d l * d l) = 0 := by linear_combination (-d l) * h1 - d k * h2
    rcases mul_eq_zero.1 h3 with h4 | h4
    · exact h4
    · exact absurd h4 (sq_ne h.nonneg hd (Ne.symm hlk))
  refine ⟨hz, fun k => ?_⟩
  have := svd_orth h.vv h0.vv k
  rwa [Finset.sum_eq_single k (fun l _ hl => by rw [hz l k hl, mul_zero]) (fun hk => absurd (Finset.mem_univ k) hk)] at this

/-! ## Continuity -/

theorem entry_le_one {a b : ℕ} {U : Matrix (Fin a) (Fin b) ℝ} (h : Uᵀ * U = 1) (i : Fin a) (k : Fin b) : U i k ∈ Set.Icc (-1 : ℝ) 1 := by
  have h1 := congrFun (congrFun h k) k
  rw [Matrix.mul_apply, Matrix.one_apply_eq] at h1
  have h2 : U i k * U i k ≤ 1 := by
    rw [← h1]
    exact Finset.single_le_sum (f := fun i => Uᵀ k i * U i k) (fun j _ => mul_self_nonneg _) (Finset.mem_univ i)
  have := abs_le_one_iff_mul_self_le_one.2 h2
  exact abs_le.1 this

/-- Matrices with orthonormal columns have a limit along every ultrafilter. -/
theorem ortho_limit {X : Type*} {a b : ℕ} {U : X → Matrix (Fin a) (Fin b) ℝ} {F : Ultrafilter X} (h : ∀ᶠ x in (F : Filter X), (U x)ᵀ * U x = 1) :
    ∃ L : Matrix (Fin a) (Fin b) ℝ, Tendsto U F (𝓝 L) := by
  have hc : IsCompact (Set.pi Set.univ fun _ : Fin a => Set.pi Set.univ fun _ : Fin b => Set.Icc (-1 : ℝ) 1) :=
    isCompact_univ_pi fun _ => isCompact_univ_pi fun _ => isCompact_Icc
  obtain ⟨L, _, hL⟩ := isCompact_iff_ultrafilter_le_nhds'.1 hc (F.map U) (by
    show ∀ᶠ x in (F : Filter X), _
    filter_upwards [h] with x hx i _ k _
    exact entry_le_one hx i k)
  exact ⟨L, hL⟩

section
variable {X : Type*} [TopologicalSpace X] {x0 : X} {A U : X → Matrix (Fin m) (Fin n) ℝ} {d : X → Fin n → ℝ}
  {V : X → Matrix (Fin n) (Fin n) ℝ} {U0 : Matrix (Fin m) (Fin n) ℝ} {d0 : Fin n → ℝ} {V0 : Matrix (Fin n) (Fin n) ℝ}

theorem tendsto_entry {Y : Type*} {a b : ℕ} {f : Y → Matrix (Fin a) (Fin b) ℝ} {F : Filter Y} {L : Matrix (Fin a) (Fin b) ℝ}
    (h : Tendsto f F (𝓝 L)) (i : Fin a) (j : Fin b) : Tendsto (fun y => f y i j) F (𝓝 (L i j)) :=
  tendsto_pi_nhds.1 (tendsto_pi_nhds.1 h i) j

theorem tendsto_mulM {Y : Type*} {a b c : ℕ} {f : Y → Matrix (Fin a) (Fin b) ℝ} {g : Y → Matrix (Fin b) (Fin c) ℝ} {F : Filter Y}
    {L : Matrix (Fin a) (Fin b) ℝ} {K : Matrix (Fin b) (Fin c) ℝ} (h : Tendsto f F (𝓝 L)) (h' : Tendsto g F (𝓝 K)) :
    Tendsto (fun y => f y * g y) F (𝓝 (L * K)) := by
  refine tendsto_pi_nhds.2 fun i => tendsto_pi_nhds.2 fun j => ?_
  simp only [Matrix.mul_apply]
  exact tendsto_finsetSum _ fun l _ => (tendsto_entry h i l).mul (tendsto_entry h' l j)

theorem tendsto_transpose {Y : Type*} {a b : ℕ} {f : Y → Matrix (Fin a) (Fin b) ℝ} {F : Filter Y} {L : Matrix (Fin a) (Fin b) ℝ}
    (h : Tendsto f F (𝓝 L)) : Tendsto (fun y => (f y)ᵀ) F (𝓝 Lᵀ) :=
  tendsto_pi_nhds.2 fun i => tendsto_pi_nhds.2 fun j => tendsto_entry h j i

/-- Along an ultrafilter every family of decompositions has a limit, which is a decomposition of the limit. -/
theorem svd_limit {F : Ultrafilter X} (hF : (F : Filter X) ≤ 𝓝 x0) (hA : ContinuousAt A x0)
    (hs : ∀ᶠ x in 𝓝 x0, IsSvd (A x) (U x) (d x) (V x)) :
    ∃ U1 d1 V1, Tendsto U F (𝓝 U1) ∧ Tendsto d F (𝓝 d1) ∧ Tendsto V F (𝓝 V1) ∧ IsSvd (A x0) U1 d1 V1 := by
  have hs' : ∀ᶠ x in (F : Filter X), IsSvd (A x) (U x) (d x) (V x) := hF hs
  have hA' : Tendsto A F (𝓝 (A x0)) := hA.mono_left hF
  obtain ⟨U1, hU⟩ := ortho_limit (F := F) (U := U) (hs'.mono fun x h => h.uu)
  obtain ⟨V1, hV⟩ := ortho_limit (F := F) (U := V) (hs'.mono fun x h => h.vv)
  have hdE : ∀ᶠ x in (F : Filter X), (fun k => ((U x)ᵀ * A x * V x) k k) = d x := by
    filter_upwards [hs'] with x h
    funext k
    rw [Matrix.mul_assoc, h.av, ← Matrix.mul_assoc, h.uu, Matrix.one_mul, Matrix.diagonal_apply_eq]
  have hd : Tendsto d F (𝓝 fun k => (U1ᵀ * A x0 * V1) k k) := by
    refine Tendsto.congr' hdE ?_
    exact tendsto_pi_nhds.2 fun k => tendsto_entry (tendsto_mulM (tendsto_mulM (tendsto_transpose hU) hA') hV) k k
  have hD : Tendsto (fun x => Matrix.diagonal (d x)) F (𝓝 (Matrix.diagonal fun k => (U1ᵀ * A x0 * V1) k k)) := by
    refine tendsto_pi_nhds.2 fun i => tendsto_pi_nhds.2 fun j => ?_
    by_cases h : i = j
    · subst h; simp only [Matrix.diagonal_apply_eq]; exact tendsto_pi_nhds.1 hd i
    · simp only [Matrix.diagonal_apply_ne _ h]; exact tendsto_const_nhds
  refine ⟨U1, _, V1, hU, hd, hV, ?_, ?_, ?_, ?_, ?_⟩
  · refine tendsto_nhds_unique hA' (Tendsto.congr' ?_ (tendsto_mulM (tendsto_mulM hU hD) (tendsto_transpose hV)))
    filter_upwards [hs'] with x h using h.eq.symm
  · refine tendsto_nhds_unique (tendsto_mulM (tendsto_transpose hU) hU) (Tendsto.congr' ?_ tendsto_const_nhds)
    filter_upwards [hs'] with x h using h.uu.symm
  · refine tendsto_nhds_unique (tendsto_mulM (tendsto_transpose hV) hV) (Tendsto.congr' ?_ tendsto_const_nhds)
    filter_upwards [hs'] with x h using h.vv.symm
  · intro k
    exact ge_of_tendsto (tendsto_pi_nhds.1 hd k) (hs'.mono fun x h => h.nonneg k)
  · intro a b hab
    exact le_of_tendsto_of_tendsto (tendsto_pi_nhds.1 hd b) (tendsto_pi_nhds.1 hd a) (hs'.mono fun x h => h.sorted hab)

/-- The singular values depend continuously on the matrix. -/
theorem svd_values_continuous (hA : ContinuousAt A x0) (hs : ∀ᶠ x in 𝓝 x0, IsSvd (A x) (U x) (d x) (V x)) : ContinuousAt d x0 := by
  refine (tendsto_iff_ultrafilter _ _ _).2 fun F hF => ?_
  obtain ⟨U1, d1, V1, _, hd, _, h1⟩ := svd_limit hF hA hs
  rw [(hs.self_of_nhds).unique h1]
  exact hd

/-- The signs by which the columns differ from those at `x0`. -/
theorem svd_signs_near (hA : ContinuousAt A x0) (hs : ∀ᶠ x in 𝓝 x0, IsSvd (A x) (U x) (d x) (V x)) (hd : Function.Injective (d x0)) :
    Tendsto (fun x => fun l k => (((V x0)ᵀ * V x) l k) ^ 2) (𝓝 x0) (𝓝 fun l k => (1 : Matrix (Fin n) (Fin n) ℝ) l k) := by
  refine (tendsto_iff_ultrafilter _ _ _).2 fun F hF => ?_
  obtain ⟨U1, d1, V1, _, _, hV, h1⟩ := svd_limit hF hA hs
  have h0 := hs.self_of_nhds
  have e := h0.unique h1
  rw [← e] at h1
  obtain ⟨k1, k2⟩ := svd_signs h1 h0 hd
  refine tendsto_pi_nhds.2 fun l => tendsto_pi_nhds.2 fun k => ?_
  have h3 := (tendsto_entry (tendsto_mulM (tendsto_const_nhds (x := (V x0)ᵀ)) hV) l k).pow 2
  have e2 : (1 : Matrix (Fin n) (Fin n) ℝ) l k = (((V x0)ᵀ * V1) l k) ^ 2 := by
    by_cases h : l = k
    · subst h; rw [Matrix.one_apply_eq, pow_two, k2]
    · rw [Matrix.one_apply_ne h, k1 l k h]; simp
  rw [e2]
  exact h3

/-- The sign by which column `k` of `V x` differs from that at `x0`. -/
noncomputable def svdSign (V : X → Matrix (Fin n) (Fin n) ℝ) (x0 x : X) (k : Fin n) : ℝ := if ((V x0)ᵀ * V x) k k < 0 then -1 else 1

omit [TopologicalSpace X] in
theorem svdSign_sq (x : X) (k : Fin n) : svdSign V x0 x k * svdSign V x0 x k = 1 := by
  unfold svdSign; split <;> norm_num

omit [TopologicalSpace X] in
theorem diag_sign_sq (x : X) : Matrix.diagonal (svdSign V x0 x) * Matrix.diagonal (svdSign V x0 x) = 1 := by
  rw [Matrix.diagonal_mul_diagonal]
  simp_rw [svdSign_sq]
  exact Matrix.diagonal_one

/-- Changing the signs of a column of `U` and of the same column of `V` gives a decomposition again. -/
theorem IsSvd.signed {A U : Matrix (Fin m) (Fin n) ℝ} {d : Fin n → ℝ} {V : Matrix (Fin n) (Fin n) ℝ} (h : IsSvd A U d V) {σ : Fin n → ℝ}
    (hσ : Matrix.diagonal σ * Matrix.diagonal σ = 1) : IsSvd A (U * Matrix.diagonal σ) d (V * Matrix.diagonal σ) := by
  have hc : Matrix.diagonal σ * Matrix.diagonal d = Matrix.diagonal d * Matrix.diagonal σ := by
    rw [Matrix.diagonal_mul_diagonal, Matrix.diagonal_mul_diagonal]; congr 1; funext k; ring
  refine ⟨?_, ?_, ?_, h.nonneg, h.sorted⟩
  · rw [Matrix.transpose_mul, Matrix.diagonal_transpose, Matrix.mul_assoc U, hc, ← Matrix.mul_assoc U, Matrix.mul_assoc _ _ (_ * _),
      ← Matrix.mul_assoc _ _ Vᵀ, hσ, Matrix.one_mul, ← h.eq]
  · rw [Matrix.transpose_mul, Matrix.diagonal_transpose, Matrix.mul_assoc, ← Matrix.mul_assoc Uᵀ, h.uu, Matrix.one_mul, hσ]
  · rw [Matrix.transpose_mul, Matrix.diagonal_transpose, Matrix.mul_assoc, ← Matrix.mul_assoc Vᵀ, h.vv, Matrix.one_mul, hσ]

/-- With the signs of the columns adjusted, the right singular vectors depend continuously on the matrix. -/
theorem svd_signed_continuous (hA : ContinuousAt A x0) (hs : ∀ᶠ x in 𝓝 x0, IsSvd (A x) (U x) (d x) (V x)) (hd : Function.Injective (d x0)) :
    ContinuousAt (fun x => V x * Matrix.diagonal (svdSign V x0 x)) x0 ∧ svdSign V x0 x0 = fun _ => 1 := by
  have h0 := hs.self_of_nhds
  have hσ : svdSign V x0 x0 = fun _ => 1 := by
    funext k; unfold svdSign
    rw [h0.vv, Matrix.one_apply_eq, if_neg (by norm_num)]
  refine ⟨?_, hσ⟩
  have hW := svd_signs_near hA hs hd
  have hW' : Tendsto (fun x => (V x0)ᵀ * V x * Matrix.diagonal (svdSign V x0 x)) (𝓝 x0) (𝓝 1) := by
    refine tendsto_pi_nhds.2 fun l => tendsto_pi_nhds.2 fun k => ?_
    have h1 := tendsto_pi_nhds.1 (tendsto_pi_nhds.1 hW l) k
    have h2 := h1.sqrt
    simp_rw [Real.sqrt_sq_eq_abs] at h2
    show Tendsto (fun x => ((V x0)ᵀ * V x * Matrix.diagonal (svdSign V x0 x) : Matrix (Fin n) (Fin n) ℝ) l k) (𝓝 x0)
      (𝓝 ((1 : Matrix (Fin n) (Fin n) ℝ) l k))
    simp_rw [Matrix.mul_diagonal]
    by_cases hlk : l = k
    · subst hlk
      rw [Matrix.one_apply_eq] at *
      rw [Real.sqrt_one] at h2
      refine h2.congr fun x => ?_
      unfold svdSign
      split
      · rename_i h; rw [abs_of_neg h]; ring
      · rename_i h; rw [abs_of_nonneg (not_lt.1 h)]; ring
    · rw [Matrix.one_apply_ne hlk] at *
      rw [Real.sqrt_zero] at h2
      rw [tendsto_zero_iff_abs_tendsto_zero]
      refine h2.congr fun x => ?_
      show _ = |_|
      rw [abs_mul]
      have : |svdSign V x0 x k| = 1 := by unfold svdSign; split <;> norm_num
      rw [this, mul_one]
  have h3 := tendsto_mulM (tendsto_const_nhds (x := V x0)) hW'
  unfold ContinuousAt
  have e : V x0 * Matrix.diagonal (svdSign V x0 x0) = V x0 * 1 := by rw [hσ]; congr 1
  show Tendsto _ _ (𝓝 (V x0 * Matrix.diagonal (svdSign V x0 x0)))
  rw [e]
  refine h3.congr fun x => ?_
  rw [← Matrix.mul_assoc, ← Matrix.mul_assoc, h0.vv', Matrix.one_mul]

/-- If the right singular vectors depend continuously on the matrix, so do the left ones. -/
theorem svd_left_continuous (hA : ContinuousAt A x0) (hs : ∀ᶠ x in 𝓝 x0, IsSvd (A x) (U x) (d x) (V x)) (hp : ∀ k, d x0 k ≠ 0)
    (hV : ContinuousAt V x0) : ContinuousAt U x0 := by
  have hd := svd_values_continuous hA hs
  have h0 := hs.self_of_nhds
  have key : ∀ x, IsSvd (A x) (U x) (d x) (V x) → ∀ i k, d x k ≠ 0 → U x i k = (A x * V x) i k / d x k := by
    intro x h i k hk
    rw [h.av, Matrix.mul_diagonal, mul_div_cancel_right₀ _ hk]
  refine tendsto_pi_nhds.2 fun i => tendsto_pi_nhds.2 fun k => ?_
  have h1 : Tendsto (fun x => (A x * V x) i k / d x k) (𝓝 x0) (𝓝 ((A x0 * V x0) i k / d x0 k)) :=
    (tendsto_entry (tendsto_mulM hA hV) i k).div (tendsto_pi_nhds.1 hd k) (hp k)
  rw [key x0 h0 i k (hp k)]
  refine h1.congr' ?_
  have hk : ∀ᶠ x in 𝓝 x0, d x k ≠ 0 := (tendsto_pi_nhds.1 hd k).eventually_ne (hp k)
  filter_upwards [hs, hk] with x h h' using (key x h i k h').symm

/-- If the right singular vectors depend continuously on the matrix, no sign changes near `x0`. -/
theorem svdSign_near (hs : ∀ᶠ x in 𝓝 x0, IsSvd (A x) (U x) (d x) (V x)) (hV : ContinuousAt V x0) :
    ∀ᶠ x in 𝓝 x0, ∀ k, svdSign V x0 x k = 1 := by
  have h0 := hs.self_of_nhds
  rw [eventually_all]
  intro k
  have h1 := tendsto_entry (tendsto_mulM (tendsto_const_nhds (x := (V x0)ᵀ)) hV) k k
  rw [h0.vv, Matrix.one_apply_eq] at h1
  filter_upwards [h1.eventually (eventually_gt_nhds (by norm_num : (0 : ℝ) < 1))] with x hx
  unfold svdSign
  rw [if_neg (not_lt.2 hx.le)]
end

/-! ## Derivatives -/

section
variable {E : Type*} [NormedAddCommGroup E] [NormedSpace ℝ E] {x0 : E}

/-- The derivative of a product whose first factor vanishes; the second need only be continuous. -/
theorem hasFDerivAt_vanish {f g : E → ℝ} {f' : E →L[ℝ] ℝ} (hf : HasFDerivAt f f' x0) (h0 : f x0 = 0) (hg : ContinuousAt g x0) :
    HasFDerivAt (fun x => f x * g x) (g x0 • f') x0 := by
  refine HasFDerivAt.of_isLittleO ?_
  have h1 : (fun x => f x) =O[𝓝 x0] fun x => x - x0 := by
    have := hf.isBigO_sub
    simpa [h0] using this
  have h2 : (fun x => g x - g x0) =o[𝓝 x0] fun _ => (1 : ℝ) := by
    rw [Asymptotics.isLittleO_one_iff]
    have : Tendsto (fun x => g x - g x0) (𝓝 x0) (𝓝 (g x0 - g x0)) := Tendsto.sub hg tendsto_const_nhds
    rwa [sub_self] at this
  have h3 : (fun x => f x * (g x - g x0)) =o[𝓝 x0] fun x => x - x0 := by
    have := h1.norm_right.mul_isLittleO h2
    simp only [mul_one] at this
    exact this.of_norm_right
  have h4 : (fun x => g x0 * (f x - f x0 - f' (x - x0))) =o[𝓝 x0] fun x => x - x0 := hf.isLittleO.const_mul_left _
  refine (h3.add h4).congr_left fun x => ?_
  simp only [h0, smul_apply, smul_eq_mul]
  ring

variable {A U : E → Matrix (Fin m) (Fin n) ℝ} {d : E → Fin n → ℝ} {V : E → Matrix (Fin n) (Fin n) ℝ}
  {A' : Fin m → Fin n → E →L[ℝ] ℝ}

/-- The derivative of `U0ᵀ A V0`. -/
noncomputable def svdGamma (A' : Fin m → Fin n → E →L[ℝ] ℝ) (U0 : Matrix (Fin m) (Fin n) ℝ) (V0 : Matrix (Fin n) (Fin n) ℝ) (l k : Fin n) :
    E →L[ℝ] ℝ := ∑ i, ∑ j, (U0 i l * V0 j k) • A' i j

theorem hasFDerivAt_G (hA : ∀ i j, HasFDerivAt (fun x => A x i j) (A' i j) x0) (L : Fin m → ℝ) {R : E → Fin n → ℝ}
    (hR : ∀ j, ContinuousAt (fun x => R x j) x0) :
    HasFDerivAt (fun x => ∑ i, ∑ j, L i * (A x i j - A x0 i j) * R x j) (∑ i, ∑ j, (L i * R x0 j) • A' i j) x0 := by
  have h : ∀ i j, HasFDerivAt (fun x => L i * (A x i j - A x0 i j) * R x j) ((L i * R x0 j) • A' i j) x0 := by
    intro i j
    have h1 : HasFDerivAt (fun x => L i * (A x i j - A x0 i j)) (L i • A' i j) x0 := by
      have := ((hA i j).sub_const (A x0 i j)).const_mul (L i)
      exact this
    have h2 := hasFDerivAt_vanish h1 (by simp) (hR j)
    refine h2.congr_fderiv ?_
    rw [smul_smul, mul_comm]
  exact HasFDerivAt.fun_sum fun i _ => HasFDerivAt.fun_sum fun j _ => h i j

omit [NormedSpace ℝ E] in
theorem cont_entry {a b : ℕ} {f : E → Matrix (Fin a) (Fin b) ℝ} (h : ContinuousAt f x0) (i : Fin a) (j : Fin b) :
    ContinuousAt (fun x => f x i j) x0 := tendsto_entry h i j

omit [NormedSpace ℝ E] in
theorem cont_mulM {a b c : ℕ} (L : Matrix (Fin a) (Fin b) ℝ) {f : E → Matrix (Fin b) (Fin c) ℝ} (h : ContinuousAt f x0) (i : Fin a) (j : Fin c) :
    ContinuousAt (fun x => (L * f x) i j) x0 := tendsto_entry (tendsto_mulM tendsto_const_nhds h) i j

theorem G_eq (A A0 U0 : Matrix (Fin m) (Fin n) ℝ) (V : Matrix (Fin n) (Fin n) ℝ) (l k : Fin n) :
    (U0ᵀ * (A - A0) * V) l k = ∑ i, ∑ j, U0 i l * (A i j - A0 i j) * V j k := by
  rw [Matrix.mul_apply]
  simp_rw [Matrix.mul_apply, Finset.sum_mul]
  rw [Finset.sum_comm]; rfl

theorem H_eq (A A0 U : Matrix (Fin m) (Fin n) ℝ) (V0 : Matrix (Fin n) (Fin n) ℝ) (l k : Fin n) :
    (V0ᵀ * (A - A0)ᵀ * U) l k = ∑ i, ∑ j, U i k * (A i j - A0 i j) * V0 j l := by
  rw [Matrix.mul_apply]
  simp_rw [Matrix.mul_apply, Finset.sum_mul]
  refine Finset.sum_congr rfl fun i _ => Finset.sum_congr rfl fun j _ => ?_
  rw [Matrix.transpose_apply, Matrix.transpose_apply, Matrix.sub_apply]; ring

section
variable (hA : ∀ i j, HasFDerivAt (fun x => A x i j) (A' i j) x0) (hs : ∀ᶠ x in 𝓝 x0, IsSvd (A x) (U x) (d x) (V x))
  (hU : ContinuousAt U x0) (hV : ContinuousAt V x0)
include hA

theorem cont_A : ContinuousAt A x0 :=
  tendsto_pi_nhds.2 fun i => tendsto_pi_nhds.2 fun j => (hA i j).continuousAt

include hU hV

theorem deriv_G (l k : Fin n) :
    HasFDerivAt (fun x => ((U x0)ᵀ * (A x - A x0) * V x) l k) (svdGamma A' (U x0) (V x0) l k) x0 ∧
    HasFDerivAt (fun x => ((V x0)ᵀ * (A x - A x0)ᵀ * U x) l k) (svdGamma A' (U x0) (V x0) k l) x0 := by
  constructor
  · simp_rw [G_eq]
    exact hasFDerivAt_G hA (fun i => U x0 i l) (R := fun x j => V x j k) fun j => cont_entry hV j k
  · simp_rw [H_eq]
    have h : ∀ i j, HasFDerivAt (fun x => U x i k * (A x i j - A x0 i j) * V x0 j l) ((U x0 i k * V x0 j l) • A' i j) x0 := by
      intro i j
      have h1 : HasFDerivAt (fun x => (A x i j - A x0 i j) * V x0 j l) (V x0 j l • A' i j) x0 :=
        ((hA i j).sub_const (A x0 i j)).mul_const (V x0 j l)
      have h2 := hasFDerivAt_vanish h1 (by simp) (cont_entry hU i k)
      rw [smul_smul] at h2
      refine h2.congr_of_eventuallyEq (Eventually.of_forall fun x => ?_)
      show _ = _
      ring
    exact HasFDerivAt.fun_sum fun i _ => HasFDerivAt.fun_sum fun j _ => h i j

include hs

/-- The derivative of a singular value. -/
theorem hasFDerivAt_svd_d (k : Fin n) : HasFDerivAt (fun x => d x k) (svdGamma A' (U x0) (V x0) k k) x0 := by
  have h0 := hs.self_of_nhds
  obtain ⟨hG, hH⟩ := deriv_G hA hU hV k k
  have hP := cont_mulM (U x0)ᵀ hU k k
  have hW := cont_mulM (V x0)ᵀ hV k k
  have hPW : ContinuousAt (fun x => ((U x0)ᵀ * U x) k k + ((V x0)ᵀ * V x) k k) x0 := hP.add hW
  have e0 : ((U x0)ᵀ * U x0) k k + ((V x0)ᵀ * V x0) k k = 2 := by rw [h0.uu, h0.vv, Matrix.one_apply_eq]; norm_num
  have hne : ((U x0)ᵀ * U x0) k k + ((V x0)ᵀ * V x0) k k ≠ 0 := by rw [e0]; norm_num
  have h1 := hasFDerivAt_vanish (hG.add hH) (by simp [sub_self]) (hPW.inv₀ hne)
  have h2 : HasFDerivAt (fun x => d x k - d x0 k) (svdGamma A' (U x0) (V x0) k k) x0 := by
    refine (h1.congr_fderiv ?_).congr_of_eventuallyEq ?_
    · show (((U x0)ᵀ * U x0) k k + ((V x0)ᵀ * V x0) k k)⁻¹ • _ = _
      rw [e0, ← two_smul ℝ, smul_smul]; norm_num
    · filter_upwards [hs, hPW.eventually_ne hne] with x hx hx'
      obtain ⟨r1, r2⟩ := svd_relations hx h0 k k
      show _ = (((U x0)ᵀ * (A x - A x0) * V x) k k + ((V x0)ᵀ * (A x - A x0)ᵀ * U x) k k) *
        (((U x0)ᵀ * U x) k k + ((V x0)ᵀ * V x) k k)⁻¹
      rw [r1, r2, eq_mul_inv_iff_mul_eq₀ hx']
      ring
  have h3 := h2.add_const (d x0 k)
  refine h3.congr_of_eventuallyEq (Eventually.of_forall fun x => ?_)
  show _ = _ - _ + _
  ring

variable (hi : Function.Injective (d x0))
include hi

/-- The derivative of an off-diagonal entry of `V0ᵀ V`. -/
theorem hasFDerivAt_svd_W {l k : Fin n} (hlk : l ≠ k) :
    HasFDerivAt (fun x => ((V x0)ᵀ * V x) l k)
      ((d x0 k * d x0 k - d x0 l * d x0 l)⁻¹ • (d x0 l • svdGamma A' (U x0) (V x0) l k + d x0 k • svdGamma A' (U x0) (V x0) k l)) x0 := by
  have h0 := hs.self_of_nhds
  obtain ⟨hG, hH⟩ := deriv_G hA hU hV l k
  have hd := hasFDerivAt_svd_d hA hs hU hV k
  have hne := sq_ne h0.nonneg hi (Ne.symm hlk)
  have hc : ContinuousAt (fun x => d x k * d x k - d x0 l * d x0 l) x0 := (hd.continuousAt.mul hd.continuousAt).sub continuousAt_const
  have h1 : HasFDerivAt (fun x => d x0 l * ((U x0)ᵀ * (A x - A x0) * V x) l k + ((V x0)ᵀ * (A x - A x0)ᵀ * U x) l k * d x k)
      (d x0 l • svdGamma A' (U x0) (V x0) l k + d x0 k • svdGamma A' (U x0) (V x0) k l) x0 :=
    (hG.const_mul (d x0 l)).add (hasFDerivAt_vanish hH (by simp [sub_self]) hd.continuousAt)
  have h2 := hasFDerivAt_vanish h1 (by simp [sub_self]) (hc.inv₀ hne)
  refine h2.congr_of_eventuallyEq ?_
  filter_upwards [hs, hc.eventually_ne hne] with x hx hx'
  obtain ⟨r1, r2⟩ := svd_relations hx h0 l k
  show _ = (d x0 l * ((U x0)ᵀ * (A x - A x0) * V x) l k + ((V x0)ᵀ * (A x - A x0)ᵀ * U x) l k * d x k) *
    (d x k * d x k - d x0 l * d x0 l)⁻¹
  rw [r1, r2, eq_mul_inv_iff_mul_eq₀ hx']
  ring

/-- The derivative of a diagonal entry of `V0ᵀ V`. -/
theorem hasFDerivAt_svd_Wd (k : Fin n) : HasFDerivAt (fun x => ((V x0)ᵀ * V x) k k) (0 : E →L[ℝ] ℝ) x0 := by
  have h0 := hs.self_of_nhds
  have hW := cont_mulM (V x0)ᵀ hV k k
  have e0 : ((V x0)ᵀ * V x0) k k = 1 := by rw [h0.vv, Matrix.one_apply_eq]
  have hc : ContinuousAt (fun x => ((V x0)ᵀ * V x) k k + 1) x0 := hW.add continuousAt_const
  have hne : ((V x0)ᵀ * V x0) k k + 1 ≠ 0 := by rw [e0]; norm_num
  have h1 : HasFDerivAt (fun x => ∑ l ∈ Finset.univ.erase k, ((V x0)ᵀ * V x) l k * ((V x0)ᵀ * V x) l k)
      (∑ l ∈ Finset.univ.erase k, (0 : E →L[ℝ] ℝ)) x0 := by
    refine HasFDerivAt.fun_sum fun l hl => ?_
    have hl' : l ≠ k := (Finset.mem_erase.1 hl).1
    have h2 := hasFDerivAt_svd_W hA hs hU hV hi hl'
    have h3 : ((V x0)ᵀ * V x0) l k = 0 := by rw [h0.vv, Matrix.one_apply_ne hl']
    refine (hasFDerivAt_vanish h2 h3 h2.continuousAt).congr_fderiv ?_
    rw [h3, zero_smul]
  rw [Finset.sum_const_zero] at h1
  have h4 := (hasFDerivAt_vanish h1 (by
    refine Finset.sum_eq_zero fun l hl => ?_
    rw [h0.vv, Matrix.one_apply_ne (Finset.mem_erase.1 hl).1, mul_zero]) (hc.inv₀ hne)).neg.add_const 1
  refine (h4.congr_fderiv (by simp)).congr_of_eventuallyEq ?_
  filter_upwards [hs, hc.eventually_ne hne] with x hx hx'
  have h5 := svd_orth hx.vv h0.vv k
  rw [← Finset.add_sum_erase _ _ (Finset.mem_univ k)] at h5
  show _ = -((∑ l ∈ Finset.univ.erase k, ((V x0)ᵀ * V x) l k * ((V x0)ᵀ * V x) l k) * (((V x0)ᵀ * V x) k k + 1)⁻¹) + 1
  generalize (∑ l ∈ Finset.univ.erase k, ((V x0)ᵀ * V x) l k * ((V x0)ᵀ * V x) l k) = S at *
  generalize ((V x0)ᵀ * V x) k k = w at *
  have : S = (1 - w) * (w + 1) := by linear_combination h5
  rw [this, mul_assoc, mul_inv_cancel₀ hx']
  ring

/-- The derivative of an entry of `V`. -/
theorem hasFDerivAt_svd_V (a k : Fin n) :
    HasFDerivAt (fun x => V x a k) (∑ l ∈ Finset.univ.erase k, V x0 a l •
      ((d x0 k * d x0 k - d x0 l * d x0 l)⁻¹ • (d x0 l • svdGamma A' (U x0) (V x0) l k + d x0 k • svdGamma A' (U x0) (V x0) k l))) x0 := by
  have h0 := hs.self_of_nhds
  have e : ∀ x, V x a k = V x0 a k * ((V x0)ᵀ * V x) k k + ∑ l ∈ Finset.univ.erase k, V x0 a l * ((V x0)ᵀ * V x) l k := by
    intro x
    rw [Finset.add_sum_erase _ (fun l => V x0 a l * ((V x0)ᵀ * V x) l k) (Finset.mem_univ k), ← Matrix.mul_apply, ← Matrix.mul_assoc,
      h0.vv', Matrix.one_mul]
  have h1 := ((hasFDerivAt_svd_Wd hA hs hU hV hi k).const_mul (V x0 a k)).add
    (HasFDerivAt.fun_sum (u := Finset.univ.erase k) (A := fun l x => V x0 a l * ((V x0)ᵀ * V x) l k)
      (A' := fun l => V x0 a l • ((d x0 k * d x0 k - d x0 l * d x0 l)⁻¹ •
        (d x0 l • svdGamma A' (U x0) (V x0) l k + d x0 k • svdGamma A' (U x0) (V x0) k l)))
      fun l hl => (hasFDerivAt_svd_W hA hs hU hV hi (Finset.mem_erase.1 hl).1).const_mul (V x0 a l))
  rw [smul_zero, zero_add] at h1
  exact h1.congr_of_eventuallyEq (Eventually.of_forall fun x => e x)
end
end
end Chumpy
