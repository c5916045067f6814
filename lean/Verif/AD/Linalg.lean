import Mathlib.Analysis.Matrix.Normed
import Mathlib.Analysis.Calculus.FDeriv.Mul
import Mathlib.Analysis.Calculus.FDeriv.Analytic
import Mathlib.Analysis.SpecialFunctions.Log.Deriv
import Mathlib.LinearAlgebra.Matrix.NonsingularInverse
import Verif.AD.Reduce
/-!
# Inverse, determinant and logarithm of the absolute determinant (linalg.py:119-175)

Arithmetic is exact, so a matrix is singular exactly if its determinant is 0.
-/
namespace Chumpy
open scoped BigOperators Topology

/-- The `n` by `n` matrix with the flat entries `x`. -/
def matOf (n : ℕ) (x : ℕ → ℝ) : Matrix (Fin n) (Fin n) ℝ := Matrix.of fun i j => x (i * n + j)

/-- Entry `(i, j)` of a matrix, 0 outside. -/
noncomputable def matEnt {n : ℕ} (A : Matrix (Fin n) (Fin n) ℝ) (i j : ℕ) : ℝ :=
  if h : i < n ∧ j < n then A ⟨i, h.1⟩ ⟨j, h.2⟩ else 0

/-- The flat entries of a matrix. -/
noncomputable def matFlat {n : ℕ} (A : Matrix (Fin n) (Fin n) ℝ) (k : ℕ) : ℝ := matEnt A (k / n) (k % n)

theorem matEnt_fin {n : ℕ} (A : Matrix (Fin n) (Fin n) ℝ) (i j : Fin n) : matEnt A i j = A i j := by
  unfold matEnt; rw [dif_pos ⟨i.2, j.2⟩]

theorem pos_div {n : ℕ} (i j : Fin n) : ((i : ℕ) * n + j) / n = i := by
  rw [Nat.add_comm, Nat.mul_comm, Nat.add_mul_div_left _ _ (by have := j.2; omega), Nat.div_eq_of_lt j.2, Nat.zero_add]
theorem pos_mod {n : ℕ} (i j : Fin n) : ((i : ℕ) * n + j) % n = j := by
  rw [Nat.add_comm, Nat.add_mul_mod_self_right, Nat.mod_eq_of_lt j.2]
theorem pos_lt {n : ℕ} (i j : Fin n) : (i : ℕ) * n + j < n * n := by
  have := j.2
  calc (i : ℕ) * n + j < i * n + n := by omega
    _ = (i + 1) * n := by ring
    _ ≤ n * n := Nat.mul_le_mul_right _ i.2

theorem matFlat_pos {n : ℕ} (A : Matrix (Fin n) (Fin n) ℝ) (i j : Fin n) : matFlat A (i * n + j) = A i j := by
  unfold matFlat; rw [pos_div, pos_mod, matEnt_fin]

theorem matOf_flat {n : ℕ} (A : Matrix (Fin n) (Fin n) ℝ) : matOf n (matFlat A) = A := by
  ext i j; exact matFlat_pos A i j

theorem flat_lt {n k : ℕ} (h : k < n * n) : k / n < n ∧ k % n < n := by
  have hn : 0 < n := by
    rcases Nat.eq_zero_or_pos n with rfl | h'
    · simp at h
    · exact h'
  exact ⟨Nat.div_lt_of_lt_mul h, Nat.mod_lt _ hn⟩

theorem matFlat_of {n : ℕ} (x : ℕ → ℝ) {k : ℕ} (h : k < n * n) : matFlat (matOf n x) k = x k := by
  unfold matFlat matEnt
  rw [dif_pos (flat_lt h)]
  show x (k / n * n + k % n) = x k
  rw [Nat.mul_comm, Nat.div_add_mod]

theorem matOf_congr {n : ℕ} {x y : ℕ → ℝ} (h : ∀ k < n * n, x k = y k) : matOf n x = matOf n y := by
  ext i j; exact h _ (pos_lt i j)

/-- A sum over the entries of a square matrix. -/
theorem sum_flat {n : ℕ} (f : ℕ → ℝ) : ∑ k ∈ Finset.range (n * n), f k = ∑ i : Fin n, ∑ j : Fin n, f (i * n + j) := by
  rw [← Fin.sum_univ_eq_sum_range, ← (finProdFinEquiv (m := n) (n := n)).sum_comp, Fintype.sum_prod_type]
  refine Finset.sum_congr rfl fun i _ => Finset.sum_congr rfl fun j _ => ?_
  simp [finProdFinEquiv, Nat.add_comm, Nat.mul_comm]

/-! ## Classes -/

/-- The flat entries of the `b`-th of a stack of arrays of `q` entries. -/
def blockOf (q b : ℕ) (x : ℕ → ℝ) (k : ℕ) : ℝ := x (b * q + k)

/-- The last two axes and the product of the others. -/
def stackDims (sh : List ℕ) : Option (ℕ × ℕ × ℕ) :=
  match sh.reverse with
  | m :: n :: rest => some (rest.prod, n, m)
  | _ => none

open Classical in
/-- `np.linalg.inv(a)` for a stack of matrices (linalg.py:158): each is inverted; `LinAlgError` if one is singular or the matrices are not
square. -/
noncomputable def invStack (v : Arr) : Option Arr :=
  match stackDims v.shape with
  | some (B, n, m) =>
    if n = m ∧ ∀ b < B, (matOf n (blockOf (n * n) b v.vec)).det ≠ 0 then
      some (Arr.of v.shape fun k => matFlat (matOf n (blockOf (n * n) (k / (n * n)) v.vec))⁻¹ (k % (n * n)))
    else none
  | none => none

/-- `Inv.compute_dr_wrt` for a stack (linalg.py:168-173): `-np.kron(Ainv[i], AinvT[i])` for each matrix, put together by
`sp.block_diag`.  A stack without entries makes `np.reshape` or `np.dstack` raise. -/
noncomputable def invStackDr (out : Arr) : Option Jac :=
  match stackDims out.shape with
  | some (B, n, _) =>
    if B = 0 ∨ n = 0 then none
    else some (.sparse (B * (n * n)) (B * (n * n)) fun i j =>
      if i / (n * n) = j / (n * n) then
        -(matEnt (matOf n (blockOf (n * n) (i / (n * n)) out.vec)) (i % (n * n) / n) (j % (n * n) / n) *
          matEnt (matOf n (blockOf (n * n) (i / (n * n)) out.vec)).transpose (i % (n * n) % n) (j % (n * n) % n))
      else 0)
  | none => none

/-- `Inv` (linalg.py:154-175).  `np.linalg.inv` raises `LinAlgError` for a singular matrix. -/
noncomputable def chInv : ClassDef where
  r := .child nmA fun v =>
    match v.shape with
    | [n, m] => if n = m ∧ (matOf n v.vec).det ≠ 0 then .ret (Arr.of [n, n] (matFlat (matOf n v.vec)⁻¹)) else .raise 1
    | _ => match invStack v with
      | some out => .ret out
      | none => .raise 1
  dr := fun _ S => if nmA ∈ S then .selfR fun out =>
      match out.shape with
      | [n, _] => .ret (some (.dense (n * n) (n * n) fun i j =>
          -(matEnt (matOf n out.vec) (i / n) (j / n) * matEnt (matOf n out.vec).transpose (i % n) (j % n))))
      | _ => match invStackDr out with
        | some d => .ret (some d)
        | none => .raise 1
    else .ret none
  dr_none := rfl

/-- `Det` (linalg.py:143-151) of matrices. -/
noncomputable def chDet : ClassDef where
  r := .child nmA fun v =>
    match v.shape with
    | [n, m] => if n = m then .ret (Arr.of [1] fun _ => (matOf n v.vec).det) else .raise 1
    | _ => .raise 1
  dr := fun _ S => if nmA ∈ S then .selfR fun out => .child nmA fun v =>
      match v.shape with
      | [n, _] => if (matOf n v.vec).det ≠ 0 then
          .ret (some (.dense 1 (n * n) fun _ j => out.vec 0 * matFlat ((matOf n v.vec)⁻¹).transpose j)) else .raise 1
      | _ => .raise 1
    else .ret none
  dr_none := rfl

/-- `LogAbsDet` (linalg.py:119-130) of matrices.  `on_changed` computes the value and `compute_r` hands it out; `on_changed` has been
called since the last change whenever `compute_r` is (C05).  The value −∞ at a singular matrix is modelled as an exception. -/
noncomputable def chLogAbsDet : ClassDef where
  r := .child nmA fun v =>
    match v.shape with
    | [n, m] => if n = m ∧ (matOf n v.vec).det ≠ 0 then .ret (Arr.of [1] fun _ => Real.log |(matOf n v.vec).det|) else .raise 1
    | _ => .raise 1
  dr := fun _ S => if nmA ∈ S then .child nmA fun v =>
      match v.shape with
      | [n, _] => if (matOf n v.vec).det ≠ 0 then
          .ret (some (.dense 1 (n * n) fun _ j => matFlat ((matOf n v.vec)⁻¹).transpose j)) else .raise 1
      | _ => .raise 1
    else .ret none
  dr_none := rfl

/-! ## Derivatives of matrix functions -/

section
variable {n N : ℕ}

/-- The matrix with the flat entries `x`, as a linear map. -/
def matLin (n N : ℕ) (h : N = n * n) : (Fin N → ℝ) →ₗ[ℝ] Matrix (Fin n) (Fin n) ℝ where
  toFun x := Matrix.of fun i j => x ⟨i * n + j, h ▸ pos_lt i j⟩
  map_add' _ _ := rfl
  map_smul' _ _ := rfl

/-- The flat entries. -/
def flatLin (n N : ℕ) (h : N = n * n) : Matrix (Fin n) (Fin n) ℝ →ₗ[ℝ] (Fin N → ℝ) where
  toFun A k := A ⟨k / n, (flat_lt (h ▸ k.2)).1⟩ ⟨k % n, (flat_lt (h ▸ k.2)).2⟩
  map_add' _ _ := rfl
  map_smul' _ _ := rfl

attribute [local instance] Matrix.linftyOpNormedRing Matrix.linftyOpNormedAlgebra

/-- The derivative of the inverse. -/
theorem hasFDerivAt_matInv (h : N = n * n) (x : Fin N → ℝ) (hx : (matLin n N h x).det ≠ 0) :
    HasFDerivAt (fun y => flatLin n N h (matLin n N h y)⁻¹)
      (Ent.lin N N fun i j => -(matEnt (matLin n N h x)⁻¹ (i / n) (j / n) * matEnt ((matLin n N h x)⁻¹).transpose (i % n) (j % n))) x := by
  have hu : IsUnit (matLin n N h x) := (Matrix.isUnit_iff_isUnit_det _).2 (isUnit_iff_ne_zero.2 hx)
  obtain ⟨u, hu⟩ := hu
  have h1 := hasFDerivAt_ringInverse (𝕜 := ℝ) u
  rw [hu] at h1
  have h2 := (LinearMap.toContinuousLinearMap (flatLin n N h)).hasFDerivAt.comp x
    (HasFDerivAt.comp x h1 (LinearMap.toContinuousLinearMap (matLin n N h)).hasFDerivAt)
  have e : (fun y => flatLin n N h (matLin n N h y)⁻¹) =
      (LinearMap.toContinuousLinearMap (flatLin n N h)) ∘ (Ring.inverse ∘ (LinearMap.toContinuousLinearMap (matLin n N h))) := by
    funext y
    show flatLin n N h (matLin n N h y)⁻¹ = flatLin n N h (Ring.inverse (matLin n N h y))
    rw [Matrix.nonsing_inv_eq_ringInverse]
  rw [e]
  refine h2.congr_fderiv ?_
  have hi : (u⁻¹ : (Matrix (Fin n) (Fin n) ℝ)ˣ).val = (matLin n N h x)⁻¹ := by
    rw [← hu]; exact Matrix.coe_units_inv u
  ext y k
  rw [Ent.lin_apply]
  have hk := flat_lt (h ▸ k.2 : (k : ℕ) < n * n)
  show (-(u⁻¹.val * matLin n N h y * u⁻¹.val)) ⟨k / n, hk.1⟩ ⟨k % n, hk.2⟩ = _
  rw [hi]
  generalize (matLin n N h x)⁻¹ = B
  subst h
  rw [Matrix.neg_apply, Matrix.mul_apply]
  simp_rw [Matrix.mul_apply, Finset.sum_mul]
  rw [← (finProdFinEquiv (m := n) (n := n)).sum_comp, Fintype.sum_prod_type, Finset.sum_comm, ← Finset.sum_neg_distrib]
  refine Finset.sum_congr rfl fun i _ => ?_
  rw [← Finset.sum_neg_distrib]
  refine Finset.sum_congr rfl fun j _ => ?_
  have ep : ((finProdFinEquiv (i, j) : Fin (n * n)) : ℕ) = i * n + j := by simp [finProdFinEquiv, Nat.add_comm, Nat.mul_comm]
  rw [ep, pos_div, pos_mod]
  have e1 : matEnt B (k / n) i = B ⟨k / n, hk.1⟩ i := matEnt_fin B ⟨k / n, hk.1⟩ i
  have e2 : matEnt B.transpose (k % n) j = B j ⟨k % n, hk.2⟩ := matEnt_fin B.transpose ⟨k % n, hk.2⟩ j
  have e3 : matLin n (n * n) rfl y i j = y (finProdFinEquiv (i, j)) := by
    show y _ = y _
    congr 1
    exact Fin.ext ep.symm
  rw [e1, e2, e3]
  ring

/-- The determinant as a function of the rows. -/
noncomputable def detRows (n : ℕ) : ContinuousMultilinearMap ℝ (fun _ : Fin n => Fin n → ℝ) ℝ where
  toMultilinearMap := (Matrix.detRowAlternating (n := Fin n) (R := ℝ)).toMultilinearMap
  cont := by
    show Continuous fun A : Matrix (Fin n) (Fin n) ℝ => A.det
    exact Continuous.matrix_det continuous_id

/-- The derivative of a function of the determinant. -/
theorem hasFDerivAt_matDet (h : N = n * n) (x : Fin N → ℝ) (hx : (matLin n N h x).det ≠ 0) {g : ℝ → ℝ} {g' : ℝ}
    (hg : HasDerivAt g g' (matLin n N h x).det) :
    HasFDerivAt (fun y (_ : Fin 1) => g (matLin n N h y).det)
      (Ent.lin 1 N fun _ j => g' * ((matLin n N h x).det * matFlat ((matLin n N h x)⁻¹).transpose j)) x := by
  let L : (Fin N → ℝ) →L[ℝ] (Fin n → Fin n → ℝ) := LinearMap.toContinuousLinearMap
    { toFun := fun y i j => y ⟨i * n + j, h ▸ pos_lt i j⟩, map_add' := fun _ _ => rfl, map_smul' := fun _ _ => rfl }
  have h1 := HasFDerivAt.comp x ((detRows n).hasFDerivAt (L x)) L.hasFDerivAt
  have h2 := HasDerivAt.comp_hasFDerivAt x (f := fun y => detRows n (L y)) (h₂ := g) (h₂' := g') hg h1
  rw [hasFDerivAt_pi']
  intro i
  refine HasFDerivAt.congr_fderiv h2 ?_
  ext y
  rw [ContinuousLinearMap.comp_apply, ContinuousLinearMap.proj_apply]
  change g' * (detRows n).linearDeriv (L x) (L y) = _
  rw [Ent.lin_apply, ContinuousMultilinearMap.linearDeriv_apply]
  have hA : ∀ r, detRows n (Function.update (L x) r (L y r)) = ∑ j, (matLin n N h x).det * (matLin n N h x)⁻¹ j r * L y r j := by
    intro r
    show ((matLin n N h x).updateRow r (L y r)).det = _
    rw [← Matrix.cramer_transpose_apply, Matrix.cramer_eq_adjugate_mulVec, ← Matrix.adjugate_transpose]
    show ∑ j : Fin n, (matLin n N h x).adjugate.transpose r j * L y r j = _
    refine Finset.sum_congr rfl fun j _ => ?_
    congr 1
    rw [Matrix.inv_def, Matrix.transpose_apply, Matrix.smul_apply, Ring.inverse_eq_inv', smul_eq_mul, mul_inv_cancel_left₀ hx]
  simp_rw [hA]
  subst h
  rw [← (finProdFinEquiv (m := n) (n := n)).sum_comp, Fintype.sum_prod_type, Finset.mul_sum]
  refine Finset.sum_congr rfl fun r _ => ?_
  rw [Finset.mul_sum]
  refine Finset.sum_congr rfl fun j _ => ?_
  have ep : ((finProdFinEquiv (r, j) : Fin (n * n)) : ℕ) = r * n + j := by simp [finProdFinEquiv, Nat.add_comm, Nat.mul_comm]
  have e3 : L y r j = y (finProdFinEquiv (r, j)) := by
    show y _ = y _
    congr 1
    exact Fin.ext ep.symm
  rw [ep, matFlat_pos, e3, Matrix.transpose_apply]
  ring
end

/-! ## The classes are exact -/

theorem matOf_put {n : ℕ} {v : Arr} (h : v.size = n * n) (x : Fin v.size → ℝ) : matOf n (v.put x).vec = matLin n v.size h x := by
  ext i j
  exact Arr.vec_put v x ⟨i * n + j, h ▸ pos_lt i j⟩

theorem matOf_fn {n : ℕ} {v : Arr} (h : v.size = n * n) : matLin n v.size h (num.fn v.size v) = matOf n v.vec := by
  rw [← matOf_put h, put_fn]

theorem prod_sq (n : ℕ) : ([n, n] : List ℕ).prod = n * n := by simp

theorem nonsing_near {n : ℕ} {v : Arr} (hs : v.size = n * n) (hv : (matOf n v.vec).det ≠ 0) :
    ∀ᶠ u in 𝓝 (num.fn v.size v), (matOf n (v.put u).vec).det ≠ 0 := by
  have hc : Continuous fun u : Fin v.size → ℝ => (matLin n v.size hs u).det := by
    refine Continuous.matrix_det ?_
    exact continuous_pi fun i => continuous_pi fun j => continuous_apply _
  have := hc.continuousAt.eventually_ne (x := num.fn v.size v) (y := 0) (by rw [matOf_fn hs]; exact hv)
  filter_upwards [this] with u hu
  rw [matOf_put hs]; exact hu

theorem returns_inv {tm : Name → Option Par} {n : ℕ} {v : Arr} (hsh : v.shape = [n, n]) (hv : (matOf n v.vec).det ≠ 0) :
    Returns lib chInv tm (env1 v) (Arr.of [n, n] (matFlat (matOf n v.vec)⁻¹)) := by
  refine ⟨0, ?_⟩
  show runBody _ _ _ _ chInv.r = _
  simp [chInv, runBody, env1, hsh, hv]

/-- `Inv` is exact at an invertible matrix. -/
theorem exact_inv {tm : Name → Option Par} {n : ℕ} {v : Arr} (hsh : v.shape = [n, n]) (hv : (matOf n v.vec).det ≠ 0) :
    Exact chInv tm [nmA] (fun _ => v) (Arr.of [n, n] (matFlat (matOf n v.vec)⁻¹)) fun _ i j =>
      -(matEnt (matOf n v.vec)⁻¹ (i / n) (j / n) * matEnt (matOf n v.vec)⁻¹ (j % n) (i % n)) := by
  have hs : v.size = n * n := by rw [Arr.size, hsh, prod_sq]
  have ho : (Arr.of [n, n] (matFlat (matOf n v.vec)⁻¹)).size = v.size := by rw [hs]; exact prod_sq n
  have hT : ∀ (A : Matrix (Fin n) (Fin n) ℝ) i j, matEnt A.transpose i j = matEnt A j i := by
    intro A i j
    unfold matEnt
    by_cases h : i < n ∧ j < n
    · rw [dif_pos h, dif_pos h.symm]; rfl
    · rw [dif_neg h, dif_neg (fun h' => h h'.symm)]
  refine exact_one (returns_inv hsh hv) (fun x k => flatLin n v.size hs (matLin n v.size hs x)⁻¹ (Fin.cast ho k)) ?_ ?_ ?_
  · filter_upwards [nonsing_near hs hv] with u hu
    have h1 := returns_inv (tm := tm) (v := v.put u) hsh hu
    have e : (Arr.of [n, n] (matFlat (matOf n (v.put u).vec)⁻¹)) =
        (Arr.of [n, n] (matFlat (matOf n v.vec)⁻¹)).put fun k => flatLin n v.size hs (matLin n v.size hs u)⁻¹ (Fin.cast ho k) := by
      show Arr.mk [n, n] _ = Arr.mk [n, n] _
      congr 1
      funext k
      rw [matOf_put hs]
      have hk : (k : ℕ) < n * n := lt_of_lt_of_eq k.2 (prod_sq n)
      show matEnt _ (k / n) (k % n) = _
      unfold matEnt
      rw [dif_pos (flat_lt hk)]; rfl
    rwa [e] at h1
  · have h1 := hasFDerivAt_matInv hs (num.fn v.size v) (by rw [matOf_fn hs]; exact hv)
    rw [matOf_fn hs] at h1
    simp_rw [hT] at h1
    generalize (Arr.of [n, n] (matFlat (matOf n v.vec)⁻¹)).size = N' at ho
    subst ho
    exact h1
  · refine ⟨some (.dense (n * n) (n * n) fun i j =>
      -(matEnt (matOf n v.vec)⁻¹ (i / n) (j / n) * matEnt (matOf n v.vec)⁻¹ (j % n) (i % n))), ⟨0, ?_⟩, ?_⟩
    · show runBody _ _ _ _ (chInv.dr false [nmA]) = _
      have e : matOf n (Arr.of [n, n] (matFlat (matOf n v.vec)⁻¹)).vec = (matOf n v.vec)⁻¹ := by
        rw [← matOf_flat (matOf n v.vec)⁻¹]
        refine matOf_congr fun k hk => ?_
        rw [Arr.vec_of _ _ (by rw [prod_sq]; exact hk), matOf_flat]
      simp only [chInv, runBody, List.mem_singleton, if_true]
      show Except.ok _ = Except.ok _
      rw [e]
      simp_rw [hT]
    · exact ⟨(ho.trans hs).symm, hs.symm, fun _ _ _ _ => rfl⟩

/-- A class whose value is a function of the determinant, defined near an invertible matrix. -/
theorem exact_detFun {c : ClassDef} {tm : Name → Option Par} {n : ℕ} {v : Arr} (hsh : v.shape = [n, n]) (hv : (matOf n v.vec).det ≠ 0)
    {g : ℝ → ℝ} {g' : ℝ} (hg : HasDerivAt g g' (matOf n v.vec).det)
    (hr : ∀ u : Arr, u.shape = [n, n] → (matOf n u.vec).det ≠ 0 → Returns lib c tm (env1 u) (Arr.of [1] fun _ => g (matOf n u.vec).det))
    (hd : ReturnsDr lib c tm (env1 v) (Arr.of [1] fun _ => g (matOf n v.vec).det) [nmA]
      (some (.dense 1 (n * n) fun _ j => g' * ((matOf n v.vec).det * matFlat ((matOf n v.vec)⁻¹).transpose j)))) :
    Exact c tm [nmA] (fun _ => v) (Arr.of [1] fun _ => g (matOf n v.vec).det) fun _ _ j =>
      g' * ((matOf n v.vec).det * matFlat ((matOf n v.vec)⁻¹).transpose j) := by
  have hs : v.size = n * n := by rw [Arr.size, hsh, prod_sq]
  refine exact_one (hr v hsh hv) (fun x _ => g (matLin n v.size hs x).det) ?_ ?_ ⟨_, hd, ?_⟩
  · filter_upwards [nonsing_near hs hv] with u hu
    have h1 := hr (v.put u) hsh hu
    rwa [matOf_put hs] at h1
  · have h1 := hasFDerivAt_matDet hs (num.fn v.size v) (by rw [matOf_fn hs]; exact hv) (g := g) (g' := g') (by rw [matOf_fn hs]; exact hg)
    rw [matOf_fn hs] at h1
    exact h1
  · exact ⟨rfl, hs.symm, fun _ _ _ _ => rfl⟩

theorem exact_det {tm : Name → Option Par} {n : ℕ} {v : Arr} (hsh : v.shape = [n, n]) (hv : (matOf n v.vec).det ≠ 0) :
    Exact chDet tm [nmA] (fun _ => v) (Arr.of [1] fun _ => (matOf n v.vec).det) fun _ _ j =>
      1 * ((matOf n v.vec).det * matFlat ((matOf n v.vec)⁻¹).transpose j) := by
  refine exact_detFun (g := id) hsh hv (hasDerivAt_id _) (fun u hu _ => ⟨0, ?_⟩) ⟨0, ?_⟩
  · show runBody _ _ _ _ chDet.r = _
    simp [chDet, runBody, env1, hu]
  · show runBody _ _ _ _ (chDet.dr false [nmA]) = _
    simp [chDet, runBody, env1, hsh, hv, Arr.vec_of]

theorem exact_logAbsDet {tm : Name → Option Par} {n : ℕ} {v : Arr} (hsh : v.shape = [n, n]) (hv : (matOf n v.vec).det ≠ 0) :
    Exact chLogAbsDet tm [nmA] (fun _ => v) (Arr.of [1] fun _ => Real.log |(matOf n v.vec).det|) fun _ _ j =>
      ((matOf n v.vec).det)⁻¹ * ((matOf n v.vec).det * matFlat ((matOf n v.vec)⁻¹).transpose j) := by
  refine exact_detFun (g := fun t => Real.log |t|) hsh hv ?_ (fun u hu hu' => ⟨0, ?_⟩) ⟨0, ?_⟩
  · simp_rw [Real.log_abs]; exact Real.hasDerivAt_log hv
  · show runBody _ _ _ _ chLogAbsDet.r = _
    simp [chLogAbsDet, runBody, env1, hu, hu']
  · show runBody _ _ _ _ (chLogAbsDet.dr false [nmA]) = _
    simp [chLogAbsDet, runBody, env1, hsh, hv]
end Chumpy
