import Mathlib.Analysis.SpecialFunctions.Gamma.Deriv
import Verif.AD.Linalg
import Verif.AD.Unary
/-!
# `MatVecMult` (ch.py:1171-1184), the sign of `slogdet` (linalg.py:132-140) and `gamma` (extras.py:45-54)
-/
namespace Chumpy
open scoped BigOperators Topology

/-! ## `MatVecMult` -/

/-- The shape of the result (ch.py:1176-1178) of multiplying by a matrix with `m` rows: the rows, or if the vector is given as an array of
several columns, as many columns; `none` if `reshape` raises. -/
def matVecShape (m : ℕ) (sh : List ℕ) : Option (List ℕ) :=
  match sh with
  | _ :: c :: _ => if 1 < c then (if m % c = 0 then some [m / c, c] else none) else some [m]
  | _ => some [m]

/-- `self.mtx.dot(col(self.vec.r.ravel())).ravel()` (ch.py:1175), reshaped; `none` where numpy raises. -/
noncomputable def matVecVal (mtx v : Arr) : Option Arr :=
  match mtx.shape with
  | [m, n] => if n = v.size then
      (matVecShape m v.shape).map fun sh => Arr.of sh fun i => ∑ j ∈ Finset.range n, mtx.vec (i * n + j) * v.vec j
    else none
  | _ => none

/-- `MatVecMult` (ch.py:1171-1184); the attribute `mtx` is an array, dense or sparse. -/
noncomputable def chMatVecMult : ClassDef where
  r := .child nmA fun v => .term nmP fun
    | some (.arr mtx) => match matVecVal mtx v with
      | some out => .ret out
      | none => .raise 1
    | _ => .raise 1
  dr := fun _ S => if nmA ∈ S then .term nmP fun
    | some (.arr mtx) => match mtx.shape with
      | [m, n] => .ret (some (.sparse m n fun i j => mtx.vec (i * n + j)))
      | _ => .raise 1
    | _ => .raise 1
    else .ret none
  dr_none := rfl

theorem matVecShape_prod {m : ℕ} {sh osh : List ℕ} (h : matVecShape m sh = some osh) : osh.prod = m := by
  unfold matVecShape at h
  split at h
  · split at h
    · split at h
      · next h0 => cases h; simp [Nat.div_mul_cancel (Nat.dvd_of_mod_eq_zero h0)]
      · cases h
    · cases h; simp
  · cases h; simp

theorem matVecVal_eq {mtx v : Arr} {m n : ℕ} {osh : List ℕ} (hm : mtx.shape = [m, n]) (hn : n = v.size) (ho : matVecShape m v.shape = some osh) :
    matVecVal mtx v = some (Arr.of osh fun i => ∑ j ∈ Finset.range n, mtx.vec (i * n + j) * v.vec j) := by
  unfold matVecVal
  rw [hm]
  show (if n = v.size then _ else _) = _
  rw [if_pos hn, ho]; rfl

theorem returns_matVec {tm : Name → Option Par} {mtx v : Arr} {m n : ℕ} {osh : List ℕ} (ht : tm nmP = some (.arr mtx))
    (hm : mtx.shape = [m, n]) (hn : n = v.size) (ho : matVecShape m v.shape = some osh) :
    Returns lib chMatVecMult tm (env1 v) (Arr.of osh fun i => ∑ j ∈ Finset.range n, mtx.vec (i * n + j) * v.vec j) := by
  refine ⟨0, ?_⟩
  show runBody _ _ _ _ chMatVecMult.r = _
  simp [chMatVecMult, runBody, env1, ht, matVecVal_eq hm hn ho]

/-- `MatVecMult` is exact. -/
theorem exact_matVec {tm : Name → Option Par} {mtx v : Arr} {m n : ℕ} {osh : List ℕ} (ht : tm nmP = some (.arr mtx))
    (hm : mtx.shape = [m, n]) (hn : n = v.size) (ho : matVecShape m v.shape = some osh) :
    Exact chMatVecMult tm [nmA] (fun _ => v) (Arr.of osh fun i => ∑ j ∈ Finset.range n, mtx.vec (i * n + j) * v.vec j)
      fun _ i j => mtx.vec (i * n + j) := by
  refine exact_one (returns_matVec ht hm hn ho) (fun x => Ent.lin osh.prod v.size (fun i j => mtx.vec (i * n + j)) x) ?_ ?_ ?_
  · refine Filter.Eventually.of_forall fun u => ?_
    have h1 := returns_matVec (tm := tm) (v := v.put u) ht hm hn ho
    have e : (Arr.of osh fun i => ∑ j ∈ Finset.range n, mtx.vec (i * n + j) * (v.put u).vec j) =
        (Arr.of osh fun i => ∑ j ∈ Finset.range n, mtx.vec (i * n + j) * v.vec j).put
          (Ent.lin osh.prod v.size (fun i j => mtx.vec (i * n + j)) u) := by
      show Arr.mk osh _ = Arr.mk osh _
      congr 1
      funext k
      rw [Ent.lin_apply, hn]
      beta_reduce
      rw [← Fin.sum_univ_eq_sum_range]
      exact Finset.sum_congr rfl fun j _ => by rw [Arr.vec_put]
    rwa [e] at h1
  · exact (Ent.lin osh.prod v.size fun i j => mtx.vec (i * n + j)).hasFDerivAt
  · refine ⟨some (.sparse m n fun i j => mtx.vec (i * n + j)), ⟨0, ?_⟩, ?_⟩
    · show runBody _ _ _ _ (chMatVecMult.dr false [nmA]) = _
      simp [chMatVecMult, runBody, ht, hm]
    · exact ⟨(matVecShape_prod ho).symm, hn, fun _ _ _ _ => rfl⟩

/-! ## The sign of the determinant -/

/-- `SignLogAbsDet(LogAbsDet(x))` (linalg.py:132-140, 277-281).  The object holds the `LogAbsDet`, whose value it reads (which runs
`on_changed` after a change, C05) and whose attribute `sign` it returns; in the model it holds `x` itself.  No derivative is ever
reported. -/
noncomputable def chSignDet : ClassDef where
  r := .child nmA fun v =>
    match v.shape with
    | [n, m] => if n = m then .ret (Arr.of [1] fun _ => npSign (matOf n v.vec).det) else .raise 1
    | _ => .raise 1
  dr := fun _ _ => .ret none
  dr_none := rfl

theorem npSign_near {x : ℝ} (hx : x ≠ 0) : ∀ᶠ y in 𝓝 x, npSign y = npSign x := by
  rcases lt_or_gt_of_ne hx with h | h
  · filter_upwards [gt_mem_nhds h] with y hy
    simp [npSign, not_lt.2 hy.le, not_lt.2 h.le, hy, h]
  · filter_upwards [lt_mem_nhds h] with y hy
    simp [npSign, hy, h]

theorem exact_signDet {tm : Name → Option Par} {n : ℕ} {v : Arr} (hsh : v.shape = [n, n]) (hv : (matOf n v.vec).det ≠ 0) :
    Exact chSignDet tm [nmA] (fun _ => v) (Arr.of [1] fun _ => npSign (matOf n v.vec).det) fun _ _ _ => 0 := by
  have hs : v.size = n * n := by rw [Arr.size, hsh, prod_sq]
  have hret : ∀ u : Arr, u.shape = [n, n] → Returns lib chSignDet tm (env1 u) (Arr.of [1] fun _ => npSign (matOf n u.vec).det) := by
    intro u hu
    refine ⟨0, ?_⟩
    show runBody _ _ _ _ chSignDet.r = _
    simp [chSignDet, runBody, env1, hu]
  refine exact_one (hret v hsh) (fun _ _ => npSign (matOf n v.vec).det) ?_ ?_ ⟨none, ⟨0, rfl⟩, fun _ _ _ _ => rfl⟩
  · have hc : Continuous fun u : Fin v.size → ℝ => (matLin n v.size hs u).det := by
      refine Continuous.matrix_det ?_
      exact continuous_pi fun i => continuous_pi fun j => continuous_apply _
    have := (hc.continuousAt (x := num.fn v.size v)).eventually (p := fun y => npSign y = npSign (matOf n v.vec).det)
      (by beta_reduce; rw [matOf_fn hs]; exact npSign_near hv)
    filter_upwards [this] with u hu
    have h1 := hret (v.put u) hsh
    rw [matOf_put hs, hu] at h1
    exact h1
  · refine (hasFDerivAt_const _ _).congr_fderiv ?_
    ext y k
    rw [Ent.lin_apply]; simp

/-! ## `gamma` -/

/-- `gamma` (extras.py:45-54): the value of `scipy.special.gamma` is Euler's Γ, that of `scipy.special.polygamma(0, ·)` its logarithmic
derivative. -/
noncomputable def chGamma : ClassDef where
  r := .child nmA fun v => .ret (Arr.of v.shape fun k => Real.Gamma (v.vec k))
  dr := fun _ S => if nmA ∈ S then .child nmA fun v => .selfR fun out =>
      .ret (some (.sparse v.size v.size fun i j => if i = j then logDeriv Real.Gamma (v.vec i) * out.vec i else 0))
    else .ret none
  dr_none := rfl

theorem gamma_deriv {x : ℝ} (hx : ∀ m : ℕ, x ≠ -m) : HasDerivAt Real.Gamma (logDeriv Real.Gamma x * Real.Gamma x) x := by
  refine (Real.differentiableAt_Gamma hx).hasDerivAt.congr_deriv ?_
  rw [logDeriv_apply, div_mul_cancel₀ _ (Real.Gamma_ne_zero hx)]

theorem dr_gamma {tm : Name → Option Par} {v : Arr} :
    ReturnsDr lib chGamma tm (env1 v) (mapVal Real.Gamma v) [nmA]
      (some (.sparse v.size v.size fun i j => if i = j then logDeriv Real.Gamma (v.vec i) * (mapVal Real.Gamma v).vec i else 0)) :=
  ⟨0, by show runBody _ _ _ _ (chGamma.dr false [nmA]) = _; simp [chGamma, runBody, env1]⟩

theorem returns_gamma {tm : Name → Option Par} (v : Arr) : Returns lib chGamma tm (env1 v) (mapVal Real.Gamma v) :=
  ⟨0, by show runBody _ _ _ _ chGamma.r = _; simp [chGamma, runBody, env1, mapVal]⟩

theorem exact_gamma {tm : Name → Option Par} {v : Arr} (hv : ∀ k < v.size, ∀ m : ℕ, v.vec k ≠ -m) :
    Exact chGamma tm [nmA] (fun _ => v) (mapVal Real.Gamma v) fun _ => diagMat fun k => logDeriv Real.Gamma (v.vec k) * Real.Gamma (v.vec k) := by
  refine exact_map returns_gamma _ (fun k hk => gamma_deriv (hv k hk)) ⟨_, dr_gamma, ?_⟩
  refine ⟨rfl, rfl, fun i hi j _ => ?_⟩
  have hi' : (mapVal Real.Gamma v).vec i = Real.Gamma (v.vec i) := Arr.vec_of _ _ hi
  show (if i = j then _ else 0) = selMat id _ i j
  rw [hi']
  simp [selMat]
end Chumpy
