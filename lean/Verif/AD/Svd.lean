import Verif.AD.SvdMath
import Verif.AD.Linalg
/-!
# Singular value decomposition (linalg.py:58-80, 178-265)

`np.linalg.svd` is a parameter of the classes: any function from matrices to triples.  What it is supposed to do is stated where it
matters.  Arithmetic is exact.
-/
namespace Chumpy
open scoped BigOperators Topology Matrix

/-- A routine like `np.linalg.svd(·, full_matrices=False)` for matrices with at least as many rows as columns, its third result transposed
(linalg.py:183-184). -/
structure SvdFn where
  u : {m n : ℕ} → Matrix (Fin m) (Fin n) ℝ → Matrix (Fin m) (Fin n) ℝ
  d : {m n : ℕ} → Matrix (Fin m) (Fin n) ℝ → Fin n → ℝ
  v : {m n : ℕ} → Matrix (Fin m) (Fin n) ℝ → Matrix (Fin n) (Fin n) ℝ

/-- `np.spacing(1)`. -/
noncomputable def svdEps : ℝ := (1 / 2) ^ 52

/-- The singular values in `UDV`: those below `np.spacing(1)` are set to zero (linalg.py:185). -/
noncomputable def SvdFn.dz (s : SvdFn) {m n : ℕ} (A : Matrix (Fin m) (Fin n) ℝ) (k : Fin n) : ℝ := if |s.d A k| < svdEps then 0 else s.d A k

/-- The `m` by `n` matrix with the flat entries `x`. -/
def matOfR (m n : ℕ) (x : ℕ → ℝ) : Matrix (Fin m) (Fin n) ℝ := Matrix.of fun i j => x (i * n + j)

/-- Entry `(i, j)` of a matrix, 0 outside. -/
noncomputable def entR {m n : ℕ} (A : Matrix (Fin m) (Fin n) ℝ) (i j : ℕ) : ℝ := if h : i < m ∧ j < n then A ⟨i, h.1⟩ ⟨j, h.2⟩ else 0

/-- Entry `k` of a vector, 0 outside. -/
noncomputable def entV {n : ℕ} (d : Fin n → ℝ) (k : ℕ) : ℝ := if h : k < n then d ⟨k, h⟩ else 0

/-- The second entry of `np.linalg.solve([[a, b], [c, d]], [p, q])` for an invertible matrix. -/
noncomputable def solve2 (a b c d p q : ℝ) : ℝ := (a * q - c * p) / (a * d - b * c)

/-- `omega[i,j,k,l]` (linalg.py:225-237). -/
noncomputable def svdOmega (U : ℕ → ℕ → ℝ) (D : ℕ → ℝ) (V : ℕ → ℕ → ℝ) (i j k l : ℕ) : ℝ :=
  if k < l then solve2 (D l) (D k) (D k) (D l) (U i k * V j l) (-(U i l * V j k))
  else if l < k then -solve2 (D k) (D l) (D l) (D k) (U i l * V j k) (-(U i k * V j l))
  else 0

/-- Entries of the Jacobian of `SvdD` (linalg.py:195-202). -/
noncomputable def svdDEnt (s : SvdFn) {m n : ℕ} (A : Matrix (Fin m) (Fin n) ℝ) : Ent := fun k c =>
  entR (s.u A) (c / n) k * entR (s.v A) (c % n) k

/-- Entries of the Jacobian of `SvdV` (linalg.py:242): `np.einsum('ak,ijkl->alij', -V, omega)`. -/
noncomputable def svdVEnt (s : SvdFn) {m n : ℕ} (A : Matrix (Fin m) (Fin n) ℝ) : Ent := fun r c =>
  ∑ k ∈ Finset.range n, -entR (s.v A) (r / n) k * svdOmega (entR (s.u A)) (entV (s.dz A)) (entR (s.v A)) (c / n) (c % n) k (r % n)

open Classical in
/-- `SvdV.compute_dr_wrt` (linalg.py:211-242); `np.linalg.solve` raises `LinAlgError` for a singular matrix. -/
noncomputable def svdVDr (s : SvdFn) {m n : ℕ} (A : Matrix (Fin m) (Fin n) ℝ) : Option Jac :=
  if ∃ k l : Fin n, k < l ∧ s.dz A l * s.dz A l - s.dz A k * s.dz A k = 0 then none else some (.dense (n * n) (m * n) (svdVEnt s A))

/-- Entries of the Jacobian of `SvdU` (linalg.py:252-264): that of `NanDivide(x.dot(svd_v), svd_d.reshape((1,-1)))` with respect to `x`;
quotients by zero are 0 (C56).  `svdU_expression` below shows that `dr_wrt` of this expression has these entries. -/
noncomputable def svdUEnt (s : SvdFn) {m n : ℕ} (A : Matrix (Fin m) (Fin n) ℝ) : Ent := fun r c =>
  1 / entV (s.dz A) (r % n) * ((if r / n = c / n then entR (s.v A) (c % n) (r % n) else 0) +
      ∑ a ∈ Finset.range n, entR A (r / n) a * svdVEnt s A (a * n + r % n) c) +
    -(∑ a ∈ Finset.range n, entR A (r / n) a * entR (s.v A) a (r % n)) / (entV (s.dz A) (r % n) * entV (s.dz A) (r % n)) * svdDEnt s A (r % n) c

/-- The child as a matrix with at least as many rows as columns; `Svd` (linalg.py:65-71) transposes other matrices.  For those, and for
arrays which are not matrices, the model raises an exception. -/
noncomputable def matBody {D : Type} (k : (m n : ℕ) → Matrix (Fin m) (Fin n) ℝ → Prog Par Arr D) : Prog Par Arr D :=
  .child nmA fun v =>
    match v.shape with
    | [m, n] => if n ≤ m then k m n (matOfR m n v.vec) else .raise 1
    | _ => .raise 1

/-- `SvdD` (linalg.py:178-202).  `UDV` is modelled as evaluated where it is used. -/
noncomputable def chSvdD (s : SvdFn) : ClassDef where
  r := matBody fun _ n A => .ret (Arr.of [n] (entV (s.dz A)))
  dr := fun _ S => if nmA ∈ S then matBody fun m n A => .ret (some (.dense n (m * n) (svdDEnt s A))) else .ret none
  dr_none := rfl

/-- `SvdV` (linalg.py:205-242).  `svd_d` is the `SvdD` of the same child, as `Svd` builds it, so `svd_d.UDV` is modelled as evaluated on the
child. -/
noncomputable def chSvdV (s : SvdFn) : ClassDef where
  r := matBody fun _ n A => .ret (Arr.of [n, n] fun k => entR (s.v A) (k / n) (k % n))
  dr := fun _ S => if nmA ∈ S then matBody fun _ _ A => retOr (svdVDr s A) else .ret none
  dr_none := rfl

open Classical in
/-- `SvdU` (linalg.py:245-264), with `svd_d` and `svd_v` those of the same child. -/
noncomputable def svdUDr (s : SvdFn) {m n : ℕ} (A : Matrix (Fin m) (Fin n) ℝ) : Option Jac :=
  if (svdVDr s A).isNone then none else some (.sparse (m * n) (m * n) (svdUEnt s A))
/-- `SvdU` (linalg.py:245-264), with `svd_d` and `svd_v` those of the same child. -/
noncomputable def chSvdU (s : SvdFn) : ClassDef where
  r := matBody fun m n A => .ret (Arr.of [m, n] fun k => entR (s.u A) (k / n) (k % n))
  dr := fun _ S => if nmA ∈ S then matBody fun _ _ A => retOr (svdUDr s A) else .ret none
  dr_none := rfl

/-! ## Flat positions -/

theorem entR_fin {m n : ℕ} (A : Matrix (Fin m) (Fin n) ℝ) (i : Fin m) (j : Fin n) : entR A i j = A i j := by
  unfold entR; rw [dif_pos ⟨i.2, j.2⟩]
theorem entV_fin {n : ℕ} (d : Fin n → ℝ) (k : Fin n) : entV d k = d k := by
  unfold entV; rw [dif_pos k.2]

theorem posR_lt {m n : ℕ} (i : Fin m) (j : Fin n) : (i : ℕ) * n + j < m * n := by
  have := j.2
  calc (i : ℕ) * n + j < i * n + n := by omega
    _ = (i + 1) * n := by ring
    _ ≤ m * n := Nat.mul_le_mul_right _ i.2

theorem posR_div {m n : ℕ} (i : Fin m) (j : Fin n) : ((i : ℕ) * n + j) / n = i := by
  rw [Nat.add_comm, Nat.mul_comm, Nat.add_mul_div_left _ _ (by have := j.2; omega), Nat.div_eq_of_lt j.2, Nat.zero_add]
theorem posR_mod {m n : ℕ} (i : Fin m) (j : Fin n) : ((i : ℕ) * n + j) % n = j := by
  rw [Nat.add_comm, Nat.add_mul_mod_self_right, Nat.mod_eq_of_lt j.2]

theorem flatR_lt {m n k : ℕ} (h : k < m * n) : k / n < m ∧ k % n < n := by
  have hn : 0 < n := by
    rcases Nat.eq_zero_or_pos n with rfl | h'
    · simp at h
    · exact h'
  exact ⟨Nat.div_lt_of_lt_mul (by rwa [Nat.mul_comm]), Nat.mod_lt _ hn⟩

/-- The matrix with the flat entries `x`. -/
def matLinR (m n N : ℕ) (h : N = m * n) (x : Fin N → ℝ) : Matrix (Fin m) (Fin n) ℝ := Matrix.of fun i j => x ⟨i * n + j, h ▸ posR_lt i j⟩

theorem matOfR_put {m n : ℕ} {v : Arr} (h : v.size = m * n) (x : Fin v.size → ℝ) : matOfR m n (v.put x).vec = matLinR m n v.size h x := by
  ext i j
  exact Arr.vec_put v x ⟨i * n + j, h ▸ posR_lt i j⟩

theorem matOfR_fn {m n : ℕ} {v : Arr} (h : v.size = m * n) : matLinR m n v.size h (num.fn v.size v) = matOfR m n v.vec := by
  rw [← matOfR_put h, put_fn]

theorem cont_matLinR (m n N : ℕ) (h : N = m * n) : Continuous (matLinR m n N h) :=
  continuous_pi fun _ => continuous_pi fun _ => continuous_apply _

theorem deriv_matLinR {m n N : ℕ} (h : N = m * n) (x : Fin N → ℝ) (i : Fin m) (j : Fin n) :
    HasFDerivAt (fun y => matLinR m n N h y i j)
      (ContinuousLinearMap.proj (R := ℝ) (φ := fun _ : Fin N => ℝ) (⟨i * n + j, h ▸ posR_lt i j⟩ : Fin N)) x :=
  (ContinuousLinearMap.proj (R := ℝ) (φ := fun _ : Fin N => ℝ) (⟨i * n + j, h ▸ posR_lt i j⟩ : Fin N)).hasFDerivAt

/-- Summing over the columns of a Jacobian. -/
theorem sum_cols {m n N : ℕ} (h : N = m * n) (f : ℕ → ℝ) (x : Fin N → ℝ) :
    ∑ c : Fin N, f c * x c = ∑ i : Fin m, ∑ j : Fin n, f (i * n + j) * x ⟨i * n + j, h ▸ posR_lt i j⟩ := by
  subst h
  rw [← (finProdFinEquiv (m := m) (n := n)).sum_comp, Fintype.sum_prod_type]
  refine Finset.sum_congr rfl fun i _ => Finset.sum_congr rfl fun j _ => ?_
  have ep : ((finProdFinEquiv (i, j) : Fin (m * n)) : ℕ) = i * n + j := by simp [finProdFinEquiv, Nat.add_comm, Nat.mul_comm]
  have e : (finProdFinEquiv (i, j) : Fin (m * n)) = ⟨i * n + j, posR_lt i j⟩ := Fin.ext ep
  rw [e]

theorem gamma_apply {m n N : ℕ} (h : N = m * n) (U : Matrix (Fin m) (Fin n) ℝ) (V : Matrix (Fin n) (Fin n) ℝ) (l k : Fin n) (x : Fin N → ℝ) :
    svdGamma (fun i j => ContinuousLinearMap.proj (R := ℝ) (φ := fun _ : Fin N => ℝ) (⟨i * n + j, h ▸ posR_lt i j⟩ : Fin N)) U V l k x =
      ∑ i : Fin m, ∑ j : Fin n, U i l * V j k * x ⟨i * n + j, h ▸ posR_lt i j⟩ := by
  simp [svdGamma]

/-! ## What the routine is assumed to do -/

/-- The routine returns a singular value decomposition of every matrix with at least as many rows as columns. -/
def SvdFn.Correct (s : SvdFn) : Prop := ∀ {m n : ℕ} (A : Matrix (Fin m) (Fin n) ℝ), n ≤ m → IsSvd A (s.u A) (s.d A) (s.v A)

section
variable {s : SvdFn} {m n N : ℕ} (hs : s.Correct) (hmn : n ≤ m) (h : N = m * n) (x : Fin N → ℝ)
  (hi : Function.Injective (s.d (matLinR m n N h x)))
include hs hmn hi

/-- The derivative of the singular values, however the routine chooses signs. -/
theorem hasFDerivAt_svdD (hp : ∀ k, s.d (matLinR m n N h x) k ≠ 0) (k : Fin n) :
    HasFDerivAt (fun y => s.d (matLinR m n N h y) k)
      (svdGamma (fun i j => ContinuousLinearMap.proj (R := ℝ) (φ := fun _ : Fin N => ℝ) (⟨i * n + j, h ▸ posR_lt i j⟩ : Fin N))
        (s.u (matLinR m n N h x)) (s.v (matLinR m n N h x)) k k) x := by
  have hA := deriv_matLinR h x
  have hev : ∀ᶠ y in 𝓝 x, IsSvd (matLinR m n N h y) (s.u (matLinR m n N h y)) (s.d (matLinR m n N h y)) (s.v (matLinR m n N h y)) :=
    Filter.Eventually.of_forall fun y => hs _ hmn
  have hcA := (cont_matLinR m n N h).continuousAt (x := x)
  obtain ⟨hV, hσ⟩ := svd_signed_continuous (V := fun y => s.v (matLinR m n N h y)) hcA hev hi
  have hev' := hev.mono fun y hy => hy.signed (diag_sign_sq (V := fun y => s.v (matLinR m n N h y)) (x0 := x) y)
  have hU := svd_left_continuous hcA hev' hp hV
  have := hasFDerivAt_svd_d hA hev' hU hV k
  have e1 : ∀ {a : ℕ} (B : Matrix (Fin a) (Fin n) ℝ), B * Matrix.diagonal (svdSign (fun y => s.v (matLinR m n N h y)) x x) = B := by
    intro a B
    rw [hσ, show Matrix.diagonal (fun _ : Fin n => (1 : ℝ)) = 1 from Matrix.diagonal_one, Matrix.mul_one]
  rw [e1, e1] at this
  exact this

theorem hasFDerivAt_svdV (hp : ∀ k, s.d (matLinR m n N h x) k ≠ 0) (hc : ContinuousAt (s.v (m := m) (n := n)) (matLinR m n N h x)) (a k : Fin n) :
    HasFDerivAt (fun y => s.v (matLinR m n N h y) a k)
      (∑ l ∈ Finset.univ.erase k, s.v (matLinR m n N h x) a l •
        ((s.d (matLinR m n N h x) k * s.d (matLinR m n N h x) k - s.d (matLinR m n N h x) l * s.d (matLinR m n N h x) l)⁻¹ •
        (s.d (matLinR m n N h x) l •
          svdGamma (fun i j => ContinuousLinearMap.proj (R := ℝ) (φ := fun _ : Fin N => ℝ) (⟨i * n + j, h ▸ posR_lt i j⟩ : Fin N))
            (s.u (matLinR m n N h x)) (s.v (matLinR m n N h x)) l k +
          s.d (matLinR m n N h x) k •
          svdGamma (fun i j => ContinuousLinearMap.proj (R := ℝ) (φ := fun _ : Fin N => ℝ) (⟨i * n + j, h ▸ posR_lt i j⟩ : Fin N))
            (s.u (matLinR m n N h x)) (s.v (matLinR m n N h x)) k l))) x := by
  have hA := deriv_matLinR h x
  have hev : ∀ᶠ y in 𝓝 x, IsSvd (matLinR m n N h y) (s.u (matLinR m n N h y)) (s.d (matLinR m n N h y)) (s.v (matLinR m n N h y)) :=
    Filter.Eventually.of_forall fun y => hs _ hmn
  have hcA := (cont_matLinR m n N h).continuousAt (x := x)
  have hV : ContinuousAt (fun y => s.v (matLinR m n N h y)) x := ContinuousAt.comp (g := s.v) hc hcA
  exact hasFDerivAt_svd_V hA hev (svd_left_continuous hcA hev hp hV) hV hi a k
end

/-! ## The classes are exact -/

section
variable {s : SvdFn} {tm : Name → Option Par} {m n : ℕ} {v : Arr}

theorem svd_size (hsh : v.shape = [m, n]) : v.size = m * n := by rw [Arr.size, hsh]; simp

theorem runBody_mat {D : Type} {k : (m n : ℕ) → Matrix (Fin m) (Fin n) ℝ → Prog Par Arr D} {a b c} {e : Name → Option Arr} (he : e nmA = some v)
    (hsh : v.shape = [m, n]) (hmn : n ≤ m) : runBody a e b c (matBody k) = runBody a e b c (k m n (matOfR m n v.vec)) := by
  simp [matBody, runBody, he, hsh, hmn]

theorem dz_eq {A : Matrix (Fin m) (Fin n) ℝ} {k : Fin n} (h : svdEps < s.d A k) : s.dz A k = s.d A k := by
  have hp : 0 < svdEps := by unfold svdEps; positivity
  unfold SvdFn.dz
  rw [if_neg]
  rw [abs_of_pos (hp.trans h)]; exact not_lt.2 h.le

theorem eps_ne {A : Matrix (Fin m) (Fin n) ℝ} (h : ∀ k, svdEps < s.d A k) (k : Fin n) : s.d A k ≠ 0 := by
  have hp : 0 < svdEps := by unfold svdEps; positivity
  exact (hp.trans (h k)).ne'

theorem returns_svdD (hsh : v.shape = [m, n]) (hmn : n ≤ m) :
    Returns lib (chSvdD s) tm (env1 v) (Arr.of [n] (entV (s.dz (matOfR m n v.vec)))) := by
  refine ⟨0, ?_⟩
  show runBody _ _ _ _ (chSvdD s).r = _
  simp only [chSvdD]
  rw [runBody_mat rfl hsh hmn]; rfl

theorem returns_svdV (hsh : v.shape = [m, n]) (hmn : n ≤ m) :
    Returns lib (chSvdV s) tm (env1 v) (Arr.of [n, n] fun k => entR (s.v (matOfR m n v.vec)) (k / n) (k % n)) := by
  refine ⟨0, ?_⟩
  show runBody _ _ _ _ (chSvdV s).r = _
  simp only [chSvdV]
  rw [runBody_mat rfl hsh hmn]; rfl

theorem returns_svdU (hsh : v.shape = [m, n]) (hmn : n ≤ m) :
    Returns lib (chSvdU s) tm (env1 v) (Arr.of [m, n] fun k => entR (s.u (matOfR m n v.vec)) (k / n) (k % n)) := by
  refine ⟨0, ?_⟩
  show runBody _ _ _ _ (chSvdU s).r = _
  simp only [chSvdU]
  rw [runBody_mat rfl hsh hmn]; rfl

variable (hs : s.Correct) (hsh : v.shape = [m, n]) (hmn : n ≤ m) (hi : Function.Injective (s.d (matOfR m n v.vec)))
  (hp : ∀ k, svdEps < s.d (matOfR m n v.vec) k)
include hs hsh hmn hi hp

/-- `SvdD` is exact where the singular values are distinct and at least `np.spacing(1)`, however the routine chooses signs. -/
theorem exact_svdD :
    Exact (chSvdD s) tm [nmA] (fun _ => v) (Arr.of [n] (entV (s.dz (matOfR m n v.vec)))) fun _ => svdDEnt s (matOfR m n v.vec) := by
  have hN := svd_size hsh
  have ho : (Arr.of [n] (entV (s.dz (matOfR m n v.vec)))).size = n := by simp [Arr.size, Arr.of]
  have hx := matOfR_fn hN
  have hD : ∀ k, HasFDerivAt (fun y => s.d (matLinR m n v.size hN y) k) _ (num.fn v.size v) :=
    fun k => hasFDerivAt_svdD hs hmn hN (num.fn v.size v) (by rw [hx]; exact hi) (by rw [hx]; exact eps_ne hp) k
  have hnear : ∀ᶠ y in 𝓝 (num.fn v.size v), ∀ k, s.dz (matLinR m n v.size hN y) k = s.d (matLinR m n v.size hN y) k := by
    rw [Filter.eventually_all]
    intro k
    have := (hD k).continuousAt.tendsto.eventually (eventually_gt_nhds (by rw [hx]; exact hp k))
    exact this.mono fun y hy => dz_eq hy
  refine exact_one (returns_svdD hsh hmn) (fun x k => s.dz (matLinR m n v.size hN x) (Fin.cast ho k)) ?_ ?_ ?_
  · refine Filter.Eventually.of_forall fun u => ?_
    have h1 := returns_svdD (s := s) (tm := tm) (v := v.put u) hsh hmn
    rw [matOfR_put hN] at h1
    have e : Arr.of [n] (entV (s.dz (matLinR m n v.size hN u))) =
        (Arr.of [n] (entV (s.dz (matOfR m n v.vec)))).put fun k => s.dz (matLinR m n v.size hN u) (Fin.cast ho k) := by
      show Arr.mk [n] _ = Arr.mk [n] _
      congr 1
      funext k
      exact entV_fin _ (Fin.cast ho k)
    rwa [e] at h1
  · rw [hasFDerivAt_pi']
    intro k
    have h1 := hD (Fin.cast ho k)
    refine (h1.congr_of_eventuallyEq ?_).congr_fderiv ?_
    · filter_upwards [hnear] with y hy using hy _
    · ext x
      rw [gamma_apply hN, ContinuousLinearMap.comp_apply, ContinuousLinearMap.proj_apply, Ent.lin_apply, sum_cols hN]
      refine Finset.sum_congr rfl fun i _ => Finset.sum_congr rfl fun j _ => ?_
      congr 1
      unfold svdDEnt
      rw [posR_div, posR_mod, hx]
      have e1 := entR_fin (s.u (matOfR m n v.vec)) i (Fin.cast ho k)
      have e2 := entR_fin (s.v (matOfR m n v.vec)) j (Fin.cast ho k)
      rw [Fin.val_cast] at e1 e2
      rw [e1, e2]
  · refine ⟨some (.dense n (m * n) (svdDEnt s (matOfR m n v.vec))), ⟨0, ?_⟩, ?_⟩
    · show runBody _ _ _ _ ((chSvdD s).dr false [nmA]) = _
      simp only [chSvdD, List.mem_singleton, if_true]
      rw [runBody_mat rfl hsh hmn]; rfl
    · exact ⟨ho.symm, hN.symm, fun _ _ _ _ => rfl⟩

omit hsh in
theorem svdVDr_eq : svdVDr s (matOfR m n v.vec) = some (.dense (n * n) (m * n) (svdVEnt s (matOfR m n v.vec))) := by
  unfold svdVDr
  rw [if_neg]
  rintro ⟨k, l, hkl, h0⟩
  rw [dz_eq (hp k), dz_eq (hp l)] at h0
  exact sq_ne (hs _ hmn).nonneg hi (Ne.symm (ne_of_lt hkl)) h0

omit hsh in
theorem svdVEnt_coef (a k : Fin n) (i : Fin m) (j : Fin n) :
    svdVEnt s (matOfR m n v.vec) (a * n + k) (i * n + j) = ∑ l ∈ Finset.univ.erase k, s.v (matOfR m n v.vec) a l *
      ((s.d (matOfR m n v.vec) k * s.d (matOfR m n v.vec) k - s.d (matOfR m n v.vec) l * s.d (matOfR m n v.vec) l)⁻¹ *
        (s.d (matOfR m n v.vec) l * (s.u (matOfR m n v.vec) i l * s.v (matOfR m n v.vec) j k) +
          s.d (matOfR m n v.vec) k * (s.u (matOfR m n v.vec) i k * s.v (matOfR m n v.vec) j l))) := by
  unfold svdVEnt
  rw [posR_div, posR_mod, posR_div, posR_mod, ← Fin.sum_univ_eq_sum_range
    (fun l => -entR (s.v (matOfR m n v.vec)) a l * svdOmega (entR (s.u (matOfR m n v.vec))) (entV (s.dz (matOfR m n v.vec)))
      (entR (s.v (matOfR m n v.vec))) i j l k), ← Finset.add_sum_erase _ _ (Finset.mem_univ k)]
  have h0 : svdOmega (entR (s.u (matOfR m n v.vec))) (entV (s.dz (matOfR m n v.vec))) (entR (s.v (matOfR m n v.vec))) i j k k = 0 := by
    unfold svdOmega; rw [if_neg (lt_irrefl _), if_neg (lt_irrefl _)]
  rw [h0, mul_zero, zero_add]
  refine Finset.sum_congr rfl fun l hl => ?_
  have hlk : l ≠ k := (Finset.mem_erase.1 hl).1
  have hne := sq_ne (hs (matOfR m n v.vec) hmn).nonneg hi (Ne.symm hlk)
  have hne' := sq_ne (hs (matOfR m n v.vec) hmn).nonneg hi hlk
  rw [entR_fin, neg_mul, ← mul_neg]
  congr 1
  unfold svdOmega solve2
  simp only [entR_fin, entV_fin, dz_eq (hp k), dz_eq (hp l)]
  generalize s.d (matOfR m n v.vec) k = dk at *
  generalize s.d (matOfR m n v.vec) l = dl at *
  have hh : (dl * dl - dk * dk)⁻¹ = -(dk * dk - dl * dl)⁻¹ := by rw [← neg_sub, inv_neg]
  rcases lt_or_gt_of_ne hlk with h | h
  · rw [if_pos (show (l : ℕ) < k from h), div_eq_mul_inv]
    ring
  · rw [if_neg (not_lt.2 (le_of_lt (show (k : ℕ) < l from h))), if_pos (show (k : ℕ) < l from h), div_eq_mul_inv, hh]
    ring

omit hsh in
/-- The derivative of the right singular vectors is what `svdVEnt` says. -/
theorem lin_svdV (hN : v.size = m * n) (hc : ContinuousAt (s.v (m := m) (n := n)) (matOfR m n v.vec)) (a k : Fin n) :
    ∃ L : (Fin v.size → ℝ) →L[ℝ] ℝ, HasFDerivAt (fun y => s.v (matLinR m n v.size hN y) a k) L (num.fn v.size v) ∧
      ∀ x, L x = ∑ c : Fin v.size, svdVEnt s (matOfR m n v.vec) (a * n + k) c * x c := by
  have hx := matOfR_fn hN
  refine ⟨_, hasFDerivAt_svdV hs hmn hN (num.fn v.size v) (by rw [hx]; exact hi) (by rw [hx]; exact eps_ne hp) (by rw [hx]; exact hc) a k, ?_⟩
  intro x
  rw [sum_cols hN, hx]
  simp_rw [svdVEnt_coef hs hmn hi hp a k]
  simp only [sum_apply, smul_apply, add_apply, smul_eq_mul, gamma_apply hN]
  simp_rw [Finset.sum_mul]
  rw [eq_comm]
  have : ∀ f : Fin m → Fin n → Fin n → ℝ, ∑ i, ∑ j, ∑ l ∈ Finset.univ.erase k, f i j l = ∑ l ∈ Finset.univ.erase k, ∑ i, ∑ j, f i j l := by
    intro f
    exact (Finset.sum_congr rfl fun i _ => Finset.sum_comm).trans Finset.sum_comm
  rw [this]
  refine Finset.sum_congr rfl fun l _ => ?_
  simp_rw [Finset.mul_sum, ← Finset.sum_add_distrib, Finset.mul_sum]
  refine Finset.sum_congr rfl fun i _ => Finset.sum_congr rfl fun j _ => ?_
  ring

omit hsh in
/-- The derivative of the left singular vectors is what `svdUEnt` says. -/
theorem lin_svdU (hN : v.size = m * n) (hc : ContinuousAt (s.v (m := m) (n := n)) (matOfR m n v.vec)) (i : Fin m) (k : Fin n) :
    ∃ L : (Fin v.size → ℝ) →L[ℝ] ℝ, HasFDerivAt (fun y => s.u (matLinR m n v.size hN y) i k) L (num.fn v.size v) ∧
      ∀ x, L x = ∑ c : Fin v.size, svdUEnt s (matOfR m n v.vec) (i * n + k) c * x c := by
  have hx := matOfR_fn hN
  have hd := hasFDerivAt_svdD hs hmn hN (num.fn v.size v) (by rw [hx]; exact hi) (by rw [hx]; exact eps_ne hp) k
  choose L hL1 hL2 using fun a => lin_svdV hs hmn hi hp hN hc a k
  have hA := deriv_matLinR hN (num.fn v.size v)
  have hf := HasFDerivAt.fun_sum (u := Finset.univ) fun (a : Fin n) _ => (hA i a).mul (hL1 a)
  have hd0 : s.d (matLinR m n v.size hN (num.fn v.size v)) k ≠ 0 := by rw [hx]; exact eps_ne hp k
  have hinv := (hasDerivAt_inv hd0).comp_hasFDerivAt (num.fn v.size v) hd
  have hq := hf.mul hinv
  have hev : ∀ᶠ y in 𝓝 (num.fn v.size v), s.u (matLinR m n v.size hN y) i k =
      (∑ a, matLinR m n v.size hN y i a * s.v (matLinR m n v.size hN y) a k) * (s.d (matLinR m n v.size hN y) k)⁻¹ := by
    filter_upwards [hd.continuousAt.eventually_ne hd0] with y hy
    rw [← Matrix.mul_apply, (hs (matLinR m n v.size hN y) hmn).av, Matrix.mul_diagonal, mul_inv_cancel_right₀ hy]
  refine ⟨_, hq.congr_of_eventuallyEq hev, fun x => ?_⟩
  simp only [add_apply, smul_apply, smul_eq_mul, sum_apply, hL2, ContinuousLinearMap.proj_apply, Function.comp, Pi.mul_apply, gamma_apply hN]
  rw [hx, sum_cols hN]
  have e : ∀ (p : Fin m) (q : Fin n), svdUEnt s (matOfR m n v.vec) (i * n + k) (p * n + q) =
      (s.d (matOfR m n v.vec) k)⁻¹ * ((if i = p then s.v (matOfR m n v.vec) q k else 0) +
        ∑ a, matOfR m n v.vec i a * svdVEnt s (matOfR m n v.vec) (a * n + k) (p * n + q)) +
      -(∑ a, matOfR m n v.vec i a * s.v (matOfR m n v.vec) a k) * (s.d (matOfR m n v.vec) k * s.d (matOfR m n v.vec) k)⁻¹ *
        (s.u (matOfR m n v.vec) p k * s.v (matOfR m n v.vec) q k) := by
    intro p q
    unfold svdUEnt svdDEnt
    simp only [posR_div, posR_mod, entV_fin, entR_fin, dz_eq (hp k), Fin.ext_iff]
    rw [← Fin.sum_univ_eq_sum_range (fun a => entR (matOfR m n v.vec) i a * svdVEnt s (matOfR m n v.vec) (a * n + k) (p * n + q)),
      ← Fin.sum_univ_eq_sum_range (fun a => entR (matOfR m n v.vec) i a * entR (s.v (matOfR m n v.vec)) a k)]
    simp only [entR_fin]
    rw [one_div, div_eq_mul_inv]
  simp_rw [e]
  simp_rw [sum_cols hN]
  have e1 : ∀ f : Fin m → Fin n → ℝ, ∑ a, (f i a) = ∑ p, ∑ q, if i = p then f p q else 0 := by
    intro f
    rw [Finset.sum_eq_single i]
    · simp
    · intro p _ hp'; simp [Ne.symm hp']
    · intro h'; exact absurd (Finset.mem_univ i) h'
  rw [Finset.sum_add_distrib, e1 fun p q => s.v (matOfR m n v.vec) q k * x ⟨p * n + q, hN ▸ posR_lt p q⟩]
  have e2 : ∑ a, matOfR m n v.vec i a * ∑ p : Fin m, ∑ q : Fin n, svdVEnt s (matOfR m n v.vec) (a * n + k) (p * n + q) * x ⟨p * n + q, hN ▸ posR_lt p q⟩ =
      ∑ p : Fin m, ∑ q : Fin n, (∑ a, matOfR m n v.vec i a * svdVEnt s (matOfR m n v.vec) (a * n + k) (p * n + q)) * x ⟨p * n + q, hN ▸ posR_lt p q⟩ := by
    simp_rw [Finset.mul_sum, Finset.sum_mul]
    rw [Finset.sum_comm]
    refine Finset.sum_congr rfl fun p _ => ?_
    rw [Finset.sum_comm]
    refine Finset.sum_congr rfl fun q _ => Finset.sum_congr rfl fun a _ => ?_
    ring
  rw [e2]
  simp_rw [Finset.mul_sum, ← Finset.sum_add_distrib]
  simp_rw [Finset.mul_sum, ← Finset.sum_add_distrib]
  refine Finset.sum_congr rfl fun p _ => Finset.sum_congr rfl fun q _ => ?_
  split <;> ring

omit hs hmn hi hp in
/-- Both classes of singular vectors: the value is a matrix and the Jacobian that of its entries. -/
theorem exact_vectors {c : ClassDef} {a : ℕ} {f : Matrix (Fin m) (Fin n) ℝ → Matrix (Fin a) (Fin n) ℝ} {E : Ent} {d : Jac}
    (hr : ∀ u : Arr, u.shape = [m, n] → Returns lib c tm (env1 u) (Arr.of [a, n] fun k => entR (f (matOfR m n u.vec)) (k / n) (k % n)))
    (hd : ReturnsDr lib c tm (env1 v) (Arr.of [a, n] fun k => entR (f (matOfR m n v.vec)) (k / n) (k % n)) [nmA] (some d))
    (hE : Jac.Rep d (a * n) (m * n) E)
    (hL : ∀ (i : Fin a) (k : Fin n), ∃ L : (Fin v.size → ℝ) →L[ℝ] ℝ,
      HasFDerivAt (fun y => f (matLinR m n v.size (svd_size hsh) y) i k) L (num.fn v.size v) ∧ ∀ x, L x = ∑ c : Fin v.size, E (i * n + k) c * x c) :
    Exact c tm [nmA] (fun _ => v) (Arr.of [a, n] fun k => entR (f (matOfR m n v.vec)) (k / n) (k % n)) fun _ => E := by
  have hN := svd_size hsh
  have ho : (Arr.of [a, n] fun k => entR (f (matOfR m n v.vec)) (k / n) (k % n)).size = a * n := by simp [Arr.size, Arr.of]
  refine exact_one (hr v hsh) (fun x k => entR (f (matLinR m n v.size hN x)) (k / n) (k % n)) ?_ ?_ ⟨_, hd, by rw [ho, hN]; exact hE⟩
  · refine Filter.Eventually.of_forall fun u => ?_
    have h1 := hr (v.put u) hsh
    rw [matOfR_put hN] at h1
    exact h1
  · rw [hasFDerivAt_pi']
    intro k
    have hk := flatR_lt (lt_of_lt_of_eq k.2 ho)
    obtain ⟨L, h1, h2⟩ := hL ⟨k / n, hk.1⟩ ⟨k % n, hk.2⟩
    refine HasFDerivAt.congr_fderiv (f' := L) ?_ ?_
    · refine h1.congr_of_eventuallyEq (Filter.Eventually.of_forall fun y => ?_)
      exact entR_fin (f (matLinR m n v.size hN y)) ⟨k / n, hk.1⟩ ⟨k % n, hk.2⟩
    · ext x
      rw [h2, ContinuousLinearMap.comp_apply, ContinuousLinearMap.proj_apply, Ent.lin_apply]
      have : ((k : ℕ) / n) * n + k % n = k := by rw [Nat.mul_comm, Nat.div_add_mod]
      simp only [this]

/-- `SvdV` is exact where the singular values are distinct and at least `np.spacing(1)` and the routine's signs do not jump. -/
theorem exact_svdV (hc : ContinuousAt (s.v (m := m) (n := n)) (matOfR m n v.vec)) :
    Exact (chSvdV s) tm [nmA] (fun _ => v) (Arr.of [n, n] fun k => entR (s.v (matOfR m n v.vec)) (k / n) (k % n))
      fun _ => svdVEnt s (matOfR m n v.vec) := by
  refine exact_vectors hsh (f := s.v) (d := .dense (n * n) (m * n) (svdVEnt s (matOfR m n v.vec)))
    (fun u hu => returns_svdV hu hmn) ⟨0, ?_⟩ ⟨rfl, rfl, fun _ _ _ _ => rfl⟩ (fun i k => lin_svdV hs hmn hi hp (svd_size hsh) hc i k)
  show runBody _ _ _ _ ((chSvdV s).dr false [nmA]) = _
  simp only [chSvdV, List.mem_singleton, if_true]
  rw [runBody_mat rfl hsh hmn, svdVDr_eq hs hmn hi hp]; rfl

/-- `SvdU` likewise. -/
theorem exact_svdU (hc : ContinuousAt (s.v (m := m) (n := n)) (matOfR m n v.vec)) :
    Exact (chSvdU s) tm [nmA] (fun _ => v) (Arr.of [m, n] fun k => entR (s.u (matOfR m n v.vec)) (k / n) (k % n))
      fun _ => svdUEnt s (matOfR m n v.vec) := by
  refine exact_vectors hsh (f := s.u) (d := .sparse (m * n) (m * n) (svdUEnt s (matOfR m n v.vec)))
    (fun u hu => returns_svdU hu hmn) ⟨0, ?_⟩ ⟨rfl, rfl, fun _ _ _ _ => rfl⟩ (fun i k => lin_svdU hs hmn hi hp (svd_size hsh) hc i k)
  show runBody _ _ _ _ ((chSvdU s).dr false [nmA]) = _
  simp only [chSvdU, List.mem_singleton, if_true]
  rw [runBody_mat rfl hsh hmn]
  unfold svdUDr
  rw [svdVDr_eq hs hmn hi hp]; rfl
end
end Chumpy
