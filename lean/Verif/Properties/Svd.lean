import Verif.AD.Svd
import Verif.AD.SvdExists
import Verif.Properties.Linalg
import Verif.Properties.Tensordot
/-!
# C59: singular value decomposition

`IsSvd A U d V` (AD/SvdMath.lean) is the specification: `A = U diag(d) Vᵀ`, the columns of `U` and of `V` orthonormal, `d` nonnegative and
decreasing.
-/
namespace Chumpy
open scoped BigOperators Topology Matrix

theorem asMatrix_rect {m n : ℕ} {v : Arr} (h : v.shape = [m, n]) : asMatrix m n v = matOfR m n v.vec := by
  ext i j; exact at_two h i j

theorem asMatrix_ent {m n : ℕ} (A : Matrix (Fin m) (Fin n) ℝ) : asMatrix m n (Arr.of [m, n] fun k => entR A (k / n) (k % n)) = A := by
  ext i j
  show (Arr.of [m, n] fun k => entR A (k / n) (k % n)).at [i, j] = _
  rw [at_two (m := m) (n := n) rfl, Arr.vec_of _ _ (by simpa using posR_lt i j), posR_div, posR_mod, entR_fin]

section
variable {h : Heap ClassDef Par Arr Jac} {y a t : Id} {v : Arr} {m n : ℕ} {s : SvdFn} {U : Matrix (Fin m) (Fin n) ℝ} {d : Fin n → ℝ}
  {V : Matrix (Fin n) (Fin n) ℝ}

/-- C59, the singular values: for every routine that returns decompositions, whatever signs it chooses, at every matrix with at least as many
rows as columns whose singular values are distinct and above `np.spacing(1)`, the value of `SvdD` is the singular values, in
decreasing order, and the Jacobian is right. -/
theorem C59_values (hr : Reach lib ⟨False, True⟩ h) (hs : s.Correct) (hy : IsA h.graph y (chSvdD s) [nmA] fun _ => a)
    (hv : Means lib h.graph (.r a) (.ok v)) (hsh : v.shape = [m, n]) (hmn : n ≤ m) (hA : IsSvd (asMatrix m n v) U d V)
    (hd : Function.Injective d) (hp : ∀ k, svdEps < d k) :
    ∃ out, out.shape = [n] ∧ (∀ k : Fin n, out.at [k] = d k) ∧ Right h y out := by
  rw [asMatrix_rect hsh] at hA
  have e : s.d (matOfR m n v.vec) = d := (hs _ hmn).unique hA
  refine ⟨_, rfl, fun k => ?_, right_of_exact hr hy (fun _ => hv) (exact_svdD hs hsh hmn (by rw [e]; exact hd) (by rw [e]; exact hp))⟩
  have hk : ravel [n] [(k : ℕ)] = k := by simp [ravel]
  show (Arr.of [n] (entV (s.dz (matOfR m n v.vec)))).vec (ravel [n] [(k : ℕ)]) = _
  rw [hk, Arr.vec_of _ _ (by simp), entV_fin, dz_eq (by rw [e]; exact hp k), e]

/-- C59, the singular vectors: where moreover the right singular vectors which the routine returns are continuous (it does not switch
signs there), the values of `SvdU`, `SvdD` and `SvdV` are a decomposition and their Jacobians are right. -/
theorem C59_vectors_partial {iu id iv : Id} (hr : Reach lib ⟨False, True⟩ h) (hs : s.Correct) (hu : IsA h.graph iu (chSvdU s) [nmA] fun _ => a)
    (hd : IsA h.graph id (chSvdD s) [nmA] fun _ => a) (hv' : IsA h.graph iv (chSvdV s) [nmA] fun _ => a)
    (hv : Means lib h.graph (.r a) (.ok v)) (hsh : v.shape = [m, n]) (hmn : n ≤ m) (hA : IsSvd (asMatrix m n v) U d V)
    (hdi : Function.Injective d) (hp : ∀ k, svdEps < d k) (hc : ContinuousAt (s.v (m := m) (n := n)) (asMatrix m n v)) :
    ∃ u d' w : Arr, u.shape = [m, n] ∧ d'.shape = [n] ∧ w.shape = [n, n] ∧ IsSvd (asMatrix m n v) (asMatrix m n u) (fun k => d'.at [k]) (asMatrix n n w) ∧
      Right h iu u ∧ Right h id d' ∧ Right h iv w := by
  obtain ⟨d', k1, k2, k3⟩ := C59_values hr hs hd hv hsh hmn hA hdi hp
  rw [asMatrix_rect hsh] at hA hc
  have e : s.d (matOfR m n v.vec) = d := (hs _ hmn).unique hA
  refine ⟨_, d', _, rfl, k1, rfl, ?_, right_of_exact hr hu (fun _ => hv) (exact_svdU hs hsh hmn (by rw [e]; exact hdi) (by rw [e]; exact hp) hc), k3,
    right_of_exact hr hv' (fun _ => hv) (exact_svdV hs hsh hmn (by rw [e]; exact hdi) (by rw [e]; exact hp) hc)⟩
  rw [asMatrix_ent, asMatrix_ent, asMatrix_rect hsh]
  have e' : (fun k : Fin n => d'.at [k]) = s.d (matOfR m n v.vec) := by rw [e]; exact funext k2
  rw [e']
  exact hs _ hmn

/-- C59, what `Svd(x)` returns for a matrix with at least as many rows as columns: `svd_u`, `svd_d`, `svd_v.T`, whose product is `x`.  No
hypothesis on the singular values is needed except that they are above `np.spacing(1)`, and none on signs. -/
theorem C59_tall_product {iu id iv it : Id} (hs : s.Correct) (hu : IsA h.graph iu (chSvdU s) [nmA] fun _ => a)
    (hd : IsA h.graph id (chSvdD s) [nmA] fun _ => a) (hv' : IsA h.graph iv (chSvdV s) [nmA] fun _ => a)
    (ht : IsA h.graph it chTranspose [nmA] fun _ => iv) (htp : (h.graph it).terms nmP = none ∨ (h.graph it).terms nmP = some .none)
    (hv : Means lib h.graph (.r a) (.ok v)) (hsh : v.shape = [m, n]) (hmn : n ≤ m) (hA : IsSvd (asMatrix m n v) U d V) (hp : ∀ k, svdEps < d k) :
    ∃ u d' w : Arr, u.shape = [m, n] ∧ d'.shape = [n] ∧ w.shape = [n, n] ∧
      asMatrix m n v = asMatrix m n u * Matrix.diagonal (fun k : Fin n => d'.at [k]) * asMatrix n n w ∧
      (∀ k : Fin n, d'.at [k] = d k) ∧ (asMatrix m n u)ᵀ * asMatrix m n u = 1 ∧ asMatrix n n w * (asMatrix n n w)ᵀ = 1 ∧
      Means lib h.graph (.r iu) (.ok u) ∧ Means lib h.graph (.r id) (.ok d') ∧ Means lib h.graph (.r it) (.ok w) := by
  rw [asMatrix_rect hsh] at hA
  have e : s.d (matOfR m n v.vec) = d := (hs _ hmn).unique hA
  have mU := means_of_isA hu (v := fun _ => v) (fun _ => hv) (by erw [env_one]; exact returns_svdU hsh hmn)
  have mD := means_of_isA hd (v := fun _ => v) (fun _ => hv) (by erw [env_one]; exact returns_svdD hsh hmn)
  have mV := means_of_isA hv' (v := fun _ => v) (fun _ => hv) (by erw [env_one]; exact returns_svdV hsh hmn)
  obtain ⟨w, w1, w2, w3⟩ := means_T ht htp mV (m := n) (n := n) rfl
  have hdk : ∀ k : Fin n, (Arr.of [n] (entV (s.dz (matOfR m n v.vec)))).at [k] = d k := by
    intro k
    have hk : ravel [n] [(k : ℕ)] = k := by simp [ravel]
    show (Arr.of [n] (entV (s.dz (matOfR m n v.vec)))).vec (ravel [n] [(k : ℕ)]) = _
    rw [hk, Arr.vec_of _ _ (by simp), entV_fin, dz_eq (by rw [e]; exact hp k), e]
  rw [asMatrix_ent] at w3
  refine ⟨_, _, w, rfl, rfl, w2, ?_, hdk, ?_, ?_, mU, mD, w1⟩
  · rw [w3, asMatrix_ent, asMatrix_rect hsh, funext hdk, ← e]
    exact (hs _ hmn).eq
  · rw [asMatrix_ent]; exact (hs _ hmn).uu
  · rw [w3, Matrix.transpose_transpose]; exact (hs _ hmn).vv
end

section
variable {h : Heap ClassDef Par Arr Jac} {a t : Id} {v : Arr} {m n : ℕ} {s : SvdFn} {U : Matrix (Fin n) (Fin m) ℝ} {d : Fin m → ℝ}
  {V : Matrix (Fin m) (Fin m) ℝ}

/-- C59, what `Svd(x)` returns for a matrix with fewer rows than columns: `svd_v`, `svd_d`, `svd_u.T` of `x.T`, whose product is `x`. -/
theorem C59_wide_product {iu id iv it : Id} (hs : s.Correct) (hT : IsA h.graph t chTranspose [nmA] fun _ => a)
    (hTp : (h.graph t).terms nmP = none ∨ (h.graph t).terms nmP = some .none)
    (hu : IsA h.graph iu (chSvdU s) [nmA] fun _ => t)
    (hd : IsA h.graph id (chSvdD s) [nmA] fun _ => t) (hv' : IsA h.graph iv (chSvdV s) [nmA] fun _ => t)
    (ht : IsA h.graph it chTranspose [nmA] fun _ => iu) (htp : (h.graph it).terms nmP = none ∨ (h.graph it).terms nmP = some .none)
    (hv : Means lib h.graph (.r a) (.ok v)) (hsh : v.shape = [m, n]) (hmn : m < n) (hA : IsSvd (asMatrix m n v)ᵀ U d V) (hp : ∀ k, svdEps < d k) :
    ∃ u d' w : Arr, u.shape = [m, m] ∧ d'.shape = [m] ∧ w.shape = [m, n] ∧
      asMatrix m n v = asMatrix m m u * Matrix.diagonal (fun k : Fin m => d'.at [k]) * asMatrix m n w ∧
      (∀ k : Fin m, d'.at [k] = d k) ∧ (asMatrix m m u)ᵀ * asMatrix m m u = 1 ∧ asMatrix m n w * (asMatrix m n w)ᵀ = 1 ∧
      Means lib h.graph (.r iv) (.ok u) ∧ Means lib h.graph (.r id) (.ok d') ∧ Means lib h.graph (.r it) (.ok w) := by
  obtain ⟨vt, t1, t2, t3⟩ := means_T hT hTp hv hsh
  rw [← t3, asMatrix_rect t2] at hA
  have e : s.d (matOfR n m vt.vec) = d := (hs _ hmn.le).unique hA
  have mU := means_of_isA hu (v := fun _ => vt) (fun _ => t1) (by erw [env_one]; exact returns_svdU t2 hmn.le)
  have mD := means_of_isA hd (v := fun _ => vt) (fun _ => t1) (by erw [env_one]; exact returns_svdD t2 hmn.le)
  have mV := means_of_isA hv' (v := fun _ => vt) (fun _ => t1) (by erw [env_one]; exact returns_svdV t2 hmn.le)
  obtain ⟨w, w1, w2, w3⟩ := means_T ht htp mU (m := n) (n := m) rfl
  have hdk : ∀ k : Fin m, (Arr.of [m] (entV (s.dz (matOfR n m vt.vec)))).at [k] = d k := by
    intro k
    have hk : ravel [m] [(k : ℕ)] = k := by simp [ravel]
    show (Arr.of [m] (entV (s.dz (matOfR n m vt.vec)))).vec (ravel [m] [(k : ℕ)]) = _
    rw [hk, Arr.vec_of _ _ (by simp), entV_fin, dz_eq (by rw [e]; exact hp k), e]
  rw [asMatrix_ent] at w3
  refine ⟨_, _, w, rfl, rfl, w2, ?_, hdk, ?_, ?_, mV, mD, w1⟩
  · have := congrArg Matrix.transpose (hs (matOfR n m vt.vec) hmn.le).eq
    rw [← asMatrix_rect t2, t3, Matrix.transpose_transpose, Matrix.transpose_mul, Matrix.transpose_mul, Matrix.transpose_transpose,
      Matrix.diagonal_transpose, ← t3, asMatrix_rect t2, e] at this
    rw [w3, asMatrix_ent, funext hdk, Matrix.mul_assoc]
    exact this
  · rw [asMatrix_ent]; exact (hs _ hmn.le).vv
  · rw [w3, Matrix.transpose_transpose]; exact (hs _ hmn.le).uu
end
end Chumpy
