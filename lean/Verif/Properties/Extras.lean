import Verif.AD.Stack
import Verif.AD.Extras
import Verif.Properties.Linalg
/-!
# C62–C65: inverses of stacks of matrices, `slogdet`, `MatVecMult`, `gamma`
-/
namespace Chumpy
open scoped BigOperators Topology Matrix

/-! ## C62 -/

/-- The matrix at the coordinates `c` of a stack of `n` by `n` matrices: an array whose last two axes are those of the matrices. -/
noncomputable def stackAt (n : ℕ) (v : Arr) (c : List ℕ) : Matrix (Fin n) (Fin n) ℝ := Matrix.of fun i j => v.at (c ++ [(i : ℕ), (j : ℕ)])

theorem stackAt_block {s : List ℕ} {n : ℕ} {v : Arr} (hsh : v.shape = s ++ [n, n]) {c : List ℕ} (hc : InB s c) :
    stackAt n v c = matOf n (blockOf (n * n) (ravel s c) v.vec) := by
  ext i j
  show v.vec (ravel v.shape (c ++ [(i : ℕ), (j : ℕ)])) = v.vec _
  rw [hsh, ravel_append hc.length]
  simp [ravel]

section
variable {h : Heap ClassDef Par Arr Jac} {y a z : Id} {v : Arr} {n : ℕ} {s : List ℕ}

/-- C62: for every stack of invertible matrices, with any number of leading axes and at least one entry, `Inv` gives the stack of the
inverses and the Jacobian is right. -/
theorem C62_inv_stack (hr : Reach lib ⟨False, True⟩ h) (hy : IsA h.graph y chInv [nmA] fun _ => a) (hv : Means lib h.graph (.r a) (.ok v))
    (hs : s ≠ []) (hsh : v.shape = s ++ [n, n]) (h0 : 0 < v.size) (hd : ∀ c, InB s c → (stackAt n v c).det ≠ 0) :
    ∃ out, out.shape = v.shape ∧ (∀ c, InB s c → stackAt n out c * stackAt n v c = 1 ∧ stackAt n v c * stackAt n out c = 1) ∧ Right h y out := by
  have hd' : ∀ b < s.prod, (matOf n (blockOf (n * n) b v.vec)).det ≠ 0 := by
    intro b hb
    have := hd _ (unravel_inB hb)
    rwa [stackAt_block hsh (unravel_inB hb), ravel_unravel hb] at this
  refine ⟨stackVal s n v, hsh.symm, fun c hc => ?_, right_of_exact hr hy (fun _ => hv) (exact_invStack hs hsh h0 hd')⟩
  have hu := isUnit_iff_ne_zero.2 (hd' _ (ravel_lt hc))
  rw [stackAt_block hsh hc, stackAt_block (s := s) rfl hc, block_stackVal (ravel_lt hc)]
  exact ⟨Matrix.nonsing_inv_mul _ hu, Matrix.mul_nonsing_inv _ hu⟩

/-! ## C63 -/

/-- C63: at every invertible matrix the two objects `slogdet(x)` returns are the sign of the determinant, 1 or -1, and the logarithm of its
absolute value, from which the determinant can be recovered; both Jacobians are right, that of the sign being zero. -/
theorem C63_slogdet (hr : Reach lib ⟨False, True⟩ h) (hy : IsA h.graph y chSignDet [nmA] fun _ => a)
    (hz : IsA h.graph z chLogAbsDet [nmA] fun _ => a) (hv : Means lib h.graph (.r a) (.ok v)) (hsh : v.shape = [n, n])
    (hd : (asMatrix n n v).det ≠ 0) :
    ∃ sg lg : Arr, sg.shape = [1] ∧ lg.shape = [1] ∧ (sg.vec 0 = 1 ∨ sg.vec 0 = -1) ∧ sg.vec 0 * Real.exp (lg.vec 0) = (asMatrix n n v).det ∧
      Right h y sg ∧ Right h z lg ∧ (IsLeaf h.graph a → Reports h y a 1 v.size fun _ _ => 0) := by
  rw [asMatrix_sq hsh] at *
  have hvec : ∀ x : ℝ, (Arr.of [1] fun _ => x).vec 0 = x := fun x => Arr.vec_of _ _ (by simp)
  refine ⟨_, _, rfl, rfl, ?_, ?_, right_of_exact hr hy (fun _ => hv) (exact_signDet hsh hd),
    right_of_exact hr hz (fun _ => hv) (exact_logAbsDet hsh hd), fun hl => ?_⟩
  · rw [hvec]
    rcases lt_or_gt_of_ne hd with h | h
    · right; simp [npSign, not_lt.2 h.le, h]
    · left; simp [npSign, h]
  · rw [hvec, hvec, Real.exp_log (abs_pos.2 hd)]
    rcases lt_or_gt_of_ne hd with h | h
    · simp [npSign, not_lt.2 h.le, h, abs_of_neg h]
    · simp [npSign, h, abs_of_pos h]
  · refine reports_of_rep hr hy (v := fun _ => v) (out := Arr.of [1] fun _ => npSign (matOf n v.vec).det) (fun _ => hv) ?_ (fun _ => hl)
      ⟨(0 : Fin 1), rfl⟩ (d := none) ?_ ?_
    · exact means_of_isA hy (v := fun _ => v) (fun _ => hv) (exact_signDet hsh hd).val
    · exact ⟨0, rfl⟩
    · exact fun _ _ _ _ => rfl

/-! ## C64 -/

/-- C64: `MatVecMult(mtx, vec)` is the product of the matrix with the entries of `vec` in C order, given back with as many columns as
`vec` has if it has several; its Jacobian is right, and is `mtx`. -/
theorem C64_matVecMult {m : ℕ} {mtx : Arr} (hr : Reach lib ⟨False, True⟩ h) (hy : IsA h.graph y chMatVecMult [nmA] fun _ => a)
    (hm : (h.graph y).terms nmP = some (.arr mtx)) (hv : Means lib h.graph (.r a) (.ok v)) (hms : mtx.shape = [m, v.size])
    (hcol : ∀ r c rest, v.shape = r :: c :: rest → 1 < c → c ∣ m) :
    ∃ out, out.shape = (match v.shape with
        | _ :: c :: _ => if 1 < c then [m / c, c] else [m]
        | _ => [m]) ∧
      (∀ i : Fin m, out.vec i = (asMatrix m v.size mtx *ᵥ fun j => v.vec j) i) ∧ Right h y out ∧
      (IsLeaf h.graph a → Reports h y a m v.size fun i j => mtx.at [i, j]) := by
  have hsh : ∃ osh, matVecShape m v.shape = some osh ∧ osh = (match v.shape with
      | _ :: c :: _ => if 1 < c then [m / c, c] else [m]
      | _ => [m]) := by
    clear hms hv
    generalize v.shape = sh at hcol ⊢
    match sh, hcol with
    | [], _ => exact ⟨_, rfl, rfl⟩
    | [_], _ => exact ⟨_, rfl, rfl⟩
    | r :: c :: rest, hcol =>
      by_cases hc : 1 < c
      · refine ⟨[m / c, c], ?_, (if_pos hc).symm⟩
        show (if 1 < c then _ else _) = _
        rw [if_pos hc, if_pos (Nat.mod_eq_zero_of_dvd (hcol _ _ _ rfl hc))]
      · exact ⟨[m], if_neg hc, (if_neg hc).symm⟩
  obtain ⟨osh, ho, e⟩ := hsh
  have hex := exact_matVec (tm := (h.graph y).terms) hm hms rfl ho
  refine ⟨_, e, fun i => ?_, right_of_exact hr hy (fun _ => hv) hex, fun hl => ?_⟩
  · rw [Arr.vec_of _ _ (by rw [matVecShape_prod ho]; exact i.2), ← Fin.sum_univ_eq_sum_range (fun j => mtx.vec (i * v.size + j) * v.vec j)]
    show _ = ∑ j : Fin v.size, mtx.at [(i : ℕ), (j : ℕ)] * v.vec j
    exact Finset.sum_congr rfl fun j _ => by rw [at_two hms]
  · refine reports_of_rep hr hy (v := fun _ => v) (fun _ => hv) (means_of_isA hy (v := fun _ => v) (fun _ => hv) hex.val) (fun _ => hl)
      ⟨(0 : Fin 1), rfl⟩ (d := some (.sparse m v.size fun i j => mtx.vec (i * v.size + j))) ?_ ?_
    · rw [namesOf_one hy]
      refine ⟨0, ?_⟩
      show runBody _ _ _ _ (chMatVecMult.dr false [nmA]) = _
      simp [chMatVecMult, runBody, hm, hms]
    · exact ⟨rfl, rfl, fun i _ j _ => (at_two hms i j).symm⟩

/-! ## C65 -/

/-- C65: for inputs of every shape without zero or negative whole numbers, `gamma(x)` is Γ of each entry, and its Jacobian is right: the
diagonal matrix of the derivatives. -/
theorem C65_gamma (hr : Reach lib ⟨False, True⟩ h) (hy : IsA h.graph y chGamma [nmA] fun _ => a) (hv : Means lib h.graph (.r a) (.ok v))
    (hdom : ∀ k < v.size, ∀ m : ℕ, v.vec k ≠ -m) :
    ∃ out, MapResult Real.Gamma v out ∧ Right h y out ∧
      (IsLeaf h.graph a → Reports h y a v.size v.size fun i j => if i = j then deriv Real.Gamma (v.vec i) else 0) := by
  refine ⟨_, mapVal_result _ v, right_of_exact hr hy (fun _ => hv) (exact_gamma hdom), fun hl => ?_⟩
  refine reports_of_rep hr hy (v := fun _ => v) (out := mapVal Real.Gamma v) (fun _ => hv) ?_ (fun _ => hl) ⟨(0 : Fin 1), rfl⟩
    (d := some (.sparse v.size v.size fun i j => if i = j then logDeriv Real.Gamma (v.vec i) * (mapVal Real.Gamma v).vec i else 0)) ?_ ?_
  · exact means_of_isA hy (fun _ => hv) (by erw [env_one]; exact returns_gamma v)
  · rw [namesOf_one hy]; erw [env_one]
    exact dr_gamma
  · refine ⟨rfl, rfl, fun i hi j _ => ?_⟩
    have hi' : (mapVal Real.Gamma v).vec i = Real.Gamma (v.vec i) := Arr.vec_of _ _ hi
    show (if i = j then _ else 0) = if i = j then deriv Real.Gamma (v.vec i) else 0
    rw [hi', (gamma_deriv (hdom i hi)).deriv]
end

/-! ## The hypotheses are met -/

section
open ADDemo
/-- A stack of three matrices with rows (1, 2) and (3, 4). -/
noncomputable def stack3 : Arr := Arr.of [3, 2, 2] fun k => (k % 4 : ℕ) + 1
example : ∃ h, Reach lib ⟨False, True⟩ h ∧ IsA h.graph 1 chInv [nmA] (fun _ => 0) ∧ Means lib h.graph (.r 0) (.ok stack3) ∧ IsLeaf h.graph 0 :=
  unary_reach rfl _ (by simp [stack3, Arr.of])
example : stack3.shape = [3] ++ [2, 2] ∧ 0 < stack3.size := ⟨rfl, by show 0 < [3, 2, 2].prod; decide⟩
example : ∀ c, InB [3] c → (stackAt 2 stack3 c).det ≠ 0 := by
  intro c hc
  match c, hc with
  | [b], .cons hb .nil =>
    have hs : stack3.shape = [3] ++ [2, 2] := rfl
    rw [stackAt_block (s := [3]) hs (.cons hb .nil), Matrix.det_fin_two]
    have hk : ∀ k < 4, blockOf (2 * 2) (ravel [3] [b]) stack3.vec k = k + 1 := by
      intro k hk
      show stack3.vec (ravel [3] [b] * 4 + k) = _
      have hr : ravel [3] [b] = b := by simp [ravel]
      unfold stack3
      rw [hr, Arr.vec_of _ _ (by show _ < 12; omega)]
      have : (b * 4 + k) % 4 = k := by omega
      rw [this]
    simp only [matOf, Matrix.of_apply, Fin.val_zero, Fin.val_one, Nat.zero_mul, Nat.one_mul, Nat.zero_add, Nat.add_zero]
    rw [hk 0 (by decide), hk 1 (by decide), hk 2 (by decide), hk (2 + 1) (by decide)]
    norm_num

example : ∃ h, Reach lib ⟨False, True⟩ h ∧ IsA h.graph 1 chSignDet [nmA] (fun _ => 0) ∧ Means lib h.graph (.r 0) (.ok m1234) ∧ IsLeaf h.graph 0 :=
  unary_reach rfl _ (by simp [m1234, Arr.of])

/-- A 4 by 6 matrix times the entries of a 3 by 2 array. -/
example : ∃ h, Reach lib ⟨False, True⟩ h ∧ IsA h.graph 1 chMatVecMult [nmA] (fun _ => 0) ∧
    (h.graph 1).terms nmP = some (.arr (Arr.of [4, 6] fun k => k)) ∧ Means lib h.graph (.r 0) (.ok (Arr.of [3, 2] fun k => k)) ∧
    IsLeaf h.graph 0 := by
  have hok : FitsFrom 0 [leafO (Arr.of [3, 2] fun k => k), unPO chMatVecMult (.arr (Arr.of [4, 6] fun k => k)) .none 0] :=
    ⟨leafO_fits _ _, unPO_fits (by decide), trivial⟩
  obtain ⟨h, hr, hg⟩ := hok.reach ⟨False, True⟩
  refine ⟨h, hr, ?_, ?_, ?_, ?_⟩ <;> rw [hg]
  · exact isA_unP rfl
  · rfl
  · exact (leaf_means rfl (by simp [Arr.of])).1
  · exact isLeaf_leafO rfl

/-- Halves, as a 1 by 2 array: the shape for which the functions of C32 fail. -/
example : ∃ h, Reach lib ⟨False, True⟩ h ∧ IsA h.graph 1 chGamma [nmA] (fun _ => 0) ∧
    Means lib h.graph (.r 0) (.ok ⟨[1, 2], fun _ => 1 / 2⟩) ∧ IsLeaf h.graph 0 := unary_reach rfl _ (by simp)
end
end Chumpy
