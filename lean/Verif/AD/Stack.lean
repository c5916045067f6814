import Verif.AD.Linalg
import Verif.AD.Dot
/-!
# Stacks of matrices in `Inv` (linalg.py:167-173)
-/
namespace Chumpy
open scoped BigOperators Topology

theorem stackDims_of (s : List ℕ) (n m : ℕ) : stackDims (s ++ [n, m]) = some (s.prod, n, m) := by
  simp [stackDims, List.prod_reverse]

theorem stack_prod (s : List ℕ) (n : ℕ) : (s ++ [n, n]).prod = s.prod * (n * n) := by simp

theorem blk_div {q b k : ℕ} (hk : k < q) : (b * q + k) / q = b := by
  rw [Nat.add_comm, Nat.mul_comm, Nat.add_mul_div_left _ _ (by omega), Nat.div_eq_of_lt hk, Nat.zero_add]
theorem blk_mod {q b k : ℕ} (hk : k < q) : (b * q + k) % q = k := by
  rw [Nat.add_comm, Nat.add_mul_mod_self_right, Nat.mod_eq_of_lt hk]
theorem blk_lt {B q b k : ℕ} (hb : b < B) (hk : k < q) : b * q + k < B * q :=
  calc b * q + k < b * q + q := by omega
    _ = (b + 1) * q := by ring
    _ ≤ B * q := Nat.mul_le_mul_right _ hb
theorem blk_pos {B q k : ℕ} (h : k < B * q) : 0 < q := by
  rcases Nat.eq_zero_or_pos q with rfl | h'
  · simp at h
  · exact h'
theorem blk_div_lt {B q k : ℕ} (h : k < B * q) : k / q < B := Nat.div_lt_of_lt_mul (by rwa [Nat.mul_comm])

/-- The `b`-th block of a vector, as a linear map. -/
def blockLin (B q N : ℕ) (h : N = B * q) (b : Fin B) : (Fin N → ℝ) →ₗ[ℝ] (Fin q → ℝ) where
  toFun x k := x ⟨b * q + k, h ▸ blk_lt b.2 k.2⟩
  map_add' _ _ := rfl
  map_smul' _ _ := rfl

/-- Functions of the blocks of a vector, put together. -/
def byBlocks {B q N : ℕ} (h : N = B * q) (f : Fin B → (Fin q → ℝ) → Fin q → ℝ) (x : Fin N → ℝ) (k : Fin N) : ℝ :=
  f ⟨k / q, blk_div_lt (h ▸ k.2)⟩ (blockLin B q N h ⟨k / q, blk_div_lt (h ▸ k.2)⟩ x) ⟨k % q, Nat.mod_lt _ (blk_pos (B := B) (k := k) (h ▸ k.2))⟩

/-- The derivative of functions of the blocks is block diagonal. -/
theorem hasFDerivAt_blocks {B q N : ℕ} (h : N = B * q) (f : Fin B → (Fin q → ℝ) → Fin q → ℝ) (E : ℕ → Ent) (x : Fin N → ℝ)
    (hf : ∀ b : Fin B, HasFDerivAt (f b) (Ent.lin q q (E b)) (blockLin B q N h b x)) :
    HasFDerivAt (byBlocks h f) (Ent.lin N N fun i j => if i / q = j / q then E (i / q) (i % q) (j % q) else 0) x := by
  rw [hasFDerivAt_pi']
  intro k
  have hkB : (k : ℕ) / q < B := blk_div_lt (h ▸ k.2)
  have hq : 0 < q := blk_pos (B := B) (k := k) (h ▸ k.2)
  have h1 := HasFDerivAt.comp x (hf ⟨k / q, hkB⟩) (LinearMap.toContinuousLinearMap (blockLin B q N h ⟨k / q, hkB⟩)).hasFDerivAt
  have h2 := (ContinuousLinearMap.proj (R := ℝ) (φ := fun _ : Fin q => ℝ) ⟨k % q, Nat.mod_lt _ hq⟩).hasFDerivAt.comp x h1
  refine HasFDerivAt.congr_fderiv h2 ?_
  ext y
  simp only [ContinuousLinearMap.comp_apply, ContinuousLinearMap.proj_apply]
  rw [Ent.lin_apply, Ent.lin_apply]
  subst h
  rw [← (finProdFinEquiv (m := B) (n := q)).sum_comp, Fintype.sum_prod_type]
  have hv : ∀ (b : Fin B) (j : Fin q), ((finProdFinEquiv (b, j) : Fin (B * q)) : ℕ) = b * q + j := by
    intro b j; simp [finProdFinEquiv, Nat.add_comm, Nat.mul_comm]
  rw [Finset.sum_eq_single (⟨k / q, hkB⟩ : Fin B)]
  · refine Finset.sum_congr rfl fun j _ => ?_
    rw [hv, blk_div j.2, blk_mod j.2, if_pos rfl]
    congr 1
    show y _ = y _
    congr 1
    exact Fin.ext (hv _ j).symm
  · intro b _ hb
    refine Finset.sum_eq_zero fun j _ => ?_
    rw [hv, blk_div j.2, if_neg (fun e => hb (Fin.ext e.symm)), zero_mul]
  · intro hn; exact absurd (Finset.mem_univ _) hn

section
variable {tm : Name → Option Par} {s : List ℕ} {n : ℕ} {v : Arr}

/-- The inverses of the matrices of a stack. -/
noncomputable def stackVal (s : List ℕ) (n : ℕ) (v : Arr) : Arr :=
  Arr.of (s ++ [n, n]) fun k => matFlat (matOf n (blockOf (n * n) (k / (n * n)) v.vec))⁻¹ (k % (n * n))

theorem stack_shape (hs : s ≠ []) (n m p q : ℕ) : s ++ [n, m] ≠ [p, q] := by
  intro e
  have := congrArg List.length e
  simp at this
  exact hs this

theorem returns_invStack (hs : s ≠ []) (hsh : v.shape = s ++ [n, n]) (hv : ∀ b < s.prod, (matOf n (blockOf (n * n) b v.vec)).det ≠ 0) :
    Returns lib chInv tm (env1 v) (stackVal s n v) := by
  refine ⟨0, ?_⟩
  show runBody _ _ _ _ chInv.r = _
  have hi : invStack v = some (stackVal s n v) := by
    unfold invStack
    rw [hsh, stackDims_of]
    show (if _ then _ else _) = _
    rw [if_pos ⟨rfl, hv⟩]
    rfl
  simp only [chInv, runBody, env1, if_true]
  split
  · next h => rw [hsh] at h; exact absurd h (stack_shape hs _ _ _ _)
  · rw [hi]; rfl

theorem block_stackVal {b : ℕ} (hb : b < s.prod) :
    matOf n (blockOf (n * n) b (stackVal s n v).vec) = (matOf n (blockOf (n * n) b v.vec))⁻¹ := by
  rw [← matOf_flat (matOf n (blockOf (n * n) b v.vec))⁻¹]
  refine matOf_congr fun k hk => ?_
  show (stackVal s n v).vec (b * (n * n) + k) = _
  unfold stackVal
  rw [Arr.vec_of _ _ (by rw [stack_prod]; exact blk_lt hb hk), blk_div hk, blk_mod hk]

theorem blockLin_put (h : v.size = s.prod * (n * n)) (x : Fin v.size → ℝ) (b : Fin s.prod) :
    matOf n (blockOf (n * n) b (v.put x).vec) = matLin n (n * n) rfl (blockLin s.prod (n * n) v.size h b x) := by
  ext i j
  exact Arr.vec_put v x ⟨b * (n * n) + (i * n + j), h ▸ blk_lt b.2 (pos_lt i j)⟩

/-- `Inv` is exact at a stack of invertible matrices. -/
theorem exact_invStack (hs : s ≠ []) (hsh : v.shape = s ++ [n, n]) (h0 : 0 < v.size)
    (hv : ∀ b < s.prod, (matOf n (blockOf (n * n) b v.vec)).det ≠ 0) :
    Exact chInv tm [nmA] (fun _ => v) (stackVal s n v) fun _ i j =>
      if i / (n * n) = j / (n * n) then
        -(matEnt (matOf n (blockOf (n * n) (i / (n * n)) v.vec))⁻¹ (i % (n * n) / n) (j % (n * n) / n) *
          matEnt ((matOf n (blockOf (n * n) (i / (n * n)) v.vec))⁻¹).transpose (i % (n * n) % n) (j % (n * n) % n))
      else 0 := by
  have hsz : v.size = s.prod * (n * n) := by rw [Arr.size, hsh, stack_prod]
  have ho : (stackVal s n v).size = v.size := by rw [hsz]; exact stack_prod s n
  have hfn : ∀ b : Fin s.prod, matLin n (n * n) rfl (blockLin s.prod (n * n) v.size hsz b (num.fn v.size v)) = matOf n (blockOf (n * n) b v.vec) := by
    intro b; rw [← blockLin_put hsz, put_fn]
  have hnear : ∀ᶠ u in 𝓝 (num.fn v.size v), ∀ b < s.prod, (matOf n (blockOf (n * n) b (v.put u).vec)).det ≠ 0 := by
    have : ∀ b : Fin s.prod, ∀ᶠ u in 𝓝 (num.fn v.size v), (matOf n (blockOf (n * n) b (v.put u).vec)).det ≠ 0 := by
      intro b
      have hc : Continuous fun u : Fin v.size → ℝ => (matLin n (n * n) rfl (blockLin s.prod (n * n) v.size hsz b u)).det := by
        refine Continuous.matrix_det ?_
        exact continuous_pi fun i => continuous_pi fun j => continuous_apply _
      have := hc.continuousAt.eventually_ne (x := num.fn v.size v) (y := 0) (by rw [hfn]; exact hv b b.2)
      filter_upwards [this] with u hu
      rw [blockLin_put hsz]; exact hu
    have := Filter.eventually_all.2 this
    filter_upwards [this] with u hu b hb
    exact hu ⟨b, hb⟩
  let f : Fin s.prod → (Fin (n * n) → ℝ) → Fin (n * n) → ℝ := fun _ y => flatLin n (n * n) rfl (matLin n (n * n) rfl y)⁻¹
  refine exact_one (returns_invStack hs hsh hv) (fun x k => byBlocks hsz f x (Fin.cast ho k)) ?_ ?_ ?_
  · filter_upwards [hnear] with u hu
    have h1 := returns_invStack (tm := tm) (v := v.put u) hs hsh hu
    have e : stackVal s n (v.put u) = (stackVal s n v).put fun k => byBlocks hsz f u (Fin.cast ho k) := by
      show Arr.mk (s ++ [n, n]) _ = Arr.mk (s ++ [n, n]) _
      congr 1
      funext k
      have hk : (k : ℕ) < s.prod * (n * n) := lt_of_lt_of_eq k.2 (stack_prod s n)
      have hb := blockLin_put hsz u ⟨k / (n * n), blk_div_lt hk⟩
      have hkm : (k : ℕ) % (n * n) < n * n := Nat.mod_lt _ (blk_pos hk)
      show matFlat (matOf n (blockOf (n * n) (k / (n * n)) (v.put u).vec))⁻¹ (k % (n * n)) = _
      rw [hb]
      unfold matFlat matEnt
      rw [dif_pos (flat_lt hkm)]; rfl
    rwa [e] at h1
  · have h1 := hasFDerivAt_blocks hsz f
      (fun b i j => -(matEnt (matOf n (blockOf (n * n) b v.vec))⁻¹ (i / n) (j / n) *
          matEnt ((matOf n (blockOf (n * n) b v.vec))⁻¹).transpose (i % n) (j % n))) (num.fn v.size v) ?_
    · generalize (stackVal s n v).size = N' at ho
      subst ho
      exact h1
    · intro b
      have h2 := hasFDerivAt_matInv (n := n) (N := n * n) rfl (blockLin s.prod (n * n) v.size hsz b (num.fn v.size v))
        (by rw [hfn]; exact hv b b.2)
      rw [hfn] at h2
      exact h2
  · have hn : ¬ (s.prod = 0 ∨ n = 0) := by
      rw [hsz] at h0
      rintro (e | e) <;> simp [e] at h0
    refine ⟨some (.sparse (s.prod * (n * n)) (s.prod * (n * n)) fun i j => if i / (n * n) = j / (n * n) then
        -(matEnt (matOf n (blockOf (n * n) (i / (n * n)) (stackVal s n v).vec)) (i % (n * n) / n) (j % (n * n) / n) *
          matEnt (matOf n (blockOf (n * n) (i / (n * n)) (stackVal s n v).vec)).transpose (i % (n * n) % n) (j % (n * n) % n)) else 0), ⟨0, ?_⟩, ?_⟩
    · show runBody _ _ _ _ (chInv.dr false [nmA]) = _
      have hi : invStackDr (stackVal s n v) = some (.sparse (s.prod * (n * n)) (s.prod * (n * n)) fun i j => if i / (n * n) = j / (n * n) then
        -(matEnt (matOf n (blockOf (n * n) (i / (n * n)) (stackVal s n v).vec)) (i % (n * n) / n) (j % (n * n) / n) *
          matEnt (matOf n (blockOf (n * n) (i / (n * n)) (stackVal s n v).vec)).transpose (i % (n * n) % n) (j % (n * n) % n)) else 0) := by
        unfold invStackDr
        rw [show (stackVal s n v).shape = s ++ [n, n] from rfl, stackDims_of]
        simp only
        rw [if_neg hn]
      simp only [chInv, runBody, List.mem_singleton, if_true]
      split
      · next h => exact absurd h (stack_shape hs _ _ _ _)
      · rw [hi]; rfl
    · refine ⟨(ho.trans hsz).symm, hsz.symm, fun i hi j _ => ?_⟩
      beta_reduce
      rw [block_stackVal (blk_div_lt (lt_of_lt_of_eq hi (stack_prod s n)))]
end
end Chumpy
