import Mathlib.Analysis.Calculus.Deriv.Basic
import Verif.AD.Lib
/-!
# Broadcasting and elementwise functions
-/
namespace Chumpy
open scoped BigOperators Topology

/-! ## numpy broadcasting -/

/-- Shape of a broadcast result, axes listed from the last one. -/
def bshapeR : List ℕ → List ℕ → Option (List ℕ)
  | [], t => some t
  | s, [] => some s
  | m :: s, n :: t =>
    match Jac.bdim m n, bshapeR s t with
    | some k, some r => some (k :: r)
    | _, _ => none

/-- Shape of `np.broadcast(a, b)`; `none` is numpy's `ValueError`. -/
def bshape (s t : List ℕ) : Option (List ℕ) := (bshapeR s.reverse t.reverse).map List.reverse

/-- Position in an operand of shape `s` of the entry that position `k` of the broadcast result (shape `o`) uses;
axes listed from the last one. -/
def bidxR : List ℕ → List ℕ → ℕ → ℕ
  | m :: s, n :: o, k => (if m = 1 then 0 else k % n) + m * bidxR s o (k / n)
  | _, _, _ => 0

def bidx (s o : List ℕ) (k : ℕ) : ℕ := bidxR s.reverse o.reverse k

/-- Specification: the coordinate of flat position `k` along axis `j`, both counted from the last axis. -/
def coordR : List ℕ → ℕ → ℕ → ℕ
  | [], _, _ => 0
  | n :: _, k, 0 => k % n
  | n :: s, k, j + 1 => coordR s (k / n) j

/-- The coordinate of flat position `k` in an array of shape `s` along axis `j`, counted from the last axis. -/
def coord (s : List ℕ) (k j : ℕ) : ℕ := coordR s.reverse k j

theorem bshapeR_self (s : List ℕ) : bshapeR s s = some s := by
  induction s with
  | nil => rfl
  | cons n s ih => simp [bshapeR, Jac.bdim, ih]

theorem bshape_self (s : List ℕ) : bshape s s = some s := by simp [bshape, bshapeR_self]

/-- The first operand fits the result. -/
inductive Fits : List ℕ → List ℕ → Prop
  | nil (o : List ℕ) : Fits [] o
  | cons {m n : ℕ} {s o : List ℕ} (h : m = n ∨ m = 1) (hs : Fits s o) : Fits (m :: s) (n :: o)

theorem Fits.refl (s : List ℕ) : Fits s s := by
  induction s with
  | nil => exact .nil _
  | cons n s ih => exact .cons (Or.inl rfl) ih

theorem bshapeR_fits : ∀ {s t o : List ℕ}, bshapeR s t = some o → Fits s o ∧ Fits t o := by
  intro s
  induction s with
  | nil => intro t o h; simp [bshapeR] at h; subst h; exact ⟨.nil _, .refl _⟩
  | cons m s ih =>
    intro t o h
    cases t with
    | nil => simp [bshapeR] at h; subst h; exact ⟨.refl _, .nil _⟩
    | cons n t =>
      simp only [bshapeR] at h
      split at h
      · next k r hk hr =>
        cases h
        obtain ⟨h1, h2⟩ := ih hr
        unfold Jac.bdim at hk
        split at hk
        · next e => cases hk; subst e; exact ⟨.cons (Or.inl rfl) h1, .cons (Or.inl rfl) h2⟩
        · split at hk
          · next e => cases hk; exact ⟨.cons (Or.inr e) h1, .cons (Or.inl rfl) h2⟩
          · split at hk
            · next e => cases hk; exact ⟨.cons (Or.inl rfl) h1, .cons (Or.inr e) h2⟩
            · cases hk
      · cases h

theorem bidxR_lt {s o : List ℕ} (h : Fits s o) : ∀ {k : ℕ}, k < o.prod → bidxR s o k < s.prod := by
  induction h with
  | nil o => intro k _; simp [bidxR]
  | @cons m n s o h hs ih =>
    intro k hk
    simp only [List.prod_cons] at hk ⊢
    have hn : 0 < n := by
      rcases Nat.eq_zero_or_pos n with rfl | h
      · simp at hk
      · exact h
    have hq : k / n < o.prod := Nat.div_lt_of_lt_mul hk
    have h1 := ih hq
    simp only [bidxR]
    have h2 : (if m = 1 then 0 else k % n) < m := by
      split
      · omega
      · next e =>
        rcases h with rfl | h
        · exact Nat.mod_lt _ hn
        · exact absurd h e
    calc (if m = 1 then 0 else k % n) + m * bidxR s o (k / n) < m + m * bidxR s o (k / n) := by omega
      _ = m * (bidxR s o (k / n) + 1) := by ring
      _ ≤ m * s.prod := Nat.mul_le_mul_left _ h1

theorem bidxR_self (s : List ℕ) : ∀ {k : ℕ}, k < s.prod → bidxR s s k = k := by
  induction s with
  | nil => intro k hk; simp at hk; subst hk; rfl
  | cons n s ih =>
    intro k hk
    simp only [List.prod_cons] at hk
    simp only [bidxR]
    rw [ih (Nat.div_lt_of_lt_mul hk)]
    split
    · next h => subst h; simp
    · exact Nat.mod_add_div k n

theorem prod_reverse (s : List ℕ) : s.reverse.prod = s.prod := List.prod_reverse s

theorem bshape_fits {s t o : List ℕ} (h : bshape s t = some o) : Fits s.reverse o.reverse ∧ Fits t.reverse o.reverse := by
  unfold bshape at h
  cases hr : bshapeR s.reverse t.reverse with
  | none => rw [hr] at h; cases h
  | some r => rw [hr] at h; cases h; rw [List.reverse_reverse]; exact bshapeR_fits hr

theorem bidx_lt_left {s t o : List ℕ} (h : bshape s t = some o) {k : ℕ} (hk : k < o.prod) : bidx s o k < s.prod := by
  rw [← prod_reverse s]; exact bidxR_lt (bshape_fits h).1 (by rw [prod_reverse]; exact hk)

theorem bidx_lt_right {s t o : List ℕ} (h : bshape s t = some o) {k : ℕ} (hk : k < o.prod) : bidx t o k < t.prod := by
  rw [← prod_reverse t]; exact bidxR_lt (bshape_fits h).2 (by rw [prod_reverse]; exact hk)

theorem bidx_self {s : List ℕ} {k : ℕ} (hk : k < s.prod) : bidx s s k = k :=
  bidxR_self _ (by rw [prod_reverse]; exact hk)

/-- The position used by the result is the one with the same coordinates, axes of length 1 being repeated. -/
theorem coordR_bidxR {s o : List ℕ} (h : Fits s o) : ∀ {k : ℕ} (j : ℕ), k < o.prod → j < s.length →
    coordR s (bidxR s o k) j = if s.getD j 0 = 1 then 0 else coordR o k j := by
  induction h with
  | nil o => intro k j _ h; simp at h
  | @cons m n s o h hs ih =>
    intro k j hk hj
    simp only [List.prod_cons] at hk
    have hn : 0 < n := by
      rcases Nat.eq_zero_or_pos n with rfl | h
      · simp at hk
      · exact h
    have hq : k / n < o.prod := Nat.div_lt_of_lt_mul hk
    have hm : 0 < m := by rcases h with rfl | rfl <;> omega
    have h2 : (if m = 1 then 0 else k % n) < m := by
      split
      · omega
      · next e =>
        rcases h with rfl | h
        · exact Nat.mod_lt _ hn
        · exact absurd h e
    cases j with
    | zero =>
      simp only [bidxR, coordR, List.getD_cons_zero, Nat.add_mul_mod_self_left]
      rw [Nat.mod_eq_of_lt h2]
    | succ j =>
      simp only [bidxR, coordR, List.getD_cons_succ]
      rw [Nat.add_mul_div_left _ _ hm, Nat.div_eq_of_lt h2, Nat.zero_add]
      exact ih j hq (by simpa using hj)

/-! ## Sparse matrices given by coordinates -/

/-- `sp.csc_matrix((data, (IS, JS)))` with `n` items: repeated positions add up. -/
noncomputable def coo (n : ℕ) (IS JS : ℕ → ℕ) (data : ℕ → ℝ) : Ent :=
  fun i j => ∑ k ∈ Finset.range n, if IS k = i ∧ JS k = j then data k else 0

/-- Row `i` has the one entry `c i` in column `σ i`. -/
noncomputable def selMat (σ : ℕ → ℕ) (c : ℕ → ℝ) : Ent := fun i j => if σ i = j then c i else 0

theorem coo_rows {m n : ℕ} (JS : ℕ → ℕ) (data : ℕ → ℝ) : Ent.EqOn m n (coo m id JS data) (selMat JS data) := by
  intro i hi j _
  unfold coo selMat
  rw [Finset.sum_eq_single i]
  · simp
  · intro k _ hk; rw [if_neg]; simp only [id]; exact fun h => hk h.1
  · intro h; exact absurd (Finset.mem_range.2 hi) h

theorem selMat_congr {m n : ℕ} {σ τ : ℕ → ℕ} {c d : ℕ → ℝ} (h : ∀ i < m, σ i = τ i) (h' : ∀ i < m, c i = d i) :
    Ent.EqOn m n (selMat σ c) (selMat τ d) := by
  intro i hi j _; simp [selMat, h i hi, h' i hi]

/-! ## Elementwise functions -/

/-- Derivative of a function computing each output entry from one entry of each input. -/
theorem hasFDerivAt_elem {n m o : ℕ} (f : ℕ → ℝ → ℝ → ℝ) {σ τ : ℕ → ℕ} (hσ : ∀ k < o, σ k < n) (hτ : ∀ k < o, τ k < m)
    (u : Fin n → ℝ) (v : Fin m → ℝ) (fa fb : ℕ → ℝ)
    (h : ∀ k (hk : k < o), HasFDerivAt (fun p : ℝ × ℝ => f k p.1 p.2)
      (fa k • ContinuousLinearMap.fst ℝ ℝ ℝ + fb k • ContinuousLinearMap.snd ℝ ℝ ℝ) (u ⟨σ k, hσ k hk⟩, v ⟨τ k, hτ k hk⟩)) :
    HasFDerivAt (fun p : (Fin n → ℝ) × (Fin m → ℝ) => fun k : Fin o => f k (p.1 ⟨σ k, hσ k k.2⟩) (p.2 ⟨τ k, hτ k k.2⟩))
      ((Ent.lin o n (selMat σ fa)).comp (ContinuousLinearMap.fst ℝ _ _) +
        (Ent.lin o m (selMat τ fb)).comp (ContinuousLinearMap.snd ℝ _ _)) (u, v) := by
  rw [hasFDerivAt_pi']
  intro k
  have hpa : HasFDerivAt (fun p : (Fin n → ℝ) × (Fin m → ℝ) => p.1 ⟨σ k, hσ k k.2⟩)
      ((ContinuousLinearMap.proj (R := ℝ) (φ := fun _ : Fin n => ℝ) ⟨σ k, hσ k k.2⟩).comp (ContinuousLinearMap.fst ℝ _ _)) (u, v) :=
    ((ContinuousLinearMap.proj (R := ℝ) (φ := fun _ : Fin n => ℝ) ⟨σ k, hσ k k.2⟩).comp
      (ContinuousLinearMap.fst ℝ (Fin n → ℝ) (Fin m → ℝ))).hasFDerivAt
  have hpb : HasFDerivAt (fun p : (Fin n → ℝ) × (Fin m → ℝ) => p.2 ⟨τ k, hτ k k.2⟩)
      ((ContinuousLinearMap.proj (R := ℝ) (φ := fun _ : Fin m => ℝ) ⟨τ k, hτ k k.2⟩).comp (ContinuousLinearMap.snd ℝ _ _)) (u, v) :=
    ((ContinuousLinearMap.proj (R := ℝ) (φ := fun _ : Fin m => ℝ) ⟨τ k, hτ k k.2⟩).comp
      (ContinuousLinearMap.snd ℝ (Fin n → ℝ) (Fin m → ℝ))).hasFDerivAt
  have hc := HasFDerivAt.comp (u, v) (h k k.2) (hpa.prodMk hpb)
  refine hc.congr_fderiv ?_
  ext x
  · simp only [ContinuousLinearMap.comp_apply, _root_.add_apply, smul_apply, ContinuousLinearMap.inl_apply,
      ContinuousLinearMap.prod_apply, ContinuousLinearMap.coe_fst', ContinuousLinearMap.coe_snd', ContinuousLinearMap.proj_apply,
      Pi.add_apply, Ent.lin_apply, selMat, Pi.zero_apply, smul_eq_mul, map_zero]
    rw [Finset.sum_eq_single (⟨σ k, hσ k k.2⟩ : Fin n)]
    · simp
    · intro b _ hb
      rw [if_neg, zero_mul]
      intro e; exact hb (Fin.ext e.symm)
    · simp
  · simp only [ContinuousLinearMap.comp_apply, _root_.add_apply, smul_apply, ContinuousLinearMap.inr_apply,
      ContinuousLinearMap.prod_apply, ContinuousLinearMap.coe_fst', ContinuousLinearMap.coe_snd', ContinuousLinearMap.proj_apply,
      Pi.add_apply, Ent.lin_apply, selMat, Pi.zero_apply, smul_eq_mul, map_zero]
    rw [Finset.sum_eq_single (⟨τ k, hτ k k.2⟩ : Fin m)]
    · simp
    · intro b _ hb
      rw [if_neg, zero_mul]
      intro e; exact hb (Fin.ext e.symm)
    · simp

/-- The same for one input. -/
theorem hasFDerivAt_elem₁ {n o : ℕ} (f : ℕ → ℝ → ℝ) {σ : ℕ → ℕ} (hσ : ∀ k < o, σ k < n)
    (u : Fin n → ℝ) (fa : ℕ → ℝ) (h : ∀ k (hk : k < o), HasDerivAt (f k) (fa k) (u ⟨σ k, hσ k hk⟩)) :
    HasFDerivAt (fun p : Fin n → ℝ => fun k : Fin o => f k (p ⟨σ k, hσ k k.2⟩)) (Ent.lin o n (selMat σ fa)) u := by
  rw [hasFDerivAt_pi']
  intro k
  have hpa : HasFDerivAt (fun p : Fin n → ℝ => p ⟨σ k, hσ k k.2⟩)
      (ContinuousLinearMap.proj (R := ℝ) (φ := fun _ : Fin n => ℝ) ⟨σ k, hσ k k.2⟩) u :=
    (ContinuousLinearMap.proj (R := ℝ) (φ := fun _ : Fin n => ℝ) ⟨σ k, hσ k k.2⟩).hasFDerivAt
  have hc := HasFDerivAt.comp u (h k k.2).hasFDerivAt hpa
  refine hc.congr_fderiv ?_
  ext x
  simp only [ContinuousLinearMap.comp_apply, ContinuousLinearMap.proj_apply, Ent.lin_apply, selMat]
  rw [Finset.sum_eq_single (⟨σ k, hσ k k.2⟩ : Fin n)]
  · simp [mul_comm]
  · intro b _ hb
    rw [if_neg, zero_mul]
    intro e; exact hb (Fin.ext e.symm)
  · simp
end Chumpy
