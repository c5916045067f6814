import Verif.Properties.SvdU
/-!
# C59: a routine that meets the hypotheses, and what fails without them
-/
namespace Chumpy
open scoped BigOperators Topology Matrix

/-! ## A routine -/

theorem svd_choice {m n : ℕ} (A : Matrix (Fin m) (Fin n) ℝ) : ∃ t : Matrix (Fin m) (Fin n) ℝ × (Fin n → ℝ) × Matrix (Fin n) (Fin n) ℝ,
    n ≤ m → IsSvd A t.1 t.2.1 t.2.2 := by
  by_cases h : n ≤ m
  · obtain ⟨U, d, V, hs⟩ := svd_exists h A
    exact ⟨(U, d, V), fun _ => hs⟩
  · exact ⟨(0, 0, 0), fun h' => absurd h' h⟩

/-- Some routine. -/
noncomputable def someSvd : SvdFn where
  u A := (svd_choice A).choose.1
  d A := (svd_choice A).choose.2.1
  v A := (svd_choice A).choose.2.2

theorem someSvd_correct : someSvd.Correct := fun A h => (svd_choice A).choose_spec h

/-- The routine `s` with the signs of the columns changed by `σ`. -/
noncomputable def SvdFn.signed (s : SvdFn) (σ : {m n : ℕ} → Matrix (Fin m) (Fin n) ℝ → Fin n → ℝ) : SvdFn where
  u A := s.u A * Matrix.diagonal (σ A)
  d A := s.d A
  v A := s.v A * Matrix.diagonal (σ A)

theorem signed_correct {s : SvdFn} (hs : s.Correct) {σ : {m n : ℕ} → Matrix (Fin m) (Fin n) ℝ → Fin n → ℝ}
    (hσ : ∀ {m n : ℕ} (A : Matrix (Fin m) (Fin n) ℝ) k, σ A k * σ A k = 1) : (s.signed σ).Correct := by
  intro m n A h
  refine (hs A h).signed ?_
  rw [Matrix.diagonal_mul_diagonal]
  simp_rw [hσ]
  exact Matrix.diagonal_one

/-- For each size, the matrix with `n, n-1, …, 1` on the diagonal. -/
noncomputable def stairs (m n : ℕ) : Matrix (Fin m) (Fin n) ℝ := Matrix.of fun i j => if (i : ℕ) = j then (n : ℝ) - j else 0

/-- The singular values of `stairs`. -/
theorem stairs_svd {m n : ℕ} (h : n ≤ m) : IsSvd (stairs m n) (Matrix.of fun i j => if (i : ℕ) = j then 1 else 0) (fun k => (n : ℝ) - k) 1 := by
  refine ⟨?_, ?_, ?_, ?_, ?_⟩
  · rw [Matrix.transpose_one, Matrix.mul_one]
    ext i j
    rw [Matrix.mul_diagonal]
    simp [stairs]
  · ext i j
    rw [Matrix.mul_apply, Finset.sum_eq_single (Fin.castLE h i)]
    · simp [Matrix.one_apply, Fin.ext_iff]
    · intro b _ hb
      have : (b : ℕ) ≠ i := fun e => hb (Fin.ext e)
      simp [this]
    · intro h'; exact absurd (Finset.mem_univ _) h'
  · simp
  · intro k
    have : (k : ℝ) < n := by exact_mod_cast k.2
    linarith
  · intro a b hab
    have : (a : ℝ) ≤ b := by exact_mod_cast hab
    show (n : ℝ) - b ≤ n - a
    linarith

theorem stairs_inj (n : ℕ) : Function.Injective fun k : Fin n => (n : ℝ) - k := by
  intro a b hab
  have : (a : ℝ) = b := by simpa using hab
  exact Fin.ext (by exact_mod_cast this)

theorem stairs_pos (n : ℕ) (k : Fin n) : svdEps < (n : ℝ) - k := by
  have h1 : svdEps < 1 := by unfold svdEps; norm_num
  have h2 : ((k : ℕ) : ℝ) + 1 ≤ n := by exact_mod_cast k.2
  linarith

/-- A routine whose signs agree near `stairs m n` with those at `stairs m n`, for all sizes. -/
noncomputable def steadySvd : SvdFn := someSvd.signed fun {m n} A => svdSign (fun A => someSvd.v A) (stairs m n) A

theorem steadySvd_correct : steadySvd.Correct := signed_correct someSvd_correct fun _ _ => svdSign_sq _ _

theorem steadySvd_continuous {m n : ℕ} (h : n ≤ m) : ContinuousAt (steadySvd.v (m := m) (n := n)) (stairs m n) := by
  have e : someSvd.d (stairs m n) = fun k : Fin n => (n : ℝ) - k := (someSvd_correct _ h).unique (stairs_svd h)
  exact (svd_signed_continuous (A := fun A : Matrix (Fin m) (Fin n) ℝ => A) (U := fun A => someSvd.u A) (d := fun A => someSvd.d A) (V := fun A => someSvd.v A)
    continuousAt_id (Filter.Eventually.of_forall fun A => someSvd_correct A h) (by rw [e]; exact stairs_inj n)).1

/-- `stairs` as an array. -/
noncomputable def stairsA (m n : ℕ) : Arr := Arr.of [m, n] fun k => entR (stairs m n) (k / n) (k % n)

theorem stairsA_mat (m n : ℕ) : asMatrix m n (stairsA m n) = stairs m n := asMatrix_ent _

/-- The hypotheses of C59 are met at every size with at least as many rows as columns. -/
example (m n : ℕ) (h : n ≤ m) : steadySvd.Correct ∧ IsSvd (asMatrix m n (stairsA m n)) (Matrix.of fun i j => if (i : ℕ) = j then 1 else 0) (fun k : Fin n => (n : ℝ) - k) 1 ∧
    (Function.Injective fun k : Fin n => (n : ℝ) - k) ∧ (∀ k : Fin n, svdEps < (n : ℝ) - k) ∧
    ContinuousAt (steadySvd.v (m := m) (n := n)) (asMatrix m n (stairsA m n)) ∧
    ∃ hp, Reach lib ⟨False, True⟩ hp ∧ IsA hp.graph 1 (chSvdV steadySvd) [nmA] (fun _ => 0) ∧ Means lib hp.graph (.r 0) (.ok (stairsA m n)) ∧
      IsLeaf hp.graph 0 := by
  rw [stairsA_mat]
  exact ⟨steadySvd_correct, stairs_svd h, stairs_inj n, stairs_pos n, steadySvd_continuous h, ADDemo.unary_reach rfl _ (by simp [stairsA, Arr.of])⟩

/-- And those of `svdU_expression`. -/
example (m n : ℕ) : ∃ h, Reach lib ⟨False, True⟩ h ∧ MadeBySvdU steadySvd h.graph 0 1 ∧ IsLeaf h.graph 0 ∧
    Means lib h.graph (.r 0) (.ok (stairsA m n)) := by
  obtain ⟨h, hr, _, _, hj⟩ := ADDemo.built_state (leafO (stairsA m n) :: svdUObjs steadySvd 0 1)
    ⟨leafO_fits _ _, unO_fits (by decide), unO_fits (by decide), binO_fits (by decide) (by decide) rfl, unPO_fits (by decide),
      binO_fits (by decide) (by decide) rfl, trivial⟩
  have h0 := (hj 0 (by simp [svdUObjs])).2
  refine ⟨h, hr, ⟨by decide, (hj 1 (by simp [svdUObjs])).2, (hj 2 (by simp [svdUObjs])).2, (hj 3 (by simp [svdUObjs])).2, (hj 4 (by simp [svdUObjs])).2,
    (hj 5 (by simp [svdUObjs])).2⟩, isLeaf_leafO h0, (leaf_means h0 (by simp [stairsA, Arr.of])).1⟩

/-! ## Without the hypotheses -/

/-- C59 in full, for the right singular vectors: the Jacobian is right at every matrix whose singular values are above `np.spacing(1)`. -/
def C59_full (s : SvdFn) : Prop :=
  ∀ (h : Heap ClassDef Par Arr Jac) (y a : Id) (v : Arr) (m n : ℕ), Reach lib ⟨False, True⟩ h → IsA h.graph y (chSvdV s) [nmA] (fun _ => a) →
    IsLeaf h.graph a → Means lib h.graph (.r a) (.ok v) → v.shape = [m, n] → n ≤ m → (∀ k, svdEps < s.d (asMatrix m n v) k) →
    ∃ out M, HasJacobian h.graph y a out v M ∧ Reports h y a out.size v.size M

theorem one_svd (n : ℕ) : IsSvd (1 : Matrix (Fin n) (Fin n) ℝ) 1 (fun _ => 1) 1 :=
  ⟨by simp, by simp, by simp, fun _ => zero_le_one, fun _ _ _ => le_refl _⟩

/-- The Jacobian of `SvdV` raises where two singular values are equal. -/
theorem svdV_raises {s : SvdFn} {h : Heap ClassDef Par Arr Jac} {y a : Id} {v : Arr} {m n : ℕ} (hr : Reach lib ⟨False, True⟩ h)
    (hy : IsA h.graph y (chSvdV s) [nmA] fun _ => a) (hl : IsLeaf h.graph a) (hv : Means lib h.graph (.r a) (.ok v)) (hsh : v.shape = [m, n])
    (hmn : n ≤ m) {k l : Fin n} (hkl : k ≠ l) (he : s.dz (matOfR m n v.vec) k = s.dz (matOfR m n v.vec) l) :
    ∃ f₀, ∀ f ≥ f₀, (drWrt lib f y a h).2 = .error (.user 1) := by
  have hya : y ≠ a := by
    rintro rfl
    have := hy.kid (0 : Fin 1)
    rw [hl.2.1] at this; cases this
  have hnone : svdVDr s (matOfR m n v.vec) = none := by
    unfold svdVDr
    rw [if_pos]
    rcases lt_or_gt_of_ne hkl with h' | h'
    · exact ⟨k, l, h', by rw [he]; ring⟩
    · exact ⟨l, k, h', by rw [he]; ring⟩
  obtain ⟨_, f1, hf1⟩ := hv
  have hk0 : (h.graph y).dterms nmA = some a := hy.kid (0 : Fin 1)
  have hper : lib.isPermute (h.graph a).cls = false := by rw [hl.1]; rfl
  have hev : evalDr lib h.graph (f1 + 1) y a = .error (.user 1) := by
    have : evalCompDr lib h.graph f1 y a = .error (.user 1) := by
      unfold evalCompDr
      rw [hy.cls, namesOf_one hy]
      show evalProg h.graph (evalReq lib h.graph f1) y ((chSvdV s).dr (y == a) [nmA]) = _
      simp [chSvdV, matBody, evalProg, hk0, hf1, hsh, hmn, hnone, retOr]
    simp [evalDr, evalSliced, this]
  refine ⟨f1 + 1, fun f hf => ?_⟩
  have e := evalDr_mono lib h.graph hf y a
  rw [Le, hev] at e
  have := (C02_derivative_never_stale_partial lib_propsOk lib_plainForm hr f y a hper).2.2
  rw [e (by simp)] at this
  exact this (by simp)

/-- With equal singular values `dr_wrt` of the vectors raises: the identity matrix. -/
theorem C59_equal_values_refuted {s : SvdFn} (hs : s.Correct) : ¬ C59_full s := by
  intro hf
  obtain ⟨h, hr, hy, hv, hl⟩ := ADDemo.unary_reach (c := chSvdV s) rfl
    (Arr.of [2, 2] fun k => entR (1 : Matrix (Fin 2) (Fin 2) ℝ) (k / 2) (k % 2)) (by simp [Arr.of])
  have e : s.d (1 : Matrix (Fin 2) (Fin 2) ℝ) = fun _ => 1 := (hs _ le_rfl).unique (one_svd 2)
  have hp : ∀ k, svdEps < s.d (1 : Matrix (Fin 2) (Fin 2) ℝ) k := by
    intro k; rw [e]; show svdEps < 1; unfold svdEps; norm_num
  obtain ⟨out, M, _, f₀, h2⟩ := hf h 1 0 _ 2 2 hr hy hl hv rfl le_rfl (by rw [asMatrix_ent]; exact hp)
  have hm := asMatrix_rect (m := 2) (n := 2) (v := Arr.of [2, 2] fun k => entR (1 : Matrix (Fin 2) (Fin 2) ℝ) (k / 2) (k % 2)) rfl
  rw [asMatrix_ent] at hm
  obtain ⟨f₁, h1⟩ := svdV_raises hr hy hl hv (m := 2) (n := 2) rfl le_rfl (k := 0) (l := 1) (by decide)
    (by rw [← hm, dz_eq (hp 0), dz_eq (hp 1), e])
  obtain ⟨o, ho, _⟩ := h2 _ (Nat.le_max_left f₀ f₁)
  rw [h1 _ (Nat.le_max_right f₀ f₁)] at ho
  cases ho

open Classical in
/-- `steadySvd` with all signs changed except at `stairs`. -/
noncomputable def jumpySvd : SvdFn := steadySvd.signed fun {m n} A _ => if A = stairs m n then 1 else -1

theorem jumpySvd_correct : jumpySvd.Correct := signed_correct steadySvd_correct fun A k => by split <;> norm_num

theorem jumpy_v {m n : ℕ} (A : Matrix (Fin m) (Fin n) ℝ) : (A = stairs m n → jumpySvd.v A = steadySvd.v A) ∧ (A ≠ stairs m n → jumpySvd.v A = -steadySvd.v A) := by
  constructor
  · intro h
    show steadySvd.v A * Matrix.diagonal _ = _
    simp only [if_pos h]
    rw [show Matrix.diagonal (fun _ : Fin n => (1 : ℝ)) = 1 from Matrix.diagonal_one, Matrix.mul_one]
  · intro h
    show steadySvd.v A * Matrix.diagonal _ = _
    simp only [if_neg h]
    ext i j
    rw [Matrix.mul_diagonal]; simp

/-- If the routine switches signs, the vectors have no derivative there, though singular values are distinct and nonzero: a matrix with one
entry, which is 1. -/
theorem C59_sign_jump_refuted : ∃ s : SvdFn, s.Correct ∧ ∃ h, Reach lib ⟨False, True⟩ h ∧ IsA h.graph 1 (chSvdV s) [nmA] (fun _ => 0) ∧
    IsLeaf h.graph 0 ∧ Means lib h.graph (.r 0) (.ok (stairsA 1 1)) ∧ ∀ out M, ¬ HasJacobian h.graph 1 0 out (stairsA 1 1) M := by
  obtain ⟨h, hr, hy, hv, hl⟩ := ADDemo.unary_reach (c := chSvdV jumpySvd) rfl (stairsA 1 1) (by simp [stairsA, Arr.of])
  refine ⟨jumpySvd, jumpySvd_correct, h, hr, hy, hl, hv, ?_⟩
  rintro out M ⟨hout, _, F, hF1, hF2⟩
  have hN : (stairsA 1 1).size = 1 * 1 := svd_size rfl
  have hx := matOfR_fn hN
  have hst : matOfR 1 1 (stairsA 1 1).vec = stairs 1 1 := by rw [← asMatrix_rect rfl, stairsA_mat]
  have hval : ∀ t, Means lib (setTo h.graph 0 ((stairsA 1 1).put t)) (.r 1)
      (.ok (Arr.of [1, 1] fun k => entR (jumpySvd.v (matLinR 1 1 _ hN t)) (k / 1) (k % 1))) := by
    intro t
    have hy' : IsA (setTo h.graph 0 ((stairsA 1 1).put t)) 1 (chSvdV jumpySvd) [nmA] fun _ => 0 := by
      have e : setTo h.graph 0 ((stairsA 1 1).put t) 1 = h.graph 1 := by simp [setTo]
      exact ⟨by rw [e]; exact hy.cls, by rw [e]; exact hy.dnames, hy.nodup, fun a => by rw [e]; exact hy.kid a⟩
    refine means_of_isA hy' (v := fun _ => (stairsA 1 1).put t) (fun _ => means_setTo h.graph 0 _) ?_
    erw [env_one]
    rw [← matOfR_put hN]
    exact returns_svdV rfl le_rfl
  have hos : out.shape = [1, 1] := by
    have := hF1.self_of_nhds.unique (hval _)
    injection this with this
    exact congrArg Arr.shape this
  have hoz : 0 < out.size := by rw [Arr.size, hos]; decide
  have hFv : ∀ᶠ t in 𝓝 (stairsA 1 1).data, F t ⟨0, hoz⟩ = jumpySvd.v (matLinR 1 1 _ hN t) 0 0 := by
    filter_upwards [hF1] with t ht
    have := ht.unique (hval t)
    injection this with this
    have e := congrArg (fun w : Arr => w.vec 0) this
    have e1 : (out.put (F t)).vec 0 = F t ⟨0, hoz⟩ := Arr.vec_put out (F t) ⟨0, hoz⟩
    rw [← e1]
    refine e.trans ?_
    rw [Arr.vec_of _ _ (by decide)]
    exact entR_fin (jumpySvd.v (matLinR 1 1 _ hN t)) 0 0
  have hc0 : matLinR 1 1 _ hN (stairsA 1 1).data = stairs 1 1 := by rw [← fn_eq, hx, hst]
  have hcont : Filter.Tendsto (fun t => F t ⟨0, hoz⟩) (𝓝 (stairsA 1 1).data) (𝓝 (steadySvd.v (stairs 1 1) 0 0)) := by
    have h1 := (continuous_apply (⟨0, hoz⟩ : Fin out.size)).continuousAt.tendsto.comp hF2.continuousAt.tendsto
    have h2 := hFv.self_of_nhds
    rw [hc0, (jumpy_v (stairs 1 1)).1 rfl] at h2
    rw [← h2]
    exact h1
  have hsteady : Filter.Tendsto (fun t => -(steadySvd.v (matLinR 1 1 _ hN t) 0 0)) (𝓝 (stairsA 1 1).data) (𝓝 (-steadySvd.v (stairs 1 1) 0 0)) := by
    have h1 : Filter.Tendsto (fun t => steadySvd.v (matLinR 1 1 _ hN t)) (𝓝 (stairsA 1 1).data) (𝓝 (steadySvd.v (stairs 1 1))) := by
      have := (steadySvd_continuous (m := 1) (n := 1) le_rfl).tendsto
      refine this.comp ?_
      rw [← hc0]
      exact (cont_matLinR 1 1 _ hN).continuousAt
    exact (tendsto_entry h1 0 0).neg
  have : Nontrivial (Fin (stairsA 1 1).size → ℝ) := by
    rw [hN]
    infer_instance
  have := Module.punctured_nhds_neBot ℝ (Fin (stairsA 1 1).size → ℝ) (stairsA 1 1).data
  have hpun : ∀ᶠ t in 𝓝[≠] (stairsA 1 1).data, F t ⟨0, hoz⟩ = -(steadySvd.v (matLinR 1 1 _ hN t) 0 0) := by
    filter_upwards [hFv.filter_mono nhdsWithin_le_nhds, self_mem_nhdsWithin] with t ht hne
    rw [ht, (jumpy_v _).2, Matrix.neg_apply]
    intro e
    refine hne ?_
    have e' := congrFun (congrFun (e.trans hc0.symm) 0) 0
    funext k
    have hk : k = ⟨0, by rw [hN]; decide⟩ := Fin.ext (by have := lt_of_lt_of_eq k.2 hN; show (k : ℕ) = 0; omega)
    rw [hk]
    exact e'
  have key := tendsto_nhds_unique ((hcont.mono_left nhdsWithin_le_nhds).congr' hpun) (hsteady.mono_left nhdsWithin_le_nhds)
  have h1 := congrFun (congrFun (steadySvd_correct (stairs 1 1) le_rfl).vv 0) 0
  rw [Matrix.mul_apply] at h1
  simp only [Matrix.transpose_apply, Fin.sum_univ_one, Matrix.one_apply_eq] at h1
  have h0 : steadySvd.v (stairs 1 1) 0 0 = 0 := by linarith
  rw [h0] at h1
  norm_num at h1
end Chumpy
