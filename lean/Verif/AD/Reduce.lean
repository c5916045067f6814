import Verif.Properties.Reorder
/-!
# sum, mean, cumsum and SumOfSquares (ch_ops.py:188-216, 307-394)
-/
namespace Chumpy
open scoped BigOperators Topology

/-! ## Linear classes -/

/-- A class with one child whose value is a fixed matrix times the child's flat entries is exact if it returns that matrix. -/
theorem exact_linear {c : ClassDef} {tm : Name → Option Par} {v : Arr} {osh : List ℕ} (E : Ent)
    (hc : ∀ u : Arr, u.shape = v.shape → Returns lib c tm (env1 u) (Arr.of osh fun i => ∑ j ∈ Finset.range v.size, E i j * u.vec j))
    (hd : ∃ d, ReturnsDr lib c tm (env1 v) (Arr.of osh fun i => ∑ j ∈ Finset.range v.size, E i j * v.vec j) [nmA] d ∧
      num.RepO d osh.prod v.size E) :
    Exact c tm [nmA] (fun _ => v) (Arr.of osh fun i => ∑ j ∈ Finset.range v.size, E i j * v.vec j) (fun _ => E) := by
  refine exact_one (hc v rfl) (fun x => Ent.lin osh.prod v.size E x) ?_ (ContinuousLinearMap.hasFDerivAt _) hd
  refine Filter.Eventually.of_forall fun x => ?_
  have h1 := hc (v.put x) rfl
  have e : (Arr.of osh fun i => ∑ j ∈ Finset.range v.size, E i j * (v.put x).vec j) =
      (Arr.of osh fun i => ∑ j ∈ Finset.range v.size, E i j * v.vec j).put (Ent.lin osh.prod v.size E x) := by
    show Arr.mk osh _ = Arr.mk osh _
    congr 1
    funext k
    rw [Ent.lin_apply]
    show ∑ j ∈ Finset.range v.size, E k j * (v.put x).vec j = _
    rw [← Fin.sum_univ_eq_sum_range (fun j => E k j * (v.put x).vec j)]
    exact Finset.sum_congr rfl fun j _ => by rw [Arr.vec_put v x j]
  rwa [e] at h1

/-- A matrix given by coordinates times a vector. -/
theorem coo_mul {n m : ℕ} {IS JS : ℕ → ℕ} {data x : ℕ → ℝ} (hJ : ∀ k < n, JS k < m) (i : ℕ) :
    ∑ j ∈ Finset.range m, coo n IS JS data i j * x j = ∑ k ∈ Finset.range n, if IS k = i then data k * x (JS k) else 0 := by
  unfold coo
  simp_rw [Finset.sum_mul]
  rw [Finset.sum_comm]
  refine Finset.sum_congr rfl fun k hk => ?_
  by_cases h : IS k = i
  · simp only [h, true_and, if_true]
    rw [Finset.sum_eq_single (JS k)]
    · simp
    · intro j _ hj; rw [if_neg (Ne.symm hj), zero_mul]
    · intro hn; exact absurd (Finset.mem_range.2 (hJ k (Finset.mem_range.1 hk))) hn
  · simp [h]

/-- A sum over `s * R` positions of which one in `R` counts. -/
theorem sum_stride {s R i : ℕ} (hi : i < R) (f : ℕ → ℝ) :
    (∑ k ∈ Finset.range (s * R), if k % R = i then f k else 0) = ∑ t ∈ Finset.range s, f (t * R + i) := by
  induction s with
  | zero => simp
  | succ s ih =>
    rw [Finset.sum_range_succ, Nat.succ_mul, Finset.sum_range_add, ih]
    congr 1
    rw [Finset.sum_eq_single i]
    · rw [if_pos]; rw [Nat.add_comm, Nat.add_mul_mod_self_right, Nat.mod_eq_of_lt hi]
    · intro k hk hne
      rw [if_neg]
      rw [Nat.add_comm, Nat.add_mul_mod_self_right, Nat.mod_eq_of_lt (Finset.mem_range.1 hk)]
      exact hne
    · intro hn; exact absurd (Finset.mem_range.2 hi) hn

/-! ## sum and mean -/

/-- The value of `np.sum(x, axis)` (ch_ops.py:319) and, with `w` the number of entries summed, of `np.mean(x, axis)`
(ch_ops.py:353): each entry of the result is the sum of the entries along the axis, times `w` of their number. -/
noncomputable def reduceBody (w : ℕ → ℝ) : Prog Par Arr Arr :=
  .child nmA fun v => .term nmP fun
    | some (.int a) =>
      match normAxis v.shape.length a with
      | none => .raise 1
      | some i => .ret (Arr.of (v.shape.eraseIdx i) fun k =>
          w (v.shape.getD i 0) * ∑ t ∈ Finset.range (v.shape.getD i 0), v.at ((unravel (v.shape.eraseIdx i) k).insertIdx i t)).atleast1
    | none => .ret (Arr.of [1] fun _ => w v.size * ∑ k ∈ Finset.range v.size, v.vec k)
    | some .none => .ret (Arr.of [1] fun _ => w v.size * ∑ k ∈ Finset.range v.size, v.vec k)
    | _ => .raise 1

/-- The Jacobian along an axis (ch_ops.py:328-337, 361-371): the positions before summing, `np.rollaxis`ed, against the positions
after, `np.tile`d.  `none` is an exception. -/
noncomputable def reduceMat (w : ℕ → ℝ) (a : ℤ) (v out : Arr) : Option Jac :=
  match rollaxisρ (some (.int a)) (some (.int 0)) (arange v.shape) with
  | none => none
  | some L =>
    match tileρ (some (.nats (L.shape.headD 0 :: List.replicate (L.shape.length - 1) 1))) none (arange out.shape) with
    | none => none
    | some T => some (.sparse out.size v.size
        (coo T.shape.prod (fun k => (T.src k).getD 0) (fun k => (L.src k).getD 0) fun _ => w (L.shape.headD 0)))

/-- `compute_dr_wrt` of `sum` and `mean`; the memo table `dr_cache` is the subject of `Verif/AD/Memo.lean`. `flat` is the
matrix for `axis=None`. -/
noncomputable def reduceDr (w : ℕ → ℝ) (flat : Arr → Jac) : Prog Par Arr (Option Jac) :=
  .child nmA fun v => .term nmP fun
    | some (.int a) => .selfR fun out => retOr (reduceMat w a v out)
    | none => .ret (some (flat v))
    | some .none => .ret (some (flat v))
    | _ => .raise 1

/-- `sum` (ch_ops.py:307-338); `x` is called `nmA` here and `axis` `nmP`. -/
noncomputable def chSum : ClassDef where
  r := reduceBody fun _ => 1
  dr := fun _ S => if nmA ∈ S then reduceDr (fun _ => 1) fun v => .dense 1 v.size fun _ _ => 1 else .ret none
  dr_none := rfl

/-- `mean` (ch_ops.py:341-372).  For `axis=None` the matrix has `len(self.x.r)` columns (line 359), the length of the first
axis.  The mean of no entries, a NaN in numpy, is 0 here. -/
noncomputable def chMean : ClassDef where
  r := reduceBody fun n => 1 / n
  dr := fun _ S => if nmA ∈ S then reduceDr (fun n => 1 / n) fun v => .dense 1 (v.shape.headD 0) fun _ _ => 1 / v.shape.headD 0 else .ret none
  dr_none := rfl

/-! ### Positions -/

theorem headD_getD (sh : List ℕ) : sh.headD 0 = sh.getD 0 0 := by cases sh <;> rfl

theorem getD_eraseIdx (l : List ℕ) (i t : ℕ) : (l.eraseIdx i).getD t 0 = if t < i then l.getD t 0 else l.getD (t + 1) 0 := by
  simp only [List.getD_eq_getElem?_getD, List.getElem?_eraseIdx]
  split <;> rfl

theorem getD_insertIdx (l : List ℕ) (i t x : ℕ) (hi : i ≤ l.length) :
    (l.insertIdx i x).getD t 0 = if t < i then l.getD t 0 else if t = i then x else l.getD (t - 1) 0 := by
  simp only [List.getD_eq_getElem?_getD, List.getElem?_insertIdx]
  split
  · rfl
  · split
    · next h => rw [if_pos (by omega)]; rfl
    · rfl

theorem inB_insertIdx {sh c : List ℕ} {i t : ℕ} (hi : i < sh.length) (hc : InB (sh.eraseIdx i) c) (ht : t < sh.getD i 0) :
    InB sh (c.insertIdx i t) := by
  rw [inB_iff] at hc ⊢
  have hl : (sh.eraseIdx i).length = sh.length - 1 := List.length_eraseIdx_of_lt hi
  have hcl : c.length = sh.length - 1 := hc.1.trans hl
  refine ⟨by rw [List.length_insertIdx, if_pos (by omega)]; omega, fun j hj => ?_⟩
  rw [getD_insertIdx _ _ _ _ (by omega)]
  split
  · next h =>
    have := hc.2 j (by omega)
    rwa [getD_eraseIdx, if_pos h] at this
  · split
    · next h => rw [h]; exact ht
    · next h1 h2 =>
      have := hc.2 (j - 1) (by omega)
      rw [getD_eraseIdx, if_neg (by omega)] at this
      rwa [show j - 1 + 1 = j by omega] at this

/-- The axes of `np.rollaxis(a, i, 0)`. -/
theorem rollAxes_zero (n i : ℕ) : rollAxes n i 0 = i :: (List.range n).erase i := by
  simp [rollAxes]

theorem range_erase_getD {n i t : ℕ} (hi : i < n) (ht : t < n - 1) : ((List.range n).erase i).getD t 0 = if t < i then t else t + 1 := by
  have hidx : (List.range n).idxOf i = i := by
    have := List.nodup_range.idxOf_getElem i (by simpa using hi : i < (List.range n).length)
    simpa using this
  rw [List.erase_eq_eraseIdx_of_idxOf (l := List.range n) (a := i) (by exact hidx), getD_eraseIdx]
  split
  · exact getD_range (by omega)
  · exact getD_range (by omega)

theorem range_erase_length {n i : ℕ} (hi : i < n) : ((List.range n).erase i).length = n - 1 := by
  rw [List.length_erase_of_mem (List.mem_range.2 hi), List.length_range]

theorem prod_eraseIdx (sh : List ℕ) (i : ℕ) (hi : i < sh.length) : sh.getD i 0 * (sh.eraseIdx i).prod = sh.prod := by
  induction sh generalizing i with
  | nil => simp at hi
  | cons a sh ih =>
    cases i with
    | zero => simp
    | succ i =>
      simp only [List.getD_cons_succ, List.eraseIdx_cons_succ, List.prod_cons]
      rw [← ih i (by simpa using hi)]; ring

/-- The result of `np.rollaxis(np.arange(..).reshape(sh), i, 0)`: its shape, and the position in the array of entry
`t * R + r`. -/
theorem rollaxis_zero {sh : List ℕ} {a : ℤ} {i : ℕ} (hi : normAxis sh.length a = some i) :
    ∃ L : Layout, rollaxisρ (some (.int a)) (some (.int 0)) (arange sh) = some L ∧ L.shape = sh.getD i 0 :: sh.eraseIdx i ∧
      ∀ t < sh.getD i 0, ∀ r < (sh.eraseIdx i).prod,
        L.src (t * (sh.eraseIdx i).prod + r) = some (ravel sh ((unravel (sh.eraseIdx i) r).insertIdx i t)) := by
  have hil := normAxis_lt hi
  have hz : (0 : ℤ) ≠ sh.length := by omega
  have hn0 : normAxis sh.length 0 = some 0 := by
    unfold normAxis; rw [if_pos (by omega)]; rfl
  obtain ⟨r1, _, _⟩ := rollAxes_spec hil (Nat.zero_le _)
  have hel := range_erase_length hil
  have hsl : (sh.eraseIdx i).length = sh.length - 1 := List.length_eraseIdx_of_lt hil
  have hshape : (rollAxes sh.length i 0).map (fun j => sh.getD j 0) = sh.getD i 0 :: sh.eraseIdx i := by
    rw [rollAxes_zero, List.map_cons]
    congr 1
    refine list_ext_getD (by rw [List.length_map, hel, hsl]) fun t ht => ?_
    rw [List.length_map] at ht
    rw [getD_map _ _ _ 0 _ ht, range_erase_getD hil (by omega), getD_eraseIdx]
    split <;> rfl
  refine ⟨.byCoord ((rollAxes sh.length i 0).map fun j => sh.getD j 0) sh
    fun c => (List.range sh.length).map fun j => c.getD ((rollAxes sh.length i 0).idxOf j) 0, ?_, hshape, fun t ht r hrr => ?_⟩
  · show (normAxis sh.length a).bind _ = _
    rw [hi]
    show (if (0 : ℤ) = sh.length then some sh.length else normAxis sh.length 0).bind _ = _
    rw [if_neg hz, hn0]
    show transposeL sh (rollAxes sh.length i 0) = _
    unfold transposeL
    rw [if_pos r1]
  · simp only [Layout.byCoord, hshape]
    congr 2
    have hR : 0 < (sh.eraseIdx i).prod := by omega
    have hu : unravel (sh.getD i 0 :: sh.eraseIdx i) (t * (sh.eraseIdx i).prod + r) = t :: unravel (sh.eraseIdx i) r := by
      simp only [unravel]
      rw [Nat.mul_comm, Nat.mul_add_div hR, Nat.div_eq_of_lt hrr, Nat.mul_add_mod, Nat.mod_eq_of_lt hrr]; rfl
    rw [hu, rollAxes_zero]
    have hB := unravel_inB hrr
    have hcl := hB.length
    refine list_ext_getD (by rw [List.length_map, List.length_range, List.length_insertIdx, if_pos (by omega)]; omega) fun j hj => ?_
    rw [List.length_map, List.length_range] at hj
    rw [getD_map _ _ _ 0 _ (by simpa using hj), getD_range hj, getD_insertIdx _ _ _ _ (by omega)]
    by_cases hji : j = i
    · subst hji; simp
    · rw [List.idxOf_cons_ne _ (Ne.symm hji), List.getD_cons_succ]
      have hnd : ((List.range sh.length).erase i).Nodup := List.nodup_range.erase _
      have key : ((List.range sh.length).erase i).idxOf j = if j < i then j else j - 1 := by
        have hp : (if j < i then j else j - 1) < ((List.range sh.length).erase i).length := by rw [hel]; split <;> omega
        have h1 := hnd.idxOf_getElem _ hp
        have h2 : ((List.range sh.length).erase i)[if j < i then j else j - 1] = j := by
          rw [← List.getD_eq_getElem _ 0 hp, range_erase_getD hil (by rw [hel] at hp; exact hp)]
          by_cases hlt : j < i
          · rw [if_pos hlt, if_pos hlt]
          · rw [if_neg hlt, if_neg (by omega)]; omega
        rw [h2] at h1; exact h1
      rw [key]
      split <;> rfl

theorem replicate_succ_zipWith (s : ℕ) (l : List ℕ) : List.zipWith (· * ·) (1 :: l) (s :: List.replicate l.length 1) = s :: l := by
  rw [List.zipWith_cons_cons, Nat.one_mul]
  congr 1
  induction l with
  | nil => rfl
  | cons a l ih => rw [List.length_cons, List.replicate_succ, List.zipWith_cons_cons, Nat.mul_one, ih]

theorem zipWith_mod_inB {sh c : List ℕ} (h : InB sh c) : List.zipWith (· % ·) c sh = c := by
  induction h with
  | nil => rfl
  | cons hi _ ih => rw [List.zipWith_cons_cons, Nat.mod_eq_of_lt hi, ih]

/-- The result of `np.tile(np.arange(..).reshape(osh), (s, 1, …, 1))`: entry `k` is position `k % R`. -/
theorem tile_ones {s : ℕ} {rest osh : List ℕ} (ho : osh = if rest = [] then [1] else rest) :
    ∃ T : Layout, tileρ (some (.nats (s :: List.replicate rest.length 1))) none (arange osh) = some T ∧ T.shape.prod = s * rest.prod ∧
      ∀ k < s * rest.prod, T.src k = some (k % rest.prod) := by
  by_cases hr : rest = []
  · subst hr
    subst ho
    refine ⟨_, rfl, ?_, fun k hk => ?_⟩
    · simp [Layout.byCoord, padShape, arange, Arr.of]
    · simp [Layout.byCoord, padShape, arange, Arr.of, unravel, ravel, Nat.mod_one]
  · rw [if_neg hr] at ho
    subst ho
    have hpad : padShape (osh.length + 1) osh = 1 :: osh := by simp [padShape]
    have hpad2 : padShape (osh.length + 1) (s :: List.replicate osh.length 1) = s :: List.replicate osh.length 1 := by simp [padShape]
    have hd : max (s :: List.replicate osh.length 1).length (arange osh).shape.length = osh.length + 1 := by
      show max _ osh.length = _
      simp
    refine ⟨_, rfl, ?_, fun k hk => ?_⟩
    · simp only [Layout.byCoord, hd]
      show (List.zipWith (· * ·) (padShape (osh.length + 1) osh) _).prod = _
      rw [hpad, hpad2, replicate_succ_zipWith, List.prod_cons]
    · have hR : 0 < osh.prod := by
        rcases Nat.eq_zero_or_pos osh.prod with e | e
        · rw [e] at hk; simp at hk
        · exact e
      have hB : InB osh (unravel osh (k % osh.prod)) := unravel_inB (Nat.mod_lt _ hR)
      simp only [Layout.byCoord, hd]
      show some (ravel osh ((List.zipWith (· % ·) (unravel (List.zipWith (· * ·) (padShape (osh.length + 1) osh) _) k)
        (padShape (osh.length + 1) osh)).drop (osh.length + 1 - osh.length))) = _
      rw [hpad, hpad2, replicate_succ_zipWith, show osh.length + 1 - osh.length = 1 by omega]
      simp only [unravel, List.zipWith_cons_cons, List.drop_succ_cons, List.drop_zero]
      rw [zipWith_mod_inB hB, ravel_unravel (Nat.mod_lt _ hR)]

/-- What `reduceMat` computes, as entries. -/
theorem reduceMat_eq {w : ℕ → ℝ} {a : ℤ} {i : ℕ} {v out : Arr} (hi : normAxis v.shape.length a = some i)
    (ho : out.shape = if v.shape.eraseIdx i = [] then [1] else v.shape.eraseIdx i) :
    ∃ E, reduceMat w a v out = some (.sparse out.size v.size E) ∧ out.size = (v.shape.eraseIdx i).prod ∧
      ∀ r < (v.shape.eraseIdx i).prod, ∀ x : ℕ → ℝ, ∑ j ∈ Finset.range v.size, E r j * x j =
        w (v.shape.getD i 0) * ∑ t ∈ Finset.range (v.shape.getD i 0), x (ravel v.shape ((unravel (v.shape.eraseIdx i) r).insertIdx i t)) := by
  have hil := normAxis_lt hi
  obtain ⟨L, hL, hLs, hLsrc⟩ := rollaxis_zero hi
  obtain ⟨T, hT, hTs, hTsrc⟩ := tile_ones (s := v.shape.getD i 0) ho
  have hlen : L.shape.length - 1 = (v.shape.eraseIdx i).length := by rw [hLs]; simp
  have hhead : L.shape.headD 0 = v.shape.getD i 0 := by rw [hLs]; rfl
  refine ⟨coo T.shape.prod (fun k => (T.src k).getD 0) (fun k => (L.src k).getD 0) fun _ => w (L.shape.headD 0), ?_, ?_, ?_⟩
  · unfold reduceMat
    simp only [hL]
    rw [hlen, hhead, hT]
  · unfold Arr.size
    rw [ho]; split
    · next h => rw [h]; rfl
    · rfl
  · intro r hr x
    have hdiv : ∀ k < v.shape.getD i 0 * (v.shape.eraseIdx i).prod,
        k / (v.shape.eraseIdx i).prod < v.shape.getD i 0 ∧ k % (v.shape.eraseIdx i).prod < (v.shape.eraseIdx i).prod ∧
          k = k / (v.shape.eraseIdx i).prod * (v.shape.eraseIdx i).prod + k % (v.shape.eraseIdx i).prod := by
      intro k hk
      exact ⟨Nat.div_lt_of_lt_mul (by rw [Nat.mul_comm]; exact hk), Nat.mod_lt _ (by omega), (Nat.div_add_mod' _ _).symm⟩
    rw [coo_mul (x := x)]
    · rw [hTs, hhead]
      have : ∀ k ∈ Finset.range (v.shape.getD i 0 * (v.shape.eraseIdx i).prod),
          (if (T.src k).getD 0 = r then w (v.shape.getD i 0) * x ((L.src k).getD 0) else 0) =
          if k % (v.shape.eraseIdx i).prod = r then w (v.shape.getD i 0) * x ((L.src k).getD 0) else 0 := by
        intro k hk
        rw [hTsrc k (Finset.mem_range.1 hk)]; rfl
      rw [Finset.sum_congr rfl this, sum_stride hr (fun k => w (v.shape.getD i 0) * x ((L.src k).getD 0)), Finset.mul_sum]
      refine Finset.sum_congr rfl fun t ht => ?_
      rw [hLsrc t (Finset.mem_range.1 ht) r hr]; rfl
    · intro k hk
      rw [hTs] at hk
      obtain ⟨h1, h2, h3⟩ := hdiv k hk
      have h4 := hLsrc _ h1 _ h2
      rw [← h3] at h4
      rw [h4]
      exact ravel_lt (inB_insertIdx hil (unravel_inB h2) h1)

/-- Entry of a `reduceBody` result along an axis. -/
theorem exact_reduce {c : ClassDef} {w : ℕ → ℝ} {flat : Arr → Jac} {tm : Name → Option Par} {v : Arr} {a : ℤ} {i : ℕ}
    (hcr : c.r = reduceBody w) (hcd : c.dr false [nmA] = reduceDr w flat) (hp : tm nmP = some (.int a))
    (hi : normAxis v.shape.length a = some i) :
    ∃ E, Exact c tm [nmA] (fun _ => v) (Arr.of (v.shape.eraseIdx i) fun k =>
          w (v.shape.getD i 0) * ∑ t ∈ Finset.range (v.shape.getD i 0), v.at ((unravel (v.shape.eraseIdx i) k).insertIdx i t)).atleast1 (fun _ => E) := by
  obtain ⟨osh, ho⟩ : ∃ osh, osh = if v.shape.eraseIdx i = [] then [1] else v.shape.eraseIdx i := ⟨_, rfl⟩
  obtain ⟨E, hE, hos, hEx⟩ := reduceMat_eq (w := w) (v := v) (out := ⟨osh, fun _ => 0⟩) hi ho
  have e : ∀ u : Arr, u.shape = v.shape → (Arr.of (v.shape.eraseIdx i) fun k =>
          w (v.shape.getD i 0) * ∑ t ∈ Finset.range (v.shape.getD i 0), u.at ((unravel (v.shape.eraseIdx i) k).insertIdx i t)).atleast1 =
        Arr.of osh fun r => ∑ j ∈ Finset.range v.size, E r j * u.vec j := by
    intro u hu
    refine Arr.ext_vec ho.symm fun k hk => ?_
    have hk1 : k < osh.prod := by rw [ho]; exact hk
    have hk2 : k < (v.shape.eraseIdx i).prod := by rw [← hos]; exact hk1
    rw [Arr.atleast1_vec, Arr.vec_of _ _ hk1, Arr.vec_of _ _ hk2, hEx k hk2]
    simp only [Arr.at, hu]
  refine ⟨E, ?_⟩
  rw [e v rfl]
  refine exact_linear E (fun u hu => ?_) ⟨some (.sparse osh.prod v.size E), ⟨0, ?_⟩, ⟨rfl, rfl, fun _ _ _ _ => rfl⟩⟩
  · rw [← e u hu]
    refine ⟨0, ?_⟩
    show runBody _ _ _ _ c.r = _
    rw [hcr]
    simp [reduceBody, runBody, env1, hp, hu, hi]
  · show runBody _ _ _ _ (c.dr false [nmA]) = _
    rw [hcd]
    have : reduceMat w a v (Arr.of osh fun r => ∑ j ∈ Finset.range v.size, E r j * v.vec j) =
        some (.sparse osh.prod v.size E) := hE
    simp [reduceDr, runBody, env1, hp, this, retOr]

/-- The sum, or mean, of all entries. -/
theorem exact_reduce_flat {c : ClassDef} {w : ℕ → ℝ} {flat : Arr → Jac} {tm : Name → Option Par} {v : Arr}
    (hcr : c.r = reduceBody w) (hcd : c.dr false [nmA] = reduceDr w flat) (hp : tm nmP = none ∨ tm nmP = some .none)
    (hf : flat v = .dense 1 v.size fun _ _ => w v.size) :
    Exact c tm [nmA] (fun _ => v) (Arr.of [1] fun _ => w v.size * ∑ k ∈ Finset.range v.size, v.vec k) (fun _ => fun _ _ => w v.size) := by
  have e : ∀ u : Arr, u.shape = v.shape → (Arr.of [1] fun _ => w v.size * ∑ k ∈ Finset.range v.size, u.vec k) =
      Arr.of [1] fun r => ∑ j ∈ Finset.range v.size, (fun _ _ => w v.size : Ent) r j * u.vec j := by
    intro u _
    refine Arr.of_congr fun k _ => ?_
    rw [Finset.mul_sum]
  rw [e v rfl]
  refine exact_linear _ (fun u hu => ?_) ⟨some (.dense 1 v.size fun _ _ => w v.size), ⟨0, ?_⟩, ⟨rfl, rfl, fun _ _ _ _ => rfl⟩⟩
  · rw [← e u hu]
    refine ⟨0, ?_⟩
    show runBody _ _ _ _ c.r = _
    have hs : u.size = v.size := by unfold Arr.size; rw [hu]
    rw [hcr]
    rcases hp with hp | hp <;> simp [reduceBody, runBody, env1, hp, ← hs]
  · show runBody _ _ _ _ (c.dr false [nmA]) = _
    rw [hcd]
    rcases hp with hp | hp <;> simp [reduceDr, runBody, env1, hp, hf]

/-! ## cumsum -/

/-- Sum of the entries of `x` up to position `k`. -/
noncomputable def upTo (x : ℕ → ℝ) (k : ℕ) : ℝ := ∑ j ∈ Finset.range (k + 1), x j

/-- `cumsum` (ch_ops.py:188-216); `a` is `nmA`, `axis` is `nmP`.  Without an axis the positions in `IS` and `JS` (lines 206-212)
are the pairs `k % n`, `k / n` with the first not smaller; listing only the pairs kept, or giving the others the value 0,
makes the same matrix.  With an axis, `compute_dr_wrt` raises. -/
noncomputable def chCumsum : ClassDef where
  r := .child nmA fun v => .term nmP fun
    | some (.int a) =>
      match normAxis v.shape.length a with
      | none => .raise 1
      | some i => .ret (Arr.of v.shape fun k =>
          upTo (fun t => v.at ((unravel v.shape k).set i t)) ((unravel v.shape k).getD i 0))
    | none => .ret (Arr.of [v.size] fun k => upTo v.vec k)
    | some .none => .ret (Arr.of [v.size] fun k => upTo v.vec k)
    | _ => .raise 1
  dr := fun _ S => if nmA ∈ S then .child nmA fun v => .term nmP fun
      | none => .ret (some (.sparse v.size v.size
          (coo (v.size * v.size) (fun k => k % v.size) (fun k => k / v.size) fun k => if k / v.size ≤ k % v.size then 1 else 0)))
      | some .none => .ret (some (.sparse v.size v.size
          (coo (v.size * v.size) (fun k => k % v.size) (fun k => k / v.size) fun k => if k / v.size ≤ k % v.size then 1 else 0)))
      | _ => .raise 1
    else .ret none
  dr_none := rfl

/-- The lower triangular matrix of ones. -/
noncomputable def lowerOnes : Ent := fun i j => if j ≤ i then 1 else 0

theorem coo_lower (n : ℕ) : Ent.EqOn n n
    (coo (n * n) (fun k => k % n) (fun k => k / n) fun k => if k / n ≤ k % n then 1 else 0) lowerOnes := by
  intro i hi j hj
  unfold coo
  have hlt : j * n + i < n * n := by
    calc j * n + i < j * n + n := by omega
      _ = (j + 1) * n := by ring
      _ ≤ n * n := Nat.mul_le_mul_right _ hj
  have hm : (j * n + i) % n = i := by rw [Nat.add_comm, Nat.add_mul_mod_self_right, Nat.mod_eq_of_lt hi]
  have hq : (j * n + i) / n = j := by rw [Nat.mul_comm, Nat.mul_add_div (by omega), Nat.div_eq_of_lt hi]; omega
  rw [Finset.sum_eq_single (j * n + i)]
  · rw [if_pos ⟨hm, hq⟩]; dsimp only; rw [hm, hq]; rfl
  · intro k hk hne
    rw [if_neg]
    rintro ⟨rfl, rfl⟩
    exact hne (Nat.div_add_mod' _ _).symm
  · intro h; exact absurd (Finset.mem_range.2 hlt) h

theorem upTo_eq {n k : ℕ} (hk : k < n) (x : ℕ → ℝ) : upTo x k = ∑ j ∈ Finset.range n, lowerOnes k j * x j := by
  unfold upTo lowerOnes
  simp only [ite_mul, one_mul, zero_mul]
  rw [← Finset.sum_filter]
  refine Finset.sum_congr ?_ fun _ _ => rfl
  ext j
  simp only [Finset.mem_range, Finset.mem_filter]
  omega

/-- The running sums of all entries. -/
theorem exact_cumsum {tm : Name → Option Par} {v : Arr} (hp : tm nmP = none ∨ tm nmP = some .none) :
    Exact chCumsum tm [nmA] (fun _ => v) (Arr.of [v.size] fun k => upTo v.vec k) (fun _ => lowerOnes) := by
  have e : ∀ u : Arr, u.shape = v.shape → (Arr.of [v.size] fun k => upTo u.vec k) =
      Arr.of [v.size] fun r => ∑ j ∈ Finset.range v.size, lowerOnes r j * u.vec j := by
    intro u _
    refine Arr.of_congr fun k hk => ?_
    exact upTo_eq (by simpa using hk) _
  rw [e v rfl]
  refine exact_linear _ (fun u hu => ?_) ⟨some (.sparse v.size v.size
    (coo (v.size * v.size) (fun k => k % v.size) (fun k => k / v.size) fun k => if k / v.size ≤ k % v.size then 1 else 0)), ⟨0, ?_⟩, ?_⟩
  · rw [← e u hu]
    refine ⟨0, ?_⟩
    have hs : u.size = v.size := by unfold Arr.size; rw [hu]
    rcases hp with hp | hp <;> simp [lib, chCumsum, runBody, env1, hp, ← hs]
  · rcases hp with hp | hp <;> simp [lib, chCumsum, runBody, env1, hp]
  · refine ⟨by simp, rfl, ?_⟩
    have : ([v.size] : List ℕ).prod = v.size := by simp
    rw [this]
    exact coo_lower _

/-! ## SumOfSquares -/

/-- `SumOfSquares` (ch_ops.py:386-394); `x` is `nmA`. -/
noncomputable def chSumSq : ClassDef where
  r := .child nmA fun v => .ret (Arr.of [1] fun _ => ∑ k ∈ Finset.range v.size, v.vec k ^ 2)
  dr := fun _ S => if nmA ∈ S then .child nmA fun v => .ret (some (.dense 1 v.size fun _ j => v.vec j * 2)) else .ret none
  dr_none := rfl

theorem exact_sumSq {tm : Name → Option Par} {v : Arr} :
    Exact chSumSq tm [nmA] (fun _ => v) (Arr.of [1] fun _ => ∑ k ∈ Finset.range v.size, v.vec k ^ 2) (fun _ => fun _ j => v.vec j * 2) := by
  refine exact_one ⟨0, by simp [lib, chSumSq, runBody, env1]⟩ (fun x _ => ∑ k : Fin v.size, x k ^ 2) ?_ ?_
    ⟨some (.dense 1 v.size fun _ j => v.vec j * 2), ⟨0, by simp [lib, chSumSq, runBody, env1]⟩, ⟨rfl, rfl, fun _ _ _ _ => rfl⟩⟩
  · refine Filter.Eventually.of_forall fun x => ⟨0, ?_⟩
    simp only [lib, chSumSq, runBody, env1, if_true]
    congr 1
    show Arr.mk [1] _ = Arr.mk [1] _
    congr 1
    funext k
    show ∑ j ∈ Finset.range v.size, (v.put x).vec j ^ 2 = _
    rw [← Fin.sum_univ_eq_sum_range (fun j => (v.put x).vec j ^ 2)]
    exact Finset.sum_congr rfl fun j _ => by rw [Arr.vec_put v x j]
  · rw [hasFDerivAt_pi']
    intro r
    have h1 : HasFDerivAt (fun x : Fin v.size → ℝ => ∑ k : Fin v.size, x k ^ 2)
        (∑ k : Fin v.size, (2 * v.vec k) • ContinuousLinearMap.proj (R := ℝ) (φ := fun _ : Fin v.size => ℝ) k) (num.fn v.size v) := by
      refine HasFDerivAt.fun_sum fun k _ => ?_
      have hp : HasFDerivAt (fun x : Fin v.size → ℝ => x k) (ContinuousLinearMap.proj (R := ℝ) (φ := fun _ : Fin v.size => ℝ) k) (num.fn v.size v) :=
        (ContinuousLinearMap.proj (R := ℝ) (φ := fun _ : Fin v.size => ℝ) k).hasFDerivAt
      have := hp.pow 2
      refine this.congr_fderiv ?_
      simp [Num.fn, two_mul]
    refine h1.congr_fderiv ?_
    refine ContinuousLinearMap.ext fun x => ?_
    have : (ContinuousLinearMap.proj r ∘SL Ent.lin [1].prod v.size fun _ j => v.vec j * 2) x =
      Ent.lin [1].prod v.size (fun _ j => v.vec j * 2) x r := rfl
    erw [this, Ent.lin_apply]
    simp [mul_comm]
end Chumpy
