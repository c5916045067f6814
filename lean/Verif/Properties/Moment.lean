import Verif.AD.Moment
/-!
# C71: central moments
-/
namespace Chumpy
open scoped BigOperators Topology

/-! ## The specification -/

/-- The average of `v` along axis `i` at the other coordinates `c`. -/
noncomputable def lineMean (i : ℕ) (v : Arr) (c : List ℕ) : ℝ := (∑ t ∈ Finset.range (v.shape.getD i 0), v.at (c.insertIdx i t)) / v.shape.getD i 0

/-- `out` holds the `k`-th central moments of `v` along axis `i`: that axis is gone (a number has shape `(1,)`), and every entry is the
average of the `k`-th powers of the deviations from the average. -/
def MomentAlong (k i : ℕ) (v out : Arr) : Prop :=
  out.shape = (if v.shape.eraseIdx i = [] then [1] else v.shape.eraseIdx i) ∧
    ∀ c, InB (v.shape.eraseIdx i) c → out.vec (ravel (v.shape.eraseIdx i) c) =
      (∑ t ∈ Finset.range (v.shape.getD i 0), (v.at (c.insertIdx i t) - lineMean i v c) ^ k) / v.shape.getD i 0

/-- The result has value `out`, and if it is an object and `a` a plain `Ch` with other than one entry then its derivative with respect to `a`,
as reported, is that of its value. -/
def ResultOk (h h' : Heap ClassDef Par Arr Jac) (a : Id) (v out : Arr) : Operand → Prop
  | .val x => out = x.atleast1
  | .obj y => (∃ f₁, ∀ f ≥ f₁, (read lib f (.r y) h').2 = .ok out) ∧
      (IsLeaf h.graph a → v.size ≠ 1 → ∃ M, HasJacobian h'.graph y a out v M ∧ Reports h' y a out.size v.size M)

/-- `moment(a, k, axis=z)` returns the moments `out`, and nothing else changes. -/
def MomentReturns (h : Heap ClassDef Par Arr Jac) (k : ℕ) (z : ℤ) (a : Id) (v out : Arr) : Prop :=
  ∃ f₀, ∀ f ≥ f₀, ∃ h' res, moment f k z a h = (h', .ok res) ∧ Reach lib ⟨False, True⟩ h' ∧ AllKept h h' ∧ ResultOk h h' a v out res

/-! ## What the code makes -/

/-- The value of `mean(axis=i)`. -/
noncomputable def meanVal (i : ℕ) (v : Arr) : Arr :=
  (Arr.of (v.shape.eraseIdx i) fun k =>
    1 / (v.shape.getD i 0 : ℝ) * ∑ t ∈ Finset.range (v.shape.getD i 0), v.at ((unravel (v.shape.eraseIdx i) k).insertIdx i t)).atleast1

/-- The deviations, as computed. -/
noncomputable def devVal (v : Arr) (o dsh : List ℕ) (i : ℕ) : Arr := bcastVal (· - ·) v (Arr.of o (meanVal i v).vec).atleast1 dsh

/-- Their powers. -/
noncomputable def powVal (k : ℕ) (v : Arr) (o dsh : List ℕ) (i : ℕ) : Arr :=
  bcastVal (fun x y => x ^ y) (devVal v o dsh i) (⟨[], fun _ => (k : ℝ)⟩ : Arr).atleast1 dsh

theorem expandShape_ne {sh o : List ℕ} {z : ℤ} (h : expandShape sh z = some o) : o ≠ [] := by
  rintro rfl
  simp only [expandShape, Option.map_eq_some_iff] at h
  obtain ⟨i, hi, e⟩ := h
  have h5 := congrArg List.length e
  have h6 := normAxis_lt hi
  rw [List.length_insertIdx, if_pos (by omega)] at h5
  simp at h5

theorem bshape_length {s t o : List ℕ} (h : bshape s t = some o) : o.length = max s.length t.length := ((bshape_spec _ _ _).1 h).1

theorem nodup_snoc {h : Heap ClassDef Par Arr Jac} {l : List Id} {y : Id} (hl : l.Nodup) (ha : ∀ x ∈ l, (h.node x).alive = true)
    (hy : (h.node y).alive = false) : (l ++ [y]).Nodup := by
  rw [List.nodup_append]
  refine ⟨hl, by simp, fun x hx b hb => ?_⟩
  rw [List.mem_singleton] at hb
  subst hb
  rintro rfl
  rw [ha _ hx] at hy; cases hy

section
variable {h : Heap ClassDef Par Arr Jac} {a : Id} {v : Arr} {z : ℤ} {k i j : ℕ} {o dsh : List ℕ}

theorem moment_makes (hr : Reach lib ⟨False, True⟩ h) (ha : (h.node a).alive = true) (hv : Means lib h.graph (.r a) (.ok v)) (hk : 2 ≤ k)
    (hi : normAxis v.shape.length z = some i) (ho : expandShape (meanVal i v).shape z = some o) (hd : bshape v.shape o = some dsh)
    (hj : normAxis dsh.length z = some j) : MomentReturns h k z a v (meanVal j (powVal k v o dsh i)) := by
  -- the mean
  obtain ⟨h1, m, e1, M1⟩ := makeObj_made hr (meanO z a) (plain_un ha)
  obtain ⟨i1, p1⟩ := isA_meanO M1.node
  have hva := M1.kept.value a v ha hv
  obtain ⟨E1, X1⟩ := exact_reduce (c := chMean) (w := fun n => 1 / n) rfl (by simp only [chMean]; rfl) p1 hi
  have hm : Means lib h1.graph (.r m) (.ok (meanVal i v)) := means_of_isA i1 (v := fun _ => v) (fun _ => hva) X1.val
  obtain ⟨f₀, hf₀⟩ := read_kept M1.reach M1.alive hm
  refine ⟨f₀ + 1, fun f hf => ?_⟩
  obtain ⟨h1', er, hr1', k1', g1'⟩ := hf₀ f (by omega)
  -- expand_dims
  have hbase : ravelBase h1'.graph f m = .ok m := by
    obtain ⟨f', rfl⟩ : ∃ f', f = f' + 1 := ⟨f - 1, by omega⟩
    unfold ravelBase
    rw [if_neg]
    rw [g1', i1.cls]
    intro e
    have := congrArg ClassDef.permute e
    simp [chMean, chReshape] at this
  obtain ⟨h2, e, e2, M2⟩ := makeObj_made hr1' (reshapeO o m) (plain_un (k1'.alive m M1.alive))
  obtain ⟨i2, p2⟩ := isA_reshapeO M2.node
  have eexp : expandDims f z m h1 = (h2, .ok e) := by
    unfold expandDims
    dsimp only [M.bind]
    rw [er]
    dsimp only
    rw [ho]
    dsimp only [reshapeObj]
    rw [hbase]
    exact e2
  -- the difference
  have al2 : ∀ x, (h1.node x).alive = true → (h2.node x).alive = true := fun x hx => M2.kept.alive _ (k1'.alive _ hx)
  have k02 : AllKept h h2 := (M1.kept.trans k1').trans M2.kept
  have hm2 : Means lib h2.graph (.r m) (.ok (meanVal i v)) := M2.kept.value _ _ (k1'.alive _ M1.alive) (k1'.value _ _ M1.alive hm)
  have hfill := fillShape_nat (n := (meanVal i v).size) (expandShape_prod ho)
  have X2 := exact_reshape (tm := (h2.graph e).terms) (v := meanVal i v) p2 hfill
  have he : Means lib h2.graph (.r e) (.ok (Arr.of o (meanVal i v).vec).atleast1) := means_of_isA i2 (v := fun _ => meanVal i v) (fun _ => hm2) X2.val
  have hos : ((Arr.of o (meanVal i v).vec).atleast1).shape = o := by rw [atleast1_of_ne (expandShape_ne ho)]; rfl
  have hd' : bshape v.shape ((Arr.of o (meanVal i v).vec).atleast1).shape = some dsh := by rw [hos]; exact hd
  obtain ⟨h3, d, a', b', e3, M3⟩ := makeBin_made M2.reach chSub (l := .obj a) (r := .obj e) ⟨k02.alive a ha, k02.value a v ha hv⟩ ⟨M2.alive, he⟩
    (Or.inl ⟨a, rfl⟩)
  have ea : a' = a := M3.left
  have eb : b' = e := M3.right
  rw [ea, eb] at M3
  have X3 := exact_sub (h3.graph d).terms hd'
  have hdv : Means lib h3.graph (.r d) (.ok (devVal v o dsh i)) := means_of_isA M3.isA (kids2 M3.valL M3.valR) X3.val
  have hdne : dsh ≠ [] := by
    rintro rfl
    have := bshape_length hd
    have := List.length_pos_of_ne_nil (expandShape_ne ho)
    simp at *; omega
  -- the power
  obtain ⟨h4, p, d', q, e4, M4⟩ := makeBin_made M3.reach chPow (l := .obj d) (r := .val ⟨[], fun _ => (k : ℝ)⟩) ⟨M3.fresh.2, hdv⟩ rfl
    (Or.inl ⟨d, rfl⟩)
  have ed : d' = d := M4.left
  rw [ed] at M4
  have hb4 : bshape (devVal v o dsh i).shape (⟨[], fun _ => (k : ℝ)⟩ : Arr).atleast1.shape = some dsh := bshape_one hdne
  have hpv : Means lib h4.graph (.r p) (.ok (powVal k v o dsh i)) := means_of_isA M4.isA (kids2 M4.valL M4.valR) (by
    erw [env_two]; exact returns_bcast rfl _ hb4)
  have hqa : (h4.node q).alive = true := (reach_str M4.reach).child_alive (M4.isA.kid (1 : Fin 2))
  -- the mean of the powers
  obtain ⟨h5, y, e5, M5⟩ := makeObj_made M4.reach (meanO z p) (plain_un M4.fresh.2)
  obtain ⟨i5, p5⟩ := isA_meanO M5.node
  obtain ⟨E5, X5⟩ := exact_reduce (c := chMean) (w := fun n => 1 / n) (v := powVal k v o dsh i) rfl (by simp only [chMean]; rfl) p5 hj
  have hpv5 := M5.kept.value _ _ M4.fresh.2 hpv
  have hy : Means lib h5.graph (.r y) (.ok (meanVal j (powVal k v o dsh i))) := means_of_isA i5 (v := fun _ => powVal k v o dsh i) (fun _ => hpv5) X5.val
  refine ⟨h5, .obj y, ?_, M5.reach, ((k02.trans M3.kept).trans M4.kept).trans M5.kept, read_of_means M5.reach hy, fun hl hsz => ?_⟩
  · unfold moment
    rw [if_neg (by omega)]
    dsimp only [M.bind]
    rw [e1]
    dsimp only
    rw [eexp]
    dsimp only
    rw [show binop true false .sub (.obj a) (.obj e) h2 = (h3, .ok d) from e3]
    dsimp only
    rw [e4]
    dsimp only
    rw [e5]
    rfl
  -- the derivative
  have k35 := M4.kept.trans M5.kept
  have k25 := M3.kept.trans k35
  have k15 := (k1'.trans M2.kept).trans k25
  have k05 := M1.kept.trans k15
  have am : (h2.node m).alive = true := al2 m M1.alive
  have nd : [a, m, e, d, q, p, y].Nodup := by
    have n1 : ([a] ++ [m]).Nodup := nodup_snoc (h := h) (by simp) (by simpa using ha) M1.dead
    have n2 : ([a, m] ++ [e]).Nodup := nodup_snoc (h := h1') n1 (by
      intro x hx; simp only [List.mem_cons, List.not_mem_nil, or_false] at hx
      rcases hx with rfl | rfl
      · exact k1'.alive _ (M1.kept.alive _ ha)
      · exact k1'.alive _ M1.alive) M2.dead
    have n3 : ([a, m, e] ++ [d]).Nodup := nodup_snoc (h := h2) n2 (by
      intro x hx; simp only [List.mem_cons, List.not_mem_nil, or_false] at hx
      rcases hx with rfl | rfl | rfl
      · exact k02.alive _ ha
      · exact am
      · exact M2.alive) M3.fresh.1
    have al3 : ∀ x ∈ [a, m, e, d], (h3.node x).alive = true := by
      intro x hx; simp only [List.mem_cons, List.not_mem_nil, or_false] at hx
      rcases hx with rfl | rfl | rfl | rfl
      · exact M3.kept.alive _ (k02.alive _ ha)
      · exact M3.kept.alive _ am
      · exact M3.kept.alive _ M2.alive
      · exact M3.fresh.2
    have n4 : ([a, m, e, d] ++ [q]).Nodup := nodup_snoc (h := h3) n3 al3 M4.right.1
    have n4' : ([a, m, e, d] ++ [p]).Nodup := nodup_snoc (h := h3) n3 al3 M4.fresh.1
    have hqp : q ≠ p := by
      rintro rfl
      have h6 := M4.right.2.2.2
      rw [M4.isA.dnames] at h6; cases h6
    have n5 : ([a, m, e, d, q] ++ [p]).Nodup := by
      rw [List.nodup_append]
      refine ⟨n4, by simp, fun x hx b hb => ?_⟩
      rw [List.mem_singleton] at hb
      subst hb
      rw [show [a, m, e, d, q] = [a, m, e, d] ++ [q] from rfl, List.mem_append] at hx
      rcases hx with hx | hx
      · exact (List.nodup_append.1 n4').2.2 x hx b (by simp)
      · rw [List.mem_singleton] at hx; subst hx; exact hqp
    refine nodup_snoc (h := h4) n5 ?_ M5.dead
    intro x hx
    change x ∈ [a, m, e, d] ++ [q, p] at hx
    rw [List.mem_append] at hx
    rcases hx with hx | hx
    · exact M4.kept.alive _ (al3 x hx)
    · simp only [List.mem_cons, List.not_mem_nil, or_false] at hx
      rcases hx with rfl | rfl
      · exact hqa
      · exact M4.fresh.2
  have hρ : ∀ (t : ℕ) (ht : t < [a, m, e, d, q, p, y].length), [a, m, e, d, q, p, y].idxOf [a, m, e, d, q, p, y][t] = t :=
    fun t ht => nd.idxOf_getElem t ht
  have lt : ∀ (s t : ℕ) (hs : s < [a, m, e, d, q, p, y].length) (ht : t < [a, m, e, d, q, p, y].length), s < t →
      [a, m, e, d, q, p, y].idxOf [a, m, e, d, q, p, y][s] < [a, m, e, d, q, p, y].idxOf [a, m, e, d, q, p, y][t] := fun s t hs ht hst => by
    rw [hρ s hs, hρ t ht]; exact hst
  have hl5 := hl.keep k05 ha
  have hv5 := k05.value _ _ ha hv
  have hq5 : IsLeaf h5.graph q := M4.right.2.keep M5.kept hqa
  obtain ⟨vy, M, hJ, hR⟩ := straight_reports_for M5.reach (S := fun i => i ∈ [a, m, e, d, q, p, y]) (ρ := [a, m, e, d, q, p, y].idxOf) (y := y) (w := a)
    (by
      intro x hx
      simp only [List.mem_cons, List.not_mem_nil, or_false] at hx
      rcases hx with rfl | rfl | rfl | rfl | rfl | rfl | rfl
      · exact madeFor_leaf hl5 hv5
      · refine madeFor_one (i1.keep k15 M1.alive) (by simp) (lt 0 1 (by simp) (by simp) (by simp)) hv5 (by rw [k15.same _ M1.alive]; exact X1) ?_
        intro hp; rw [hl5.1] at hp; cases hp
      · refine madeFor_one (i2.keep k25 M2.alive) (by simp) (lt 1 2 (by simp) (by simp) (by simp)) (k25.value _ _ am hm2)
          (by rw [k25.same _ M2.alive]; exact X2) ?_
        intro hp; rw [((i1.keep k15 M1.alive)).cls] at hp; cases hp
      · have hvL := k35.value _ _ (k02.trans M3.kept |>.alive _ ha) M3.valL
        have hvR := k35.value _ _ (M3.kept.alive _ M2.alive) M3.valR
        have iA := M3.isA.keep k35 M3.fresh.2
        refine madeFor_two iA (by simp) (by simp) (by simp at nd; tauto) (lt 0 3 (by simp) (by simp) (by simp)) (lt 2 3 (by simp) (by simp) (by simp))
          hvL hvR ((exactly_of_exact iA (kids2 hvL hvR) (exact_sub _ hd')).for a) (k35.value _ _ M3.fresh.2 hdv) ?_ ?_
        · intro hp; rw [hl5.1] at hp; cases hp
        · intro _
          obtain ⟨D, d1, d2⟩ := rep_broadcastMatrix hd' false true fun _ => -1
          exact ⟨D, 0, by simp [lib, chSub, runBody, env2, d1, retOr]⟩
      · exact madeFor_leaf hq5 (M5.kept.value _ _ hqa M4.valR)
      · have hvL := M5.kept.value _ _ (M4.kept.alive _ M3.fresh.2) M4.valL
        have hvR := M5.kept.value _ _ hqa M4.valR
        have iA := M4.isA.keep M5.kept M4.fresh.2
        have hE := exactOn_pow (h5.graph x).terms hb4 (A := fun a' => Reaches h5.graph (![d, q] a') a) (fun t ht => Or.inr ⟨k, by
          rw [Arr.atleast1_vec]
          have h7 : bidx (⟨[], fun _ => (k : ℝ)⟩ : Arr).atleast1.shape dsh t < 1 := bidx_lt_right hb4 ht
          exact dif_pos h7⟩) (fun hc => by
            have h6 := hq5.reaches hc
            simp [h6] at nd) ![d, q]
        refine madeFor_two iA (by simp) (by simp) (by simp at nd; tauto) (lt 3 5 (by simp) (by simp) (by simp)) (lt 4 5 (by simp) (by simp) (by simp))
          hvL hvR (rightFor_of_exactOn M5.reach iA (kids2 hvL hvR) hE).exactly hpv5 ?_ ?_
        · intro hp; rw [(M3.isA.keep k35 M3.fresh.2).cls] at hp; cases hp
        · intro hp; rw [hq5.1] at hp; cases hp
      · refine madeFor_one i5 (by simp) (lt 5 6 (by simp) (by simp) (by simp)) hpv5 X5 ?_
        intro hp; rw [(M4.isA.keep M5.kept M4.fresh.2).cls] at hp; cases hp)
    (by simp) hl5 hv5 hsz (by simp at nd; tauto)
  have evy : vy = meanVal j (powVal k v o dsh i) := by
    have := hJ.valY.unique hy
    injection this
  subst evy
  exact ⟨M, hJ, hR⟩

/-! ## The values -/

theorem normAxis_eq_len {n n' : ℕ} (h : n = n') (z : ℤ) : normAxis n z = normAxis n' z := by rw [h]

theorem powVal_at (hi : i < v.shape.length) (h2 : 2 ≤ v.shape.length) {c : List ℕ} (hc : InB v.shape c) :
    (powVal k v (v.shape.set i 1) v.shape i).at c =
      (v.at c - (meanVal i v).vec (ravel (v.shape.eraseIdx i) (c.eraseIdx i))) ^ k := by
  have hlt := ravel_lt hc
  have hne : v.shape ≠ [] := by rintro e; rw [e] at h2; simp at h2
  have hsne : v.shape.set i 1 ≠ [] := by simpa using hne
  have e1 : (Arr.of (v.shape.set i 1) (meanVal i v).vec).atleast1 = Arr.of (v.shape.set i 1) (meanVal i v).vec := atleast1_of_ne hsne
  have hd : bshape v.shape (Arr.of (v.shape.set i 1) (meanVal i v).vec).shape = some v.shape := bshape_set_one _ _
  have hb4 : bshape (devVal v (v.shape.set i 1) v.shape i).shape (⟨[], fun _ => (k : ℝ)⟩ : Arr).atleast1.shape = some v.shape := bshape_one hne
  have h7 : bidx (⟨[], fun _ => (k : ℝ)⟩ : Arr).atleast1.shape v.shape (ravel v.shape c) < 1 := bidx_lt_right hb4 hlt
  have h8 : (⟨[], fun _ => (k : ℝ)⟩ : Arr).atleast1.vec (bidx (⟨[], fun _ => (k : ℝ)⟩ : Arr).atleast1.shape v.shape (ravel v.shape c)) = k := by
    rw [Arr.atleast1_vec]; exact dif_pos h7
  have h9 : (devVal v (v.shape.set i 1) v.shape i).vec (ravel v.shape c) =
      v.at c - (meanVal i v).vec (ravel (v.shape.eraseIdx i) (c.eraseIdx i)) := by
    unfold devVal bcastVal
    rw [Arr.vec_of _ _ hlt, bidx_self hlt, e1]
    have hq := bidx_lt_right hd hlt
    rw [show (Arr.of (v.shape.set i 1) (meanVal i v).vec).shape = v.shape.set i 1 from rfl] at hq ⊢
    rw [Arr.vec_of _ _ hq, bidx_set_one hi hc]
    rfl
  show (powVal k v (v.shape.set i 1) v.shape i).vec (ravel v.shape c) = _
  unfold powVal bcastVal
  rw [Arr.vec_of _ _ hlt, h8]
  rw [show (devVal v (v.shape.set i 1) v.shape i).shape = v.shape from rfl, bidx_self hlt, h9]
  exact Real.rpow_natCast _ _

theorem meanVal_vec {c : List ℕ} (hc : InB (v.shape.eraseIdx i) c) :
    (meanVal i v).vec (ravel (v.shape.eraseIdx i) c) = lineMean i v c := by
  unfold meanVal lineMean
  rw [Arr.atleast1_vec, Arr.vec_of _ _ (ravel_lt hc), unravel_ravel hc, one_div_mul_eq_div]

theorem meanVal_shape : (meanVal i v).shape = if v.shape.eraseIdx i = [] then [1] else v.shape.eraseIdx i := rfl

/-- C71 for arrays with two or more axes: `moment(a, k, axis)` holds the central moments, with the right derivatives. -/
theorem C71_moment_partial (hr : Reach lib ⟨False, True⟩ h) (ha : (h.node a).alive = true) (hv : Means lib h.graph (.r a) (.ok v)) (hk : 2 ≤ k)
    (h2 : 2 ≤ v.shape.length) (hi : normAxis v.shape.length z = some i) (_ : 0 < v.shape.getD i 0) : ∃ out, MomentAlong k i v out ∧ MomentReturns h k z a v out := by
  have hil := normAxis_lt hi
  have hlen : (v.shape.eraseIdx i).length + 1 = v.shape.length := by rw [List.length_eraseIdx_of_lt hil]; omega
  have hne : v.shape.eraseIdx i ≠ [] := by intro e; rw [e] at hlen; simp at hlen; omega
  have ho : expandShape (meanVal i v).shape z = some (v.shape.set i 1) := by
    rw [meanVal_shape, if_neg hne]
    unfold expandShape
    rw [hlen, hi]
    simp only [Option.map_some]
    rw [List.insertIdx_eraseIdx_self (by omega)]
  refine ⟨_, ⟨?_, fun c hc => ?_⟩, moment_makes hr ha hv hk hi ho (bshape_set_one _ _) hi⟩
  · rfl
  · have e := meanVal_vec (i := i) (v := powVal k v (v.shape.set i 1) v.shape i) (c := c) hc
    have es : (powVal k v (v.shape.set i 1) v.shape i).shape = v.shape := rfl
    rw [es] at e
    rw [e]
    unfold lineMean
    rw [es]
    congr 1
    refine Finset.sum_congr rfl fun t ht => ?_
    have hin := inB_insertIdx hil hc (Finset.mem_range.1 ht)
    rw [powVal_at hil h2 hin, List.eraseIdx_insertIdx_self, meanVal_vec hc]
    rfl

/-- The first moment: zeros, as it should be. -/
theorem C71_first_moment (hr : Reach lib ⟨False, True⟩ h) (ha : (h.node a).alive = true) (hv : Means lib h.graph (.r a) (.ok v))
    (hi : normAxis v.shape.length z = some i) (hn : 0 < v.shape.getD i 0) : ∃ out, MomentAlong 1 i v out ∧ MomentReturns h 1 z a v out := by
  refine ⟨(Arr.of (v.shape.eraseIdx i) fun _ => 0).atleast1, ⟨rfl, fun c hc => ?_⟩, ?_⟩
  · rw [Arr.atleast1_vec, Arr.vec_of _ _ (ravel_lt hc)]
    have hn' : (v.shape.getD i 0 : ℝ) ≠ 0 := by exact_mod_cast hn.ne'
    simp only [pow_one, Finset.sum_sub_distrib, Finset.sum_const, Finset.card_range, nsmul_eq_mul, lineMean]
    field_simp
    ring
  obtain ⟨f₀, hf₀⟩ := read_kept hr ha hv
  refine ⟨f₀, fun f hf => ?_⟩
  obtain ⟨h1, er, hr1, k1, g1⟩ := hf₀ f hf
  by_cases he : v.shape.eraseIdx i = []
  · refine ⟨h1, .val ⟨[], fun _ => 0⟩, ?_, hr1, k1, ?_⟩
    · unfold moment
      rw [if_pos rfl]
      dsimp only [M.bind]
      rw [er]
      dsimp only
      rw [hi]
      dsimp only
      rw [if_pos he]
      rfl
    · show _ = _
      rw [he]
      exact congrArg Arr.atleast1 (Arr.ext_vec rfl fun k hk => by
        have hk' : k < ([] : List ℕ).prod := hk
        rw [Arr.vec_of _ _ hk']
        simp only [Arr.vec]
        split <;> rfl)
  · obtain ⟨h2, y, e2, M2⟩ := makeObj_made hr1 (leafO (Arr.of (v.shape.eraseIdx i) fun _ => 0)) (by
      intro kw hm
      simp only [leafO, List.mem_singleton] at hm
      subst hm; trivial)
    have hl2 : IsLeaf h2.graph y := isLeaf_leafO M2.node
    have hy := (leaf_means (g := h2.graph) M2.node he).1
    have ea1 : (Arr.of (v.shape.eraseIdx i) fun _ => 0).atleast1 = Arr.of (v.shape.eraseIdx i) fun _ => 0 := atleast1_of_ne he
    rw [ea1]
    refine ⟨h2, .obj y, ?_, M2.reach, k1.trans M2.kept, read_of_means M2.reach hy, fun hl hsz => ?_⟩
    · unfold moment
      rw [if_pos rfl]
      dsimp only [M.bind]
      rw [er]
      dsimp only
      rw [hi]
      dsimp only
      rw [if_neg he]
      dsimp only [M.bind]
      rw [e2]
      rfl
    have k02 := k1.trans M2.kept
    have hya : y ≠ a := by
      rintro rfl
      have := k1.alive _ ha
      rw [M2.dead] at this; cases this
    obtain ⟨vy, M, hJ, hR⟩ := straight_reports_for M2.reach (S := fun j => j = y) (ρ := fun _ => 0) (y := y) (w := a)
      (fun j hj => by subst hj; exact madeFor_leaf hl2 hy) rfl (hl.keep k02 ha) (k02.value _ _ ha hv) hsz hya
    have evy : vy = Arr.of (v.shape.eraseIdx i) fun _ => 0 := by
      have := hJ.valY.unique hy
      injection this
    subst evy
    exact ⟨M, hJ, hR⟩

/-! ## Vectors

The mean of a vector is a number, which chumpy keeps as an array of shape `(1,)`; `expand_dims` makes it `(1, 1)`, and the deviations get the
shape `(1, n)`.  Averaging along axis 0 then averages over the new axis, not over the vector; axis -1 is right. -/

theorem bshape_vector (n : ℕ) : bshape [n] [1, 1] = some [1, n] := by
  have e : Jac.bdim n 1 = some n := by
    unfold Jac.bdim
    by_cases h : n = 1 <;> simp [h]
  simp [bshape, bshapeR, e]

theorem vector_axis {n : ℕ} (hs : v.shape = [n]) (hi : normAxis v.shape.length z = some i) : i = 0 ∧ (z = 0 ∨ z = -1) := by
  have h0 := normAxis_lt hi
  rw [hs] at h0 hi
  simp at h0
  refine ⟨h0, ?_⟩
  unfold normAxis at hi
  simp at hi
  split at hi
  · omega
  · split at hi
    · omega
    · cases hi

theorem vector_expand {n : ℕ} (hs : v.shape = [n]) (hz : z = 0 ∨ z = -1) : expandShape (meanVal 0 v).shape z = some [1, 1] := by
  rw [meanVal_shape, hs]
  rcases hz with rfl | rfl <;> rfl

theorem powVal_vector {n : ℕ} (hs : v.shape = [n]) {t : ℕ} (ht : t < n) :
    (powVal k v [1, 1] [1, n] 0).vec t = (v.vec t - (meanVal 0 v).vec 0) ^ k := by
  have hb := bshape_vector n
  have hlt : t < [1, n].prod := by simpa using ht
  have hb4 : bshape [1, n] [1] = some [1, n] := bshape_one (by simp)
  have h7 : bidx [1] [1, n] t < 1 := bidx_lt_right hb4 hlt
  have h8 : (⟨[], fun _ => (k : ℝ)⟩ : Arr).atleast1.vec (bidx [1] [1, n] t) = k := by
    rw [Arr.atleast1_vec]; exact dif_pos h7
  have e1 : (Arr.of [1, 1] (meanVal 0 v).vec).atleast1 = Arr.of [1, 1] (meanVal 0 v).vec := atleast1_of_ne (by simp [Arr.of])
  have h9 : (devVal v [1, 1] [1, n] 0).vec t = v.vec t - (meanVal 0 v).vec 0 := by
    unfold devVal bcastVal
    rw [Arr.vec_of _ _ hlt, e1, hs]
    have h10 : bidx [1, 1] [1, n] t < 1 := by have := bidx_lt_right hb hlt; simpa using this
    have h11 : bidx [1, 1] [1, n] t = 0 := by omega
    have h12 : bidx [n] [1, n] t = t := by
      simp only [bidx, bidxR, List.reverse_cons, List.reverse_nil, List.nil_append, List.cons_append, mul_zero, add_zero]
      split
      · omega
      · exact Nat.mod_eq_of_lt ht
    rw [show (Arr.of [1, 1] (meanVal 0 v).vec).shape = [1, 1] from rfl, h11, h12, Arr.vec_of _ _ (by simp)]
  unfold powVal bcastVal
  rw [Arr.vec_of _ _ hlt]
  rw [show (devVal v [1, 1] [1, n] 0).shape = [1, n] from rfl, bidx_self hlt, h9]
  rw [show (⟨[], fun _ => (k : ℝ)⟩ : Arr).atleast1.shape = [1] from rfl, h8]
  exact Real.rpow_natCast _ _

/-- C71 for vectors, with the axis given as -1. -/
theorem C71_vector_last_axis (hr : Reach lib ⟨False, True⟩ h) (ha : (h.node a).alive = true) (hv : Means lib h.graph (.r a) (.ok v)) (hk : 2 ≤ k)
    {n : ℕ} (hs : v.shape = [n]) (_ : 0 < n) : ∃ out, MomentAlong k 0 v out ∧ MomentReturns h k (-1) a v out := by
  have hi : normAxis v.shape.length (-1) = some 0 := by rw [hs]; rfl
  refine ⟨_, ⟨?_, fun c hc => ?_⟩, moment_makes (j := 1) hr ha hv hk hi (vector_expand hs (Or.inr rfl)) (by rw [hs]; exact bshape_vector n) rfl⟩
  · rw [hs]; rfl
  · rw [hs] at hc
    cases hc
    have e := meanVal_vec (i := 1) (v := powVal k v [1, 1] [1, n] 0) (c := [0]) (by
      show InB [1] [0]
      exact .cons (by simp) .nil)
    have e' := meanVal_vec (i := 0) (v := v) (c := []) (by rw [hs]; exact .nil)
    have hl : lineMean 0 v [] = (meanVal 0 v).vec 0 := by rw [← e', hs]; rfl
    rw [hs]
    have el : (meanVal 1 (powVal k v [1, 1] [1, n] 0)).vec (ravel ([n].eraseIdx 0) []) = lineMean 1 (powVal k v [1, 1] [1, n] 0) [0] := e
    rw [el]
    rw [hl]
    show (∑ t ∈ Finset.range n, _) / (n : ℝ) = (∑ t ∈ Finset.range n, _) / (n : ℝ)
    congr 1
    refine Finset.sum_congr rfl fun t ht => ?_
    have hpt := powVal_vector (k := k) hs (Finset.mem_range.1 ht)
    have e3 : (powVal k v [1, 1] [1, n] 0).at ([0].insertIdx 1 t) = (powVal k v [1, 1] [1, n] 0).vec t := by
      show (powVal k v [1, 1] [1, n] 0).vec (ravel [1, n] [0, t]) = _
      simp [ravel]
    have e4 : v.at (([] : List ℕ).insertIdx 0 t) = v.vec t := by
      unfold Arr.at; rw [hs]; simp [ravel]
    rw [e3, hpt, e4]

/-- What vectors get with the default axis: not one number but the powers of all the deviations. -/
theorem C71_vector_axis_zero (hr : Reach lib ⟨False, True⟩ h) (ha : (h.node a).alive = true) (hv : Means lib h.graph (.r a) (.ok v)) (hk : 2 ≤ k)
    {n : ℕ} (hs : v.shape = [n]) (_ : 0 < n) : ∃ out, out.shape = [n] ∧ (∀ t < n, out.vec t = (v.vec t - lineMean 0 v []) ^ k) ∧ MomentReturns h k 0 a v out := by
  have hi : normAxis v.shape.length 0 = some 0 := by rw [hs]; rfl
  refine ⟨_, ?_, fun t ht => ?_, moment_makes (j := 0) hr ha hv hk hi (vector_expand hs (Or.inl rfl)) (by rw [hs]; exact bshape_vector n) rfl⟩
  · rfl
  · have hin : InB [n] [t] := .cons ht .nil
    have e := meanVal_vec (i := 0) (v := powVal k v [1, 1] [1, n] 0) (c := [t]) hin
    have er : ravel [n] [t] = t := by simp [ravel]
    have e' : (meanVal 0 (powVal k v [1, 1] [1, n] 0)).vec t = lineMean 0 (powVal k v [1, 1] [1, n] 0) [t] := by
      rw [← e]; exact congrArg _ er.symm
    have e2 := meanVal_vec (i := 0) (v := v) (c := []) (by rw [hs]; exact .nil)
    have hl : lineMean 0 v [] = (meanVal 0 v).vec 0 := by rw [← e2, hs]; rfl
    rw [e', hl, ← powVal_vector (k := k) hs ht]
    unfold lineMean
    show (∑ s ∈ Finset.range 1, _) / ((1 : ℕ) : ℝ) = _
    rw [Finset.sum_range_one]
    show (powVal k v [1, 1] [1, n] 0).vec (ravel [1, n] [0, t]) / _ = _
    simp [ravel]

theorem MomentReturns.unique {out out' : Arr} (h1 : MomentReturns h k z a v out) (h2 : MomentReturns h k z a v out') : out = out' := by
  obtain ⟨f, hf⟩ := h1
  obtain ⟨f', hf'⟩ := h2
  obtain ⟨x, r, e, _, _, ho⟩ := hf (max f f') (le_max_left _ _)
  obtain ⟨x', r', e', _, _, ho'⟩ := hf' (max f f') (le_max_right _ _)
  rw [e] at e'
  injection e' with e1 e2
  injection e2 with e2
  subst e1 e2
  cases r with
  | val y => exact ho.trans ho'.symm
  | obj y =>
    obtain ⟨g, hg⟩ := ho.1
    obtain ⟨g', hg'⟩ := ho'.1
    have := hg (max g g') (le_max_left _ _)
    rw [hg' _ (le_max_right _ _)] at this
    injection this with this
    exact this.symm
end

/-- C71 in full: central moments of every order, along every axis of every array. -/
def C71_full : Prop := ∀ (h : Heap ClassDef Par Arr Jac) (a : Id) (v : Arr) (z : ℤ) (k i : ℕ), Reach lib ⟨False, True⟩ h → (h.node a).alive = true →
  Means lib h.graph (.r a) (.ok v) → 1 ≤ k → normAxis v.shape.length z = some i → 0 < v.shape.getD i 0 →
  ∃ out, MomentAlong k i v out ∧ MomentReturns h k z a v out

namespace MomentDemo
/-- There is a state with a plain `Ch` of any value. -/
theorem ready (x : Arr) (hx : x.shape ≠ []) : ∃ h, Reach lib ⟨False, True⟩ h ∧ (h.node 0).alive = true ∧ Means lib h.graph (.r 0) (.ok x) ∧
    IsLeaf h.graph 0 := by
  have hok : ∀ (i : Nat) (o : ObjSpec ClassDef Par), [leafO x][i]? = some o → ∀ kw ∈ o.kws, KW.Earlier i o.dnames kw := by
    intro i o hi kw hm
    have hi' : i < [leafO x].length := (List.getElem?_eq_some_iff.1 hi).1
    simp only [List.length_cons, List.length_nil] at hi'
    obtain rfl : i = 0 := by omega
    simp only [List.getElem?_cons_zero, Option.some.injEq] at hi
    subst hi
    simp only [leafO, List.mem_cons, List.not_mem_nil, or_false] at hm
    subst hm; trivial
  refine ⟨_, build_reach (s := lib) ⟨False, True⟩ [leafO x] (by
    intro o ho
    simp only [List.mem_cons, List.not_mem_nil, or_false] at ho
    subst ho; intro _ k hk; cases hk), ?_, ?_, ?_⟩
  · rw [(build_alive _ hok).2]; rfl
  · rw [build_graph _ hok]; exact (leaf_means rfl hx).1
  · rw [build_graph _ hok]; exact isLeaf_leafO rfl

/-- The hypotheses are met, e.g. by the third moments of a matrix along its first axis. -/
example : ∃ h v, Reach lib ⟨False, True⟩ h ∧ (h.node 0).alive = true ∧ Means lib h.graph (.r 0) (.ok v) ∧ 2 ≤ v.shape.length ∧
    normAxis v.shape.length 0 = some 0 ∧ 0 < v.shape.getD 0 0 ∧ IsLeaf h.graph 0 ∧ v.size ≠ 1 := by
  obtain ⟨h, hr, ha, hm, hl⟩ := ready ⟨[2, 3], fun k => k.1⟩ (by simp)
  exact ⟨h, _, hr, ha, hm, by simp, rfl, by simp, hl, by simp [Arr.size]⟩
end MomentDemo

open MomentDemo in
/-- C71 in full is false: the second moment of the vector (0, 2), along its only axis, comes out as (1, 1). -/
theorem C71_full_refuted : ¬ C71_full := by
  intro hfull
  obtain ⟨h, hr, ha, hm, _⟩ := ready ⟨[2], fun k => 2 * k.1⟩ (by simp)
  obtain ⟨out, h1, h2⟩ := hfull h 0 _ 0 2 0 hr ha hm (by norm_num) rfl (by simp)
  obtain ⟨out', h3, _, h4⟩ := C71_vector_axis_zero hr ha hm (le_refl 2) (n := 2) rfl (by norm_num)
  have e := h2.unique h4
  subst e
  have h5 := h1.1
  rw [h3] at h5
  simp at h5
end Chumpy
