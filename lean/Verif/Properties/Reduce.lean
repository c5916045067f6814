import Verif.AD.Reduce
import Verif.AD.Compose
import Verif.AD.Unary
import Verif.Properties.ReorderRefuted
/-!
# C33, C34, C40, C41: sum, mean, cumsum, var, std, SumOfSquares, norm
-/
namespace Chumpy
open scoped BigOperators Topology

/-- `out` is `v` with axis `i` summed over; a number is an array of shape `[1]`. -/
def SumAlong (i : ℕ) (v out : Arr) : Prop :=
  out.shape = (if v.shape.eraseIdx i = [] then [1] else v.shape.eraseIdx i) ∧
    ∀ c, InB (v.shape.eraseIdx i) c →
      out.vec (ravel (v.shape.eraseIdx i) c) = ∑ t ∈ Finset.range (v.shape.getD i 0), v.at (c.insertIdx i t)

/-- `out` is `v` averaged over axis `i`. -/
def MeanAlong (i : ℕ) (v out : Arr) : Prop :=
  out.shape = (if v.shape.eraseIdx i = [] then [1] else v.shape.eraseIdx i) ∧
    ∀ c, InB (v.shape.eraseIdx i) c →
      out.vec (ravel (v.shape.eraseIdx i) c) = (∑ t ∈ Finset.range (v.shape.getD i 0), v.at (c.insertIdx i t)) / v.shape.getD i 0

/-- `out` is the number `x`. -/
def Number (x : ℝ) (out : Arr) : Prop := out.shape = [1] ∧ out.vec 0 = x

/-- The sum of all entries. -/
noncomputable def Arr.total (v : Arr) : ℝ := ∑ k ∈ Finset.range v.size, v.vec k

/-- The mean of all entries. -/
noncomputable def Arr.average (v : Arr) : ℝ := v.total / v.size

theorem number_of (x : ℝ) : Number x (Arr.of [1] fun _ => x) := ⟨rfl, Arr.vec_of _ _ (by simp)⟩

section
variable {h : Heap ClassDef Par Arr Jac} {y a : Id} {v : Arr}

/-! ## C33 -/

/-- C33 for `sum(x, axis)`. -/
theorem C33_sum_axis {z : ℤ} {i : ℕ} (hr : Reach lib ⟨False, True⟩ h) (hy : IsA h.graph y chSum [nmA] fun _ => a)
    (hv : Means lib h.graph (.r a) (.ok v)) (hp : (h.graph y).terms nmP = some (.int z)) (hi : normAxis v.shape.length z = some i) :
    ∃ out, SumAlong i v out ∧ Right h y out := by
  obtain ⟨E, hE⟩ := exact_reduce (c := chSum) rfl (by simp [chSum]; rfl) hp hi
  refine ⟨_, ⟨rfl, fun c hc => ?_⟩, right_of_exact hr hy (v := fun _ => v) (fun _ => hv) hE⟩
  rw [Arr.atleast1_vec, Arr.vec_of _ _ (ravel_lt hc), unravel_ravel hc, one_mul]

/-- C33 for `sum(x)`. -/
theorem C33_sum_all (hr : Reach lib ⟨False, True⟩ h) (hy : IsA h.graph y chSum [nmA] fun _ => a)
    (hv : Means lib h.graph (.r a) (.ok v)) (hp : (h.graph y).terms nmP = none ∨ (h.graph y).terms nmP = some .none) :
    ∃ out, Number v.total out ∧ Right h y out := by
  have hE := exact_reduce_flat (c := chSum) (tm := (h.graph y).terms) (v := v) rfl (by simp [chSum]; rfl) hp rfl
  refine ⟨_, ?_, right_of_exact hr hy (v := fun _ => v) (fun _ => hv) hE⟩
  rw [one_mul]; exact number_of _

/-- C33 for `mean(x, axis)`. -/
theorem C33_mean_axis {z : ℤ} {i : ℕ} (hr : Reach lib ⟨False, True⟩ h) (hy : IsA h.graph y chMean [nmA] fun _ => a)
    (hv : Means lib h.graph (.r a) (.ok v)) (hp : (h.graph y).terms nmP = some (.int z)) (hi : normAxis v.shape.length z = some i)
    (_ : 0 < v.shape.getD i 0) : ∃ out, MeanAlong i v out ∧ Right h y out := by
  obtain ⟨E, hE⟩ := exact_reduce (c := chMean) (w := fun n => 1 / n) rfl (by simp only [chMean]; rfl) hp hi
  refine ⟨_, ⟨rfl, fun c hc => ?_⟩, right_of_exact hr hy (v := fun _ => v) (fun _ => hv) hE⟩
  rw [Arr.atleast1_vec, Arr.vec_of _ _ (ravel_lt hc), unravel_ravel hc, one_div_mul_eq_div]

theorem mean_value (hy : IsA h.graph y chMean [nmA] fun _ => a)
    (hv : Means lib h.graph (.r a) (.ok v)) (hp : (h.graph y).terms nmP = none ∨ (h.graph y).terms nmP = some .none) :
    Means lib h.graph (.r y) (.ok (Arr.of [1] fun _ => v.average)) := by
  refine means_of_isA hy (v := fun _ => v) (fun _ => hv) ?_
  erw [env_one]
  refine ⟨0, ?_⟩
  show runBody _ _ _ _ chMean.r = _
  rcases hp with hp | hp <;> simp [chMean, reduceBody, runBody, env1, hp, Arr.average, Arr.total, div_eq_inv_mul]

/-- C33 for `mean(x)` of arrays whose entries all lie along the first axis, such as vectors.  For others only the value is
right: `C33_mean_all_value_partial`, `C33_full_refuted`. -/
theorem C33_mean_all_partial (hr : Reach lib ⟨False, True⟩ h) (hy : IsA h.graph y chMean [nmA] fun _ => a)
    (hv : Means lib h.graph (.r a) (.ok v)) (hp : (h.graph y).terms nmP = none ∨ (h.graph y).terms nmP = some .none)
    (hs : v.shape.headD 0 = v.size) (_ : 0 < v.size) : ∃ out, Number v.average out ∧ Right h y out := by
  have hE := exact_reduce_flat (c := chMean) (w := fun n => 1 / n) (tm := (h.graph y).terms) (v := v) rfl (by simp only [chMean]; rfl) hp (by rw [hs])
  refine ⟨_, ?_, right_of_exact hr hy (v := fun _ => v) (fun _ => hv) hE⟩
  rw [one_div_mul_eq_div]; exact number_of _

/-- The value of `mean(x)`, of every shape. -/
theorem C33_mean_all_value_partial (hr : Reach lib ⟨False, True⟩ h) (hy : IsA h.graph y chMean [nmA] fun _ => a)
    (hv : Means lib h.graph (.r a) (.ok v)) (hp : (h.graph y).terms nmP = none ∨ (h.graph y).terms nmP = some .none)
    (_ : 0 < v.size) : ∃ out, Number v.average out ∧ ∃ f₀, ∀ f ≥ f₀, (read lib f (.r y) h).2 = .ok out :=
  ⟨_, number_of _, read_of_means hr (mean_value hy hv hp)⟩

/-- C33 in full, for `mean` of all entries. -/
def C33_full : Prop :=
  ∀ (h : Heap ClassDef Par Arr Jac) (y a : Id) (v : Arr), Reach lib ⟨False, True⟩ h → IsA h.graph y chMean [nmA] (fun _ => a) →
    Means lib h.graph (.r a) (.ok v) → (h.graph y).terms nmP = some .none → 0 < v.size →
    ∃ out, Number v.average out ∧ Right h y out

open ADDemo in
/-- C33 in full is false: the derivative of the mean of a 1×2 array is reported as a 1×1 matrix. -/
theorem C33_full_refuted : ¬ C33_full := by
  intro hall
  obtain ⟨h, hr, hy, hv, hl, hp, -⟩ := reordered_reach chMean ⟨[1, 2], fun k => k.1⟩ (by simp) .none .none
  obtain ⟨out, _, hR⟩ := hall h 1 0 _ hr hy hv hp (by simp [Arr.size])
  have hm := mean_value hy hv (Or.inr hp)
  have hrep : Reports h 1 0 1 1 fun _ _ => 1 := by
    refine reports_of_rep hr hy (v := fun _ => (⟨[1, 2], fun k => k.1⟩ : Arr)) (fun _ => hv) hm (fun _ => hl) ⟨(0 : Fin 1), rfl⟩
      (d := some (.dense 1 1 fun _ _ => 1 / (1 : ℕ))) ?_ (by exact ⟨rfl, rfl, fun _ _ _ _ => by simp⟩)
    rw [namesOf_one hy]; erw [env_one]
    refine ⟨0, ?_⟩
    show runBody _ _ _ _ (chMean.dr false [nmA]) = _
    simp [chMean, reduceDr, runBody, env1, hp]
  obtain ⟨vw, M, hJ, hrep'⟩ := hR.deriv (by
      intro k b hb
      have : k ∈ (h.graph 1).dnames := (reach_str hr).dn 1 k b hb
      rw [hy.dnames, List.mem_singleton] at this
      subst this
      have h0 : (h.graph 1).dterms nmA = some 0 := hy.kid (0 : Fin 1)
      rw [h0] at hb; cases hb; exact hl) nmA 0 (hy.kid (0 : Fin 1))
  have e := hJ.valW.unique hv
  cases e
  have := (reports_unique hrep' hrep ⟨0, by simp, 0, by simp, by simp⟩).2.1
  simp [Arr.size] at this

/-! ## C34 -/

/-- C34.  `cumsum(a)`, without an axis: the running sums, and the lower triangular matrix of ones. -/
theorem C34_cumsum (hr : Reach lib ⟨False, True⟩ h) (hy : IsA h.graph y chCumsum [nmA] fun _ => a)
    (hv : Means lib h.graph (.r a) (.ok v)) (hp : (h.graph y).terms nmP = none ∨ (h.graph y).terms nmP = some .none) :
    ∃ out : Arr, (out.shape = [v.size] ∧ ∀ k < v.size, out.vec k = ∑ j ∈ Finset.range (k + 1), v.vec j) ∧ Right h y out ∧
      (IsLeaf h.graph a → Reports h y a v.size v.size fun i j => if j ≤ i then 1 else 0) := by
  have hE := exact_cumsum (v := v) hp
  have hm := means_of_isA hy (v := fun _ => v) (fun _ => hv) hE.val
  refine ⟨_, ⟨rfl, fun k hk => Arr.vec_of _ _ (by simpa using hk)⟩, right_of_exact hr hy (v := fun _ => v) (fun _ => hv) hE, fun hl => ?_⟩
  obtain ⟨d, h1, h2⟩ := hE.dr [nmA] v (by simp) (List.Sublist.refl _) (fun _ _ => rfl)
  refine reports_of_rep hr hy (v := fun _ => v) (fun _ => hv) hm (fun _ => hl) ⟨(0 : Fin 1), rfl⟩ (by rw [namesOf_one hy]; exact h1) ?_
  have e1 : (∑ a : Fin 1 with ([nmA] : List Name).get a ∈ [nmA], (fun _ => lowerOnes : Fin 1 → Ent) a) = lowerOnes := by
    rw [Finset.sum_filter]; simp
  erw [e1] at h2
  have e2 : (Arr.of [v.size] fun k => upTo v.vec k).size = v.size := by simp [Arr.size, Arr.of]
  rw [e2] at h2
  exact h2

/-- With an axis, the value: along that axis, the running sums. -/
theorem C34_cumsum_axis_value {z : ℤ} {i : ℕ} (hr : Reach lib ⟨False, True⟩ h) (hy : IsA h.graph y chCumsum [nmA] fun _ => a)
    (hv : Means lib h.graph (.r a) (.ok v)) (hp : (h.graph y).terms nmP = some (.int z)) (hi : normAxis v.shape.length z = some i) :
    ∃ out : Arr, (out.shape = v.shape ∧ ∀ c, InB v.shape c → out.at c = ∑ t ∈ Finset.range (c.getD i 0 + 1), v.at (c.set i t)) ∧
      ∃ f₀, ∀ f ≥ f₀, (read lib f (.r y) h).2 = .ok out := by
  have hm : Means lib h.graph (.r y) (.ok (Arr.of v.shape fun k =>
      upTo (fun t => v.at ((unravel v.shape k).set i t)) ((unravel v.shape k).getD i 0))) := by
    refine means_of_isA hy (v := fun _ => v) (fun _ => hv) ?_
    erw [env_one]
    exact ⟨0, by simp [lib, chCumsum, runBody, env1, hp, hi]⟩
  refine ⟨Arr.of v.shape fun k => upTo (fun t => v.at ((unravel v.shape k).set i t)) ((unravel v.shape k).getD i 0), ⟨rfl, fun c hc => ?_⟩, read_of_means hr hm⟩
  show (Arr.of v.shape _).vec (ravel v.shape c) = _
  rw [Arr.vec_of _ _ (ravel_lt hc), unravel_ravel hc]; rfl

/-- … and asked for the derivative it raises an exception (`NotImplementedError`), whatever the array. -/
theorem C34_cumsum_axis_derivative_raises {z : ℤ} (hr : Reach lib ⟨False, True⟩ h) (hy : IsA h.graph y chCumsum [nmA] fun _ => a)
    (hv : Means lib h.graph (.r a) (.ok v)) (hp : (h.graph y).terms nmP = some (.int z))
    (hper : (h.graph a).cls.permute = false) : ∃ f₀, ∀ f ≥ f₀, (drWrt lib f y a h).2 = .error (.user 1) := by
  have hk0 : (h.graph y).dterms nmA = some a := hy.kid (0 : Fin 1)
  obtain ⟨_, F, hF⟩ := hv
  have hev : evalDr lib h.graph (F + 1) y a = .error (.user 1) := by
    have : evalCompDr lib h.graph F y a = .error (.user 1) := by
      unfold evalCompDr
      rw [hy.cls, namesOf_one hy]
      simp [lib, chCumsum, evalProg, hk0, hp]
      erw [hF]
    simp [evalDr, evalSliced, this]
  refine ⟨F + 1, fun f hf => ?_⟩
  have e := evalDr_mono lib h.graph hf y a
  rw [Le, hev] at e
  have := (C02_derivative_never_stale_partial lib_propsOk lib_plainForm hr f y a hper).2.2
  rw [e (by simp)] at this
  exact this (by simp)

/-! ## C41 -/

/-- C41 for `SumOfSquares(x)`: the sum of the squared entries, with gradient `2x`. -/
theorem C41_sum_of_squares (hr : Reach lib ⟨False, True⟩ h) (hy : IsA h.graph y chSumSq [nmA] fun _ => a)
    (hv : Means lib h.graph (.r a) (.ok v)) :
    ∃ out, Number (∑ k ∈ Finset.range v.size, v.vec k ^ 2) out ∧ Right h y out ∧
      (IsLeaf h.graph a → Reports h y a 1 v.size fun _ j => 2 * v.vec j) := by
  have hE := exact_sumSq (tm := (h.graph y).terms) (v := v)
  have hm := means_of_isA hy (v := fun _ => v) (fun _ => hv) hE.val
  refine ⟨_, number_of _, right_of_exact hr hy (v := fun _ => v) (fun _ => hv) hE, fun hl => ?_⟩
  obtain ⟨d, h1, h2⟩ := hE.dr [nmA] v (by simp) (List.Sublist.refl _) (fun _ _ => rfl)
  refine reports_of_rep hr hy (v := fun _ => v) (fun _ => hv) hm (fun _ => hl) ⟨(0 : Fin 1), rfl⟩ (by rw [namesOf_one hy]; exact h1) ?_
  have e1 : (∑ a : Fin 1 with ([nmA] : List Name).get a ∈ [nmA], (fun _ => fun _ j => v.vec j * 2 : Fin 1 → Ent) a) = fun _ j => v.vec j * 2 := by
    rw [Finset.sum_filter]; simp
  erw [e1] at h2
  exact num.repO_congr (fun _ _ _ _ => mul_comm _ _) h2
end

/-! ### Expressions over squares -/

/-- `p` is `x ** 2`: the class `power`, the exponent being a `Ch` made for it, holding the number 2 (ch.py:1149, 86-131). -/
structure IsSquare (g : Graph ClassDef Par) (p x two : Id) : Prop where
  pow : IsA g p chPow [nmA, nmB] ![x, two]
  leaf : IsLeaf g two
  own : two ≠ x
  val : Means lib g (.r two) (.ok ⟨[1], fun _ => 2⟩)

/-- `y` is `linalg.norm(x)` (linalg.py:32-36). -/
structure IsNorm (g : Graph ClassDef Par) (y s p x two : Id) : Prop where
  sqrt : IsA g y chSqrt [nmA] fun _ => s
  sum : IsA g s chSum [nmA] fun _ => p
  axis : (g s).terms nmP = none ∨ (g s).terms nmP = some .none
  square : IsSquare g p x two

/-- `y` is `var(x)` (ch_ops.py:375-378). -/
structure IsVar (g : Graph ClassDef Par) (y p x two : Id) : Prop where
  mean : IsA g y chMean [nmA] fun _ => p
  axis : (g y).terms nmP = none ∨ (g y).terms nmP = some .none
  square : IsSquare g p x two

/-- `y` is `std(x)` (ch_ops.py:380-383). -/
structure IsStd (g : Graph ClassDef Par) (y m p x two : Id) : Prop where
  sqrt : IsA g y chSqrt [nmA] fun _ => m
  var : IsVar g m p x two

theorem bshape_number {sh : List ℕ} (h : sh ≠ []) : bshape sh [1] = some sh := by
  unfold bshape
  cases hs : sh.reverse with
  | nil => exact absurd (by simpa using hs) h
  | cons m s =>
    have : bshapeR (m :: s) [1] = some (m :: s) := by
      have h1 : Jac.bdim m 1 = some m := by simp only [Jac.bdim]; split <;> simp_all
      cases s <;> simp [bshapeR, h1]
    simp only [List.reverse_singleton, this, Option.map_some]
    rw [← hs, List.reverse_reverse]

theorem bidx_number (sh : List ℕ) (k : ℕ) : bidx [1] sh k = 0 := by
  unfold bidx
  simp only [List.reverse_singleton]
  cases sh.reverse <;> simp [bidxR]

theorem IsLeaf.shape_ne {g : Graph ClassDef Par} {i : Id} (h : IsLeaf g i) {v : Arr} (hv : Means lib g (.r i) (.ok v)) : v.shape ≠ [] := by
  obtain ⟨_, f, hf⟩ := hv
  cases f with
  | zero => cases hf
  | succ f =>
    simp only [evalReq, h.1, chLeaf, evalProg] at hf
    split at hf
    · next x hx =>
      simp only [evalProg] at hf
      injection hf with hf
      subst hf
      show (if x.shape = [] then [1] else x.shape) ≠ []
      split <;> simp_all
    · cases hf

/-- The squared entries. -/
noncomputable def squares (v : Arr) : Arr := Arr.of v.shape fun k => v.vec k ^ 2

theorem squares_vec (v : Arr) (k : ℕ) : (squares v).vec k = v.vec k ^ 2 := by
  by_cases hk : k < v.shape.prod
  · exact Arr.vec_of _ _ hk
  · have h1 : (squares v).vec k = 0 := dif_neg hk
    have h2 : v.vec k = 0 := dif_neg hk
    rw [h1, h2]; norm_num

theorem squares_eq (v : Arr) : bcastVal (fun x y => x ^ y) v ⟨[1], fun _ => 2⟩ v.shape = squares v := by
  refine Arr.of_congr fun k hk => ?_
  rw [bidx_self hk, bidx_number]
  show v.vec k ^ (⟨[1], fun _ => 2⟩ : Arr).vec 0 = _
  have : (⟨[1], fun _ => 2⟩ : Arr).vec 0 = 2 := dif_pos (by simp)
  rw [this]; norm_cast

section
variable {h : Heap ClassDef Par Arr Jac} {y a s p x two : Id} {v : Arr}

theorem IsSquare.means {g : Graph ClassDef Par} (hs : IsSquare g p x two) (hv : Means lib g (.r x) (.ok v)) (hne : v.shape ≠ []) :
    Means lib g (.r p) (.ok (squares v)) := by
  rw [← squares_eq]
  refine means_of_isA hs.pow (kids2 hv hs.val) ?_
  erw [env_two]
  exact returns_bcast rfl _ (bshape_number hne)

theorem IsSquare.deriv (hr : Reach lib ⟨False, True⟩ h) (hs : IsSquare h.graph p x two) (hx : IsLeaf h.graph x)
    (hv : Means lib h.graph (.r x) (.ok v)) : Deriv h.graph p x (squares v) v (selMat id fun k => 2 * v.vec k) := by
  have hne := hx.shape_ne hv
  have hw : lib.isPermute (h.graph x).cls = false := by rw [hx.1]; rfl
  have hpx : p ≠ x := by rintro rfl; have := hs.pow.dnames; rw [hx.2.2] at this; cases this
  have hxt : ¬ Reaches h.graph two x := fun e => hs.own (hs.leaf.reaches e).symm
  have hm := hs.means hv hne
  have hE := exactOn_pow (h.graph p).terms (u := v) (v := ⟨[1], fun _ => 2⟩) (bshape_number hne)
    (fun k _ => Or.inr ⟨2, by rw [bidx_number]; exact dif_pos (by simp)⟩) (A := fun a => Reaches h.graph (![x, two] a) x) hxt ![x, two]
  have two_vec : (⟨[1], fun _ => 2⟩ : Arr).vec 0 = 2 := dif_pos (by simp)
  have hrep : DrRep h.graph p x (squares v).size v.size (selMat id fun k => 2 * v.vec k) := by
    obtain ⟨d, h1, h2⟩ := hE.dr [nmA] v (by simp) (by decide) (by
      intro a ha
      have : a = (0 : Fin 2) := by
        rcases fin2 a with rfl | rfl
        · rfl
        · exact absurd ha (by decide)
      subst this
      exact ⟨rfl, .refl⟩) (by
      intro a b ha hb
      rcases fin2 a with rfl | rfl <;> rcases fin2 b with rfl | rfl <;> first | rfl | exact absurd ha (by decide) | exact absurd hb (by decide))
    rw [squares_eq] at h1 h2
    erw [env_two] at h1
    refine (DrRep.left hs.pow hv hs.val hm hpx hs.own hw (hs.leaf.drNone hs.own hw) h1 h2).congr ?_
    intro i hi j hj
    have e1 : (∑ a : Fin 2 with ([nmA, nmB] : List Name).get a ∈ [nmA], (![selMat (bidx v.shape v.shape) fun k =>
        (⟨[1], fun _ => 2⟩ : Arr).vec (bidx [1] v.shape k) * v.vec (bidx v.shape v.shape k) ^ ((⟨[1], fun _ => 2⟩ : Arr).vec (bidx [1] v.shape k) - 1), 0] : Fin 2 → Ent) a) =
        selMat (bidx v.shape v.shape) fun k =>
        (⟨[1], fun _ => 2⟩ : Arr).vec (bidx [1] v.shape k) * v.vec (bidx v.shape v.shape k) ^ ((⟨[1], fun _ => 2⟩ : Arr).vec (bidx [1] v.shape k) - 1) := by
      rw [Finset.sum_filter]; exact (Fin.sum_univ_two _).trans (by simp)
    erw [e1]
    refine selMat_congr (m := v.size) (n := v.size) (fun k hk => bidx_self hk) (fun k hk => ?_) i hi j hj
    rw [bidx_self hk, bidx_number, two_vec]; norm_num
  have hR := rightFor_of_exactOn hr hs.pow (kids2 hv hs.val) hE
  rw [squares_eq] at hR
  obtain ⟨vw, M, hJ, hrep'⟩ := hR.deriv (by
    intro k c hc
    have hk : k ∈ (h.graph p).dnames := (reach_str hr).dn p k c hc
    rw [hs.pow.dnames] at hk
    obtain ⟨j, rfl⟩ := List.get_of_mem hk
    rw [hs.pow.kid j] at hc
    cases hc
    exact leaves2 hx hs.leaf j) nmA (hs.pow.kid (0 : Fin 2))
  have e := hJ.valW.unique hv
  cases e
  exact ⟨hJ.congr ((hrep'.eq (hrep.reports hr hw))), hrep⟩

theorem total_squares (v : Arr) : (squares v).total = ∑ k ∈ Finset.range v.size, v.vec k ^ 2 :=
  Finset.sum_congr rfl fun k _ => squares_vec v k

theorem total_squares_pos (hv : ∃ k < v.size, v.vec k ≠ 0) : 0 < ∑ k ∈ Finset.range v.size, v.vec k ^ 2 := by
  obtain ⟨k, hk, hne⟩ := hv
  exact Finset.sum_pos' (fun j _ => sq_nonneg _) ⟨k, Finset.mem_range.2 hk, by positivity⟩

/-- The derivative of a weighted sum of squares. -/
theorem mul_squares (v : Arr) (c : ℝ) :
    Ent.EqOn 1 v.size (Ent.mul (squares v).size (fun _ _ => c) (selMat id fun k => 2 * v.vec k)) fun _ j => c * (2 * v.vec j) := by
  intro i _ j hj
  show ∑ k ∈ Finset.range v.size, c * selMat id (fun k => 2 * v.vec k) k j = _
  rw [Finset.sum_eq_single j]
  · simp [selMat]
  · intro k _ hk; simp [selMat, hk]
  · intro hn; exact absurd (Finset.mem_range.2 hj) hn

/-- The square root of a number. -/
theorem sqrt_deriv {g : Graph ClassDef Par} {r : ℝ} {e : ℕ → ℝ} (hy : IsA g y chSqrt [nmA] fun _ => s) (hys : y ≠ s) (hyx : y ≠ x) (hsx : s ≠ x)
    (hw : lib.isPermute (g x).cls = false) (hr : 0 < r) (hD : Deriv g s x (Arr.of [1] fun _ => r) v fun _ j => e j) :
    Deriv g y x (Arr.of [1] fun _ => Real.sqrt r) v fun _ j => e j / (2 * Real.sqrt r) := by
  have hvec : ∀ k < [1].prod, (Arr.of [1] fun _ => r).vec k = r := fun k hk => Arr.vec_of _ _ hk
  have hpow : (0.5 : ℝ) * r ^ (-0.5 : ℝ) = 1 / (2 * Real.sqrt r) := by
    have e : r ^ (-0.5 : ℝ) = (Real.sqrt r)⁻¹ := by
      rw [Real.sqrt_eq_rpow, ← Real.rpow_neg (le_of_lt hr)]; norm_num
    rw [e, one_div, mul_inv]; norm_num
  have hE := exact_unary (f := Real.sqrt) (d := fun x => 0.5 * x ^ (-0.5 : ℝ)) (g y).terms (v := Arr.of [1] fun _ => r)
    (Or.inr (Or.inl rfl)) (fun k hk => by
      rw [hvec k hk, hpow]
      exact Real.hasDerivAt_sqrt (ne_of_gt hr))
  have hm : mapVal Real.sqrt (Arr.of [1] fun _ => r) = Arr.of [1] fun _ => Real.sqrt r :=
    Arr.of_congr fun k hk => by rw [hvec k hk]
  rw [hm] at hE
  refine (Deriv.un (d := .dense 1 1 fun _ j => 0.5 * (Arr.of [1] fun _ => r).vec j ^ (-0.5 : ℝ)) hy hE hys hyx hsx hw ?_ hD).congr ?_
  · refine ⟨0, ?_⟩
    show runBody _ _ _ _ (chSqrt.dr false [nmA]) = _
    simp only [chSqrt, chUnary, List.mem_singleton, if_true, runBody, env1, Arr.of, diagOr, Nat.lt_irrefl, if_false]
  · intro i hi j hj
    obtain rfl : i = 0 := by simpa [Arr.of, Arr.size] using hi
    show ∑ k ∈ Finset.range [1].prod, selMat id _ 0 k * e j = _
    simp [selMat, hvec 0 (by simp), hpow]
    ring

theorem IsNorm.ne (hn : IsNorm h.graph y s p x two) : y ≠ s ∧ s ≠ p := by
  have h1 : s ≠ p := by
    rintro rfl
    have := hn.sum.dnames
    rw [hn.square.pow.dnames] at this
    cases this
  refine ⟨?_, h1⟩
  rintro rfl
  have e1 : (h.graph y).dterms nmA = some y := hn.sqrt.kid (0 : Fin 1)
  have e2 : (h.graph y).dterms nmA = some p := hn.sum.kid (0 : Fin 1)
  rw [e1] at e2
  exact h1 (by injection e2)

theorem IsLeaf.ne {g : Graph ClassDef Par} {i : Id} {c : ClassDef} {n : Name} {ns : List Name} {kids : Fin (n :: ns).length → Id} (hx : IsLeaf g x)
    (hi : IsA g i c (n :: ns) kids) : i ≠ x := by
  rintro rfl
  have := hi.dnames
  rw [hx.2.2] at this; cases this

/-- C41 for `norm(x)`: the square root of the sum of the squared entries; away from zero the gradient is `x / |x|`. -/
theorem C41_norm (hr : Reach lib ⟨False, True⟩ h) (hn : IsNorm h.graph y s p x two) (hx : IsLeaf h.graph x)
    (hv : Means lib h.graph (.r x) (.ok v)) :
    ∃ out, Number (Real.sqrt (∑ k ∈ Finset.range v.size, v.vec k ^ 2)) out ∧
      (∃ f₀, ∀ f ≥ f₀, (read lib f (.r y) h).2 = .ok out) ∧
      ((∃ k < v.size, v.vec k ≠ 0) →
        HasJacobian h.graph y x out v (fun _ j => v.vec j / Real.sqrt (∑ k ∈ Finset.range v.size, v.vec k ^ 2)) ∧
        Reports h y x 1 v.size fun _ j => v.vec j / Real.sqrt (∑ k ∈ Finset.range v.size, v.vec k ^ 2)) := by
  have hw : lib.isPermute (h.graph x).cls = false := by rw [hx.1]; rfl
  have hp := hn.square.means hv (hx.shape_ne hv)
  have hE := exact_reduce_flat (c := chSum) (tm := (h.graph s).terms) (v := squares v) rfl (by simp [chSum]; rfl) hn.axis rfl
  have e : (Arr.of [1] fun _ => 1 * ∑ k ∈ Finset.range (squares v).size, (squares v).vec k) =
      Arr.of [1] fun _ => ∑ k ∈ Finset.range v.size, v.vec k ^ 2 := Arr.of_congr fun _ _ => by rw [one_mul]; exact total_squares v
  rw [e] at hE
  have hs := means_of_isA hn.sum (v := fun _ => squares v) (fun _ => hp) hE.val
  refine ⟨_, number_of _, read_of_means hr (means_of_isA hn.sqrt (v := fun _ => Arr.of [1] fun _ => ∑ k ∈ Finset.range v.size, v.vec k ^ 2)
    (fun _ => hs) ?_), fun hne => ?_⟩
  · erw [env_one]
    have := returns_unary Real.sqrt (fun x => 0.5 * x ^ (-0.5 : ℝ)) (h.graph y).terms (Arr.of [1] fun _ => ∑ k ∈ Finset.range v.size, v.vec k ^ 2)
    have e : mapVal Real.sqrt (Arr.of [1] fun _ => ∑ k ∈ Finset.range v.size, v.vec k ^ 2) =
        Arr.of [1] fun _ => Real.sqrt (∑ k ∈ Finset.range v.size, v.vec k ^ 2) :=
      Arr.of_congr fun k hk => by rw [Arr.vec_of [1] _ hk]
    rw [e] at this
    exact this
  · have hD := Deriv.un (d := .dense 1 (squares v).size fun _ _ => 1) hn.sum hE hn.ne.2 (hx.ne hn.sum) (hx.ne hn.square.pow) hw (by
      refine ⟨0, ?_⟩
      show runBody _ _ _ _ (chSum.dr false [nmA]) = _
      rcases hn.axis with ha | ha <;> simp [chSum, reduceDr, runBody, env1, ha]) (hn.square.deriv hr hx hv)
    have hD' := sqrt_deriv hn.sqrt hn.ne.1 (hx.ne hn.sqrt) (hx.ne hn.sum) hw (total_squares_pos hne) (hD.congr (mul_squares v 1))
    have hD'' := hD'.congr (E' := fun _ j => v.vec j / Real.sqrt (∑ k ∈ Finset.range v.size, v.vec k ^ 2)) (fun _ _ j _ => by
      have := (Real.sqrt_pos.2 (total_squares_pos hne)).ne'
      field_simp)
    exact ⟨hD''.jac, hD''.rep.reports hr hw⟩

/-! ## C40 -/

/-- The variance of the entries, as `np.var` computes it. -/
noncomputable def Arr.variance (v : Arr) : ℝ := (∑ k ∈ Finset.range v.size, (v.vec k - v.average) ^ 2) / v.size

theorem IsVar.means (hn : IsVar h.graph y p x two) (hv : Means lib h.graph (.r x) (.ok v)) (hne : v.shape ≠ []) :
    Means lib h.graph (.r y) (.ok (Arr.of [1] fun _ => (∑ k ∈ Finset.range v.size, v.vec k ^ 2) / v.size)) := by
  have := mean_value hn.mean (hn.square.means hv hne) hn.axis
  rwa [show (squares v).average = (∑ k ∈ Finset.range v.size, v.vec k ^ 2) / v.size by
    rw [Arr.average, total_squares]; rfl] at this

/-- What `var` computes: the mean of the squared entries. -/
theorem C40_var_is_mean_square (hr : Reach lib ⟨False, True⟩ h) (hn : IsVar h.graph y p x two)
    (hv : Means lib h.graph (.r x) (.ok v)) (hne : v.shape ≠ []) :
    ∃ out, Number ((∑ k ∈ Finset.range v.size, v.vec k ^ 2) / v.size) out ∧ ∃ f₀, ∀ f ≥ f₀, (read lib f (.r y) h).2 = .ok out :=
  ⟨_, number_of _, read_of_means hr (hn.means hv hne)⟩

theorem variance_zero_mean (h0 : v.average = 0) : v.variance = (∑ k ∈ Finset.range v.size, v.vec k ^ 2) / v.size := by
  unfold Arr.variance; simp [h0]

/-- C40 for `var`, of entries whose mean is zero; see `C40_full_refuted` for others. -/
theorem C40_var_partial (hr : Reach lib ⟨False, True⟩ h) (hn : IsVar h.graph y p x two)
    (hv : Means lib h.graph (.r x) (.ok v)) (hne : v.shape ≠ []) (h0 : v.average = 0) :
    ∃ out, Number v.variance out ∧ ∃ f₀, ∀ f ≥ f₀, (read lib f (.r y) h).2 = .ok out := by
  rw [variance_zero_mean h0]; exact C40_var_is_mean_square hr hn hv hne

/-- C40 for `std`, of entries whose mean is zero. -/
theorem C40_std_partial (hr : Reach lib ⟨False, True⟩ h) (hn : IsStd h.graph y s p x two)
    (hv : Means lib h.graph (.r x) (.ok v)) (hne : v.shape ≠ []) (h0 : v.average = 0) :
    ∃ out, Number (Real.sqrt v.variance) out ∧ ∃ f₀, ∀ f ≥ f₀, (read lib f (.r y) h).2 = .ok out := by
  rw [variance_zero_mean h0]
  refine ⟨_, number_of _, read_of_means hr (means_of_isA hn.sqrt (v := fun _ => Arr.of [1] fun _ => (∑ k ∈ Finset.range v.size, v.vec k ^ 2) / v.size)
    (fun _ => hn.var.means hv hne) ?_)⟩
  erw [env_one]
  have := returns_unary Real.sqrt (fun x => 0.5 * x ^ (-0.5 : ℝ)) (h.graph y).terms (Arr.of [1] fun _ => (∑ k ∈ Finset.range v.size, v.vec k ^ 2) / v.size)
  have e : mapVal Real.sqrt (Arr.of [1] fun _ => (∑ k ∈ Finset.range v.size, v.vec k ^ 2) / v.size) =
      Arr.of [1] fun _ => Real.sqrt ((∑ k ∈ Finset.range v.size, v.vec k ^ 2) / v.size) :=
    Arr.of_congr fun k hk => by rw [Arr.vec_of [1] _ hk]
  rw [e] at this
  exact this

/-- C40 in full, for `var`. -/
def C40_full : Prop :=
  ∀ (h : Heap ClassDef Par Arr Jac) (y p x two : Id) (v : Arr), Reach lib ⟨False, True⟩ h → IsVar h.graph y p x two →
    IsLeaf h.graph x → Means lib h.graph (.r x) (.ok v) → 0 < v.size →
    ∃ out, Number v.variance out ∧ ∃ f₀, ∀ f ≥ f₀, (read lib f (.r y) h).2 = .ok out
end

namespace ADDemo
/-- `norm(x)`: `x`, the exponent 2, `x ** 2`, its sum, the square root. -/
noncomputable def normed (v : Arr) : List (ObjSpec ClassDef Par) :=
  [leafO v, leafO ⟨[1], fun _ => 2⟩, binO chPow 0 1, unO chSum 2, unO chSqrt 3]
noncomputable def vared (v : Arr) : List (ObjSpec ClassDef Par) :=
  [leafO v, leafO ⟨[1], fun _ => 2⟩, binO chPow 0 1, unO chMean 2, unO chSqrt 3]

/-- `norm(x)` of a plain `Ch` with any entries can be made. -/
theorem normed_reach (v : Arr) (hv : v.shape ≠ []) : ∃ h, Reach lib ⟨False, True⟩ h ∧ IsNorm h.graph 4 3 2 0 1 ∧ IsLeaf h.graph 0 ∧
    Means lib h.graph (.r 0) (.ok v) := by
  have hok : WellBuilt lib (normed v) :=
    OkFrom.wellBuilt ⟨leafO_ok _ _, leafO_ok _ _, binO_ok (by decide) (by decide) rfl, unO_ok (by decide) rfl, unO_ok (by decide) rfl, trivial⟩ rfl
  obtain ⟨h, hr, hg⟩ := hok.reach ⟨False, True⟩
  refine ⟨h, hr, ?_, ?_, ?_⟩
  · rw [hg]
    exact ⟨isA_un rfl, isA_un rfl, Or.inl rfl, isA_bin rfl, isLeaf_leafO rfl, by decide, (leaf_means rfl (by simp)).1⟩
  · rw [hg]; exact isLeaf_leafO rfl
  · rw [hg]; exact (leaf_means rfl hv).1

theorem vared_reach (v : Arr) (hv : v.shape ≠ []) : ∃ h, Reach lib ⟨False, True⟩ h ∧ IsStd h.graph 4 3 2 0 1 ∧ IsLeaf h.graph 0 ∧
    Means lib h.graph (.r 0) (.ok v) := by
  have hok : WellBuilt lib (vared v) :=
    OkFrom.wellBuilt ⟨leafO_ok _ _, leafO_ok _ _, binO_ok (by decide) (by decide) rfl, unO_ok (by decide) rfl, unO_ok (by decide) rfl, trivial⟩ rfl
  obtain ⟨h, hr, hg⟩ := hok.reach ⟨False, True⟩
  refine ⟨h, hr, ?_, ?_, ?_⟩
  · rw [hg]
    exact ⟨isA_un rfl, isA_un rfl, Or.inl rfl, isA_bin rfl, isLeaf_leafO rfl, by decide, (leaf_means rfl (by simp)).1⟩
  · rw [hg]; exact isLeaf_leafO rfl
  · rw [hg]; exact (leaf_means rfl hv).1

/-- The hypotheses of C41 for `norm` are met by the vector `(-1, 0, 1)`, which is not zero. -/
example : ∃ h, Reach lib ⟨False, True⟩ h ∧ IsNorm h.graph 4 3 2 0 1 ∧ IsLeaf h.graph 0 ∧
    Means lib h.graph (.r 0) (.ok ⟨[3], fun k => k.1 - 1⟩) ∧
    ∃ k < (⟨[3], fun k => k.1 - 1⟩ : Arr).size, (⟨[3], fun k => k.1 - 1⟩ : Arr).vec k ≠ 0 := by
  obtain ⟨h, h1, h2, h3, h4⟩ := normed_reach ⟨[3], fun k => k.1 - 1⟩ (by simp)
  refine ⟨h, h1, h2, h3, h4, 0, by simp [Arr.size], ?_⟩
  have : (⟨[3], fun k => k.1 - 1⟩ : Arr).vec 0 = -1 := (dif_pos (by simp)).trans (by simp)
  rw [this]; norm_num

/-- Those of C40 by the same, whose mean is zero. -/
example : ∃ h, Reach lib ⟨False, True⟩ h ∧ IsStd h.graph 4 3 2 0 1 ∧ IsLeaf h.graph 0 ∧
    Means lib h.graph (.r 0) (.ok ⟨[3], fun k => k.1 - 1⟩) ∧ (⟨[3], fun k => k.1 - 1⟩ : Arr).average = 0 := by
  obtain ⟨h, h1, h2, h3, h4⟩ := vared_reach ⟨[3], fun k => k.1 - 1⟩ (by simp)
  refine ⟨h, h1, h2, h3, h4, ?_⟩
  have h0 : (⟨[3], fun k => k.1 - 1⟩ : Arr).vec 0 = -1 := (dif_pos (by simp)).trans (by simp)
  have h1 : (⟨[3], fun k => k.1 - 1⟩ : Arr).vec 1 = 0 := (dif_pos (by simp)).trans (by simp)
  have h2 : (⟨[3], fun k => k.1 - 1⟩ : Arr).vec 2 = 1 := (dif_pos (by simp)).trans (by simp; norm_num)
  have hz : (⟨[3], fun k => k.1 - 1⟩ : Arr).size = 3 := by simp [Arr.size]
  unfold Arr.average Arr.total
  generalize (⟨[3], fun k => k.1 - 1⟩ : Arr).vec = q at h0 h1 h2
  rw [hz]
  simp [Finset.sum_range_succ, h0, h1, h2]

/-- The hypotheses of C33 are met by a 2×3 array and the axis -1, which is axis 1. -/
example (c : ClassDef) : ∃ h, Reach lib ⟨False, True⟩ h ∧ IsA h.graph 1 c [nmA] (fun _ => 0) ∧
    Means lib h.graph (.r 0) (.ok ⟨[2, 3], fun k => k.1⟩) ∧ (h.graph 1).terms nmP = some (.int (-1)) ∧
    normAxis [2, 3].length (-1) = some 1 := by
  obtain ⟨h, h1, h2, h3, _, h4, _⟩ := reordered_reach c ⟨[2, 3], fun k => k.1⟩ (by simp) (.int (-1)) .none
  exact ⟨h, h1, h2, h3, h4, by decide⟩

/-- Those of C33 without an axis, C34 and C41 for `SumOfSquares`, by a vector of three. -/
example (c : ClassDef) : ∃ h, Reach lib ⟨False, True⟩ h ∧ IsA h.graph 1 c [nmA] (fun _ => 0) ∧
    Means lib h.graph (.r 0) (.ok ⟨[3], fun k => k.1⟩) ∧ (h.graph 1).terms nmP = some .none ∧ IsLeaf h.graph 0 ∧
    (⟨[3], fun k => k.1⟩ : Arr).shape.headD 0 = (⟨[3], fun k => k.1⟩ : Arr).size := by
  obtain ⟨h, h1, h2, h3, h5, h4, _⟩ := reordered_reach c ⟨[3], fun k => k.1⟩ (by simp) .none .none
  exact ⟨h, h1, h2, h3, h4, h5, by simp [Arr.size]⟩
end ADDemo

open ADDemo in
/-- C40 in full is false: `var` does not subtract the mean; it calls the variance of `[1, 1]` 1. -/
theorem C40_full_refuted : ¬ C40_full := by
  intro hall
  obtain ⟨h, hr, hs, hl, hv⟩ := vared_reach ⟨[2], fun _ => 1⟩ (by simp)
  obtain ⟨out, ⟨_, ho⟩, f₀, hf₀⟩ := hall h 3 2 0 1 _ hr hs.var hl hv (by simp [Arr.size])
  obtain ⟨out', ⟨_, ho'⟩, f₁, hf₁⟩ := C40_var_is_mean_square hr hs.var hv (by simp)
  have h1 := hf₀ _ (Nat.le_max_left f₀ f₁)
  rw [hf₁ _ (Nat.le_max_right f₀ f₁)] at h1
  injection h1 with e
  subst e
  rw [ho'] at ho
  have h0 : (⟨[2], fun _ => 1⟩ : Arr).vec 0 = 1 := dif_pos (by simp)
  have h1 : (⟨[2], fun _ => 1⟩ : Arr).vec 1 = 1 := dif_pos (by simp)
  have hz : (⟨[2], fun _ => 1⟩ : Arr).size = 2 := by simp [Arr.size]
  unfold Arr.variance Arr.average Arr.total at ho
  generalize (⟨[2], fun _ => 1⟩ : Arr).vec = q at ho h0 h1
  rw [hz] at ho
  simp only [Finset.sum_range_succ, Finset.sum_range_zero, h0, h1] at ho
  norm_num at ho

/-- The hypotheses of `C34_cumsum_axis_derivative_raises` are met. -/
example : ∃ h, Reach lib ⟨False, True⟩ h ∧ IsA h.graph 1 chCumsum [nmA] (fun _ => 0) ∧ Means lib h.graph (.r 0) (.ok ⟨[2, 3], fun k => k.1⟩) ∧
    (h.graph 0).cls.permute = false ∧ (h.graph 1).terms nmP = some (.int 1) := by
  obtain ⟨h, h1, h2, h3, h4, h5, _⟩ := ADDemo.reordered_reach chCumsum ⟨[2, 3], fun k => k.1⟩ (by simp) (.int 1) .none
  exact ⟨h, h1, h2, h3, by rw [h4.1]; rfl, h5⟩
end Chumpy
