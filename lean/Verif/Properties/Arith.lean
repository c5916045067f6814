import Mathlib.Data.List.GetD
import Verif.AD.Api
/-!
# C31: broadcast arithmetic
-/
namespace Chumpy
open scoped BigOperators Topology

/-! ## Specification: numpy's broadcasting rule -/

/-- Length of axis `j`, counted from the last, of an array of shape `s`; missing axes count as 1. -/
def axisR (s : List ℕ) (j : ℕ) : ℕ := s.reverse.getD j 1

/-- Shapes `s` and `t` broadcast to `o`: as many axes as the longer one; axes are matched from the last; two lengths
match if they are equal or one of them is 1, and the result has the other. -/
def Broadcasts (s t o : List ℕ) : Prop :=
  o.length = max s.length t.length ∧
    ∀ j < o.length, (axisR s j = axisR t j ∧ axisR o j = axisR s j) ∨ (axisR s j = 1 ∧ axisR o j = axisR t j) ∨
      (axisR t j = 1 ∧ axisR o j = axisR s j)

/-- Position `p` of an operand of shape `s` is the one used at position `k` of a result of shape `o`: the same
coordinates, except that along axes of length 1 the operand is repeated. -/
def Under (s o : List ℕ) (k p : ℕ) : Prop :=
  p < s.prod ∧ ∀ j < s.length, coord s p j = if axisR s j = 1 then 0 else coord o k j

/-- `out` is `f` applied entry by entry to `u` and `v` broadcast against each other. -/
def BcastResult (f : ℝ → ℝ → ℝ) (u v out : Arr) : Prop :=
  Broadcasts u.shape v.shape out.shape ∧
    ∀ k < out.size, ∃ p q, Under u.shape out.shape k p ∧ Under v.shape out.shape k q ∧ out.vec k = f (u.vec p) (v.vec q)

/-! ## The model follows the rule -/

theorem coordR_inj : ∀ (s : List ℕ) {p q : ℕ}, p < s.prod → q < s.prod → (∀ j < s.length, coordR s p j = coordR s q j) → p = q := by
  intro s
  induction s with
  | nil => intro p q hp hq _; simp at hp hq; omega
  | cons n s ih =>
    intro p q hp hq h
    simp only [List.prod_cons] at hp hq
    have h0 := h 0 (by simp)
    simp only [coordR] at h0
    have h1 := ih (Nat.div_lt_of_lt_mul hp) (Nat.div_lt_of_lt_mul hq) (fun j hj => h (j + 1) (by simpa using hj))
    rw [← Nat.mod_add_div p n, ← Nat.mod_add_div q n, h0, h1]

/-- The position is determined by the coordinates. -/
theorem Under.unique {s o : List ℕ} {k p q : ℕ} (h : Under s o k p) (h' : Under s o k q) : p = q := by
  refine coordR_inj s.reverse (by rw [prod_reverse]; exact h.1) (by rw [prod_reverse]; exact h'.1) ?_
  intro j hj
  rw [List.length_reverse] at hj
  exact (h.2 j hj).trans (h'.2 j hj).symm

theorem under_of_fits {s o : List ℕ} (h : Fits s.reverse o.reverse) {k : ℕ} (hk : k < o.prod) : Under s o k (bidx s o k) := by
  refine ⟨by rw [← prod_reverse s]; exact bidxR_lt h (by rw [prod_reverse]; exact hk), ?_⟩
  intro j hj
  have := coordR_bidxR h j (by rw [prod_reverse]; exact hk) (by rw [List.length_reverse]; exact hj)
  unfold coord bidx axisR
  rw [this]
  have e : s.reverse.getD j 0 = s.reverse.getD j 1 := by
    rw [List.getD_eq_getElem _ _ (by rw [List.length_reverse]; exact hj), List.getD_eq_getElem _ _ (by rw [List.length_reverse]; exact hj)]
  rw [e]

theorem bshapeR_spec : ∀ (s t o : List ℕ), bshapeR s t = some o ↔ o.length = max s.length t.length ∧
    ∀ j < o.length, (s.getD j 1 = t.getD j 1 ∧ o.getD j 1 = s.getD j 1) ∨ (s.getD j 1 = 1 ∧ o.getD j 1 = t.getD j 1) ∨
      (t.getD j 1 = 1 ∧ o.getD j 1 = s.getD j 1) := by
  have ext : ∀ {a b : List ℕ}, a.length = b.length → (∀ j < a.length, a.getD j 1 = b.getD j 1) → a = b := by
    intro a b hl h
    refine List.ext_getElem hl fun j h1 h2 => ?_
    have := h j h1
    rwa [List.getD_eq_getElem _ _ h1, List.getD_eq_getElem _ _ h2] at this
  intro s
  induction s with
  | nil =>
    intro t o
    simp only [bshapeR, Option.some.injEq, List.length_nil, List.getD_nil, Nat.zero_max]
    constructor
    · rintro rfl; exact ⟨rfl, fun j _ => Or.inr (Or.inl (by simp))⟩
    · rintro ⟨hl, h⟩
      refine ext hl.symm fun j hj => ?_
      rcases h j (hl ▸ hj) with ⟨a, b⟩ | ⟨_, b⟩ | ⟨a, b⟩
      · rw [b, ← a]
      · exact b.symm
      · rw [a, b]
  | cons m s ih =>
    intro t o
    cases t with
    | nil =>
      simp only [bshapeR, Option.some.injEq, List.length_nil, List.getD_nil, Nat.max_zero]
      constructor
      · rintro rfl; exact ⟨rfl, fun j _ => Or.inr (Or.inr (by simp))⟩
      · rintro ⟨hl, h⟩
        refine ext hl.symm fun j hj => ?_
        rcases h j (hl ▸ hj) with ⟨a, b⟩ | ⟨a, b⟩ | ⟨a, b⟩
        · exact b.symm
        · rw [a, b]
        · exact b.symm
    | cons n t =>
      have hb : ∀ k, Jac.bdim m n = some k ↔ (m = n ∧ k = m) ∨ (m = 1 ∧ k = n) ∨ (n = 1 ∧ k = m) := by
        intro k
        unfold Jac.bdim
        split
        · next e => subst e; simp only [Option.some.injEq]; constructor
                    · rintro rfl; exact Or.inl (by simp)
                    · rintro (⟨_, h⟩ | ⟨_, h⟩ | ⟨_, h⟩) <;> exact h.symm
        · next e =>
          split
          · next e1 => simp only [Option.some.injEq]; constructor
                       · rintro rfl; exact Or.inr (Or.inl ⟨e1, rfl⟩)
                       · rintro (⟨h, _⟩ | ⟨_, h⟩ | ⟨h, h'⟩) <;> omega
          · next e1 =>
            split
            · next e2 => simp only [Option.some.injEq]; constructor
                         · rintro rfl; exact Or.inr (Or.inr ⟨e2, rfl⟩)
                         · rintro (⟨h, _⟩ | ⟨h, _⟩ | ⟨_, h⟩) <;> omega
            · next e2 => simp only [reduceCtorEq, false_iff]; omega
      constructor
      · intro h
        simp only [bshapeR] at h
        split at h
        · next k r hk hr =>
          cases h
          obtain ⟨h1, h2⟩ := (ih t r).1 hr
          refine ⟨by simp only [List.length_cons, h1]; omega, ?_⟩
          intro j hj
          cases j with
          | zero =>
            simp only [List.getD_cons_zero]
            rcases (hb k).1 hk with h | h | h <;> omega
          | succ j =>
            simp only [List.getD_cons_succ]
            exact h2 j (by simpa using hj)
        · cases h
      · rintro ⟨hl, h⟩
        cases o with
        | nil => simp only [List.length_nil, List.length_cons] at hl; omega
        | cons k o =>
          have h0 := h 0 (by simp)
          simp only [List.getD_cons_zero] at h0
          have hk : Jac.bdim m n = some k := (hb k).2 (by omega)
          have hr : bshapeR s t = some o := (ih t o).2 ⟨by simp only [List.length_cons] at hl; omega, fun j hj => by
            have := h (j + 1) (by simpa using hj)
            simpa only [List.getD_cons_succ] using this⟩
          simp only [bshapeR, hk, hr]

/-- The model's shape is the rule's. -/
theorem bshape_spec (s t o : List ℕ) : bshape s t = some o ↔ Broadcasts s t o := by
  have h := bshapeR_spec s.reverse t.reverse o.reverse
  simp only [List.length_reverse] at h
  unfold Broadcasts axisR
  rw [← h]
  unfold bshape
  rw [Option.map_eq_some_iff]
  constructor
  · rintro ⟨a, ha, rfl⟩; rw [List.reverse_reverse]; exact ha
  · intro h; exact ⟨_, h, List.reverse_reverse o⟩

theorem bcastVal_result {f : ℝ → ℝ → ℝ} {u v : Arr} {o : List ℕ} (h : bshape u.shape v.shape = some o) :
    BcastResult f u v (bcastVal f u v o) := by
  refine ⟨(bshape_spec _ _ _).1 h, fun k hk => ?_⟩
  obtain ⟨h1, h2⟩ := bshape_fits h
  exact ⟨_, _, under_of_fits h1 hk, under_of_fits h2 hk, Arr.vec_of _ _ hk⟩

/-- The result is determined by the rule. -/
theorem BcastResult.unique {f : ℝ → ℝ → ℝ} {u v x y : Arr} (h : BcastResult f u v x) (h' : BcastResult f u v y) : x = y := by
  have hs : x.shape = y.shape := by
    have a := (bshape_spec _ _ _).2 h.1
    have b := (bshape_spec _ _ _).2 h'.1
    rw [a] at b; injection b
  refine Arr.ext_vec hs fun k hk => ?_
  obtain ⟨p, q, h1, h2, h3⟩ := h.2 k hk
  obtain ⟨p', q', h1', h2', h3'⟩ := h'.2 k (by unfold Arr.size; rw [← hs]; exact hk)
  rw [← hs] at h1' h2'
  rw [h3, h3', h1.unique h1', h2.unique h2']

/-! ## C31 -/

section
variable {h : Heap ClassDef Par Arr Jac} {y a b : Id} {u v : Arr} {o : List ℕ}

/-- C31 for `a + b`: for operands of any broadcastable shapes, and also when they are the same object, the value is the
broadcast sum and the derivative wrt each operand is right. -/
theorem C31_add (hr : Reach lib ⟨False, True⟩ h) (hy : IsA h.graph y chAdd [nmA, nmB] ![a, b])
    (hu : Means lib h.graph (.r a) (.ok u)) (hv : Means lib h.graph (.r b) (.ok v)) (ho : Broadcasts u.shape v.shape o) :
    ∃ out, BcastResult (· + ·) u v out ∧ Right h y out := by
  have ho := (bshape_spec _ _ _).2 ho
  exact ⟨_, bcastVal_result ho, right_of_exact hr hy (kids2 hu hv) (exact_add _ ho)⟩

/-- C31 for `a - b`. -/
theorem C31_subtract (hr : Reach lib ⟨False, True⟩ h) (hy : IsA h.graph y chSub [nmA, nmB] ![a, b])
    (hu : Means lib h.graph (.r a) (.ok u)) (hv : Means lib h.graph (.r b) (.ok v)) (ho : Broadcasts u.shape v.shape o) :
    ∃ out, BcastResult (· - ·) u v out ∧ Right h y out := by
  have ho := (bshape_spec _ _ _).2 ho
  exact ⟨_, bcastVal_result ho, right_of_exact hr hy (kids2 hu hv) (exact_sub _ ho)⟩

/-- C31 for `a * b`. -/
theorem C31_multiply (hr : Reach lib ⟨False, True⟩ h) (hy : IsA h.graph y chMul [nmA, nmB] ![a, b])
    (hu : Means lib h.graph (.r a) (.ok u)) (hv : Means lib h.graph (.r b) (.ok v)) (ho : Broadcasts u.shape v.shape o) :
    ∃ out, BcastResult (· * ·) u v out ∧ Right h y out := by
  have ho := (bshape_spec _ _ _).2 ho
  exact ⟨_, bcastVal_result ho, right_of_exact hr hy (kids2 hu hv) (exact_mul _ ho)⟩

/-- C31 for `a / b`, where no entry of the denominator is zero. -/
theorem C31_divide (hr : Reach lib ⟨False, True⟩ h) (hy : IsA h.graph y chDiv [nmA, nmB] ![a, b])
    (hu : Means lib h.graph (.r a) (.ok u)) (hv : Means lib h.graph (.r b) (.ok v)) (ho : Broadcasts u.shape v.shape o)
    (hz : ∀ k < v.size, v.vec k ≠ 0) :
    ∃ out, BcastResult (· / ·) u v out ∧ Right h y out := by
  have ho := (bshape_spec _ _ _).2 ho
  exact ⟨_, bcastVal_result ho, right_of_exact hr hy (kids2 hu hv) (exact_div _ ho fun k hk => hz _ (bidx_lt_right ho hk))⟩

/-- C31 for `a ** b`, where every entry of the base is positive. -/
theorem C31_power (hr : Reach lib ⟨False, True⟩ h) (hy : IsA h.graph y chPow [nmA, nmB] ![a, b])
    (hu : Means lib h.graph (.r a) (.ok u)) (hv : Means lib h.graph (.r b) (.ok v)) (ho : Broadcasts u.shape v.shape o)
    (hz : ∀ k < u.size, 0 < u.vec k) :
    ∃ out, BcastResult (fun x y => x ^ y) u v out ∧ Right h y out := by
  have ho := (bshape_spec _ _ _).2 ho
  exact ⟨_, bcastVal_result ho, right_of_exact hr hy (kids2 hu hv) (exact_pow _ ho fun k hk => hz _ (bidx_lt_left ho hk))⟩

/-- C31 for `a ** b` with natural exponents, as in `a ** 2`, and bases of any sign: right for the derivatives with respect
to whatever the exponent does not depend on. -/
theorem C31_power_natural (hr : Reach lib ⟨False, True⟩ h) (hy : IsA h.graph y chPow [nmA, nmB] ![a, b])
    (hu : Means lib h.graph (.r a) (.ok u)) (hv : Means lib h.graph (.r b) (.ok v)) (ho : Broadcasts u.shape v.shape o)
    (hz : ∀ k < v.size, ∃ n : ℕ, v.vec k = n) {w : Id} (hw : ¬ Reaches h.graph b w) :
    ∃ out, BcastResult (fun x y => x ^ y) u v out ∧ RightFor h y w out := by
  have ho := (bshape_spec _ _ _).2 ho
  exact ⟨_, bcastVal_result ho, rightFor_of_exactOn hr hy (kids2 hu hv)
    (exactOn_pow _ ho (fun k hk => Or.inr (hz _ (bidx_lt_right ho hk))) hw _)⟩
end

namespace ADDemo
/-- `c(a, b)` for a 2×1 array and a vector of 3. -/
noncomputable def outer (c : ClassDef) : List (ObjSpec ClassDef Par) :=
  [leafO ⟨[2, 1], fun k => k.1 + 1⟩, leafO ⟨[3], fun k => k.1 + 5⟩, binO c 0 1]

/-- The hypotheses of C31 are met by a 2×1 and a 3 operand, giving a 2×3 result. -/
example (c : ClassDef) (hc : c.permute = false) : ∃ h, Reach lib ⟨False, True⟩ h ∧ IsA h.graph 2 c [nmA, nmB] ![0, 1] ∧
    Means lib h.graph (.r 0) (.ok ⟨[2, 1], fun k => k.1 + 1⟩) ∧ Means lib h.graph (.r 1) (.ok ⟨[3], fun k => k.1 + 5⟩) ∧
    Broadcasts [2, 1] [3] [2, 3] ∧ IsLeaf h.graph 0 ∧ IsLeaf h.graph 1 := by
  have hok : WellBuilt lib (outer c) :=
    OkFrom.wellBuilt ⟨leafO_ok _ _, leafO_ok _ _, binO_ok (by decide) (by decide) hc, trivial⟩ rfl
  obtain ⟨h, hr, hg⟩ := hok.reach ⟨False, True⟩
  refine ⟨h, hr, ?_, ?_, ?_, (bshape_spec _ _ _).1 (by decide), ?_, ?_⟩
  · rw [hg]
    refine ⟨rfl, rfl, by decide, ?_⟩
    intro j
    have : j = 0 ∨ j = 1 := by
      have := j.2
      simp only [List.length_cons, List.length_nil] at this
      have : j.1 = 0 ∨ j.1 = 1 := by omega
      rcases this with h | h
      · exact Or.inl (Fin.ext h)
      · exact Or.inr (Fin.ext h)
    rcases this with rfl | rfl <;> rfl
  · rw [hg]; exact (leaf_means rfl (by simp)).1
  · rw [hg]; exact (leaf_means rfl (by simp)).1
  · rw [hg]; exact ⟨rfl, fun _ => rfl, rfl⟩
  · rw [hg]; exact ⟨rfl, fun _ => rfl, rfl⟩

/-- Those of `C31_power_natural` by `x ** 2` of `(-1, 0, 1)`, whose entries are not all positive. -/
example : ∃ h, Reach lib ⟨False, True⟩ h ∧ IsA h.graph 2 chPow [nmA, nmB] ![0, 1] ∧
    Means lib h.graph (.r 0) (.ok ⟨[3], fun k => k.1 - 1⟩) ∧ Means lib h.graph (.r 1) (.ok ⟨[1], fun _ => 2⟩) ∧
    Broadcasts [3] [1] [3] ∧ (∀ k < (⟨[1], fun _ => 2⟩ : Arr).size, ∃ n : ℕ, (⟨[1], fun _ => 2⟩ : Arr).vec k = n) ∧
    ¬ Reaches h.graph 1 0 := by
  have hok : WellBuilt lib [leafO ⟨[3], fun k => k.1 - 1⟩, leafO ⟨[1], fun _ => 2⟩, binO chPow 0 1] :=
    OkFrom.wellBuilt ⟨leafO_ok _ _, leafO_ok _ _, binO_ok (by decide) (by decide) rfl, trivial⟩ rfl
  obtain ⟨h, hr, hg⟩ := hok.reach ⟨False, True⟩
  refine ⟨h, hr, ?_, ?_, ?_, (bshape_spec _ _ _).1 (by decide), fun k hk => ⟨2, dif_pos hk⟩, ?_⟩
  · rw [hg]; exact isA_bin rfl
  · rw [hg]; exact (leaf_means rfl (by simp)).1
  · rw [hg]; exact (leaf_means rfl (by simp)).1
  · rw [hg]
    intro hr
    have := (isLeaf_leafO (g := buildGraph lib _) (i := 1) rfl).reaches hr
    cases this
end ADDemo
end Chumpy
