import Verif.AD.AxisExtremum
import Verif.Properties.Reduce
/-!
# C35, C36: dot and cross
-/
namespace Chumpy
open scoped BigOperators Topology

/-- `out` is numpy's `u.dot(v)` for a vector `v`: the sum over the last axis of `u`.  A number is an array of shape `[1]`. -/
def DotVector (s : List ℕ) (n : ℕ) (u v out : Arr) : Prop :=
  u.shape = s ++ [n] ∧ v.shape = [n] ∧ out.shape = (if s = [] then [1] else s) ∧
    ∀ c, InB s c → out.vec (ravel s c) = ∑ k ∈ Finset.range n, u.at (c ++ [k]) * v.at [k]

/-- `out` is numpy's `u.dot(v)` for `v` of two axes or more: the sum over the last axis of `u` and the last but one of `v`. -/
def DotMatrix (s t : List ℕ) (n m : ℕ) (u v out : Arr) : Prop :=
  u.shape = s ++ [n] ∧ v.shape = t ++ [n, m] ∧ out.shape = s ++ t ++ [m] ∧
    ∀ c d e, InB s c → InB t d → e < m → out.at (c ++ d ++ [e]) = ∑ k ∈ Finset.range n, u.at (c ++ [k]) * v.at (d ++ [k, e])

theorem dotVector_of {s : List ℕ} {n : ℕ} {u v : Arr} (hu : u.shape = s ++ [n]) (hv : v.shape = [n]) {x : Arr} (hx : dotVal u v = some x) :
    DotVector s n u v x := by
  have := dotVal_eq (C := 1) hu (Or.inl ⟨hv, rfl, rfl⟩)
  rw [hx] at this
  cases this
  refine ⟨hu, hv, rfl, fun c hc => ?_⟩
  rw [Arr.vec_of _ _ (by rw [aext_osh]; exact ravel_lt hc)]
  refine Finset.sum_congr rfl fun k _ => ?_
  unfold Arr.at
  rw [hu, hv, ravel_append hc.length]
  simp [ravel, Nat.mod_one]

theorem dotMatrix_of {s t : List ℕ} {n m : ℕ} {u v : Arr} (hu : u.shape = s ++ [n]) (hv : v.shape = t ++ [n, m]) {x : Arr} (hx : dotVal u v = some x) :
    DotMatrix s t n m u v x := by
  unfold dotVal at hx
  rw [hu, hv] at hx
  simp only [List.reverse_append, List.reverse_cons, List.reverse_nil, List.nil_append, List.cons_append, List.reverse_reverse, if_true,
    Option.some.injEq] at hx
  subst hx
  refine ⟨hu, hv, by simp [Arr.of], fun c d e hc hd he => ?_⟩
  have hd' := ravel_lt hd
  have hcd : (c ++ d).length = (s ++ t).length := by rw [List.length_append, List.length_append, hc.length, hd.length]
  have hp : ravel (s ++ t ++ [m]) (c ++ d ++ [e]) = (ravel s c * t.prod + ravel t d) * m + e := by
    rw [ravel_append hcd, ravel_append hc.length]; simp [ravel]
  have hlt : ravel (s ++ t ++ [m]) (c ++ d ++ [e]) < (s ++ t ++ [m]).prod := by
    refine ravel_lt (List.rel_append (List.rel_append hc hd) (.cons he .nil))
  unfold Arr.at
  rw [show (Arr.of (s ++ t ++ [m]) _).shape = s ++ t ++ [m] from rfl, Arr.vec_of _ _ hlt, hp]
  have e1 : ((ravel s c * t.prod + ravel t d) * m + e) / m = ravel s c * t.prod + ravel t d := by
    rw [Nat.mul_comm _ m, Nat.mul_add_div (by omega), Nat.div_eq_of_lt he, Nat.add_zero]
  have e2 : ((ravel s c * t.prod + ravel t d) * m + e) % m = e := by
    rw [Nat.mul_comm _ m, Nat.mul_add_mod, Nat.mod_eq_of_lt he]
  have e3 : (ravel s c * t.prod + ravel t d) / t.prod = ravel s c := by
    rw [Nat.mul_comm _ t.prod, Nat.mul_add_div (by omega), Nat.div_eq_of_lt hd', Nat.add_zero]
  have e4 : (ravel s c * t.prod + ravel t d) % t.prod = ravel t d := by
    rw [Nat.mul_comm _ t.prod, Nat.mul_add_mod, Nat.mod_eq_of_lt hd']
  rw [e1, e2, e3, e4]
  refine Finset.sum_congr rfl fun k _ => ?_
  rw [hu, hv, ravel_append hc.length, ravel_append hd.length]
  congr 2
  · simp [ravel]
  · simp [ravel]; ring

section
variable {h : Heap ClassDef Par Arr Jac} {y a b : Id} {u v : Arr} {s t : List ℕ} {n m : ℕ}

/-! ## C35 -/

/-- C35 for a vector `b`, and any number of axes of `a`; `a` and `b` may be the same object. -/
theorem C35_dot_vector (hr : Reach lib ⟨False, True⟩ h) (hy : IsA h.graph y chDot [nmA, nmB] ![a, b])
    (hu : Means lib h.graph (.r a) (.ok u)) (hv : Means lib h.graph (.r b) (.ok v)) (hsu : u.shape = s ++ [n]) (hsv : v.shape = [n])
    (hn : 0 < n) : ∃ out, DotVector s n u v out ∧ Right h y out := by
  obtain ⟨P, Q, hE⟩ := exact_dot (tm := (h.graph y).terms) (C := 1) hsu hn (Or.inl ⟨hsv, rfl, rfl⟩)
  exact ⟨_, dotVector_of hsu hsv (dotVal_eq (C := 1) hsu (Or.inl ⟨hsv, rfl, rfl⟩)), right_of_exact hr hy (kids2 hu hv) hE⟩

/-- C35 for a matrix `b`, and any number of axes of `a`; `a` and `b` may be the same object.  For `b` of more axes only the
value is right: `C35_dot_value_partial`, `C35_full_refuted`. -/
theorem C35_dot_matrix_partial (hr : Reach lib ⟨False, True⟩ h) (hy : IsA h.graph y chDot [nmA, nmB] ![a, b])
    (hu : Means lib h.graph (.r a) (.ok u)) (hv : Means lib h.graph (.r b) (.ok v)) (hsu : u.shape = s ++ [n]) (hsv : v.shape = [n, m])
    (hn : 0 < n) : ∃ out, DotMatrix s [] n m u v out ∧ Right h y out := by
  obtain ⟨P, Q, hE⟩ := exact_dot (tm := (h.graph y).terms) (C := m) hsu hn (Or.inr ⟨hsv, rfl⟩)
  exact ⟨_, dotMatrix_of hsu hsv (dotVal_eq (C := m) hsu (Or.inr ⟨hsv, rfl⟩)), right_of_exact hr hy (kids2 hu hv) hE⟩

theorem dot_means {x : Arr} (hy : IsA h.graph y chDot [nmA, nmB] ![a, b])
    (hu : Means lib h.graph (.r a) (.ok u)) (hv : Means lib h.graph (.r b) (.ok v)) (hx : dotVal u v = some x) :
    Means lib h.graph (.r y) (.ok x) := by
  refine means_of_isA hy (kids2 hu hv) ?_
  erw [env_two]
  exact ⟨0, by show runBody _ _ _ _ chDot.r = _; simp [chDot, runBody, env2, hx]⟩

/-- The value, for `b` of any number of axes. -/
theorem C35_dot_value_partial (hr : Reach lib ⟨False, True⟩ h) (hy : IsA h.graph y chDot [nmA, nmB] ![a, b])
    (hu : Means lib h.graph (.r a) (.ok u)) (hv : Means lib h.graph (.r b) (.ok v)) (hsu : u.shape = s ++ [n]) (hsv : v.shape = t ++ [n, m]) :
    ∃ out, DotMatrix s t n m u v out ∧ ∃ f₀, ∀ f ≥ f₀, (read lib f (.r y) h).2 = .ok out := by
  obtain ⟨x, hx⟩ : ∃ x, dotVal u v = some x := by
    unfold dotVal
    rw [hsu, hsv]
    simp
  exact ⟨x, dotMatrix_of hsu hsv hx, read_of_means hr (dot_means hy hu hv hx)⟩

/-- C35 in full. -/
def C35_full : Prop :=
  ∀ (h : Heap ClassDef Par Arr Jac) (y a b : Id) (u v : Arr) (s t : List ℕ) (n m : ℕ), Reach lib ⟨False, True⟩ h →
    IsA h.graph y chDot [nmA, nmB] ![a, b] → Means lib h.graph (.r a) (.ok u) → Means lib h.graph (.r b) (.ok v) →
    u.shape = s ++ [n] → v.shape = t ++ [n, m] → 0 < n → ∃ out, DotMatrix s t n m u v out ∧ Right h y out

/-! ## C36 -/

/-- `out` has the cross products of the rows of `u` and `v`, arrays of `n` rows of three. -/
def CrossRows (n : ℕ) (u v out : Arr) : Prop :=
  u.shape = [n, 3] ∧ v.shape = [n, 3] ∧ out.shape = [n, 3] ∧ ∀ r < n,
    out.at [r, 0] = u.at [r, 1] * v.at [r, 2] - u.at [r, 2] * v.at [r, 1] ∧
    out.at [r, 1] = u.at [r, 2] * v.at [r, 0] - u.at [r, 0] * v.at [r, 2] ∧
    out.at [r, 2] = u.at [r, 0] * v.at [r, 1] - u.at [r, 1] * v.at [r, 0]

theorem crossRows_of (hu : u.shape = [n, 3]) (hv : v.shape = [n, 3]) :
    CrossRows n u v (Arr.of [n, 3] (bilin 2 crossγ crossσ crossτ u.vec v.vec)) := by
  refine ⟨hu, hv, rfl, fun r hr => ?_⟩
  have e : ∀ p < 3, (Arr.of [n, 3] (bilin 2 crossγ crossσ crossτ u.vec v.vec)).at [r, p] = cross3 (row3 u.vec r) (row3 v.vec r) p := by
    intro p hp
    have e1 : ravel [n, 3] [r, p] = 3 * r + p := by simp [ravel]; ring
    unfold Arr.at
    rw [show (Arr.of [n, 3] _).shape = [n, 3] from rfl, Arr.vec_of _ _ (ravel_lt (.cons hr (.cons hp .nil))), e1, ← cross_bilin]
    rw [show (3 * r + p) / 3 = r by omega, show (3 * r + p) % 3 = p by omega]
  have eu : ∀ p, u.at [r, p] = row3 u.vec r p := by
    intro p; unfold Arr.at row3; rw [hu]; congr 1; simp [ravel]; ring
  have ev : ∀ p, v.at [r, p] = row3 v.vec r p := by
    intro p; unfold Arr.at row3; rw [hv]; congr 1; simp [ravel]; ring
  rw [e 0 (by omega), e 1 (by omega), e 2 (by omega)]
  simp only [eu, ev]
  exact ⟨rfl, rfl, rfl⟩

/-- C36 when `a` and `b` are different objects, arrays of `n` rows of three.  For `cross(a, a)` it is false:
`C36_same_operand_refuted`; other shapes are in `Verif/Properties/Cross.lean`. -/
theorem C36_cross_partial (hr : Reach lib ⟨False, True⟩ h) (hy : IsA h.graph y chCross [nmA, nmB] ![a, b])
    (hu : Means lib h.graph (.r a) (.ok u)) (hv : Means lib h.graph (.r b) (.ok v)) (hsu : u.shape = [n, 3]) (hsv : v.shape = [n, 3])
    (hab : a ≠ b) : ∃ out, CrossRows n u v out ∧ ∀ w, RightFor h y w out :=
  ⟨_, crossRows_of hsu hsv, fun _ => rightFor_of_exactOn hr hy (kids2 hu hv) (exactOn_cross hsu hsv _ hab)⟩

/-- C36 for arrays of `n` rows of three, whether or not they are different objects. -/
def C36_rows : Prop :=
  ∀ (h : Heap ClassDef Par Arr Jac) (y a b : Id) (u v : Arr) (n : ℕ), Reach lib ⟨False, True⟩ h →
    IsA h.graph y chCross [nmA, nmB] ![a, b] → Means lib h.graph (.r a) (.ok u) → Means lib h.graph (.r b) (.ok v) →
    u.shape = [n, 3] → v.shape = [n, 3] → ∃ out, CrossRows n u v out ∧ ∀ w, RightFor h y w out
end

namespace ADDemo
/-- `c(a, b)` for two arrays. -/
theorem pair_reach (c : ClassDef) (hc : c.permute = false) (u v : Arr) (hu : u.shape ≠ []) (hv : v.shape ≠ []) :
    ∃ h, Reach lib ⟨False, True⟩ h ∧ IsA h.graph 2 c [nmA, nmB] ![0, 1] ∧ Means lib h.graph (.r 0) (.ok u) ∧
      Means lib h.graph (.r 1) (.ok v) ∧ IsLeaf h.graph 0 ∧ IsLeaf h.graph 1 := by
  have hok : WellBuilt lib [leafO u, leafO v, binO c 0 1] :=
    OkFrom.wellBuilt ⟨leafO_ok _ _, leafO_ok _ _, binO_ok (by decide) (by decide) hc, trivial⟩ rfl
  obtain ⟨h, hr, hg⟩ := hok.reach ⟨False, True⟩
  refine ⟨h, hr, ?_⟩
  rw [hg]
  exact ⟨isA_bin rfl, (leaf_means rfl hu).1, (leaf_means rfl hv).1, isLeaf_leafO rfl, isLeaf_leafO rfl⟩

/-- `c(a, a)` for an array. -/
theorem same_reach (c : ClassDef) (hc : c.permute = false) (u : Arr) (hu : u.shape ≠ []) :
    ∃ h, Reach lib ⟨False, True⟩ h ∧ IsA h.graph 1 c [nmA, nmB] ![0, 0] ∧ Means lib h.graph (.r 0) (.ok u) ∧ IsLeaf h.graph 0 := by
  have hok : WellBuilt lib [leafO u, binO c 0 0] :=
    OkFrom.wellBuilt ⟨leafO_ok _ _, binO_ok (by decide) (by decide) hc, trivial⟩ rfl
  obtain ⟨h, hr, hg⟩ := hok.reach ⟨False, True⟩
  refine ⟨h, hr, ?_⟩
  rw [hg]
  exact ⟨isA_bin rfl, (leaf_means rfl hu).1, isLeaf_leafO rfl⟩

/-- The hypotheses of C35 are met by a 4×2×3 array and a 3×5 matrix, and by a matrix times itself. -/
example : (∃ h, Reach lib ⟨False, True⟩ h ∧ IsA h.graph 2 chDot [nmA, nmB] ![0, 1] ∧
      Means lib h.graph (.r 0) (.ok ⟨[4, 2, 3], fun k => k.1⟩) ∧ Means lib h.graph (.r 1) (.ok ⟨[3, 5], fun k => k.1⟩) ∧
      [4, 2, 3] = [4, 2] ++ [3]) ∧
    ∃ h, Reach lib ⟨False, True⟩ h ∧ IsA h.graph 1 chDot [nmA, nmB] ![0, 0] ∧ Means lib h.graph (.r 0) (.ok ⟨[3, 3], fun k => k.1⟩) := by
  obtain ⟨h, h1, h2, h3, h4, _⟩ := pair_reach chDot rfl ⟨[4, 2, 3], fun k => k.1⟩ ⟨[3, 5], fun k => k.1⟩ (by simp) (by simp)
  obtain ⟨h', h1', h2', h3', _⟩ := same_reach chDot rfl ⟨[3, 3], fun k => k.1⟩ (by simp)
  exact ⟨⟨h, h1, h2, h3, h4, rfl⟩, h', h1', h2', h3'⟩

/-- Those of C35 for a vector, by a 2×3 matrix and a vector; those of the value, by a 2×3×2 array `b`. -/
example : (∃ h, Reach lib ⟨False, True⟩ h ∧ IsA h.graph 2 chDot [nmA, nmB] ![0, 1] ∧
      Means lib h.graph (.r 0) (.ok ⟨[2, 3], fun k => k.1⟩) ∧ Means lib h.graph (.r 1) (.ok ⟨[3], fun k => k.1⟩) ∧ [2, 3] = [2] ++ [3]) ∧
    ∃ h, Reach lib ⟨False, True⟩ h ∧ IsA h.graph 2 chDot [nmA, nmB] ![0, 1] ∧
      Means lib h.graph (.r 0) (.ok ⟨[2, 3], fun k => k.1⟩) ∧ Means lib h.graph (.r 1) (.ok ⟨[2, 3, 2], fun k => k.1⟩) ∧
      [2, 3, 2] = [2] ++ [3, 2] := by
  obtain ⟨h, h1, h2, h3, h4, _⟩ := pair_reach chDot rfl ⟨[2, 3], fun k => k.1⟩ ⟨[3], fun k => k.1⟩ (by simp) (by simp)
  obtain ⟨h', h1', h2', h3', h4', _⟩ := pair_reach chDot rfl ⟨[2, 3], fun k => k.1⟩ ⟨[2, 3, 2], fun k => k.1⟩ (by simp) (by simp)
  exact ⟨⟨h, h1, h2, h3, h4, rfl⟩, h', h1', h2', h3', h4', rfl⟩

/-- Those of C36 by two arrays of two 3-vectors. -/
example : ∃ h, Reach lib ⟨False, True⟩ h ∧ IsA h.graph 2 chCross [nmA, nmB] ![0, 1] ∧
    Means lib h.graph (.r 0) (.ok ⟨[2, 3], fun k => k.1⟩) ∧ Means lib h.graph (.r 1) (.ok ⟨[2, 3], fun k => k.1 ^ 2⟩) ∧ (0 : Id) ≠ 1 := by
  obtain ⟨h, h1, h2, h3, h4, _⟩ := pair_reach chCross rfl ⟨[2, 3], fun k => k.1⟩ ⟨[2, 3], fun k => k.1 ^ 2⟩ (by simp) (by simp)
  exact ⟨h, h1, h2, h3, h4, by decide⟩
end ADDemo

open ADDemo in
/-- C35 in full is false: for a vector of two and an array of shape (1, 2, 1) the product is one number, but its derivative
wrt the vector is reported as a 2×1 matrix. -/
theorem C35_full_refuted : ¬ C35_full := by
  intro hall
  obtain ⟨h, hr, hy, hu, hv, hlu, hlv⟩ := pair_reach chDot rfl ⟨[2], fun _ => 1⟩ ⟨[1, 2, 1], fun _ => 1⟩ (by simp) (by simp)
  obtain ⟨out, ⟨_, _, hs, _⟩, hR⟩ := hall h 2 0 1 _ _ [] [1] 2 1 hr hy hu hv rfl rfl (by decide)
  have ho : Means lib h.graph (.r 2) (.ok out) := by
    obtain ⟨o, _, _, ho, _⟩ := hR.exactly
    obtain ⟨f₀, h1⟩ := hR.value
    obtain ⟨f₁, h2⟩ := read_of_means hr ho
    have := (h1 _ (Nat.le_max_left f₀ f₁)).symm.trans (h2 _ (Nat.le_max_right f₀ f₁))
    cases this; exact ho
  have hrep : Reports h 2 0 2 1 fun _ _ => 1 := by
    refine reports_of_rep hr hy (kids2 hu hv) ho (leaves2 hlu hlv) (w := 0) ⟨(0 : Fin 2), rfl⟩
      (d := some (.sparse 2 1 fun i j => if i / 2 = j / 1 then (⟨[1, 2, 1], fun _ => 1⟩ : Arr).vec (j % 1 * 2 + i % 2) else 0)) ?_ ?_
    · rw [namesOf_left hy (by decide)]; erw [env_two]
      refine ⟨0, ?_⟩
      show runBody _ _ _ _ (chDot.dr false [nmA]) = _
      simp [chDot, runBody, env2, dotD1, dotRows, dotCols, retOr]
    · refine ⟨rfl, rfl, fun i hi j hj => ?_⟩
      have h1 : i / 2 = j / 1 := by omega
      dsimp only
      rw [if_pos h1]
      exact dif_pos (by simp; omega)
  obtain ⟨vw, M, hJ, hrep'⟩ := hR.deriv (by
      intro k b hb
      have : k ∈ (h.graph 2).dnames := (reach_str hr).dn 2 k b hb
      rw [hy.dnames] at this
      obtain ⟨j, rfl⟩ := List.get_of_mem this
      rw [hy.kid j] at hb; cases hb
      exact leaves2 hlu hlv j) nmA 0 (hy.kid (0 : Fin 2))
  have := (reports_unique hrep' hrep ⟨0, by simp, 0, by simp, by simp⟩).1
  rw [Arr.size, hs] at this
  simp at this

open ADDemo in
/-- C36 is false for equal operands: `cross(a, a)` is constantly zero, but its derivative is reported as not zero. -/
theorem C36_same_operand_refuted : ¬ C36_rows := by
  intro hall
  obtain ⟨h, hr, hy, hu, hlu⟩ := same_reach chCross rfl ⟨[1, 3], fun _ => 1⟩ (by simp)
  obtain ⟨out, ⟨_, _, hs, _⟩, hR⟩ := hall h 1 0 0 _ _ 1 hr hy hu hu rfl rfl
  obtain ⟨vw, M, hJ, hrep'⟩ := (hR 0).deriv (by
      intro k b hb
      have : k ∈ (h.graph 1).dnames := (reach_str hr).dn 1 k b hb
      rw [hy.dnames] at this
      obtain ⟨j, rfl⟩ := List.get_of_mem this
      rw [hy.kid j] at hb; cases hb
      exact leaves2 hlu hlu j) nmA (hy.kid (0 : Fin 2))
  have e := hJ.valW.unique hu
  cases e
  have hos : out.size = 3 := by rw [Arr.size, hs]; rfl
  have hrep : Reports h 1 0 out.size 3 (bilinMat 2 crossγ crossσ crossτ (⟨[1, 3], fun _ => 1⟩ : Arr).vec) := by
    refine reports_of_rep hr hy (kids2 hu hu) hJ.valY (leaves2 hlu hlu) (w := 0) ⟨(0 : Fin 2), rfl⟩
      (d := some (.sparse out.size 3 _)) ?_ ⟨rfl, rfl, fun i hi j hj => cross_dA (h := 1) (by omega) j _⟩
    rw [namesOf_same hy]; erw [env_two]
    exact returnsDr_cross_a (h := 1) rfl rfl hos (by simp)
  have h1 : (⟨[1, 3], fun _ => 1⟩ : Arr).vec 2 = 1 := dif_pos (by simp)
  have h01 : bilinMat 2 crossγ crossσ crossτ (⟨[1, 3], fun _ => 1⟩ : Arr).vec 0 1 = 1 := by
    generalize (⟨[1, 3], fun _ => 1⟩ : Arr).vec = q at h1
    simp [bilinMat, Finset.sum_range_succ, crossγ, crossσ, crossτ, h1]
  have h2 := (reports_unique hrep' hrep ⟨0, by omega, 1, by omega, by rw [h01]; exact one_ne_zero⟩).2.2 0 (by omega) 1 (by decide)
  rw [h01] at h2
  obtain ⟨F, hF, hF'⟩ := hJ.deriv
  have hzero : F =ᶠ[𝓝 (⟨[1, 3], fun _ => 1⟩ : Arr).data] fun _ _ => 0 := by
    filter_upwards [hF] with t ht
    have hy' : IsA (setTo h.graph 0 ((⟨[1, 3], fun _ => 1⟩ : Arr).put t)) 1 chCross [nmA, nmB] ![0, 0] := by
      have : setTo h.graph 0 ((⟨[1, 3], fun _ => 1⟩ : Arr).put t) 1 = h.graph 1 := if_neg (by decide)
      exact ⟨by rw [this]; exact hy.cls, by rw [this]; exact hy.dnames, hy.nodup, by rw [this]; exact hy.kid⟩
    have hm := means_of_isA hy' (kids2 (means_setTo _ _ _) (means_setTo _ _ _)) (by
      erw [env_two]; exact returns_cross (h := 1) rfl rfl)
    have e := hm.unique ht
    injection e with e
    funext k
    have h3 := congrArg (fun x : Arr => x.vec k) e
    rw [Arr.vec_put out (F t) k] at h3
    rw [← h3, Arr.vec_of _ _ (lt_of_lt_of_eq k.2 (hos.trans (by rfl))), ← cross_bilin]
    unfold cross3; ring
  have h3 := (hF'.congr_of_eventuallyEq hzero.symm).unique (hasFDerivAt_const _ _)
  have h4 := Ent.lin_inj (A := M) (B := fun _ _ => 0) (h3.trans ?_) 0 (by omega) 1 (by simp [Arr.size])
  · rw [h2] at h4; exact one_ne_zero h4
  · refine ContinuousLinearMap.ext fun x => ?_
    funext i
    rw [Ent.lin_apply]
    simp
end Chumpy
