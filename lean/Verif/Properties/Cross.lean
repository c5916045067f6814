import Verif.Properties.Arith
import Verif.Properties.Products
import Verif.Properties.Fresh
/-!
# C36: cross products of arrays of any shapes
-/
namespace Chumpy
open scoped BigOperators Topology

/-! ## Specification -/

/-- Component `p` of the vector at place `k` of an array whose last axis has length `d`; vectors of two have third component zero. -/
noncomputable def VecAt (u : Arr) (d k p : ℕ) : ℝ := if p < d then u.vec (k * d + p) else 0

/-- `out` is the cross product of `u`, vectors of length `p` in an array of shape `s`, and `v`, vectors of length `q` in an array of
shape `t`: the arrays are broadcast to the shape `o`; the result has the vectors, or, if `p` and `q` are 2, the numbers (one number
being an array with one entry). -/
def CrossOf (s t o : List ℕ) (p q : ℕ) (u v out : Arr) : Prop :=
  u.shape = s ++ [p] ∧ v.shape = t ++ [q] ∧ Broadcasts s t o ∧
    out.shape = (if p = 2 ∧ q = 2 then (if o = [] then [1] else o) else o ++ [3]) ∧
    ∀ k < o.prod, ∃ i j, Under s o k i ∧ Under t o k j ∧
      if p = 2 ∧ q = 2 then out.vec k = VecAt u p i 0 * VecAt v q j 1 - VecAt u p i 1 * VecAt v q j 0
      else out.vec (3 * k) = VecAt u p i 1 * VecAt v q j 2 - VecAt u p i 2 * VecAt v q j 1 ∧
        out.vec (3 * k + 1) = VecAt u p i 2 * VecAt v q j 0 - VecAt u p i 0 * VecAt v q j 2 ∧
        out.vec (3 * k + 2) = VecAt u p i 0 * VecAt v q j 1 - VecAt u p i 1 * VecAt v q j 0

/-- C36 in full: the value is numpy's and the Jacobians are right, whatever the shapes numpy accepts. -/
def C36_full : Prop :=
  ∀ (h : Heap ClassDef Par Arr Jac) (y a b : Id) (u v : Arr) (s t o : List ℕ) (p q : ℕ), Reach lib ⟨False, True⟩ h →
    IsA h.graph y chCross [nmA, nmB] ![a, b] → Means lib h.graph (.r a) (.ok u) → Means lib h.graph (.r b) (.ok v) → a ≠ b →
    u.shape = s ++ [p] → v.shape = t ++ [q] → (p = 2 ∨ p = 3) → (q = 2 ∨ q = 3) → Broadcasts s t o →
    ∃ out, CrossOf s t o p q u v out ∧ ∀ w, RightFor h y w out

/-! ## The value -/

theorem compOf_eq (u : Arr) (d k p : ℕ) : compOf u.vec d k p = VecAt u d k p := by
  unfold compOf VecAt; rw [Nat.mul_comm]

section
variable {u v : Arr} {s t o : List ℕ} {p q : ℕ}

theorem npCross_eq (hu : u.shape = s ++ [p]) (hv : v.shape = t ++ [q]) : npCross u v =
    if (p = 2 ∨ p = 3) ∧ (q = 2 ∨ q = 3) then
      (bshape s t).map fun o =>
        if p = 2 ∧ q = 2 then Arr.of (if o = [] then [1] else o) fun i => cross3 (compOf u.vec p (bidx s o i)) (compOf v.vec q (bidx t o i)) 2
        else Arr.of (o ++ [3]) fun i => cross3 (compOf u.vec p (bidx s o (i / 3))) (compOf v.vec q (bidx t o (i / 3))) (i % 3)
    else none := by
  unfold npCross
  rw [hu, hv]
  simp

theorem npCross_spec (hu : u.shape = s ++ [p]) (hv : v.shape = t ++ [q]) (hp : p = 2 ∨ p = 3) (hq : q = 2 ∨ q = 3) (hb : Broadcasts s t o) :
    ∃ out, npCross u v = some out ∧ CrossOf s t o p q u v out := by
  have hb' := (bshape_spec s t o).2 hb
  have hf := bshape_fits hb'
  rw [npCross_eq hu hv, if_pos ⟨hp, hq⟩, hb']
  by_cases h2 : p = 2 ∧ q = 2
  · refine ⟨_, congrArg some (if_pos h2), hu, hv, hb, by rw [if_pos h2]; rfl, fun k hk => ⟨_, _, under_of_fits hf.1 hk, under_of_fits hf.2 hk, ?_⟩⟩
    rw [if_pos h2, Arr.vec_of]
    · simp only [cross3, compOf_eq]
    · split
      · next h => subst h; exact hk
      · exact hk
  · refine ⟨_, congrArg some (if_neg h2), hu, hv, hb, by rw [if_neg h2]; rfl, fun k hk => ⟨_, _, under_of_fits hf.1 hk, under_of_fits hf.2 hk, ?_⟩⟩
    have hl : ∀ c < 3, 3 * k + c < (o ++ [3]).prod := by intro c hc; rw [List.prod_append]; simp; omega
    have e1 : ∀ c < 3, (3 * k + c) / 3 = k := by intro c hc; omega
    have e2 : ∀ c < 3, (3 * k + c) % 3 = c := by intro c hc; omega
    have e : ∀ c < 3, (Arr.of (o ++ [3]) fun i => cross3 (compOf u.vec p (bidx s o (i / 3))) (compOf v.vec q (bidx t o (i / 3))) (i % 3)).vec (3 * k + c) =
        cross3 (VecAt u p (bidx s o k)) (VecAt v q (bidx t o k)) c := by
      intro c hc
      rw [Arr.vec_of _ _ (hl c hc), e1 c hc, e2 c hc]
      simp only [cross3, compOf_eq]
    rw [if_neg h2]
    exact ⟨e 0 (by decide), e 1 (by decide), e 2 (by decide)⟩

variable {h : Heap ClassDef Par Arr Jac} {y a b : Id}

theorem means_cross {g : Graph ClassDef Par} (hy : IsA g y chCross [nmA, nmB] ![a, b]) (hu : Means lib g (.r a) (.ok u))
    (hv : Means lib g (.r b) (.ok v)) {out : Arr} (ho : npCross u v = some out) : Means lib g (.r y) (.ok out) := by
  refine means_of_isA hy (kids2 hu hv) ?_
  erw [env_two]
  refine ⟨0, ?_⟩
  show runBody _ _ _ _ chCross.r = _
  simp [chCross, runBody, env2, ho]

/-- C36, the value, for all shapes. -/
theorem C36_value (hr : Reach lib ⟨False, True⟩ h) (hy : IsA h.graph y chCross [nmA, nmB] ![a, b])
    (hu : Means lib h.graph (.r a) (.ok u)) (hv : Means lib h.graph (.r b) (.ok v)) (hsu : u.shape = s ++ [p]) (hsv : v.shape = t ++ [q])
    (hp : p = 2 ∨ p = 3) (hq : q = 2 ∨ q = 3) (hb : Broadcasts s t o) :
    ∃ out, CrossOf s t o p q u v out ∧ ∃ f₀, ∀ f ≥ f₀, (read lib f (.r y) h).2 = .ok out := by
  obtain ⟨out, h1, h2⟩ := npCross_spec hsu hsv hp hq hb
  exact ⟨out, h2, read_of_means hr (means_cross hy hu hv h1)⟩

/-! ## Where the derivative raises -/

theorem cross_up {q : Req} {v : Arr} {g : Graph ClassDef Par} {f f' : ℕ} (hf : f ≤ f') (h : evalReq lib g f q = .ok v) : evalReq lib g f' q = .ok v := by
  have e := evalReq_mono lib g hf q
  rw [Le, h] at e
  exact e (by simp)

/-- If the class raises, so does `dr_wrt`. -/
theorem cross_raises (hr : Reach lib ⟨False, True⟩ h) (hy : IsA h.graph y chCross [nmA, nmB] ![a, b]) (hab : a ≠ b) (hla : IsLeaf h.graph a)
    (hlb : IsLeaf h.graph b) (hu : Means lib h.graph (.r a) (.ok u)) (hv : Means lib h.graph (.r b) (.ok v)) {out : Arr}
    (ho : npCross u v = some out) {w : Id} (hw : w = a ∨ w = b) (wrtA : Bool) (hwa : wrtA = true ↔ w = a)
    (hd : ∀ m n x, u.shape = [m, n] → crossData wrtA m n u v = some x → crossMat m n x out.size (if wrtA then u.size else v.size) = none) :
    ∃ f₀, ∀ f ≥ f₀, (drWrt lib f y w h).2 = .error (.user 1) := by
  have hk0 : (h.graph y).dterms nmA = some a := hy.kid (0 : Fin 2)
  have hk1 : (h.graph y).dterms nmB = some b := hy.kid (1 : Fin 2)
  have hlw : IsLeaf h.graph w := by rcases hw with rfl | rfl <;> assumption
  have hyw : y ≠ w := by
    rintro rfl
    rw [hlw.2.1] at hk0; cases hk0
  obtain ⟨_, f1, hf1⟩ := hu
  obtain ⟨_, f2, hf2⟩ := hv
  obtain ⟨_, f3, hf3⟩ := means_cross hy ⟨by simp, f1, hf1⟩ ⟨by simp, f2, hf2⟩ ho
  obtain ⟨F, hF⟩ : ∃ F, F = max f1 (max f2 f3) := ⟨_, rfl⟩
  have hf1 := cross_up (show f1 ≤ F by omega) hf1
  have hf2 := cross_up (show f2 ≤ F by omega) hf2
  have hf3 := cross_up (show f3 ≤ F by omega) hf3
  have hper : lib.isPermute (h.graph w).cls = false := by rw [hlw.1]; rfl
  have hn : lib.computeDr (h.graph y).cls (y == w) ((h.graph y).namesOf w) = crossDr wrtA := by
    rw [hy.cls]
    rcases hw with rfl | rfl
    · rw [namesOf_left hy hab, hwa.2 rfl]
      rfl
    · rw [namesOf_right hy hab]
      cases wrtA with
      | true => exact absurd (hwa.1 rfl) hab.symm
      | false => rfl
  have hev : evalDr lib h.graph (F + 1) y w = .error (.user 1) := by
    have : evalCompDr lib h.graph F y w = .error (.user 1) := by
      unfold evalCompDr
      rw [hn]
      unfold crossDr
      simp only [evalProg, hk0, hk1, hf1, hf2]
      split
      · next m n hs =>
        cases hx : crossData wrtA m n u v with
        | none => rfl
        | some x => simp only [evalProg, hf3]; rw [hd m n x hs hx]; rfl
      · rfl
    simp [evalDr, evalSliced, this]
  refine ⟨F + 1, fun f hf => ?_⟩
  have e := evalDr_mono lib h.graph hf y w
  rw [Le, hev] at e
  have := (C02_derivative_never_stale_partial lib_propsOk lib_plainForm hr f y w hper).2.2
  rw [e (by simp)] at this
  exact this (by simp)

/-- The derivatives of the cross product raise unless `a` has two axes, though the value is there; so for two vectors. -/
theorem C36_not_two_axes_raises (hr : Reach lib ⟨False, True⟩ h) (hy : IsA h.graph y chCross [nmA, nmB] ![a, b]) (hab : a ≠ b)
    (hla : IsLeaf h.graph a) (hlb : IsLeaf h.graph b) (hu : Means lib h.graph (.r a) (.ok u)) (hv : Means lib h.graph (.r b) (.ok v))
    (hsu : u.shape = s ++ [p]) (hsv : v.shape = t ++ [q]) (hp : p = 2 ∨ p = 3) (hq : q = 2 ∨ q = 3) (hb : Broadcasts s t o)
    (hs : s.length ≠ 1) {w : Id} (hw : w = a ∨ w = b) : ∃ f₀, ∀ f ≥ f₀, (drWrt lib f y w h).2 = .error (.user 1) := by
  obtain ⟨out, ho, _⟩ := npCross_spec hsu hsv hp hq hb
  refine cross_raises hr hy hab hla hlb hu hv ho hw (decide (w = a)) (by simp) fun m n x hmn _ => ?_
  rw [hsu] at hmn
  have := congrArg List.length hmn
  simp at this
  exact absurd this hs

theorem getLast_negRepeat {n : ℕ} (hx : u.shape = [n, 2]) : (negRepeat 2 u).shape = [n * 2] ++ [2] := by
  unfold negRepeat; rw [hx]; rfl

theorem size_cross_two {n : ℕ} {x : Arr} (hu : u.shape = [n] ++ [2]) (hv : v.shape = [n] ++ [2]) (hx : npCross u v = some x) : x.size = n := by
  rw [npCross_eq hu hv, if_pos (by decide), bshape_self] at hx
  simp only [Option.map_some, and_self, if_true, Option.some.injEq] at hx
  rw [← hx]; simp [Arr.size, Arr.of]

/-- They raise for two arrays of `n ≥ 1` vectors of two. -/
theorem C36_vectors_of_two_raise (hr : Reach lib ⟨False, True⟩ h) (hy : IsA h.graph y chCross [nmA, nmB] ![a, b]) (hab : a ≠ b)
    (hla : IsLeaf h.graph a) (hlb : IsLeaf h.graph b) (hu : Means lib h.graph (.r a) (.ok u)) (hv : Means lib h.graph (.r b) (.ok v)) {n : ℕ}
    (hsu : u.shape = [n, 2]) (hsv : v.shape = [n, 2]) (hn : 0 < n) {w : Id} (hw : w = a ∨ w = b) :
    ∃ f₀, ∀ f ≥ f₀, (drWrt lib f y w h).2 = .error (.user 1) := by
  obtain ⟨out, ho, _⟩ := npCross_spec (s := [n]) (t := [n]) (p := 2) (q := 2) hsu hsv (by decide) (by decide)
    ((bshape_spec _ _ _).1 (bshape_self _))
  refine cross_raises hr hy hab hla hlb hu hv ho hw (decide (w = a)) (by simp) fun m k x hmn hx => ?_
  rw [hsu] at hmn
  cases hmn
  have hx' : x.size = n * 2 := by
    unfold crossData at hx
    split at hx
    · exact size_cross_two rfl (getLast_negRepeat hsv) hx
    · exact size_cross_two (getLast_negRepeat hsu) rfl hx
  refine if_neg fun hc => ?_
  have := hc.1
  omega

/-! ## Where it is wrong -/

/-- One row against `n` of them: the value has `n` rows, but all rows but the first of the derivative wrt `b` are reported as zero. -/
theorem C36_one_row_reports (hr : Reach lib ⟨False, True⟩ h) (hy : IsA h.graph y chCross [nmA, nmB] ![a, b]) (hab : a ≠ b)
    (hla : IsLeaf h.graph a) (hlb : IsLeaf h.graph b) (hu : Means lib h.graph (.r a) (.ok u)) (hv : Means lib h.graph (.r b) (.ok v)) {n : ℕ}
    (hsu : u.shape = [1, 3]) (hsv : v.shape = [n, 3]) (hn : 0 < n) :
    Reports h y b (3 * n) (3 * n) fun i j => if i < 3 ∧ j < 3 then bilinMat 2 crossγ crossτ crossσ u.vec i j else 0 := by
  have hb : bshape [1] [n] = some [n] := by
    unfold bshape bshapeR Jac.bdim
    by_cases h1 : 1 = n
    · subst h1; rfl
    · simp [h1, bshapeR]
  obtain ⟨out, ho, hc⟩ := npCross_spec (s := [1]) (t := [n]) (p := 3) (q := 3) hsu hsv (by decide) (by decide) ((bshape_spec _ _ _).1 hb)
  have hos : out.size = 3 * n := by rw [Arr.size, hc.2.2.2.1]; simp; ring
  have hvs : v.size = 3 * n := by rw [Arr.size, hsv]; simp; ring
  refine reports_of_rep hr hy (kids2 hu hv) (means_cross hy hu hv ho) (leaves2 hla hlb) (w := b) ⟨(1 : Fin 2), rfl⟩
    (d := some (.sparse out.size v.size (coo (9 * 1) (fun k => k / 3) (fun k => 3 * (k / 9) + k % 3) fun k =>
      cross3 (row3 (fun j => - u.vec j) (k / 9)) (eye3 (k / 3)) (k % 3)))) ?_ ?_
  · rw [namesOf_right hy hab]; erw [env_two]
    refine ⟨0, ?_⟩
    show runBody _ _ _ _ (crossDr false) = _
    have hm : crossMat 1 3 (Arr.of [1 * 3, 3] fun k => cross3 (row3 (fun j => - u.vec j) (k / 9)) (eye3 (k / 3)) (k % 3)) out.size v.size =
        some (.sparse out.size v.size _) := if_pos ⟨by simp [Arr.size, Arr.of], fun _ => ⟨by omega, by omega⟩⟩
    have hcoo := cross_coo_of (n := 1) fun k => cross3 (row3 (fun j => - u.vec j) (k / 9)) (eye3 (k / 3)) (k % 3)
    have hd : crossData false 1 3 u v = some _ := cross_row_b hsu
    rw [hcoo] at hm
    simp only [crossDr, runBody, env2, if_pos, reduceIte, show ¬ nmB = nmA by decide, hsu, hd, Bool.false_eq_true, hm, retOr]
  · refine ⟨hos, hvs, fun i hi j hj => ?_⟩
    dsimp only
    by_cases hij : i < 3
    · by_cases hj3 : j < 3
      · rw [if_pos ⟨hij, hj3⟩]; exact cross_dB (h := 1) (by omega) j u.vec
      · rw [if_neg (by omega), cross_coo (h := 1) (by omega), if_neg (by omega)]
    · rw [if_neg (by omega)]
      exact Finset.sum_eq_zero fun k hk => if_neg (by have := Finset.mem_range.1 hk; dsimp only; omega)
end

/-- Setting one object does not change a leaf. -/
theorem leaf_means_setTo {g : Graph ClassDef Par} {a w : Id} {u v : Arr} (hl : IsLeaf g a) (ha : a ≠ w) (hu : Means lib g (.r a) (.ok u)) :
    Means lib (setTo g w v) (.r a) (.ok u) := by
  obtain ⟨h1, f, hf⟩ := hu
  refine ⟨h1, f, ?_⟩
  have e : setTo g w v a = g a := if_neg ha
  cases f with
  | zero => exact hf
  | succ f =>
    rw [← hf]
    simp only [evalReq, e, hl.1]
    show evalProg _ _ a chLeaf.r = evalProg _ _ a chLeaf.r
    simp only [chLeaf, evalProg, e]
    split <;> simp only [evalProg]

open ADDemo in
/-- C36 in full is false: the derivative of the cross product of an array of one row with an array of two rows, wrt the latter. -/
theorem C36_full_refuted : ¬ C36_full := by
  intro hall
  obtain ⟨h, hr, hy, hu, hv, hlu, hlv⟩ := pair_reach chCross rfl ⟨[1, 3], fun _ => 1⟩ ⟨[2, 3], fun _ => 1⟩ (by simp) (by simp)
  have hB : Broadcasts [1] [2] [2] := (bshape_spec _ _ _).1 (by decide)
  obtain ⟨out, hc, hR⟩ := hall h 2 0 1 _ _ [1] [2] [2] 3 3 hr hy hu hv (by decide) rfl rfl (by decide) (by decide) hB
  obtain ⟨vw, M, hJ, hrep'⟩ := (hR 1).deriv (by
      intro k b hb
      have : k ∈ (h.graph 2).dnames := (reach_str hr).dn 2 k b hb
      rw [hy.dnames] at this
      obtain ⟨j, rfl⟩ := List.get_of_mem this
      rw [hy.kid j] at hb; cases hb
      exact leaves2 hlu hlv j) nmB (hy.kid (1 : Fin 2))
  have e := hJ.valW.unique hv
  cases e
  have hos : out.size = 6 := by rw [Arr.size, hc.2.2.2.1]; rfl
  have hrep := C36_one_row_reports hr hy (by decide) hlu hlv hu hv (n := 2) rfl rfl (by decide)
  have h1 : ∀ k < 3, (⟨[1, 3], fun _ => 1⟩ : Arr).vec k = 1 := fun k hk => dif_pos (by simpa using hk)
  have hne : bilinMat 2 crossγ crossτ crossσ (⟨[1, 3], fun _ => 1⟩ : Arr).vec 0 1 ≠ 0 := by
    have h1 := h1 2 (by decide)
    generalize (⟨[1, 3], fun _ => 1⟩ : Arr).vec = q at h1
    simp [bilinMat, Finset.sum_range_succ, crossγ, crossσ, crossτ, h1]
  have h2 := (reports_unique hrep' hrep ⟨0, by decide, 1, by decide, by rw [if_pos (by decide)]; exact hne⟩).2.2 3 (by omega) 5 (by decide)
  dsimp only at h2
  rw [if_neg (by decide)] at h2
  obtain ⟨F, hF, hF'⟩ := hJ.deriv
  let i3 : Fin out.size := ⟨3, by omega⟩
  let j4 : Fin (⟨[2, 3], fun _ => 1⟩ : Arr).size := ⟨4, by decide⟩
  let j5 : Fin (⟨[2, 3], fun _ => 1⟩ : Arr).size := ⟨5, by decide⟩
  have hcomp : (fun t => F t i3) =ᶠ[𝓝 (⟨[2, 3], fun _ => 1⟩ : Arr).data] fun t => t j5 - t j4 := by
    filter_upwards [hF] with t ht
    have h02 : setTo h.graph 1 ((⟨[2, 3], fun _ => 1⟩ : Arr).put t) 2 = h.graph 2 := if_neg (by decide)
    have hy' : IsA (setTo h.graph 1 ((⟨[2, 3], fun _ => 1⟩ : Arr).put t)) 2 chCross [nmA, nmB] ![0, 1] :=
      ⟨by rw [h02]; exact hy.cls, by rw [h02]; exact hy.dnames, hy.nodup, by rw [h02]; exact hy.kid⟩
    have h0 : Means lib (setTo h.graph 1 ((⟨[2, 3], fun _ => 1⟩ : Arr).put t)) (.r 0) (.ok ⟨[1, 3], fun _ => 1⟩) :=
      leaf_means_setTo hlu (by decide) hu
    obtain ⟨out', ho', hc'⟩ := npCross_spec (u := ⟨[1, 3], fun _ => 1⟩) (v := (⟨[2, 3], fun _ => 1⟩ : Arr).put t) (s := [1]) (t := [2]) (p := 3)
      (q := 3) rfl rfl (by decide) (by decide) hB
    have e := (means_cross hy' h0 (means_setTo _ _ _) ho').unique ht
    injection e with e
    obtain ⟨i, j, hi, hj, hk⟩ := hc'.2.2.2.2 1 (by decide)
    have hi0 : i = 0 := by have := hi.1; simp at this; exact this
    have hj1 : j = 1 := by
      have h1 := hj.1
      have h2 := hj.2 0 (by decide)
      simp [axisR, coord, coordR] at h1 h2
      omega
    rw [if_neg (by decide), hi0, hj1] at hk
    have hk := hk.1
    rw [e, Arr.vec_put out (F t) i3] at hk
    have hv4 : ((⟨[2, 3], fun _ => 1⟩ : Arr).put t).vec 4 = t j4 := Arr.vec_put _ t j4
    have hv5 : ((⟨[2, 3], fun _ => 1⟩ : Arr).put t).vec 5 = t j5 := Arr.vec_put _ t j5
    rw [hk]
    simp only [VecAt, Nat.reduceMul, Nat.reduceAdd, Nat.reduceLT, if_true, hv4, hv5, h1 1 (by decide), h1 2 (by decide), one_mul]
  have hd1 : HasFDerivAt (fun t => F t i3) ((ContinuousLinearMap.proj i3).comp (Ent.lin out.size _ M)) _ :=
    (ContinuousLinearMap.proj (R := ℝ) (φ := fun _ : Fin out.size => ℝ) i3).hasFDerivAt.comp _ hF'
  have hd2 : HasFDerivAt (fun t : Fin (⟨[2, 3], fun _ => 1⟩ : Arr).size → ℝ => t j5 - t j4)
      (ContinuousLinearMap.proj (R := ℝ) (φ := fun _ => ℝ) j5 - ContinuousLinearMap.proj (R := ℝ) (φ := fun _ => ℝ) j4) (⟨[2, 3], fun _ => 1⟩ : Arr).data :=
    (ContinuousLinearMap.proj (R := ℝ) (φ := fun _ => ℝ) j5 - ContinuousLinearMap.proj (R := ℝ) (φ := fun _ => ℝ) j4).hasFDerivAt
  have h3 := (hd1.congr_of_eventuallyEq hcomp.symm).unique hd2
  have h4 := congrArg (fun L => L (Pi.single j5 1)) h3
  simp [Ent.lin_apply, Pi.single_apply] at h4
  have : j4 ≠ j5 := by intro e; have := congrArg Fin.val e; simp [j4, j5] at this
  simp [this] at h4
  exact absurd (h2.symm.trans h4) (by simp)

namespace ADDemo
/-- The hypotheses of the value theorem are met by a (2, 1, 3) and a (4, 2) array; those of the first theorem about raising by two
3-vectors; those of the second by two (5, 2) arrays; those of the last by a (1, 3) and a (4, 3) array. -/
example : (∃ h, Reach lib ⟨False, True⟩ h ∧ IsA h.graph 2 chCross [nmA, nmB] ![0, 1] ∧ Means lib h.graph (.r 0) (.ok ⟨[2, 1, 3], fun k => k.1⟩) ∧
      Means lib h.graph (.r 1) (.ok ⟨[4, 2], fun k => k.1⟩) ∧ Broadcasts [2, 1] [4] [2, 4]) ∧
    (∃ h, Reach lib ⟨False, True⟩ h ∧ IsA h.graph 2 chCross [nmA, nmB] ![0, 1] ∧ IsLeaf h.graph 0 ∧ IsLeaf h.graph 1 ∧
      Means lib h.graph (.r 0) (.ok ⟨[3], fun k => k.1⟩) ∧ Means lib h.graph (.r 1) (.ok ⟨[3], fun k => k.1⟩) ∧ Broadcasts [] [] [] ∧
      ([] : List ℕ).length ≠ 1) ∧
    (∃ h, Reach lib ⟨False, True⟩ h ∧ IsA h.graph 2 chCross [nmA, nmB] ![0, 1] ∧ IsLeaf h.graph 0 ∧ IsLeaf h.graph 1 ∧
      Means lib h.graph (.r 0) (.ok ⟨[5, 2], fun k => k.1⟩) ∧ Means lib h.graph (.r 1) (.ok ⟨[5, 2], fun k => k.1⟩)) ∧
    ∃ h, Reach lib ⟨False, True⟩ h ∧ IsA h.graph 2 chCross [nmA, nmB] ![0, 1] ∧ IsLeaf h.graph 0 ∧ IsLeaf h.graph 1 ∧
      Means lib h.graph (.r 0) (.ok ⟨[1, 3], fun k => k.1⟩) ∧ Means lib h.graph (.r 1) (.ok ⟨[4, 3], fun k => k.1⟩) := by
  obtain ⟨h1, a1, a2, a3, a4, _⟩ := pair_reach chCross rfl ⟨[2, 1, 3], fun k => k.1⟩ ⟨[4, 2], fun k => k.1⟩ (by simp) (by simp)
  obtain ⟨h2, b1, b2, b3, b4, b5, b6⟩ := pair_reach chCross rfl ⟨[3], fun k => k.1⟩ ⟨[3], fun k => k.1⟩ (by simp) (by simp)
  obtain ⟨h3, c1, c2, c3, c4, c5, c6⟩ := pair_reach chCross rfl ⟨[5, 2], fun k => k.1⟩ ⟨[5, 2], fun k => k.1⟩ (by simp) (by simp)
  obtain ⟨h4, d1, d2, d3, d4, d5, d6⟩ := pair_reach chCross rfl ⟨[1, 3], fun k => k.1⟩ ⟨[4, 3], fun k => k.1⟩ (by simp) (by simp)
  exact ⟨⟨h1, a1, a2, a3, a4, (bshape_spec _ _ _).1 (by decide)⟩, ⟨h2, b1, b2, b5, b6, b3, b4, (bshape_spec _ _ _).1 (by decide), by decide⟩,
    ⟨h3, c1, c2, c5, c6, c3, c4⟩, h4, d1, d2, d5, d6, d3, d4⟩
end ADDemo
end Chumpy
