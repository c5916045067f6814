import Verif.AD.Bilin
/-!
# dot and cross (ch_ops.py:116-186, 727-764)
-/
namespace Chumpy
open scoped BigOperators Topology

/-! ## dot -/

/-- `a.dot(b)` (ch_ops.py:730-731), numpy's product: the sum over the last axis of `a` and the last but one of `b` (the only
one, if there is one).  `none` is numpy's `ValueError`.  The shapes are listed from the last axis. -/
noncomputable def dotVal (u v : Arr) : Option Arr :=
  match u.shape.reverse, v.shape.reverse with
  | n :: s, [n'] => if n = n' then some (Arr.of s.reverse fun i => ∑ k ∈ Finset.range n, u.vec (i * n + k) * v.vec k).atleast1 else none
  | n :: s, m :: n' :: t => if n = n' then some (Arr.of (s.reverse ++ t.reverse ++ [m]) fun i =>
      ∑ k ∈ Finset.range n, u.vec (i / m / t.reverse.prod * n + k) * v.vec ((i / m % t.reverse.prod * n + k) * m + i % m)) else none
  | _, _ => none

/-- `ar` in `compute_d1` and `compute_d2` (ch_ops.py:735, 746): its numbers of rows and columns; `none` if `reshape` cannot
infer the `-1`. -/
def dotRows (sh : List ℕ) : Option (ℕ × ℕ) :=
  match sh with
  | [] => some (1, 1)
  | [n] => some (1, n)
  | _ => if sh.getLastD 0 = 0 then none else some (sh.prod / sh.getLastD 0, sh.getLastD 0)

/-- `br` (ch_ops.py:736, 747): its numbers of rows and columns. -/
def dotCols (sh : List ℕ) : Option (ℕ × ℕ) :=
  match sh with
  | [] => some (1, 1)
  | [n] => some (n, 1)
  | n :: t => if n = 0 then none else some (n, t.prod)

/-- `sp.kron(sp.eye(ar.shape[0], ar.shape[0]), br.T)` (ch_ops.py:739). -/
noncomputable def dotD1 (u v : Arr) : Option Jac :=
  match dotRows u.shape, dotCols v.shape with
  | some (r, _), some (k, c) => some (.sparse (r * c) (r * k) fun i j => if i / c = j / k then v.vec (j % k * c + i % c) else 0)
  | _, _ => none

/-- `sp.kron(ar, sp.eye(br.shape[1], br.shape[1]))` (ch_ops.py:752). -/
noncomputable def dotD2 (u v : Arr) : Option Jac :=
  match dotRows u.shape, dotCols v.shape with
  | some (r, k), some (_, c) => some (.sparse (r * c) (k * c) fun i j => if i % c = j % c then u.vec (i / c * k + j / c) else 0)
  | _, _ => none

/-- `dot` (ch_ops.py:727-764); the sum of two sparse matrices of different shapes raises. -/
noncomputable def chDot : ClassDef where
  r := .child nmA fun u => .child nmB fun v => match dotVal u v with | some x => .ret x | none => .raise 1
  dr := fun _ S =>
    if nmA ∈ S ∧ nmB ∈ S then .child nmA fun u => .child nmB fun v =>
      match dotD1 u v, dotD2 u v with
      | some (.sparse m n e), some (.sparse m' n' e') => if m = m' ∧ n = n' then .ret (some (.sparse m n (e + e'))) else .raise 1
      | _, _ => .raise 1
    else if nmA ∈ S then .child nmA fun u => .child nmB fun v => retOr (dotD1 u v)
    else if nmB ∈ S then .child nmA fun u => .child nmB fun v => retOr (dotD2 u v)
    else .ret none
  dr_none := rfl

theorem ravel_append {s t c d : List ℕ} (hc : c.length = s.length) : ravel (s ++ t) (c ++ d) = ravel s c * t.prod + ravel t d := by
  induction s generalizing c with
  | nil => cases c with
    | nil => simp [ravel]
    | cons => cases hc
  | cons n s ih =>
    cases c with
    | nil => cases hc
    | cons i c =>
      simp only [List.cons_append, ravel, List.prod_append, ih (by simpa using hc)]
      ring

section
variable {tm : Name → Option Par} {u v : Arr} {s : List ℕ} {n C : ℕ}

/-- The value when `b` has one or two axes. -/
theorem dotVal_eq {osh : List ℕ} (hu : u.shape = s ++ [n]) (hv : (v.shape = [n] ∧ C = 1 ∧ osh = if s = [] then [1] else s) ∨ (v.shape = [n, C] ∧ osh = s ++ [C])) :
    dotVal u v = some (Arr.of osh (bilin n (fun _ _ => 1) (fun i k => i / C * n + k) (fun i k => k * C + i % C) u.vec v.vec)) := by
  unfold dotVal bilin
  rw [hu]
  rcases hv with ⟨hv, rfl, rfl⟩ | ⟨hv, rfl⟩
  · rw [hv]
    simp only [List.reverse_append, List.reverse_singleton, List.singleton_append, List.reverse_reverse, if_true, Option.some.injEq]
    unfold Arr.atleast1
    refine Arr.of_congr fun k hk => ?_
    have hk' : k < s.prod := by
      by_cases h : s = []
      · subst h; rwa [show (Arr.of [] _).shape = [] from rfl, if_pos rfl] at hk
      · rwa [show (Arr.of s _).shape = s from rfl, if_neg h] at hk
    rw [Arr.vec_of _ _ hk']
    refine Finset.sum_congr rfl fun j _ => ?_
    rw [Nat.div_one, Nat.mul_one, Nat.mod_one, Nat.add_zero, one_mul]
  · rw [hv]
    simp only [List.reverse_append, List.reverse_cons, List.reverse_nil, List.nil_append, List.singleton_append, List.reverse_reverse, if_true,
      List.append_nil, List.prod_nil, Nat.div_one, Nat.mod_one, Nat.zero_mul, Nat.zero_add, one_mul]

theorem dot_kron1 {q p : ℕ} (hn : 0 < n) {y : ℕ → ℝ} :
    (if p / C = q / n then y (q % n * C + p % C) else 0) =
      bilinMat n (fun _ _ => 1) (fun i k => i / C * n + k) (fun i k => k * C + i % C) y p q := by
  unfold bilinMat
  have key : ∀ k ∈ Finset.range n, (p / C * n + k = q ↔ p / C = q / n ∧ k = q % n) := by
    intro k hk
    have hk := Finset.mem_range.1 hk
    constructor
    · rintro rfl
      rw [Nat.mul_comm, Nat.mul_add_div hn, Nat.div_eq_of_lt hk, Nat.mul_add_mod, Nat.mod_eq_of_lt hk]
      exact ⟨(Nat.add_zero _).symm, rfl⟩
    · rintro ⟨h, rfl⟩
      rw [h]; exact Nat.div_add_mod' q n
  by_cases h : p / C = q / n
  · rw [if_pos h, Finset.sum_eq_single (q % n)]
    · rw [if_pos ((key _ (Finset.mem_range.2 (Nat.mod_lt _ hn))).2 ⟨h, rfl⟩), one_mul]
    · intro k hk hne; rw [if_neg fun e => hne ((key k hk).1 e).2]
    · intro h; exact absurd (Finset.mem_range.2 (Nat.mod_lt _ hn)) h
  · rw [if_neg h]
    exact (Finset.sum_eq_zero fun k hk => if_neg fun e => h ((key k hk).1 e).1).symm

theorem dot_kron2 {q p : ℕ} (hq : q < n * C) {x : ℕ → ℝ} :
    (if p % C = q % C then x (p / C * n + q / C) else 0) =
      bilinMat n (fun _ _ => 1) (fun i k => k * C + i % C) (fun i k => i / C * n + k) x p q := by
  have hC : 0 < C := Nat.pos_of_ne_zero (by rintro rfl; simp at hq)
  unfold bilinMat
  have key : ∀ k, (k * C + p % C = q ↔ p % C = q % C ∧ k = q / C) := by
    intro k
    have hk := Nat.mod_lt p hC
    constructor
    · rintro rfl
      rw [Nat.mul_comm, Nat.mul_add_div hC, Nat.div_eq_of_lt hk, Nat.mul_add_mod, Nat.mod_mod]
      exact ⟨rfl, (Nat.add_zero _).symm⟩
    · rintro ⟨h, rfl⟩
      rw [h]; exact Nat.div_add_mod' q C
  have hm : q / C ∈ Finset.range n := Finset.mem_range.2 (Nat.div_lt_of_lt_mul (by rwa [Nat.mul_comm]))
  by_cases h : p % C = q % C
  · rw [if_pos h, Finset.sum_eq_single (q / C)]
    · rw [if_pos ((key _).2 ⟨h, rfl⟩), one_mul]
    · intro k hk hne; rw [if_neg fun e => hne ((key k).1 e).2]
    · intro h; exact absurd hm h
  · rw [if_neg h]
    exact (Finset.sum_eq_zero fun k hk => if_neg fun e => h ((key k).1 e).1).symm

theorem exact_dot {osh : List ℕ} (hu : u.shape = s ++ [n]) (hn : 0 < n)
    (hv : (v.shape = [n] ∧ C = 1 ∧ osh = if s = [] then [1] else s) ∨ (v.shape = [n, C] ∧ osh = s ++ [C])) :
    ∃ P Q, Exact chDot tm [nmA, nmB] ![u, v] (Arr.of osh (bilin n (fun _ _ => 1) (fun i k => i / C * n + k) (fun i k => k * C + i % C) u.vec v.vec))
      ![P, Q] := by
  have hus : u.size = s.prod * n := by rw [Arr.size, hu]; simp
  have hvs : v.size = n * C := by rcases hv with ⟨hv, rfl, _⟩ | ⟨hv, _⟩ <;> (rw [Arr.size, hv]; simp)
  have hos : osh.prod = s.prod * C := by
    rcases hv with ⟨_, rfl, rfl⟩ | ⟨_, rfl⟩
    · split
      · next h => subst h; simp
      · simp
    · simp
  have hr : dotRows u.shape = some (s.prod, n) := by
    rw [hu]
    cases s with
    | nil => rfl
    | cons a s =>
      have : dotRows (a :: s ++ [n]) = if (a :: s ++ [n]).getLastD 0 = 0 then none else some ((a :: s ++ [n]).prod / (a :: s ++ [n]).getLastD 0, (a :: s ++ [n]).getLastD 0) := by
        cases s <;> rfl
      rw [this]
      have e : (a :: s ++ [n]).getLastD 0 = n := by rw [List.getLastD_eq_getLast?, List.getLast?_append]; simp
      rw [e, if_neg hn.ne', List.prod_append]
      simp [Nat.mul_div_cancel _ hn]
  have hc : dotCols v.shape = some (n, C) := by
    rcases hv with ⟨hv, rfl, _⟩ | ⟨hv, _⟩
    · rw [hv]; rfl
    · rw [hv]; show (if n = 0 then none else some (n, [C].prod)) = _
      rw [if_neg hn.ne']; simp
  refine ⟨_, _, exact_bilin ?_ ?_ ?_ ?_ ?_ ?_⟩
  · intro i hi k hk
    rw [hos] at hi
    rw [hus]
    have : i / C < s.prod := Nat.div_lt_of_lt_mul (by rwa [Nat.mul_comm])
    calc i / C * n + k < i / C * n + n := by omega
      _ = (i / C + 1) * n := by ring
      _ ≤ s.prod * n := Nat.mul_le_mul_right _ this
  · intro i hi k hk
    rw [hos] at hi
    rw [hvs]
    have hC : 0 < C := Nat.pos_of_ne_zero (by rintro rfl; simp at hi)
    calc k * C + i % C < k * C + C := by have := Nat.mod_lt i hC; omega
      _ = (k + 1) * C := by ring
      _ ≤ n * C := Nat.mul_le_mul_right _ hk
  · intro u' v' hu' hv'
    refine ⟨0, ?_⟩
    have := dotVal_eq (u := u') (v := v') (osh := osh) (hu'.trans hu) (C := C) (by rw [hv']; exact hv)
    show runBody _ _ _ _ chDot.r = _
    simp [chDot, runBody, env2, this]
  · refine ⟨some (.sparse (s.prod * C) (s.prod * n) fun i j => if i / C = j / n then v.vec (j % n * C + i % C) else 0), ⟨0, ?_⟩, ?_⟩
    · simp [lib, chDot, runBody, env2, dotD1, hr, hc, retOr]
    · refine ⟨hos.symm, hus.symm, fun i _ j hj => ?_⟩
      exact dot_kron1 hn
  · refine ⟨some (.sparse (s.prod * C) (n * C) fun i j => if i % C = j % C then u.vec (i / C * n + j / C) else 0), ⟨0, ?_⟩, ?_⟩
    · simp [lib, chDot, runBody, env2, dotD2, hr, hc, retOr]
    · refine ⟨hos.symm, hvs.symm, fun i _ j hj => ?_⟩
      exact dot_kron2 (by rwa [hvs] at hj)
  · rintro rfl
    have hs : s.prod * n = n * C := hus.symm.trans hvs
    refine ⟨some (.sparse (s.prod * C) (s.prod * n) ((fun i j => if i / C = j / n then u.vec (j % n * C + i % C) else 0) +
      fun i j => if i % C = j % C then u.vec (i / C * n + j / C) else 0)), ⟨0, ?_⟩, ?_⟩
    · simp [lib, chDot, runBody, env2, dotD1, dotD2, hr, hc, hs]
    · refine ⟨hos.symm, hus.symm, fun i _ j hj => ?_⟩
      exact congrArg₂ (· + ·) (dot_kron1 hn) (dot_kron2 (by rwa [hvs] at hj))
end

/-! ## cross -/

/-- The cross product of two 3-vectors. -/
noncomputable def cross3 (x y : ℕ → ℝ) (p : ℕ) : ℝ := x ((p + 1) % 3) * y ((p + 2) % 3) - x ((p + 2) % 3) * y ((p + 1) % 3)

/-- Row `r` of an array with three columns. -/
def row3 (x : ℕ → ℝ) (r : ℕ) (p : ℕ) : ℝ := x (3 * r + p)

/-- Row `r` of `_tiled_identity` (ch_ops.py:135). -/
noncomputable def eye3 (r : ℕ) (p : ℕ) : ℝ := if p = r % 3 then 1 else 0

/-- Component `p` of the vector number `r` of an array whose last axis has length `d`; the third component of vectors of
two is zero. -/
def compOf (x : ℕ → ℝ) (d r p : ℕ) : ℝ := if p < d then x (d * r + p) else 0

/-- `np.cross` along the last axes: these must have length 2 or 3, the others are broadcast; the cross product of vectors of two is a
number (called in ch_ops.py:122, 153-168).  A result without axes becomes an array of one entry (`np.atleast_1d`, ch.py:209), which
matters for `compute_r` only. -/
noncomputable def npCross (u v : Arr) : Option Arr :=
  match u.shape.getLast?, v.shape.getLast? with
  | some p, some q =>
    if (p = 2 ∨ p = 3) ∧ (q = 2 ∨ q = 3) then
      (bshape u.shape.dropLast v.shape.dropLast).map fun o =>
        if p = 2 ∧ q = 2 then Arr.of (if o = [] then [1] else o) fun i =>
          cross3 (compOf u.vec p (bidx u.shape.dropLast o i)) (compOf v.vec q (bidx v.shape.dropLast o i)) 2
        else Arr.of (o ++ [3]) fun i =>
          cross3 (compOf u.vec p (bidx u.shape.dropLast o (i / 3))) (compOf v.vec q (bidx v.shape.dropLast o (i / 3))) (i % 3)
    else none
  | _, _ => none

/-- `np.repeat(-x, w, axis=0)` (ch_ops.py:152, 162). -/
noncomputable def negRepeat (w : ℕ) (x : Arr) : Arr :=
  match x.shape with
  | [] => x
  | m :: s => Arr.of (m * w :: s) fun k => - x.vec (k / s.prod / w * s.prod + k % s.prod)

/-- `_tiled_identity` (ch_ops.py:135). -/
noncomputable def tiledEye (h w : ℕ) : Arr := Arr.of [h * w, w] fun k => if k % w = k / w % w then 1 else 0

/-- The entries of the derivative wrt `a` or wrt `b` (ch_ops.py:151-168). -/
noncomputable def crossData (wrtA : Bool) (h w : ℕ) (u v : Arr) : Option Arr :=
  if wrtA then npCross (tiledEye h w) (negRepeat w v) else npCross (negRepeat w u) (tiledEye h w)

/-- The matrix (ch_ops.py:130-134, 171-172): `csc_matrix` raises unless there are as many entries as positions, and the positions are
inside the matrix. -/
noncomputable def crossMat (h w : ℕ) (x : Arr) (m n : ℕ) : Option Jac :=
  if x.size = h * w * w ∧ (0 < h * w * w → h * w ≤ m ∧ h * w ≤ n) then
    some (.sparse m n (coo (h * w * w) (fun k => k / w) (fun k => w * (k / (w * w)) + k % w) x.vec))
  else none

/-- `compute_dr_wrt` of `Cross` (ch_ops.py:145-176).  `h, w = self.a.shape` (149) raises unless `a` has two axes. -/
noncomputable def crossDr (wrtA : Bool) : Prog Par Arr (Option Jac) :=
  .child nmA fun u => .child nmB fun v =>
    match u.shape with
    | [h, w] =>
      match crossData wrtA h w u v with
      | some x => .selfR fun out => retOr (crossMat h w x out.size (if wrtA then u.size else v.size))
      | none => .raise 1
    | _ => .raise 1

/-- `Cross` (ch_ops.py:116-176) with the default axes; others are not modelled.  The branch wrt `a` is taken also when both operands
are `wrt`.  `_load_crossprod_cache` (126-140) keys its table on the shape; it is the subject of `Verif/AD/Memo.lean`. -/
noncomputable def chCross : ClassDef where
  r := .child nmA fun u => .child nmB fun v =>
    match npCross u v with
    | some x => .ret x
    | none => .raise 1
  dr := fun _ S => if nmA ∈ S then crossDr true else if nmB ∈ S then crossDr false else .ret none
  dr_none := rfl

theorem coo_congr {n : ℕ} {IS JS : ℕ → ℕ} {d d' : ℕ → ℝ} (h : ∀ k < n, d k = d' k) : coo n IS JS d = coo n IS JS d' := by
  funext i j
  exact Finset.sum_congr rfl fun k hk => by rw [h k (Finset.mem_range.1 hk)]

/-- `np.cross` of two arrays of `n` rows of three. -/
theorem npCross_rows {u v : Arr} {n : ℕ} (hu : u.shape = [n, 3]) (hv : v.shape = [n, 3]) :
    npCross u v = some (Arr.of [n, 3] fun i => cross3 (row3 u.vec (i / 3)) (row3 v.vec (i / 3)) (i % 3)) := by
  have hb : bshape [n] [n] = some [n] := bshape_self _
  have e : ∀ x : ℕ → ℝ, ∀ i < n * 3, ∀ p < 3, compOf x 3 (bidx [n] [n] (i / 3)) p = row3 x (i / 3) p := by
    intro x i hi p hp
    rw [bidx_self (by simp; omega)]
    exact if_pos hp
  unfold npCross
  rw [hu, hv]
  simp only [List.getLast?_cons_cons, List.getLast?_singleton, List.dropLast_cons_cons, List.dropLast_singleton, hb, Option.map_some]
  rw [if_pos (by decide), if_neg (by decide)]
  refine congrArg some (Arr.of_congr fun i hi => ?_)
  have hi' : i < n * 3 := by simpa using hi
  unfold cross3
  rw [e _ i hi' _ (by omega), e _ i hi' _ (by omega), e _ i hi' _ (by omega), e _ i hi' _ (by omega)]

theorem negRepeat_rows {x : Arr} {n : ℕ} (hx : x.shape = [n, 3]) {k : ℕ} (hk : k < 9 * n) :
    (negRepeat 3 x).vec k = - x.vec (3 * (k / 9) + k % 3) := by
  unfold negRepeat
  rw [hx]
  dsimp only
  rw [Arr.vec_of _ _ (by simp; omega)]
  congr 2
  simp
  omega

theorem negRepeat_shape {x : Arr} {n : ℕ} (hx : x.shape = [n, 3]) : (negRepeat 3 x).shape = [n * 3, 3] := by
  unfold negRepeat; rw [hx]; rfl

theorem tiledEye_vec {n k : ℕ} (hk : k < 9 * n) : (tiledEye n 3).vec k = eye3 (k / 3) (k % 3) :=
  Arr.vec_of _ _ (by simp; omega)

theorem cross_row_a {x : Arr} {n : ℕ} (hx : x.shape = [n, 3]) : npCross (tiledEye n 3) (negRepeat 3 x) =
    some (Arr.of [n * 3, 3] fun k => cross3 (eye3 (k / 3)) (row3 (fun j => - x.vec j) (k / 9)) (k % 3)) := by
  rw [npCross_rows (n := n * 3) rfl (negRepeat_shape hx)]
  refine congrArg some (Arr.of_congr fun k hk => ?_)
  have hk' : k < 9 * n := by simp at hk; omega
  have e1 : ∀ p < 3, row3 (tiledEye n 3).vec (k / 3) p = eye3 (k / 3) p := by
    intro p hp
    unfold row3
    rw [tiledEye_vec (by omega)]
    congr 1 <;> omega
  have e2 : ∀ p < 3, row3 (negRepeat 3 x).vec (k / 3) p = row3 (fun j => - x.vec j) (k / 9) p := by
    intro p hp
    unfold row3
    rw [negRepeat_rows hx (by omega)]
    congr 2; omega
  unfold cross3
  rw [e1 _ (by omega), e1 _ (by omega), e2 _ (by omega), e2 _ (by omega)]

theorem cross_row_b {x : Arr} {n : ℕ} (hx : x.shape = [n, 3]) : npCross (negRepeat 3 x) (tiledEye n 3) =
    some (Arr.of [n * 3, 3] fun k => cross3 (row3 (fun j => - x.vec j) (k / 9)) (eye3 (k / 3)) (k % 3)) := by
  rw [npCross_rows (n := n * 3) (negRepeat_shape hx) rfl]
  refine congrArg some (Arr.of_congr fun k hk => ?_)
  have hk' : k < 9 * n := by simp at hk; omega
  have e1 : ∀ p < 3, row3 (tiledEye n 3).vec (k / 3) p = eye3 (k / 3) p := by
    intro p hp
    unfold row3
    rw [tiledEye_vec (by omega)]
    congr 1 <;> omega
  have e2 : ∀ p < 3, row3 (negRepeat 3 x).vec (k / 3) p = row3 (fun j => - x.vec j) (k / 9) p := by
    intro p hp
    unfold row3
    rw [negRepeat_rows hx (by omega)]
    congr 2; omega
  unfold cross3
  rw [e1 _ (by omega), e1 _ (by omega), e2 _ (by omega), e2 _ (by omega)]

/-- Coefficients and positions of the products in a cross product. -/
noncomputable def crossγ (_ k : ℕ) : ℝ := if k = 0 then 1 else -1
def crossσ (i k : ℕ) : ℕ := 3 * (i / 3) + (i % 3 + 1 + k) % 3
def crossτ (i k : ℕ) : ℕ := 3 * (i / 3) + (i % 3 + (2 - k)) % 3

theorem cross_bilin (x y : ℕ → ℝ) (i : ℕ) : cross3 (row3 x (i / 3)) (row3 y (i / 3)) (i % 3) = bilin 2 crossγ crossσ crossτ x y i := by
  simp [bilin, Finset.sum_range_succ, cross3, row3, crossγ, crossσ, crossτ, sub_eq_add_neg, Nat.add_assoc]

/-- Entries of the matrix built from `IS`, `JS`. -/
theorem cross_coo {h i j : ℕ} (hi : i < 3 * h) (data : ℕ → ℝ) :
    coo (9 * h) (fun k => k / 3) (fun k => 3 * (k / 9) + k % 3) data i j = if i / 3 = j / 3 then data (3 * i + j % 3) else 0 := by
  unfold coo
  by_cases hij : i / 3 = j / 3
  · rw [if_pos hij, Finset.sum_eq_single (3 * i + j % 3)]
    · rw [if_pos (by dsimp only; omega)]
    · intro k _ hk; exact if_neg (by dsimp only; omega)
    · intro hn; exact absurd (Finset.mem_range.2 (by omega)) hn
  · rw [if_neg hij]
    exact Finset.sum_eq_zero fun k _ => if_neg (by dsimp only; omega)

section
variable {tm : Name → Option Par} {u v : Arr} {h : ℕ}

theorem cross_mat (σ τ : ℕ → ℕ → ℕ) (i j : ℕ) (hσ : σ = crossσ ∧ τ = crossτ ∨ σ = crossτ ∧ τ = crossσ) (y : ℕ → ℝ) :
    bilinMat 2 crossγ σ τ y i j = if i / 3 = j / 3 then bilinMat 2 crossγ σ τ y i j else 0 := by
  split
  · rfl
  · next hne =>
    refine Finset.sum_eq_zero fun k _ => if_neg ?_
    rcases hσ with ⟨rfl, rfl⟩ | ⟨rfl, rfl⟩
    · unfold crossσ; omega
    · unfold crossτ; omega

/-- The Jacobian wrt `a`. -/
theorem cross_dA {i : ℕ} (hi : i < 3 * h) (j : ℕ) (y : ℕ → ℝ) :
    coo (9 * h) (fun k => k / 3) (fun k => 3 * (k / 9) + k % 3) (fun k => cross3 (eye3 (k / 3)) (row3 (fun j => - y j) (k / 9)) (k % 3)) i j =
      bilinMat 2 crossγ crossσ crossτ y i j := by
  rw [cross_coo hi, cross_mat _ _ i j (Or.inl ⟨rfl, rfl⟩)]
  split
  · next hij =>
    obtain ⟨r, p, rfl, hp⟩ : ∃ r p, i = 3 * r + p ∧ p < 3 := ⟨i / 3, i % 3, by omega, by omega⟩
    obtain ⟨q, rfl, hq⟩ : ∃ q, j = 3 * r + q ∧ q < 3 := ⟨j % 3, by omega, by omega⟩
    have e1 : (3 * (3 * r + p) + (3 * r + q) % 3) / 3 = 3 * r + p := by omega
    have e2 : (3 * (3 * r + p) + (3 * r + q) % 3) / 9 = r := by omega
    have e3 : (3 * (3 * r + p) + (3 * r + q) % 3) % 3 = q := by omega
    rw [e1, e2, e3]
    have e4 : (3 * r + p) / 3 = r := by omega
    have e5 : (3 * r + p) % 3 = p := by omega
    simp only [bilinMat, Finset.sum_range_succ, Finset.sum_range_zero, crossγ, crossσ, crossτ, cross3, eye3, row3, e4, e5]
    interval_cases p <;> interval_cases q <;> simp
  · rfl

/-- The Jacobian wrt `b`. -/
theorem cross_dB {i : ℕ} (hi : i < 3 * h) (j : ℕ) (x : ℕ → ℝ) :
    coo (9 * h) (fun k => k / 3) (fun k => 3 * (k / 9) + k % 3) (fun k => cross3 (row3 (fun j => - x j) (k / 9)) (eye3 (k / 3)) (k % 3)) i j =
      bilinMat 2 crossγ crossτ crossσ x i j := by
  rw [cross_coo hi, cross_mat _ _ i j (Or.inr ⟨rfl, rfl⟩)]
  split
  · next hij =>
    obtain ⟨r, p, rfl, hp⟩ : ∃ r p, i = 3 * r + p ∧ p < 3 := ⟨i / 3, i % 3, by omega, by omega⟩
    obtain ⟨q, rfl, hq⟩ : ∃ q, j = 3 * r + q ∧ q < 3 := ⟨j % 3, by omega, by omega⟩
    have e1 : (3 * (3 * r + p) + (3 * r + q) % 3) / 3 = 3 * r + p := by omega
    have e2 : (3 * (3 * r + p) + (3 * r + q) % 3) / 9 = r := by omega
    have e3 : (3 * (3 * r + p) + (3 * r + q) % 3) % 3 = q := by omega
    rw [e1, e2, e3]
    have e4 : (3 * r + p) / 3 = r := by omega
    have e5 : (3 * r + p) % 3 = p := by omega
    simp only [bilinMat, Finset.sum_range_succ, Finset.sum_range_zero, crossγ, crossσ, crossτ, cross3, eye3, row3, e4, e5]
    interval_cases p <;> interval_cases q <;> simp
  · rfl

theorem returns_cross {u v : Arr} (hu : u.shape = [h, 3]) (hv : v.shape = [h, 3]) :
    Returns lib chCross tm (env2 u v) (Arr.of [h, 3] (bilin 2 crossγ crossσ crossτ u.vec v.vec)) := by
  refine ⟨0, ?_⟩
  show runBody _ _ _ _ chCross.r = _
  simp [chCross, runBody, env2, npCross_rows hu hv, cross_bilin]

theorem cross_coo_of {n : ℕ} (d : ℕ → ℝ) : coo (n * 3 * 3) (fun k => k / 3) (fun k => 3 * (k / (3 * 3)) + k % 3) (Arr.of [n * 3, 3] d).vec =
    coo (9 * n) (fun k => k / 3) (fun k => 3 * (k / 9) + k % 3) d := by
  rw [show n * 3 * 3 = 9 * n by omega]
  exact coo_congr fun k hk => Arr.vec_of _ _ (by simp; omega)

theorem returnsDr_cross_a (hu : u.shape = [h, 3]) (hv : v.shape = [h, 3]) {out : Arr} (ho : out.size = 3 * h) {S : List Name} (hS : nmA ∈ S) :
    ReturnsDr lib chCross tm (env2 u v) out S (some (.sparse out.size u.size
      (coo (9 * h) (fun k => k / 3) (fun k => 3 * (k / 9) + k % 3) fun k => cross3 (eye3 (k / 3)) (row3 (fun j => - v.vec j) (k / 9)) (k % 3)))) := by
  have hus : u.size = 3 * h := by rw [Arr.size, hu]; simp; ring
  refine ⟨0, ?_⟩
  rw [show lib.computeDr chCross false S = crossDr true from if_pos hS]
  have hc : crossMat h 3 (Arr.of [h * 3, 3] fun k => cross3 (eye3 (k / 3)) (row3 (fun j => - v.vec j) (k / 9)) (k % 3)) out.size u.size =
      some (.sparse out.size u.size _) := if_pos ⟨by simp [Arr.size, Arr.of], fun _ => ⟨by omega, by omega⟩⟩
  simp [crossDr, runBody, env2, hu, crossData, cross_row_a hv, hc, cross_coo_of, retOr]

theorem returnsDr_cross_b (hu : u.shape = [h, 3]) (hv : v.shape = [h, 3]) {out : Arr} (ho : out.size = 3 * h) {S : List Name} (hA : nmA ∉ S)
    (hS : nmB ∈ S) : ReturnsDr lib chCross tm (env2 u v) out S (some (.sparse out.size v.size
      (coo (9 * h) (fun k => k / 3) (fun k => 3 * (k / 9) + k % 3) fun k => cross3 (row3 (fun j => - u.vec j) (k / 9)) (eye3 (k / 3)) (k % 3)))) := by
  have hvs : v.size = 3 * h := by rw [Arr.size, hv]; simp; ring
  refine ⟨0, ?_⟩
  rw [show lib.computeDr chCross false S = crossDr false from (if_neg hA).trans (if_pos hS)]
  have hc : crossMat h 3 (Arr.of [h * 3, 3] fun k => cross3 (row3 (fun j => - u.vec j) (k / 9)) (eye3 (k / 3)) (k % 3)) out.size v.size =
      some (.sparse out.size v.size _) := if_pos ⟨by simp [Arr.size, Arr.of], fun _ => ⟨by omega, by omega⟩⟩
  simp [crossDr, runBody, env2, hu, crossData, cross_row_b hu, hc, cross_coo_of, retOr]

theorem exactOn_cross (hu : u.shape = [h, 3]) (hv : v.shape = [h, 3]) (A : Fin [nmA, nmB].length → Prop)
    {I : Fin [nmA, nmB].length → Id} (hI : I (0 : Fin 2) ≠ I (1 : Fin 2)) :
    ExactOn chCross tm [nmA, nmB] ![u, v] (Arr.of [h, 3] (bilin 2 crossγ crossσ crossτ u.vec v.vec)) A I
      ![bilinMat 2 crossγ crossσ crossτ v.vec, bilinMat 2 crossγ crossτ crossσ u.vec] := by
  have hus : u.size = 3 * h := by rw [Arr.size, hu]; simp; ring
  have hvs : v.size = 3 * h := by rw [Arr.size, hv]; simp; ring
  have hos : ([h, 3] : List ℕ).prod = 3 * h := by simp; ring
  refine exactOn_bilin ?_ ?_ ?_ ?_ ?_ A hI
  · intro i hi k hk; rw [hos] at hi; rw [hus]; unfold crossσ; omega
  · intro i hi k hk; rw [hos] at hi; rw [hvs]; unfold crossτ; omega
  · exact fun u' v' hu' hv' => returns_cross (hu'.trans hu) (hv'.trans hv)
  · exact ⟨_, returnsDr_cross_a hu hv hos (by simp), ⟨rfl, rfl, fun i hi j hj => cross_dA (by rwa [hos] at hi) j v.vec⟩⟩
  · exact ⟨_, returnsDr_cross_b hu hv hos (by decide) (by simp), ⟨rfl, rfl, fun i hi j hj => cross_dB (by rwa [hos] at hi) j u.vec⟩⟩
end
end Chumpy
