import Mathlib.Analysis.Calculus.FDeriv.Mul
import Mathlib.Analysis.Calculus.Deriv.Inv
import Mathlib.Analysis.SpecialFunctions.Pow.Deriv
import Verif.AD.Bcast
/-!
# Broadcast arithmetic

The two children of every class here are called `a` and `b`, whatever the class calls them.
-/
namespace Chumpy
open scoped BigOperators Topology

/-- `compute_r` of a broadcasting binary operation. -/
noncomputable def bcastBody (f : ℝ → ℝ → ℝ) : Prog Par Arr Arr :=
  .child nmA fun u => .child nmB fun v =>
    match bshape u.shape v.shape with
    | none => .raise 1
    | some o => .ret (Arr.of o fun k => f (u.vec (bidx u.shape o k)) (v.vec (bidx v.shape o k)))

/-- The column indices `JS = np.add(a2, b2).ravel()` (ch_ops.py:478-481, 537-541): positions of the operand asked
about, zeros for the other one, broadcast against each other. -/
def bcastJS (sa sb o : List ℕ) (wrtA : Bool) (k : ℕ) : ℕ :=
  (if wrtA then bidx sa o k else 0) + (if wrtA then 0 else bidx sb o k)

/-- `np.array(data)` (ch_ops.py:491-492) for a number and for an array with one entry. -/
noncomputable def one1 (sc : Bool) (c : ℝ) : Jac := if sc then .num c else .dense 1 1 fun _ _ => c

theorem one1_rep {sc : Bool} {c : ℝ} {m n : ℕ} {E : Ent} (hm : m = 1) (hn : n = 1) (h : E 0 0 = c) : Jac.Rep (one1 sc c) m n E := by
  subst hm hn
  cases sc
  · refine ⟨rfl, rfl, ?_⟩
    intro i hi j hj
    have hi : i = 0 := by omega
    have hj : j = 0 := by omega
    subst hi hj; exact h.symm
  · exact ⟨rfl, rfl, h⟩

/-- `_broadcast_matrix(a, b, wrt, data)` (ch_ops.py:455-494); `none` is an exception; `sc`: `data` is a number.  The memo tables
`_bs_setup_data1`, `_bs_setup_data2` are modelled as the function they tabulate; see `Verif/AD/Memo.lean` for
why the key determines the entry. -/
noncomputable def broadcastMatrix (sa sb : List ℕ) (wrtA sc : Bool) (data : ℕ → ℝ) : Option Jac :=
  if sa = sb then
    if sa.prod * sa.prod = 1 then some (one1 sc (data 0))
    else some (.sparse sa.prod sa.prod (coo sa.prod id id data))
  else
    match bshape sa sb with
    | none => none
    | some o =>
      if o.prod * (if wrtA then sa.prod else sb.prod) = 1 then some (one1 sc (data 0))
      else some (.sparse o.prod (if wrtA then sa.prod else sb.prod) (coo o.prod id (bcastJS sa sb o wrtA) data))

/-- `sp.csc_matrix((data, (IS, JS)), shape=(self.r.size, wrt.r.size))` after `_broadcast_setup` (ch_ops.py:531-542,
411-416); `none` is an exception. -/
noncomputable def broadcastSetup (sa sb : List ℕ) (wrtA : Bool) (data : ℕ → ℝ) : Option Jac :=
  if sa = sb then some (.sparse sa.prod sa.prod (coo sa.prod id id data))
  else
    match bshape sa sb with
    | none => none
    | some o => some (.sparse o.prod (if wrtA then sa.prod else sb.prod) (coo o.prod id (bcastJS sa sb o wrtA) data))

/-- Return a Jacobian or raise. -/
def retOr : Option Jac → Prog Par Arr (Option Jac)
  | none => .raise 1
  | some d => .ret (some d)

/-- `add` (ch_ops.py:546-557). -/
noncomputable def chAdd : ClassDef where
  r := bcastBody (· + ·)
  dr := fun _ S =>
    if nmA ∉ S ∧ nmB ∉ S then .ret none
    else .child nmA fun u => .child nmB fun v =>
      retOr (broadcastMatrix u.shape v.shape (nmA ∈ S) true fun _ => if nmA ∈ S ∧ nmB ∈ S then 2 else 1)
  dr_none := rfl

/-- `subtract` (ch_ops.py:562-573). -/
noncomputable def chSub : ClassDef where
  r := bcastBody (· - ·)
  dr := fun _ S =>
    if (nmA ∈ S) = (nmB ∈ S) then .ret none
    else .child nmA fun u => .child nmB fun v =>
      retOr (broadcastMatrix u.shape v.shape (nmA ∈ S) true fun _ => if nmA ∈ S then 1 else -1)
  dr_none := by simp

/-- `multiply` (ch_ops.py:704-721). -/
noncomputable def chMul : ClassDef where
  r := bcastBody (· * ·)
  dr := fun _ S =>
    if nmA ∉ S ∧ nmB ∉ S then .ret none
    else .child nmA fun u => .child nmB fun v =>
      match bshape u.shape v.shape with
      | none => .raise 1
      | some o =>
        retOr (broadcastMatrix u.shape v.shape (nmA ∈ S) false fun k =>
          (if nmB ∈ S then u.vec (bidx u.shape o k) else 1) *
            (if nmA ∈ S ∧ nmB ∉ S then v.vec (bidx v.shape o k) else 1) *
            (if nmA ∈ S ∧ nmB ∈ S then 2 else 1))
  dr_none := rfl

/-- `divide` (ch_ops.py:397-416); `/` on reals, 0 where the denominator is 0, which the theorems exclude. -/
noncomputable def chDiv : ClassDef where
  r := bcastBody (· / ·)
  dr := fun _ S =>
    if (nmA ∈ S) = (nmB ∈ S) then .ret none
    else .child nmA fun u => .child nmB fun v =>
      match bshape u.shape v.shape with
      | none => .raise 1
      | some o =>
        retOr (broadcastSetup u.shape v.shape (nmA ∈ S) fun k =>
          if nmA ∈ S then 1 / v.vec (bidx v.shape o k)
          else -u.vec (bidx u.shape o k) / (v.vec (bidx v.shape o k) * v.vec (bidx v.shape o k)))
  dr_none := by simp

/-- `power` (ch_ops.py:579-607), with `np.power` the real power; the replacement of infinities by 0 in
`safe_power` has no effect on reals.  The theorems are about positive bases. -/
noncomputable def chPow : ClassDef where
  r := bcastBody fun x y => x ^ y
  dr := fun _ S =>
    if nmA ∉ S ∧ nmB ∉ S then .ret none
    else .child nmA fun u => .child nmB fun v =>
      match bshape u.shape v.shape with
      | none => .raise 1
      | some o =>
        retOr (broadcastMatrix u.shape v.shape (nmA ∈ S) false fun k =>
          (if nmA ∈ S then v.vec (bidx v.shape o k) * u.vec (bidx u.shape o k) ^ (v.vec (bidx v.shape o k) - 1) else 0) +
            (if nmB ∈ S then Real.log (u.vec (bidx u.shape o k)) * u.vec (bidx u.shape o k) ^ v.vec (bidx v.shape o k) else 0))
  dr_none := rfl

/-- The value numpy gives: each entry of the result is `f` of the entries of the operands at the same coordinates. -/
noncomputable def bcastVal (f : ℝ → ℝ → ℝ) (u v : Arr) (o : List ℕ) : Arr :=
  Arr.of o fun k => f (u.vec (bidx u.shape o k)) (v.vec (bidx v.shape o k))

theorem returns_bcast {c : ClassDef} {f : ℝ → ℝ → ℝ} (hc : c.r = bcastBody f) (tm : Name → Option Par) {u v : Arr} {o : List ℕ}
    (h : bshape u.shape v.shape = some o) : Returns lib c tm (env2 u v) (bcastVal f u v o) := by
  refine ⟨0, ?_⟩
  show runBody _ _ _ _ c.r = _
  rw [hc]
  simp only [bcastBody, runBody, env2, nmA, nmB]
  simp [h, runBody, bcastVal]

theorem rep_broadcastSetup {sa sb o : List ℕ} (h : bshape sa sb = some o) (w : Bool) (data : ℕ → ℝ) :
    ∃ d, broadcastSetup sa sb w data = some d ∧
      Jac.Rep d o.prod (if w then sa.prod else sb.prod) (selMat (if w then bidx sa o else bidx sb o) data) := by
  unfold broadcastSetup
  split
  · next e =>
    subst e
    rw [bshape_self] at h; cases h
    refine ⟨_, rfl, rfl, by simp, ?_⟩
    have e1 : (if w = true then sa.prod else sa.prod) = sa.prod := by simp
    rw [e1]
    refine (coo_rows id data).trans (selMat_congr ?_ fun _ _ => rfl)
    intro i hi
    cases w <;> exact (bidx_self hi).symm
  · rw [h]
    refine ⟨_, rfl, rfl, rfl, ?_⟩
    refine (coo_rows _ data).trans (selMat_congr ?_ fun _ _ => rfl)
    intro i _
    cases w <;> simp [bcastJS]

theorem rep_broadcastMatrix {sa sb o : List ℕ} (h : bshape sa sb = some o) (w sc : Bool) (data : ℕ → ℝ) :
    ∃ d, broadcastMatrix sa sb w sc data = some d ∧
      Jac.Rep d o.prod (if w then sa.prod else sb.prod) (selMat (if w then bidx sa o else bidx sb o) data) := by
  obtain ⟨d, h1, h2⟩ := rep_broadcastSetup h w data
  have h0 : ∀ {m n : ℕ}, m * n = 1 → m = 1 ∧ n = 1 := fun h => ⟨Nat.eq_one_of_mul_eq_one_right h, Nat.eq_one_of_mul_eq_one_left h⟩
  unfold broadcastMatrix
  split
  · next e =>
    subst e
    rw [bshape_self] at h; cases h
    split
    · next hp =>
      refine ⟨_, rfl, one1_rep (h0 hp).1 (by simpa using (h0 hp).1) ?_⟩
      have : (if w = true then bidx sa sa else bidx sa sa) 0 = 0 := by
        cases w <;> exact bidx_self (by rw [(h0 hp).1]; simp)
      simp [selMat, this]
    · have : broadcastSetup sa sa w data = some (.sparse sa.prod sa.prod (coo sa.prod id id data)) := by
        unfold broadcastSetup; rw [if_pos rfl]
      rw [this] at h1; cases h1; exact ⟨_, rfl, h2⟩
  · next e =>
    rw [h]; dsimp only
    by_cases hp : o.prod * (if w = true then sa.prod else sb.prod) = 1
    · rw [if_pos hp]
      refine ⟨_, rfl, one1_rep (h0 hp).1 (h0 hp).2 ?_⟩
      have hz : (if w = true then bidx sa o else bidx sb o) 0 = 0 := by
        have ho : 0 < o.prod := by rw [(h0 hp).1]; simp
        have h3 := (h0 hp).2
        cases w
        · have := bidx_lt_right h ho; simp at h3; simp; omega
        · have := bidx_lt_left h ho; simp at h3; simp; omega
      simp [selMat, hz]
    · rw [if_neg hp]
      refine ⟨_, rfl, ?_⟩
      have : broadcastSetup sa sb w data = some (.sparse o.prod (if w then sa.prod else sb.prod) (coo o.prod id (bcastJS sa sb o w) data)) := by
        unfold broadcastSetup; rw [if_neg e, h]
      rw [this] at h1; cases h1; exact h2

/-- A broadcasting class is exact at `u`, `v` if the scalar function is differentiable at all pairs of entries
that meet, and `compute_dr_wrt` builds the matrix of the right partials. -/
theorem exact_bcast {c : ClassDef} {f : ℝ → ℝ → ℝ} (hc : c.r = bcastBody f) (tm : Name → Option Par) {u v : Arr} {o : List ℕ}
    (h : bshape u.shape v.shape = some o) (fa fb : ℕ → ℝ)
    (hf : ∀ k < o.prod, HasFDerivAt (fun p : ℝ × ℝ => f p.1 p.2)
      (fa k • ContinuousLinearMap.fst ℝ ℝ ℝ + fb k • ContinuousLinearMap.snd ℝ ℝ ℝ) (u.vec (bidx u.shape o k), v.vec (bidx v.shape o k)))
    (ha : ∃ d, ReturnsDr lib c tm (env2 u v) (bcastVal f u v o) [nmA] d ∧ num.RepO d o.prod u.size (selMat (bidx u.shape o) fa))
    (hb : ∃ d, ReturnsDr lib c tm (env2 u v) (bcastVal f u v o) [nmB] d ∧ num.RepO d o.prod v.size (selMat (bidx v.shape o) fb))
    (hab : u = v → ∃ d, ReturnsDr lib c tm (env2 u v) (bcastVal f u v o) [nmA, nmB] d ∧
      num.RepO d o.prod u.size (selMat (bidx u.shape o) fa + selMat (bidx v.shape o) fb)) :
    Exact c tm [nmA, nmB] ![u, v] (bcastVal f u v o) ![selMat (bidx u.shape o) fa, selMat (bidx v.shape o) fb] := by
  have vu : ∀ (w : Arr) (x : Fin w.size → ℝ) (j : ℕ) (hj : j < w.size), (w.put x).vec j = x ⟨j, hj⟩ :=
    fun w x j hj => Arr.vec_put w x ⟨j, hj⟩
  refine exact_two (returns_bcast hc tm h) (fun x y k => f (x ⟨bidx u.shape o k, bidx_lt_left h k.2⟩) (y ⟨bidx v.shape o k, bidx_lt_right h k.2⟩)) ?_ ?_ ha hb hab
  · refine Filter.Eventually.of_forall fun p => ?_
    have := returns_bcast hc tm (u := u.put p.1) (v := v.put p.2) (o := o) h
    have e : bcastVal f (u.put p.1) (v.put p.2) o = (bcastVal f u v o).put
        (fun k => f (p.1 ⟨bidx u.shape o k, bidx_lt_left h k.2⟩) (p.2 ⟨bidx v.shape o k, bidx_lt_right h k.2⟩)) := by
      unfold bcastVal Arr.put Arr.of
      congr 1
      funext k
      exact congrArg₂ f (vu u p.1 (bidx u.shape o k) (bidx_lt_left h k.2)) (vu v p.2 (bidx v.shape o k) (bidx_lt_right h k.2))
    rw [e] at this; exact this
  · exact hasFDerivAt_elem (fun _ => f) (fun k hk => bidx_lt_left h hk) (fun k hk => bidx_lt_right h hk) _ _ fa fb hf

theorem selMat_add (σ : ℕ → ℕ) (c d : ℕ → ℝ) : selMat σ c + selMat σ d = selMat σ fun k => c k + d k := by
  funext i j; simp only [selMat, Pi.add_apply]; split <;> simp

/-- `a + b` (C31). -/
theorem exact_add (tm : Name → Option Par) {u v : Arr} {o : List ℕ} (h : bshape u.shape v.shape = some o) :
    Exact chAdd tm [nmA, nmB] ![u, v] (bcastVal (· + ·) u v o) ![selMat (bidx u.shape o) fun _ => 1, selMat (bidx v.shape o) fun _ => 1] := by
  refine exact_bcast rfl tm h _ _ ?_ ?_ ?_ ?_
  · intro k _
    refine (hasFDerivAt_fst.add hasFDerivAt_snd).congr_fderiv ?_
    simp
  · obtain ⟨d, h1, h2⟩ := rep_broadcastMatrix h true true fun _ => 1
    exact ⟨some d, ⟨0, by simp [lib, chAdd, runBody, env2, h1, retOr]⟩, h2⟩
  · obtain ⟨d, h1, h2⟩ := rep_broadcastMatrix h false true fun _ => 1
    exact ⟨some d, ⟨0, by simp [lib, chAdd, runBody, env2, h1, retOr]⟩, h2⟩
  · intro e
    subst e
    obtain ⟨d, h1, h2⟩ := rep_broadcastMatrix h true true fun _ => 2
    refine ⟨some d, ⟨0, by simp [lib, chAdd, runBody, env2, h1, retOr]⟩, ?_⟩
    rw [selMat_add]
    norm_num; exact h2

/-- `a - b` (C31). -/
theorem exact_sub (tm : Name → Option Par) {u v : Arr} {o : List ℕ} (h : bshape u.shape v.shape = some o) :
    Exact chSub tm [nmA, nmB] ![u, v] (bcastVal (· - ·) u v o) ![selMat (bidx u.shape o) fun _ => 1, selMat (bidx v.shape o) fun _ => -1] := by
  refine exact_bcast rfl tm h _ _ ?_ ?_ ?_ ?_
  · intro k _
    refine (hasFDerivAt_fst.sub hasFDerivAt_snd).congr_fderiv ?_
    ext <;> simp [sub_eq_add_neg]
  · obtain ⟨d, h1, h2⟩ := rep_broadcastMatrix h true true fun _ => 1
    exact ⟨some d, ⟨0, by simp [lib, chSub, runBody, env2, h1, retOr]⟩, h2⟩
  · obtain ⟨d, h1, h2⟩ := rep_broadcastMatrix h false true fun _ => -1
    exact ⟨some d, ⟨0, by simp [lib, chSub, runBody, env2, h1, retOr]⟩, h2⟩
  · intro e
    subst e
    refine ⟨none, ⟨0, by simp [lib, chSub, runBody]⟩, ?_⟩
    rw [selMat_add]
    intro i _ j _
    simp [selMat]

/-- `a * b` (C31). -/
theorem exact_mul (tm : Name → Option Par) {u v : Arr} {o : List ℕ} (h : bshape u.shape v.shape = some o) :
    Exact chMul tm [nmA, nmB] ![u, v] (bcastVal (· * ·) u v o)
      ![selMat (bidx u.shape o) fun k => v.vec (bidx v.shape o k), selMat (bidx v.shape o) fun k => u.vec (bidx u.shape o k)] := by
  refine exact_bcast rfl tm h _ _ ?_ ?_ ?_ ?_
  · intro k _
    refine (hasFDerivAt_fst.mul hasFDerivAt_snd).congr_fderiv ?_
    dsimp only; rw [add_comm]
  · obtain ⟨d, h1, h2⟩ := rep_broadcastMatrix h true false fun k => v.vec (bidx v.shape o k)
    exact ⟨some d, ⟨0, by simp [lib, chMul, runBody, env2, h, h1, retOr]⟩, h2⟩
  · obtain ⟨d, h1, h2⟩ := rep_broadcastMatrix h false false fun k => u.vec (bidx u.shape o k)
    exact ⟨some d, ⟨0, by simp [lib, chMul, runBody, env2, h, h1, retOr]⟩, h2⟩
  · intro e
    subst e
    obtain ⟨d, h1, h2⟩ := rep_broadcastMatrix h true false fun k => u.vec (bidx u.shape o k) * 2
    refine ⟨some d, ⟨0, by simp [lib, chMul, runBody, env2, h, h1, retOr]⟩, ?_⟩
    rw [selMat_add]
    simp only [← mul_two]; exact h2

/-- `a / b` (C31), where no denominator entry is zero. -/
theorem exact_div (tm : Name → Option Par) {u v : Arr} {o : List ℕ} (h : bshape u.shape v.shape = some o)
    (hv : ∀ k < o.prod, v.vec (bidx v.shape o k) ≠ 0) :
    Exact chDiv tm [nmA, nmB] ![u, v] (bcastVal (· / ·) u v o)
      ![selMat (bidx u.shape o) fun k => 1 / v.vec (bidx v.shape o k),
        selMat (bidx v.shape o) fun k => -u.vec (bidx u.shape o k) / (v.vec (bidx v.shape o k) * v.vec (bidx v.shape o k))] := by
  refine exact_bcast rfl tm h _ _ ?_ ?_ ?_ ?_
  · intro k hk
    have hk' := hv k hk
    have h1 : HasFDerivAt (fun p : ℝ × ℝ => p.1 * p.2⁻¹) _ (u.vec (bidx u.shape o k), v.vec (bidx v.shape o k)) :=
      hasFDerivAt_fst.mul ((hasDerivAt_inv hk').hasFDerivAt.comp (u.vec (bidx u.shape o k), v.vec (bidx v.shape o k)) hasFDerivAt_snd)
    refine (h1.congr_fderiv ?_)
    ext
    · simp
    · simp; field_simp
  · obtain ⟨d, h1, h2⟩ := rep_broadcastSetup h true fun k => 1 / v.vec (bidx v.shape o k)
    exact ⟨some d, ⟨0, by simp [lib, chDiv, runBody, env2, h]; simp at h1; simp [h1, retOr, runBody]⟩, h2⟩
  · obtain ⟨d, h1, h2⟩ := rep_broadcastSetup h false fun k => -u.vec (bidx u.shape o k) / (v.vec (bidx v.shape o k) * v.vec (bidx v.shape o k))
    exact ⟨some d, ⟨0, by simp [lib, chDiv, runBody, env2, h, h1, retOr]⟩, h2⟩
  · intro e
    subst e
    refine ⟨none, ⟨0, by simp [lib, chDiv, runBody]⟩, ?_⟩
    rw [selMat_add]
    intro i hi j _
    simp only [selMat]
    split
    · have := hv i hi
      field_simp; simp
    · rfl

/-- `a ** b` (C31), where every base entry is positive. -/
theorem exact_pow (tm : Name → Option Par) {u v : Arr} {o : List ℕ} (h : bshape u.shape v.shape = some o)
    (hu : ∀ k < o.prod, 0 < u.vec (bidx u.shape o k)) :
    Exact chPow tm [nmA, nmB] ![u, v] (bcastVal (fun x y => x ^ y) u v o)
      ![selMat (bidx u.shape o) fun k => v.vec (bidx v.shape o k) * u.vec (bidx u.shape o k) ^ (v.vec (bidx v.shape o k) - 1),
        selMat (bidx v.shape o) fun k => Real.log (u.vec (bidx u.shape o k)) * u.vec (bidx u.shape o k) ^ v.vec (bidx v.shape o k)] := by
  refine exact_bcast rfl tm h _ _ ?_ ?_ ?_ ?_
  · intro k hk
    refine (Real.hasStrictFDerivAt_rpow_of_pos (u.vec (bidx u.shape o k), v.vec (bidx v.shape o k)) (hu k hk)).hasFDerivAt.congr_fderiv ?_
    ext
    · simp
    · simp [mul_comm]
  · obtain ⟨d, h1, h2⟩ := rep_broadcastMatrix h true false fun k => v.vec (bidx v.shape o k) * u.vec (bidx u.shape o k) ^ (v.vec (bidx v.shape o k) - 1)
    exact ⟨some d, ⟨0, by simp [lib, chPow, runBody, env2, h, h1, retOr]⟩, h2⟩
  · obtain ⟨d, h1, h2⟩ := rep_broadcastMatrix h false false fun k => Real.log (u.vec (bidx u.shape o k)) * u.vec (bidx u.shape o k) ^ v.vec (bidx v.shape o k)
    exact ⟨some d, ⟨0, by simp [lib, chPow, runBody, env2, h, h1, retOr]⟩, h2⟩
  · intro e
    subst e
    rw [selMat_add]
    obtain ⟨d, h1, h2⟩ := rep_broadcastMatrix h true false fun k => u.vec (bidx u.shape o k) * u.vec (bidx u.shape o k) ^ (u.vec (bidx u.shape o k) - 1) + Real.log (u.vec (bidx u.shape o k)) * u.vec (bidx u.shape o k) ^ u.vec (bidx u.shape o k)
    exact ⟨some d, ⟨0, by simp [lib, chPow, runBody, env2, h, h1, retOr]⟩, h2⟩

/-! ## Powers with an exponent that does not vary -/

/-- An elementwise operation of which only the first operand varies. -/
theorem exactOn_bcast_left {c : ClassDef} {f : ℝ → ℝ → ℝ} (hc : c.r = bcastBody f) (tm : Name → Option Par) {u v : Arr} {o : List ℕ}
    (h : bshape u.shape v.shape = some o) (fa : ℕ → ℝ)
    (hf : ∀ k < o.prod, HasDerivAt (fun x => f x (v.vec (bidx v.shape o k))) (fa k) (u.vec (bidx u.shape o k)))
    (ha : ∃ d, ReturnsDr lib c tm (env2 u v) (bcastVal f u v o) [nmA] d ∧ num.RepO d o.prod u.size (selMat (bidx u.shape o) fa))
    {A : Fin [nmA, nmB].length → Prop} (hA : ¬ A (1 : Fin 2)) (I : Fin [nmA, nmB].length → Id) :
    ExactOn c tm [nmA, nmB] ![u, v] (bcastVal f u v o) A I ![selMat (bidx u.shape o) fa, 0] := by
  have vu : ∀ (w : Arr) (x : Fin w.size → ℝ) (j : ℕ) (hj : j < w.size), (w.put x).vec j = x ⟨j, hj⟩ :=
    fun w x j hj => Arr.vec_put w x ⟨j, hj⟩
  refine exactOn_left (returns_bcast hc tm h) (fun x k => f (x ⟨bidx u.shape o k, bidx_lt_left h k.2⟩) (v.vec (bidx v.shape o k))) ?_ ?_ ha hA I
  · refine Filter.Eventually.of_forall fun p => ?_
    have := returns_bcast hc tm (u := u.put p) (v := v) (o := o) h
    have e : bcastVal f (u.put p) v o = (bcastVal f u v o).put
        (fun k => f (p ⟨bidx u.shape o k, bidx_lt_left h k.2⟩) (v.vec (bidx v.shape o k))) := by
      unfold bcastVal Arr.put Arr.of
      congr 1
      funext k
      exact congrArg₂ f (vu u p (bidx u.shape o k) (bidx_lt_left h k.2)) rfl
    rw [e] at this; exact this
  · exact hasFDerivAt_elem₁ (fun k x => f x (v.vec (bidx v.shape o k))) (fun k hk => bidx_lt_left h hk) _ fa hf

/-- `x ↦ x ^ p` has the derivative `p * x ^ (p - 1)`: at positive `x`, and at every `x` if `p` is a natural number. -/
theorem hasDerivAt_power {x p : ℝ} (h : 0 < x ∨ ∃ n : ℕ, p = n) : HasDerivAt (fun x => x ^ p) (p * x ^ (p - 1)) x := by
  rcases h with h | ⟨n, rfl⟩
  · exact Real.hasDerivAt_rpow_const (Or.inl h.ne')
  · cases n with
    | zero => simpa using hasDerivAt_const x (1 : ℝ)
    | succ n => exact Real.hasDerivAt_rpow_const (Or.inr (by push_cast; linarith [n.cast_nonneg (α := ℝ)]))

/-- `a ** b` (C31) for an exponent that does not vary: every base entry is positive or its exponent a natural number. -/
theorem exactOn_pow (tm : Name → Option Par) {u v : Arr} {o : List ℕ} (h : bshape u.shape v.shape = some o)
    (hu : ∀ k < o.prod, 0 < u.vec (bidx u.shape o k) ∨ ∃ n : ℕ, v.vec (bidx v.shape o k) = n)
    {A : Fin [nmA, nmB].length → Prop} (hA : ¬ A (1 : Fin 2)) (I : Fin [nmA, nmB].length → Id) :
    ExactOn chPow tm [nmA, nmB] ![u, v] (bcastVal (fun x y => x ^ y) u v o) A I
      ![selMat (bidx u.shape o) fun k => v.vec (bidx v.shape o k) * u.vec (bidx u.shape o k) ^ (v.vec (bidx v.shape o k) - 1), 0] := by
  refine exactOn_bcast_left rfl tm h _ (fun k hk => hasDerivAt_power (hu k hk)) ?_ hA I
  obtain ⟨d, h1, h2⟩ := rep_broadcastMatrix h true false fun k => v.vec (bidx v.shape o k) * u.vec (bidx u.shape o k) ^ (v.vec (bidx v.shape o k) - 1)
  exact ⟨some d, ⟨0, by simp [lib, chPow, runBody, env2, h, h1, retOr]⟩, h2⟩
end Chumpy
