import Verif.AD.Tensordot
import Verif.Properties.Products
import Verif.Properties.Reshape
import Verif.Properties.Reorder
import Verif.Properties.Jacobian
import Verif.Properties.Concat
import Verif.Properties.Packing
/-!
# C44: tensordot
-/
namespace Chumpy
open scoped BigOperators Topology

/-! ## Specification -/

/-- The axes of an array of `n` axes that are not among `ax`, in order. -/
def otherAxes (n : ℕ) (ax : List ℕ) : List ℕ := (List.range n).filter fun t => t ∉ ax

/-- The coordinates `cu` of an array of `n` axes have `k` on the axes `ax` and `c` on the others. -/
structure Mixed (n : ℕ) (ax k c cu : List ℕ) : Prop where
  len : cu.length = n
  on : ∀ t < ax.length, cu.getD (ax.getD t 0) 0 = k.getD t 0
  off : ∀ t < (otherAxes n ax).length, cu.getD ((otherAxes n ax).getD t 0) 0 = c.getD t 0

/-- `out` is numpy's `tensordot(u, v, (ia, ib))`: its axes are those of `u` not in `ia` and those of `v` not in `ib`, and each
entry is the sum, over all coordinates `k` on the axes `ia` and `ib`, of products of entries.  (A number is an array of shape
`[1]`.) -/
def Contraction (ia ib : List ℕ) (u v out : Arr) : Prop :=
  let dims := ia.map fun t => u.shape.getD t 0
  let fu := (otherAxes u.shape.length ia).map fun t => u.shape.getD t 0
  let fv := (otherAxes v.shape.length ib).map fun t => v.shape.getD t 0
  out.shape = (if fu ++ fv = [] then [1] else fu ++ fv) ∧
  ∀ c d, InB fu c → InB fv d → ∀ cu cv : List ℕ → List ℕ,
    (∀ k, InB dims k → Mixed u.shape.length ia k c (cu k)) → (∀ k, InB dims k → Mixed v.shape.length ib k d (cv k)) →
    out.vec (ravel (fu ++ fv) (c ++ d)) = ∑ q ∈ Finset.range dims.prod, u.at (cu (unravel dims q)) * v.at (cv (unravel dims q))

/-- What numpy accepts: axes of `u` and `v` in pairs of the same length, no axis twice. -/
structure AxesFor (sa sb : List ℕ) (axa axb : List ℤ) (ia ib : List ℕ) : Prop where
  count : axa.length = axb.length
  first : axa.mapM (normAxis sa.length) = some ia
  second : axb.mapM (normAxis sb.length) = some ib
  lengths : ∀ t < ia.length, sa.getD (ia.getD t 0) 0 = sb.getD (ib.getD t 0) 0
  nodupA : ia.Nodup
  nodupB : ib.Nodup

/-! ## Axes -/

theorem mapM_axes {n : ℕ} {l : List ℤ} {ax : List ℕ} (h : l.mapM (normAxis n) = some ax) : ax.length = l.length ∧ ∀ t ∈ ax, t < n := by
  induction l generalizing ax with
  | nil => simp at h; subst h; simp
  | cons z l ih =>
    rw [List.mapM_cons] at h
    cases hz : normAxis n z with
    | none => simp [hz] at h
    | some j =>
      cases hl : l.mapM (normAxis n) with
      | none => simp [hz, hl] at h
      | some ax' =>
        simp [hz, hl] at h
        subst h
        obtain ⟨h1, h2⟩ := ih hl
        refine ⟨by simp [h1], fun t ht => ?_⟩
        rcases List.mem_cons.1 ht with rfl | ht
        · exact normAxis_lt hz
        · exact h2 t ht

theorem mapM_nats {n : ℕ} {l : List ℕ} (h : ∀ t ∈ l, t < n) : (asInts l).mapM (normAxis n) = some l := by
  induction l with
  | nil => rfl
  | cons a l ih =>
    have ha : normAxis n (a : ℤ) = some a := by
      unfold normAxis
      rw [if_pos ⟨by simp, by exact_mod_cast h a (by simp)⟩]; simp
    have := ih fun t ht => h t (List.mem_cons_of_mem _ ht)
    unfold asInts at this ⊢
    rw [List.map_cons, List.mapM_cons, ha, this]
    rfl

theorem perm_notin {n : ℕ} {ax : List ℕ} (hn : ax.Nodup) (hlt : ∀ t ∈ ax, t < n) : (notin n ax ++ ax).Perm (List.range n) := by
  rw [List.perm_ext_iff_of_nodup]
  · intro t
    simp only [notin, List.mem_append, List.mem_filter, List.mem_range, decide_eq_true_eq]
    constructor
    · rintro (h | h)
      · exact h.1
      · exact hlt t h
    · intro h
      by_cases ht : t ∈ ax
      · exact Or.inr ht
      · exact Or.inl ⟨h, ht⟩
  · refine List.Nodup.append (List.nodup_range.filter _) hn fun t h1 h2 => ?_
    have := (List.mem_filter.1 h1).2
    simp at this
    exact this h2
  · exact List.nodup_range

theorem getD_append_left' {l l' : List ℕ} {t : ℕ} (h : t < l.length) : (l ++ l').getD t 0 = l.getD t 0 := by
  rw [List.getD_eq_getElem _ _ (by simp; omega), List.getD_eq_getElem _ _ h, List.getElem_append_left h]

theorem getD_append_right' {l l' : List ℕ} {t : ℕ} (h : l.length ≤ t) : (l ++ l').getD t 0 = l'.getD (t - l.length) 0 := by
  simp only [List.getD_eq_getElem?_getD]
  rw [List.getElem?_append_right h]

theorem lengthsOf_append (sh l l' : List ℕ) : lengthsOf sh (l ++ l') = lengthsOf sh l ++ lengthsOf sh l' := by
  simp [lengthsOf]

theorem lengthsOf_getD {sh l : List ℕ} {t : ℕ} (h : t < l.length) : (lengthsOf sh l).getD t 0 = sh.getD (l.getD t 0) 0 :=
  getD_map (fun t => sh.getD t 0) l t 0 0 h

theorem lengthsOf_range (sh : List ℕ) : lengthsOf sh (List.range sh.length) = sh := by
  refine list_ext_getD (by simp [lengthsOf]) fun t ht => ?_
  have ht' : t < (List.range sh.length).length := by simpa [lengthsOf] using ht
  rw [lengthsOf_getD ht', getD_range (by simpa using ht')]

theorem lengthsOf_prod {sh l : List ℕ} (h : l.Perm (List.range sh.length)) : (lengthsOf sh l).prod = sh.prod := by
  have h1 : (lengthsOf sh l).Perm (lengthsOf sh (List.range sh.length)) := h.map _
  rw [h1.prod_eq, lengthsOf_range]

/-- Moving the axes `l`, a permutation, takes the coordinates `c` to `cu` with `cu` on axis `l[t]` being `c[t]`. -/
theorem moved_at {l : List ℕ} {u T : Arr} (hl : l.Perm (List.range u.shape.length)) (hm : AxesMoved (fun t => l.getD t 0) u T)
    {c cu : List ℕ} (hc : InB (lengthsOf u.shape l) c) (hlen : cu.length = u.shape.length)
    (he : ∀ t < l.length, cu.getD (l.getD t 0) 0 = c.getD t 0) :
    T.shape = lengthsOf u.shape l ∧ T.vec (ravel (lengthsOf u.shape l) c) = u.at cu := by
  have hll : l.length = u.shape.length := by rw [hl.length_eq]; simp
  obtain ⟨h1, h2, h3⟩ := hm
  have hT : T.shape = lengthsOf u.shape l := by
    refine list_ext_getD (by rw [h1]; simp [lengthsOf, hll]) fun t ht => ?_
    rw [h1] at ht
    rw [h2 t ht, lengthsOf_getD (by omega)]
  refine ⟨hT, ?_⟩
  rw [← hT]
  refine h3 cu c (inB_iff.2 ⟨hlen, fun j hj => ?_⟩) (hT ▸ hc) fun t ht => (he t (by omega)).symm
  have hj' : j ∈ l := hl.mem_iff.2 (by simpa using hj)
  obtain ⟨t, ht, rfl⟩ := List.getElem_of_mem hj'
  have h4 := he t ht
  rw [List.getD_eq_getElem _ _ ht] at h4
  rw [h4]
  have h5 := (inB_iff.1 hc).2 t (by simpa [lengthsOf] using ht)
  rw [lengthsOf_getD ht, List.getD_eq_getElem _ _ ht] at h5
  exact h5

theorem inB_append {s t c d : List ℕ} (hc : InB s c) (hd : InB t d) : InB (s ++ t) (c ++ d) := List.rel_append hc hd

/-- Coordinates with `k` on the axes `ax` and `c` on the others exist. -/
theorem Mixed.exists {n : ℕ} {ax : List ℕ} (hn : ax.Nodup) (hlt : ∀ t ∈ ax, t < n) (k c : List ℕ) : ∃ cu, Mixed n ax k c cu := by
  have hnd : (otherAxes n ax).Nodup := List.nodup_range.filter _
  refine ⟨(List.range n).map fun j => if j ∈ ax then k.getD (ax.idxOf j) 0 else c.getD ((otherAxes n ax).idxOf j) 0, by simp,
    fun t ht => ?_, fun t ht => ?_⟩
  · have h1 := hlt _ (List.getElem_mem ht)
    rw [List.getD_eq_getElem _ _ ht, getD_map _ _ _ 0 _ (by simpa using h1), getD_range h1, if_pos (List.getElem_mem ht),
      hn.idxOf_getElem]
  · have hm := List.getElem_mem ht
    have h1 := List.mem_filter.1 hm
    have h2 : (otherAxes n ax)[t] < n := by simpa using h1.1
    have h3 : (otherAxes n ax)[t] ∉ ax := by simpa using h1.2
    rw [List.getD_eq_getElem _ _ ht, getD_map _ _ _ 0 _ (by simpa using h2), getD_range h2, if_neg h3, hnd.idxOf_getElem]

/-! ## The value -/

theorem fillShape_neg_first {n N : ℕ} (hN : 0 < N) (hd : N ∣ n) : fillShape n [-1, (N : ℕ)] = some [n / N, N] := by
  have h1 : (N : ℤ) ≠ -1 := by omega
  obtain ⟨q, rfl⟩ := hd
  simp [fillShape, h1, hN]

theorem fillShape_neg_last {n N : ℕ} (hN : 0 < N) (hd : N ∣ n) : fillShape n [(N : ℕ), -1] = some [N, n / N] := by
  have h1 : (N : ℤ) ≠ -1 := by omega
  obtain ⟨q, rfl⟩ := hd
  simp [fillShape, h1, hN]

section
variable {h : Heap ClassDef Par Arr Jac} {p : TdPlan} {a b n : ℕ} {u v : Arr}

theorem right_means {y : Id} {out : Arr} (hr : Reach lib ⟨False, True⟩ h) (hR : Right h y out) : Means lib h.graph (.r y) (.ok out) := by
  obtain ⟨o, _, _, ho, _⟩ := hR.exactly
  obtain ⟨f1, h1⟩ := hR.value
  obtain ⟨f2, h2⟩ := read_of_means hr ho
  have e1 := h1 _ (Nat.le_max_left f1 f2)
  rw [h2 _ (Nat.le_max_right f1 f2)] at e1
  cases e1; exact ho

/-- The objects and their values. -/
theorem tensordot_objects (hr : Reach lib ⟨False, True⟩ h) (hm : MadeByTensordot h.graph p a b n)
    (hu : Means lib h.graph (.r a) (.ok u)) (hv : Means lib h.graph (.r b) (.ok v)) (hsu : u.shape ≠ []) (hsv : v.shape ≠ [])
    (hpa : p.sa = u.shape) (hpb : p.sb = v.shape) (hia : ∀ t ∈ p.ia, t < u.shape.length) (hib : ∀ t ∈ p.ib, t < v.shape.length)
    (hna : p.ia.Nodup) (hnb : p.ib.Nodup) (hl : lengthsOf u.shape p.ia = lengthsOf v.shape p.ib)
    (hpos : 0 < (lengthsOf u.shape p.ia).prod) :
    ∃ out, Contraction p.ia p.ib u v out ∧ Right h (n + 5) out ∧
      (∃ T, Right h n T) ∧ (∃ S, Right h (n + 2) S) ∧ (∃ D, Right h (n + 4) D) ∧ ∃ A B R N C, 0 < N ∧ A.shape = [R, N] ∧ B.shape = [N, C] ∧
        Right h (n + 1) A ∧ Right h (n + 3) B := by
  have pa : p.axesA.Perm (List.range u.shape.length) := by rw [TdPlan.axesA, hpa]; exact perm_notin hna hia
  have pb : p.axesB.Perm (List.range v.shape.length) := by
    rw [TdPlan.axesB, hpb]; exact List.perm_append_comm.trans (perm_notin hnb hib)
  have g0 : h.graph n = (unPO chTranspose (.ints (asInts p.axesA)) .none a).node := hm.2.2 0 (by decide)
  have g1 : h.graph (n + 1) = (unPO chReshape (.ints p.shapeA) .none n).node := hm.2.2 1 (by decide)
  have g2 : h.graph (n + 2) = (unPO chTranspose (.ints (asInts p.axesB)) .none b).node := hm.2.2 2 (by decide)
  have g3 : h.graph (n + 3) = (unPO chReshape (.ints p.shapeB) .none (n + 2)).node := hm.2.2 3 (by decide)
  have g4 : h.graph (n + 4) = (binO chDot (n + 1) (n + 3)).node := hm.2.2 4 (by decide)
  have g5 : h.graph (n + 5) = (unPO chReshape (.ints (asInts (p.freeA ++ p.freeB))) .none (n + 4)).node := hm.2.2 5 (by decide)
  obtain ⟨T, hT, RT⟩ := C25_transpose_partial hr (isA_unP g0) hu hsu (by rw [g0]; rfl)
    (mapM_nats fun t ht => by simpa using pa.mem_iff.1 ht) pa
  obtain ⟨S, hS, RS⟩ := C25_transpose_partial hr (isA_unP g2) hv hsv (by rw [g2]; rfl)
    (mapM_nats fun t ht => by simpa using pb.mem_iff.1 ht) pb
  have hTs : T.shape = p.freeA ++ lengthsOf u.shape p.ia := by
    have hc : ∀ t < u.shape.length, T.shape.getD t 0 = u.shape.getD (p.axesA.getD t 0) 0 := hT.2.1
    have hl' : p.axesA.length = u.shape.length := by rw [pa.length_eq]; simp
    have e : T.shape = lengthsOf u.shape p.axesA :=
      list_ext_getD (by rw [hT.1]; simp [lengthsOf, hl']) fun t ht => by
        rw [hT.1] at ht; rw [hc t ht, lengthsOf_getD (by omega)]
    rw [e, TdPlan.axesA, TdPlan.freeA, lengthsOf_append, hpa]
  have hSs : S.shape = lengthsOf u.shape p.ia ++ p.freeB := by
    have hc : ∀ t < v.shape.length, S.shape.getD t 0 = v.shape.getD (p.axesB.getD t 0) 0 := hS.2.1
    have hl' : p.axesB.length = v.shape.length := by rw [pb.length_eq]; simp
    have e : S.shape = lengthsOf v.shape p.axesB :=
      list_ext_getD (by rw [hS.1]; simp [lengthsOf, hl']) fun t ht => by
        rw [hS.1] at ht; rw [hc t ht, lengthsOf_getD (by omega)]
    rw [e, TdPlan.axesB, TdPlan.freeB, lengthsOf_append, hpb, hl]
  obtain ⟨N, hN⟩ : ∃ N, (lengthsOf u.shape p.ia).prod = N := ⟨_, rfl⟩
  obtain ⟨R, hR⟩ : ∃ R, p.freeA.prod = R := ⟨_, rfl⟩
  obtain ⟨C, hC⟩ : ∃ C, p.freeB.prod = C := ⟨_, rfl⟩
  have hTn : T.size = R * N := by rw [Arr.size, hTs, List.prod_append, hR, hN]
  have hSn : S.size = N * C := by rw [Arr.size, hSs, List.prod_append, hN, hC]
  rw [hN] at hpos
  have mT := right_means hr RT
  have mS := right_means hr RS
  have f1 : fillShape T.size p.shapeA = some [R, N] := by
    rw [TdPlan.shapeA, hpa, hN, fillShape_neg_first hpos (by rw [hTn]; exact Dvd.intro_left _ rfl), hTn, Nat.mul_div_cancel _ hpos]
  have f3 : fillShape S.size p.shapeB = some [N, C] := by
    rw [TdPlan.shapeB, hpb, ← hl, hN, fillShape_neg_last hpos (by rw [hSn]; exact Dvd.intro _ rfl), hSn, Nat.mul_div_cancel_left _ hpos]
  obtain ⟨A, _, hAs, hAf, RA, _⟩ := C27_reshape_partial hr (isA_unP g1) mT (by rw [g1]; rfl) f1
  obtain ⟨B, _, hBs, hBf, RB, _⟩ := C27_reshape_partial hr (isA_unP g3) mS (by rw [g3]; rfl) f3
  rw [if_neg (by simp)] at hAs hBs
  obtain ⟨D, ⟨_, _, hDs, hDe⟩, RD⟩ := C35_dot_matrix_partial (s := [R]) hr (isA_bin g4) (right_means hr RA) (right_means hr RB) hAs hBs hpos
  have hDn : D.size = (p.freeA ++ p.freeB).prod := by simp [Arr.size, hDs, hR, hC]
  obtain ⟨O, _, hOs, hOf, RO, _⟩ := C27_reshape_partial hr (isA_unP g5) (right_means hr RD) (by rw [g5]; rfl) (fillShape_nat hDn.symm)
  refine ⟨O, ⟨?_, ?_⟩, RO, ⟨T, RT⟩, ⟨S, RS⟩, ⟨D, RD⟩, A, B, R, N, C, hpos, hAs, hBs, RA, RB⟩
  · rw [hOs, TdPlan.freeA, TdPlan.freeB, hpa, hpb]; rfl
  · intro c d hc hd cu cv hcu hcv
    have hc : InB p.freeA c := by rw [TdPlan.freeA, hpa]; exact hc
    have hd : InB p.freeB d := by rw [TdPlan.freeB, hpb]; exact hd
    have hi := ravel_lt hc
    have hj := ravel_lt hd
    rw [hR] at hi
    rw [hC] at hj
    have e0 : O.vec (ravel (p.freeA ++ p.freeB) (c ++ d)) = D.at [ravel p.freeA c, ravel p.freeB d] := by
      rw [hOf.2 _ (by rw [hDn]; exact ravel_lt (inB_append hc hd)), ravel_append hc.length, Arr.at, hDs]
      simp [ravel, hC]
    have e1 := hDe [ravel p.freeA c] [] (ravel p.freeB d) (.cons hi .nil) .nil hj
    have e2 : O.vec (ravel (p.freeA ++ p.freeB) (c ++ d)) = ∑ k ∈ Finset.range N, A.at [ravel p.freeA c, k] * B.at [k, ravel p.freeB d] :=
      e0.trans e1
    have e3 : O.vec (ravel (p.freeA ++ p.freeB) (c ++ d)) =
        ∑ q ∈ Finset.range N, u.at (cu (unravel (lengthsOf u.shape p.ia) q)) * v.at (cv (unravel (lengthsOf u.shape p.ia) q)) := by
      rw [e2]
      refine Finset.sum_congr rfl fun q hq => ?_
      have hq : q < N := Finset.mem_range.1 hq
      have hk : InB (lengthsOf u.shape p.ia) (unravel (lengthsOf u.shape p.ia) q) := unravel_inB (by rw [hN]; exact hq)
      have hrk : ravel (lengthsOf u.shape p.ia) (unravel (lengthsOf u.shape p.ia) q) = q := ravel_unravel (by rw [hN]; exact hq)
      have hmu := hcu _ hk
      have hmv := hcv _ hk
      refine congrArg₂ (· * ·) ?_ ?_
      · have h1 : A.at [ravel p.freeA c, q] = T.vec (ravel p.freeA c * N + q) := by
          have hlt : ravel p.freeA c * N + q < T.size := by
            rw [hTn]; calc _ < ravel p.freeA c * N + N := by omega
              _ = (ravel p.freeA c + 1) * N := by ring
              _ ≤ R * N := Nat.mul_le_mul_right _ hi
          rw [Arr.at, hAs, ← hAf.2 _ hlt]; simp [ravel]
        have h2 := moved_at pa hT (c := c ++ unravel (lengthsOf u.shape p.ia) q) (cu := cu (unravel (lengthsOf u.shape p.ia) q))
          (by rw [TdPlan.axesA, lengthsOf_append]; refine inB_append ?_ hk; rw [TdPlan.freeA, hpa] at hc; rw [hpa]; exact hc) hmu.len
          (fun t ht => ?_)
        · rw [h1, ← h2.2, TdPlan.axesA, lengthsOf_append, ravel_append (by rw [hc.length, TdPlan.freeA, hpa]), hN, hrk, TdPlan.freeA, hpa]
        · have hcl : c.length = (otherAxes u.shape.length p.ia).length := by
            rw [hc.length, TdPlan.freeA, hpa]; simp [lengthsOf, notin, otherAxes]
          have hax : p.axesA = otherAxes u.shape.length p.ia ++ p.ia := by rw [TdPlan.axesA, hpa]; rfl
          rw [hax] at ht ⊢
          by_cases ht' : t < (otherAxes u.shape.length p.ia).length
          · rw [getD_append_left' ht', getD_append_left' (hcl ▸ ht')]; exact hmu.off t ht'
          · rw [getD_append_right' (by omega), getD_append_right' (by omega), hcl]
            exact hmu.on _ (by rw [List.length_append] at ht; omega)
      · have h1 : B.at [q, ravel p.freeB d] = S.vec (q * C + ravel p.freeB d) := by
          have hlt : q * C + ravel p.freeB d < S.size := by
            rw [hSn]; calc _ < q * C + C := by omega
              _ = (q + 1) * C := by ring
              _ ≤ N * C := Nat.mul_le_mul_right _ hq
          rw [Arr.at, hBs, ← hBf.2 _ hlt]; simp [ravel]
        have h2 := moved_at pb hS (c := unravel (lengthsOf u.shape p.ia) q ++ d) (cu := cv (unravel (lengthsOf u.shape p.ia) q))
          (by rw [TdPlan.axesB, lengthsOf_append, ← hl]; refine inB_append hk ?_; rw [TdPlan.freeB, hpb] at hd; rw [hpb]; exact hd) hmv.len
          (fun t ht => ?_)
        · rw [h1, ← h2.2, TdPlan.axesB, lengthsOf_append, ← hl, ravel_append hk.length, hrk, ← hC, TdPlan.freeB, hpb]
        · have hkl : (unravel (lengthsOf u.shape p.ia) q).length = p.ib.length := by
            rw [hk.length, hl]; simp [lengthsOf]
          have hax : p.axesB = p.ib ++ otherAxes v.shape.length p.ib := by rw [TdPlan.axesB, hpb]; rfl
          rw [hax] at ht ⊢
          by_cases ht' : t < p.ib.length
          · rw [getD_append_left' ht', getD_append_left' (hkl ▸ ht')]; exact hmv.on t ht'
          · rw [getD_append_right' (by omega), getD_append_right' (by omega), hkl]
            exact hmv.off _ (by rw [List.length_append] at ht; omega)
    rw [← hN] at e3
    rw [TdPlan.freeA, TdPlan.freeB, hpa, hpb] at e3
    exact e3

/-! ## The call -/

theorem tdPlan_ok {sa sb : List ℕ} {ax : AxesArg} {ia ib : List ℕ} (h : AxesFor sa sb ax.lists.1 ax.lists.2 ia ib) :
    tdPlan sa sb ax = some ⟨sa, sb, ia, ib⟩ ∧ lengthsOf sa ia = lengthsOf sb ib := by
  have h1 := (mapM_axes h.first).1
  have h2 := (mapM_axes h.second).1
  have hl : lengthsOf sa ia = lengthsOf sb ib := by
    refine list_ext_getD (by simp [lengthsOf, h1, h2, h.count]) fun t ht => ?_
    have ht' : t < ia.length := by simpa [lengthsOf] using ht
    have ht2 : t < ib.length := by rw [h2, ← h.count, ← h1]; exact ht'
    rw [lengthsOf_getD ht', lengthsOf_getD ht2]
    exact h.lengths t ht'
  refine ⟨?_, hl⟩
  unfold tdPlan
  rw [if_neg (by simp [h.count]), h.first, h.second]
  dsimp only
  rw [if_pos hl]

/-- Calls that numpy rejects because the axes do not fit are rejected when the call is made. -/
theorem tdPlan_rejects {sa sb : List ℕ} {ax : AxesArg} {p : TdPlan} (h : tdPlan sa sb ax = some p) :
    ax.lists.1.length = ax.lists.2.length ∧ ax.lists.1.mapM (normAxis sa.length) = some p.ia ∧
      ax.lists.2.mapM (normAxis sb.length) = some p.ib ∧ lengthsOf sa p.ia = lengthsOf sb p.ib ∧ p.sa = sa ∧ p.sb = sb := by
  unfold tdPlan at h
  split at h
  · cases h
  · next hc =>
    split at h
    · next ia ib h1 h2 =>
      split at h
      · next hl => cases h; exact ⟨by simpa using hc, h1, h2, hl, rfl, rfl⟩
      · cases h
    · cases h

theorem prod_pos_of {l : List ℕ} (h : ∀ x ∈ l, x ≠ 0) : 0 < l.prod := by
  rw [Nat.pos_iff_ne_zero]
  intro e
  rw [List.prod_eq_zero_iff] at e
  exact h 0 e rfl

/-- C44, the value of `tensordot(a, b, axes)`, for axes of any sign and order, in every state in which the shapes of `a` and
`b` are those at the time of the call.  `a` and `b` may be the same object and may depend on others.  What is missing is
contracted axes of length 0: `C44_full_refuted`. -/
theorem C44_tensordot_partial {ax : AxesArg} {ia ib : List ℕ} (hr : Reach lib ⟨False, True⟩ h)
    (hu : Means lib h.graph (.r a) (.ok u)) (hv : Means lib h.graph (.r b) (.ok v)) (hsu : u.shape ≠ []) (hsv : v.shape ≠ [])
    (hax : AxesFor u.shape v.shape ax.lists.1 ax.lists.2 ia ib) (hpos : ∀ t ∈ ia, u.shape.getD t 0 ≠ 0) :
    ∃ p, tdPlan u.shape v.shape ax = some p ∧
      (MadeByTensordot h.graph p a b n → ∃ out, Contraction ia ib u v out ∧ Right h (n + 5) out) := by
  obtain ⟨h1, h2⟩ := tdPlan_ok hax
  refine ⟨_, h1, fun hm => ?_⟩
  obtain ⟨out, hC, hR, _⟩ := tensordot_objects hr hm hu hv hsu hsv rfl rfl (mapM_axes hax.first).2 (mapM_axes hax.second).2 hax.nodupA
    hax.nodupB h2 (prod_pos_of (by
      intro x hx
      obtain ⟨t, ht, rfl⟩ := List.mem_map.1 hx
      exact hpos t ht))
  exact ⟨out, hC, hR⟩

/-- With a number for `axes`: the last `N` axes of `a`, in order, against the first `N` axes of `b`. -/
theorem C44_count {sa sb : List ℕ} {N : ℕ} (ha : N ≤ sa.length) (hb : N ≤ sb.length)
    (hl : ∀ t < N, sa.getD (sa.length - N + t) 0 = sb.getD t 0) :
    AxesFor sa sb (AxesArg.count N).lists.1 (AxesArg.count N).lists.2 ((List.range N).map fun t => sa.length - N + t) (List.range N) := by
  have e1 : ∀ l : List ℕ, (∀ t ∈ l, t < N) → (l.map fun (t : ℕ) => (t : ℤ) - (N : ℤ)).mapM (normAxis sa.length) =
      some (l.map fun t => sa.length - N + t) := by
    intro l hl
    induction l with
    | nil => rfl
    | cons t l ih =>
      have ht := hl t (by simp)
      have e : normAxis sa.length ((t : ℤ) - (N : ℤ)) = some (sa.length - N + t) := by
        unfold normAxis
        rw [if_neg (by omega), if_pos (by omega)]
        congr 1; omega
      rw [List.map_cons, List.mapM_cons, e, ih fun t ht => hl t (List.mem_cons_of_mem _ ht)]
      rfl
  refine ⟨by simp [AxesArg.lists], ?_, ?_, ?_, ?_, List.nodup_range⟩
  · simp only [AxesArg.lists, Int.toNat_natCast]
    exact e1 _ fun t ht => by simpa using ht
  · simp only [AxesArg.lists, Int.toNat_natCast]
    exact mapM_nats fun t ht => by have : t < N := by simpa using ht
                                   omega
  · intro t ht
    have ht : t < N := by simpa using ht
    rw [getD_map _ _ _ 0 _ (by simpa using ht), getD_range ht]
    exact hl t ht
  · exact List.nodup_range.map fun x y e => by simpa using e

/-! ## Derivatives -/

theorem uses_isA {g : Graph ClassDef Par} {y c : Id} {cl : ClassDef} {ns : List Name} {kids : Fin ns.length → Id} (hy : IsA g y cl ns kids)
    (h : Uses g y c) : ∃ j, c = kids j := by
  obtain ⟨k, hk, hc⟩ := h
  rw [hy.dnames] at hk
  obtain ⟨j, rfl⟩ := List.get_of_mem hk
  rw [hy.kid j] at hc
  cases hc; exact ⟨j, rfl⟩

theorem CompIs.not_none {g : Graph ClassDef Par} {i p : Id} {d : Jac} (h : CompIs lib g i p (some d)) (f : ℕ) :
    evalCompDr lib g f i p ≠ .ok none := by
  obtain ⟨f', hf'⟩ := h
  intro e
  have h1 := evalCompDr_mono lib g (Nat.le_max_left f f') i p
  have h2 := evalCompDr_mono lib g (Nat.le_max_right f f') i p
  rw [Le, e] at h1
  rw [Le, hf'] at h2
  have := (h1 (by simp)).symm.trans (h2 (by simp))
  simp at this

theorem comp_reshape {y q : Id} {sh : List ℤ} {x z : Arr} (hy : h.graph y = (unPO chReshape (.ints sh) .none q).node) (hyq : y ≠ q)
    (hx : Means lib h.graph (.r q) (.ok x)) (hz : Means lib h.graph (.r y) (.ok z)) : ∃ d, CompIs lib h.graph y q (some d) := by
  have hI := isA_unP hy
  refine ⟨.sparse x.size x.size fun i j => if i = j then 1 else 0, compIs_isA hI (v := fun _ => x) (fun _ => hx) hz hyq ?_⟩
  rw [namesOf_one hI]; erw [env_one]
  exact ⟨0, by simp [lib, chReshape, runBody, env1]⟩

theorem comp_dot {y i j : Id} {A B z : Arr} {R N C : ℕ} (hy : h.graph y = (binO chDot i j).node) (hij : i ≠ j) (hyi : y ≠ i) (hyj : y ≠ j)
    (hA : Means lib h.graph (.r i) (.ok A)) (hB : Means lib h.graph (.r j) (.ok B)) (hz : Means lib h.graph (.r y) (.ok z))
    (hN : 0 < N) (hAs : A.shape = [R, N]) (hBs : B.shape = [N, C]) :
    (∃ d, CompIs lib h.graph y i (some d)) ∧ ∃ d, CompIs lib h.graph y j (some d) := by
  have hI := isA_bin hy
  have hN' : N ≠ 0 := by omega
  obtain ⟨d1, e1⟩ : ∃ d, dotD1 A B = some d := by simp [dotD1, dotRows, dotCols, hAs, hBs, hN']
  obtain ⟨d2, e2⟩ : ∃ d, dotD2 A B = some d := by simp [dotD2, dotRows, dotCols, hAs, hBs, hN']
  refine ⟨⟨d1, compIs_isA hI (kids2 hA hB) hz hyi ?_⟩, d2, compIs_isA hI (kids2 hA hB) hz hyj ?_⟩
  · rw [namesOf_left hI hij]; erw [env_two]
    exact ⟨0, by simp [lib, chDot, runBody, env2, e1, retOr, nmA, nmB]⟩
  · rw [namesOf_right hI hij]; erw [env_two]
    exact ⟨0, by simp [lib, chDot, runBody, env2, e2, retOr, nmA, nmB]⟩

/-- C44, the derivatives: for plain `a` and `b`, possibly the same object, `tensordot(a, b, axes).dr_wrt(a)` and `.dr_wrt(b)`
return the derivatives.  Missing, besides axes of length 0, is one object of a single entry given as both operands. -/
theorem C44_derivative_partial {ax : AxesArg} {ia ib : List ℕ} {w : Id} {vw : Arr} (hr : Reach lib ⟨False, True⟩ h)
    (hla : IsLeaf h.graph a) (hlb : IsLeaf h.graph b)
    (hu : Means lib h.graph (.r a) (.ok u)) (hv : Means lib h.graph (.r b) (.ok v))
    (hax : AxesFor u.shape v.shape ax.lists.1 ax.lists.2 ia ib) (hpos : ∀ t ∈ ia, u.shape.getD t 0 ≠ 0)
    (hwab : w = a ∨ w = b) (hvw : Means lib h.graph (.r w) (.ok vw)) (hsz : vw.size = 1 → a ≠ b) :
    ∃ p, tdPlan u.shape v.shape ax = some p ∧
      (MadeByTensordot h.graph p a b n → ∃ out M, Contraction ia ib u v out ∧ HasJacobian h.graph (n + 5) w out vw M ∧
        Reports h (n + 5) w out.size vw.size M) := by
  obtain ⟨h1, h2⟩ := tdPlan_ok hax
  refine ⟨_, h1, fun hm => ?_⟩
  obtain ⟨out, hC, hR, ⟨T, RT⟩, ⟨S, RS⟩, ⟨D, RD⟩, A, B, R, N, C, hN, hAs, hBs, RA, RB⟩ :=
    tensordot_objects hr hm hu hv (hla.shape_ne hu) (hlb.shape_ne hv) rfl rfl (mapM_axes hax.first).2 (mapM_axes hax.second).2 hax.nodupA
    hax.nodupB h2 (prod_pos_of (by
      intro x hx
      obtain ⟨t, ht, rfl⟩ := List.mem_map.1 hx
      exact hpos t ht))
  generalize (⟨u.shape, v.shape, ia, ib⟩ : TdPlan) = p at hm
  have g0 : h.graph n = (unPO chTranspose (.ints (asInts p.axesA)) .none a).node := hm.2.2 0 (by decide)
  have g1 : h.graph (n + 1) = (unPO chReshape (.ints p.shapeA) .none n).node := hm.2.2 1 (by decide)
  have g2 : h.graph (n + 2) = (unPO chTranspose (.ints (asInts p.axesB)) .none b).node := hm.2.2 2 (by decide)
  have g3 : h.graph (n + 3) = (unPO chReshape (.ints p.shapeB) .none (n + 2)).node := hm.2.2 3 (by decide)
  have g4 : h.graph (n + 4) = (binO chDot (n + 1) (n + 3)).node := hm.2.2 4 (by decide)
  have g5 : h.graph (n + 5) = (unPO chReshape (.ints (asInts (p.freeA ++ p.freeB))) .none (n + 4)).node := hm.2.2 5 (by decide)
  have han : a < n := hm.1
  have hbn : b < n := hm.2.1
  have u0 : ∀ c, Uses h.graph n c → c = a := fun c hc => (uses_isA (isA_unP g0) hc).choose_spec
  have u1 : ∀ c, Uses h.graph (n + 1) c → c = n := fun c hc => (uses_isA (isA_unP g1) hc).choose_spec
  have u2 : ∀ c, Uses h.graph (n + 2) c → c = b := fun c hc => (uses_isA (isA_unP g2) hc).choose_spec
  have u3 : ∀ c, Uses h.graph (n + 3) c → c = n + 2 := fun c hc => (uses_isA (isA_unP g3) hc).choose_spec
  have u4 : ∀ c, Uses h.graph (n + 4) c → c = n + 1 ∨ c = n + 3 := by
    intro c hc
    obtain ⟨j, rfl⟩ := uses_isA (isA_bin g4) hc
    rcases fin2 j with rfl | rfl
    · exact Or.inl rfl
    · exact Or.inr rfl
  have u5 : ∀ c, Uses h.graph (n + 5) c → c = n + 4 := fun c hc => (uses_isA (isA_unP g5) hc).choose_spec
  have ua : ∀ c, ¬ Uses h.graph a c := fun c => hla.no_uses
  have ub : ∀ c, ¬ Uses h.graph b c := fun c => hlb.no_uses
  have key : ∀ i, Reaches h.graph (n + 5) i → i = n + 5 ∨ i = n + 4 ∨ i = n + 3 ∨ i = n + 2 ∨ i = n + 1 ∨ i = n ∨ i = a ∨ i = b := by
    intro i hi
    induction hi with
    | refl => exact Or.inl rfl
    | tail _ hc ih =>
      rcases ih with rfl | rfl | rfl | rfl | rfl | rfl | rfl | rfl
      · have := u5 _ hc; tauto
      · have := u4 _ hc; tauto
      · have := u3 _ hc; tauto
      · have := u2 _ hc; tauto
      · have := u1 _ hc; tauto
      · have := u0 _ hc; tauto
      · exact absurd hc (ua _)
      · exact absurd hc (ub _)
  have dec : ∀ i, Reaches h.graph (n + 5) i → ∀ c, Uses h.graph i c → c < i := by
    intro i hi c hc
    rcases key i hi with rfl | rfl | rfl | rfl | rfl | rfl | rfl | rfl
    · rw [u5 _ hc]; exact Nat.lt_succ_self _
    · rcases u4 _ hc with e | e <;> rw [e]
      · exact Nat.add_lt_add_left (by decide) n
      · exact Nat.add_lt_add_left (by decide) n
    · rw [u3 _ hc]; exact Nat.lt_succ_self _
    · rw [u2 _ hc]; exact Nat.lt_add_right 2 hbn
    · rw [u1 _ hc]; exact Nat.lt_succ_self _
    · rw [u0 _ hc]; exact han
    · exact absurd hc (ua _)
    · exact absurd hc (ub _)
  have acc : ∀ k i : ℕ, i < k → Reaches h.graph (n + 5) i → Acc (fun a b => Uses h.graph b a) i := by
    intro k
    induction k with
    | zero => intro i hi; exact absurd hi (Nat.not_lt_zero _)
    | succ k ih =>
      intro i hi hr
      exact ⟨_, fun j hj => ih j (Nat.lt_of_lt_of_le (dec i hr j hj) (Nat.lt_succ_iff.1 hi)) (hr.tail hj)⟩
  have acy : ∀ i, Reaches h.graph (n + 5) i → ¬ Relation.TransGen (Uses h.graph) i i := by
    have : ∀ i j, Reaches h.graph (n + 5) i → Relation.TransGen (Uses h.graph) i j → j < i := by
      intro i j hi hij
      induction hij with
      | single hu => exact dec i hi _ hu
      | tail hij hu ih => exact Nat.lt_trans (dec _ (Relation.ReflTransGen.trans hi hij.to_reflTransGen) _ hu) ih
    exact fun i hi ht => Nat.lt_irrefl _ (this i i hi ht)
  have hdecl : ∀ i k c, (h.graph i).dterms k = some c → k ∈ (h.graph i).dnames := (reach_str hr).dn
  have mT := right_means hr RT
  have mS := right_means hr RS
  have mA := right_means hr RA
  have mB := right_means hr RB
  have mD := right_means hr RD
  have hper : lib.isPermute (h.graph w).cls = false := by
    rcases hwab with rfl | rfl
    · rw [hla.1]; rfl
    · rw [hlb.1]; rfl
  have ne : ∀ {i j : ℕ}, i ≠ j → n + i ≠ n + j := fun h e => h (Nat.add_left_cancel e)
  have hch : ChainOk lib h.graph (n + 5) w := by
    refine ⟨acy, hper, ?_, hdecl, ?_, ?_⟩
    · intro i hi
      rcases key i hi with rfl | rfl | rfl | rfl | rfl | rfl | rfl | rfl
      · exact (isA_unP g5).dnames ▸ (isA_unP g5).nodup
      · exact (isA_bin g4).dnames ▸ (isA_bin g4).nodup
      · exact (isA_unP g3).dnames ▸ (isA_unP g3).nodup
      · exact (isA_unP g2).dnames ▸ (isA_unP g2).nodup
      · exact (isA_unP g1).dnames ▸ (isA_unP g1).nodup
      · exact (isA_unP g0).dnames ▸ (isA_unP g0).nodup
      · rw [hla.2.2]; exact List.nodup_nil
      · rw [hlb.2.2]; exact List.nodup_nil
    · intro i k k' q hi hk hk' _ _
      have one : ∀ (c : ClassDef) (z : Id), IsA h.graph i c [nmA] (fun _ => z) → k = k' := by
        intro c z hI
        have e1 := hdecl i k q hk
        have e2 := hdecl i k' q hk'
        rw [hI.dnames] at e1 e2
        simp at e1 e2
        rw [e1, e2]
      rcases key i hi with rfl | rfl | rfl | rfl | rfl | rfl | rfl | rfl
      · exact one _ _ (isA_unP g5)
      · have e1 := hdecl _ k q hk
        have e2 := hdecl _ k' q hk'
        have k0 : (h.graph (n + 4)).dterms nmA = some (n + 1) := (isA_bin g4).kid (0 : Fin 2)
        have k1 : (h.graph (n + 4)).dterms nmB = some (n + 3) := (isA_bin g4).kid (1 : Fin 2)
        rw [(isA_bin g4).dnames] at e1 e2
        simp at e1 e2
        have hne : n + 1 ≠ n + 3 := ne (by decide)
        rcases e1 with rfl | rfl <;> rcases e2 with rfl | rfl
        · rfl
        · rw [k0] at hk; rw [k1] at hk'; cases hk; simp at hk'
        · rw [k1] at hk; rw [k0] at hk'; cases hk; simp at hk'
        · rfl
      · exact one _ _ (isA_unP g3)
      · exact one _ _ (isA_unP g2)
      · exact one _ _ (isA_unP g1)
      · exact one _ _ (isA_unP g0)
      · rw [hla.2.1 k] at hk; cases hk
      · rw [hlb.2.1 k] at hk; cases hk
    · intro i k q hi hk hq
      have hU : Uses h.graph i q := ⟨k, hdecl i k q hk, hk⟩
      have dot := comp_dot g4 (ne (by decide)) (ne (by decide)) (ne (by decide)) mA mB mD hN hAs hBs
      rcases key i hi with rfl | rfl | rfl | rfl | rfl | rfl | rfl | rfl
      · rw [u5 _ hU, g4] at hq; cases hq
      · rcases u4 _ hU with rfl | rfl
        · exact dot.1.choose_spec.not_none
        · exact dot.2.choose_spec.not_none
      · rw [u3 _ hU]; exact (comp_reshape g3 (ne (by decide)) mS mB).choose_spec.not_none
      · rw [u2 _ hU, hlb.1] at hq; cases hq
      · rw [u1 _ hU]; exact (comp_reshape g1 (Nat.succ_ne_self n) mT mA).choose_spec.not_none
      · rw [u0 _ hU, hla.1] at hq; cases hq
      · rw [hla.2.1 k] at hk; cases hk
      · rw [hlb.2.1 k] at hk; cases hk
  have hob : ∀ i, Reaches h.graph (n + 5) i → i ≠ w → ExactlyFor h.graph w i := by
    intro i hi _
    rcases key i hi with rfl | rfl | rfl | rfl | rfl | rfl | rfl | rfl
    · exact hR.exactly.for w
    · exact RD.exactly.for w
    · exact RB.exactly.for w
    · exact RS.exactly.for w
    · exact RA.exactly.for w
    · exact RT.exactly.for w
    · exact (hla.exactly hu).for w
    · exact (hlb.exactly hv).for w
  have hyw : n + 5 ≠ w := by
    rcases hwab with rfl | rfl
    · exact Nat.ne_of_gt (Nat.lt_add_right 5 han)
    · exact Nat.ne_of_gt (Nat.lt_add_right 5 hbn)
  have down : ∀ {i c : Id}, (∀ d, Uses h.graph i d → d = c) → Reaches h.graph i w → w = i ∨ Reaches h.graph c w := by
    intro i c hi hr
    rcases Relation.ReflTransGen.cases_head hr with e | ⟨d, hd, hr'⟩
    · exact Or.inl e.symm
    · exact Or.inr (hi d hd ▸ hr')
  have hlt : w < n := by rcases hwab with rfl | rfl <;> assumption
  have leafEnd : ∀ {i : Id}, (∀ c, ¬ Uses h.graph i c) → Reaches h.graph i w → w = i := by
    intro i hi hr
    rcases Relation.ReflTransGen.cases_head hr with e | ⟨d, hd, _⟩
    · exact e.symm
    · exact absurd hd (hi d)
  have left : Reaches h.graph (n + 1) w → w = a := by
    intro hr
    rcases down u1 hr with e | hr
    · exact absurd (e ▸ hlt) (Nat.not_lt.2 (Nat.le_add_right n 1))
    · rcases down u0 hr with e | hr
      · exact absurd (e ▸ hlt) (Nat.lt_irrefl _)
      · exact leafEnd ua hr
  have right : Reaches h.graph (n + 3) w → w = b := by
    intro hr
    rcases down u3 hr with e | hr
    · exact absurd (e ▸ hlt) (Nat.not_lt.2 (Nat.le_add_right n 3))
    · rcases down u2 hr with e | hr
      · exact absurd (e ▸ hlt) (Nat.not_lt.2 (Nat.le_add_right n 2))
      · exact leafEnd ub hr
  have way : vw.size = 1 → ∀ i v, Reaches h.graph (n + 5) i → i ≠ w → Means lib h.graph (.r i) (.ok v) → v.size = 1 →
      OneWay h.graph w i ∨ NoSparse h.graph w i := by
    intro h1 i _ hi _ _ _
    refine Or.inl fun c d hc hd rc rd => ?_
    rcases key i hi with rfl | rfl | rfl | rfl | rfl | rfl | rfl | rfl
    · rw [u5 _ hc, u5 _ hd]
    · rcases u4 _ hc with rfl | rfl <;> rcases u4 _ hd with rfl | rfl
      · rfl
      · exact absurd ((left rc).symm.trans (right rd)) (hsz h1)
      · exact absurd ((left rd).symm.trans (right rc)) (hsz h1)
      · rfl
    · rw [u3 _ hc, u3 _ hd]
    · rw [u2 _ hc, u2 _ hd]
    · rw [u1 _ hc, u1 _ hd]
    · rw [u0 _ hc, u0 _ hd]
    · exact absurd hc (ua _)
    · exact absurd hc (ub _)
  obtain ⟨vy, M, hJ, hM⟩ := C18_single_entry_returns_partial hr (acc _ _ (Nat.lt_succ_self _) .refl) hch hvw way hob hyw
  have := hJ.valY.unique (right_means hr hR)
  injection this with this
  subst this
  exact ⟨vy, M, hC, hJ, hM⟩

/-- C44 in full, for the value. -/
def C44_full : Prop :=
  ∀ (h : Heap ClassDef Par Arr Jac) (a b n : ℕ) (u v : Arr) (ax : AxesArg) (ia ib : List ℕ) (p : TdPlan), Reach lib ⟨False, True⟩ h →
    Means lib h.graph (.r a) (.ok u) → Means lib h.graph (.r b) (.ok v) → u.shape ≠ [] → v.shape ≠ [] →
    AxesFor u.shape v.shape ax.lists.1 ax.lists.2 ia ib → tdPlan u.shape v.shape ax = some p → MadeByTensordot h.graph p a b n →
    ∃ out, Contraction ia ib u v out ∧ ∃ f₀, ∀ f ≥ f₀, (read lib f (.r (n + 5)) h).2 = .ok out

/-- An object whose body starts by reading a child that raises, raises. -/
theorem means_child_error {g : Graph ClassDef Par} {y q : Id} {k : Name} {e : Err} {K : Arr → Prog Par Arr Arr} (hc : (g y).cls.r = .child k K)
    (hk : (g y).dterms k = some q) (hq : Means lib g (.r q) (.error e)) : Means lib g (.r y) (.error e) := by
  obtain ⟨he, f, hf⟩ := hq
  refine ⟨he, f + 1, ?_⟩
  show evalProg g (evalReq lib g f) y (g y).cls.r = _
  rw [hc]
  simp only [evalProg, hk, hf]
end

namespace ADDemo
/-- Two arrays and their `tensordot`. -/
theorem tensordot_state (p : TdPlan) (u v : Arr) (hu : u.shape ≠ []) (hv : v.shape ≠ []) : ∃ h, Reach lib ⟨False, True⟩ h ∧
    MadeByTensordot h.graph p 0 1 2 ∧ IsLeaf h.graph 0 ∧ IsLeaf h.graph 1 ∧ Means lib h.graph (.r 0) (.ok u) ∧ Means lib h.graph (.r 1) (.ok v) := by
  obtain ⟨h, hr, _, _, hj⟩ := built_state (leafO u :: leafO v :: tdObjs p 0 1 2)
    ⟨leafO_fits _ _, leafO_fits _ _, unPO_fits (by decide), unPO_fits (by decide), unPO_fits (by decide), unPO_fits (by decide),
      binO_fits (by decide) (by decide) rfl, unPO_fits (by decide), trivial⟩
  have h0 := (hj 0 (by simp [tdObjs])).2
  have h1 := (hj 1 (by simp [tdObjs])).2
  refine ⟨h, hr, ⟨by decide, by decide, fun j hj' => ?_⟩, isLeaf_leafO h0, isLeaf_leafO h1, (leaf_means h0 hu).1, (leaf_means h1 hv).1⟩
  have := (hj (2 + j) (by simp [tdObjs]; omega)).2
  rw [this]
  congr 1
  have e : ∀ (l : List (ObjSpec ClassDef Par)) (x y : ObjSpec ClassDef Par) (hh : 2 + j < (x :: y :: l).length) (h' : j < l.length), (x :: y :: l)[2 + j] = l[j] := by
    intro l x y hh h'
    simp only [Nat.add_comm 2 j, List.getElem_cons_succ]
  exact e _ _ _ _ _

/-- The hypotheses of C44 are met by arrays of shapes (2, 3, 4) and (4, 5, 2) and `axes=([-1, 0], [0, 2])`, the result having
shape (3, 5). -/
example : ∃ p, tdPlan [2, 3, 4] [4, 5, 2] (.pair (.many [-1, 0]) (.many [0, 2])) = some p ∧ p.freeA ++ p.freeB = [3, 5] ∧
    AxesFor [2, 3, 4] [4, 5, 2] (AxesArg.pair (.many [-1, 0]) (.many [0, 2])).lists.1 (AxesArg.pair (.many [-1, 0]) (.many [0, 2])).lists.2 [2, 0] [0, 2] ∧
    ∃ h, Reach lib ⟨False, True⟩ h ∧ MadeByTensordot h.graph p 0 1 2 ∧ IsLeaf h.graph 0 ∧ IsLeaf h.graph 1 ∧
      Means lib h.graph (.r 0) (.ok ⟨[2, 3, 4], fun k => k.1⟩) ∧ Means lib h.graph (.r 1) (.ok ⟨[4, 5, 2], fun k => k.1⟩) :=
  ⟨⟨[2, 3, 4], [4, 5, 2], [2, 0], [0, 2]⟩, rfl, rfl, ⟨rfl, rfl, rfl, by decide, by decide, by decide⟩,
    tensordot_state _ _ _ (by simp) (by simp)⟩

/-- `axes=2` for shapes (2, 3, 4) and (3, 4). -/
example : AxesFor [2, 3, 4] [3, 4] (AxesArg.count 2).lists.1 (AxesArg.count 2).lists.2 [1, 2] [0, 1] :=
  C44_count (by decide) (by decide) (by decide)
end ADDemo

open ADDemo in
/-- C44 in full is false: numpy's `tensordot` of two empty vectors is 0, but reading that of chumpy raises, because
`reshape((-1, 0))` does not know how many rows to make. -/
theorem C44_full_refuted : ¬ C44_full := by
  intro hall
  obtain ⟨h, hr, hm, _, _, hu, hv⟩ := tensordot_state ⟨[0], [0], [0], [0]⟩ ⟨[0], fun _ => 0⟩ ⟨[0], fun _ => 0⟩ (by simp) (by simp)
  obtain ⟨out, _, f1, hf1⟩ := hall h 0 1 2 _ _ (.count 1) [0] [0] _ hr hu hv (by simp) (by simp) ⟨rfl, rfl, rfl, by decide, by decide, by decide⟩ rfl hm
  have g0 : h.graph 2 = (unPO chTranspose (.ints [0]) .none 0).node := hm.2.2 0 (by decide)
  have g1 : h.graph 3 = (unPO chReshape (.ints [-1, 0]) .none 2).node := hm.2.2 1 (by decide)
  have g4 : h.graph 6 = (binO chDot 3 5).node := hm.2.2 4 (by decide)
  have g5 : h.graph 7 = (unPO chReshape (.ints []) .none 6).node := hm.2.2 5 (by decide)
  obtain ⟨T, _, RT⟩ := C25_transpose_partial (ax := [0]) hr (isA_unP g0) hu (by simp) (by rw [g0]; rfl) rfl (by decide)
  obtain ⟨_, f, hf⟩ := right_means hr RT
  have m3 : Means lib h.graph (.r 3) (.error (.user 1)) := by
    refine ⟨by simp, f + 1, ?_⟩
    show evalProg h.graph (evalReq lib h.graph f) 3 (h.graph 3).cls.r = _
    have hd : (h.graph 3).dterms nmA = some 2 := by rw [g1]; rfl
    have ht : (h.graph 3).terms nmP = some (.ints [-1, 0]) := by rw [g1]; rfl
    rw [show (h.graph 3).cls = chReshape from by rw [g1]; rfl]
    have hfs : fillShape T.size [-1, 0] = none := by simp [fillShape]
    simp only [chReshape, evalProg, hd, hf, ht, hfs]
  have m6 := means_child_error (K := fun u => .child nmB fun v => match dotVal u v with | some x => .ret x | none => .raise 1)
    (by rw [g4]; rfl) (by rw [g4]; rfl) m3
  have m7 : Means lib h.graph (.r 7) (.error (.user 1)) := means_child_error (y := 7) (k := nmA) (by rw [g5]; rfl) (by rw [g5]; rfl) m6
  obtain ⟨f2, hf2⟩ := read_raises hr (by simp) m7
  have e1 := hf1 _ (Nat.le_max_left f1 f2)
  have e2 : (read lib (max f1 f2) (.r 7) h).2 = .error (.user 1) := hf2 _ (Nat.le_max_right f1 f2)
  rw [show 2 + 5 = 7 from rfl, e2] at e1
  cases e1
end Chumpy
