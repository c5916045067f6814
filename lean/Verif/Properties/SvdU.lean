import Verif.Properties.Svd
/-!
# C59: the expression whose derivative `SvdU` reports

`chSvdU` has the entries of the Jacobian of `NanDivide(x.dot(svd_v), svd_d.reshape((1,-1)))` written out.  Here they are
shown to be what `dr_wrt` of that expression returns.
-/
namespace Chumpy
open scoped BigOperators Topology Matrix

/-- The objects of `NanDivide(x.dot(svd_v), svd_d.reshape((1,-1)))` (linalg.py:260-264), numbered from `n`: `svd_d`, `svd_v`, the product, the
reshaped values and the quotient. -/
noncomputable def svdUObjs (s : SvdFn) (x n : Id) : List (ObjSpec ClassDef Par) :=
  [unO (chSvdD s) x, unO (chSvdV s) x, binO chDot x (n + 1), unPO chReshape (.ints [1, -1]) .none n, binO chNanDivide (n + 2) (n + 3)]

/-- `g` contains them. -/
structure MadeBySvdU (s : SvdFn) (g : Graph ClassDef Par) (x n : ℕ) : Prop where
  lt : x < n
  d : g n = (unO (chSvdD s) x).node
  v : g (n + 1) = (unO (chSvdV s) x).node
  p : g (n + 2) = (binO chDot x (n + 1)).node
  r : g (n + 3) = (unPO chReshape (.ints [1, -1]) .none n).node
  q : g (n + 4) = (binO chNanDivide (n + 2) (n + 3)).node

theorem fillShape_row (k : ℕ) : fillShape k [1, -1] = some [1, k] := by
  simp [fillShape, Nat.mod_one]

theorem bshape_row (m n : ℕ) : bshape [m, n] [1, n] = some [m, n] := by
  have h1 : Jac.bdim m 1 = some m := by
    unfold Jac.bdim
    by_cases h : m = 1
    · rw [if_pos h]
    · rw [if_neg h, if_neg h, if_pos rfl]
  have h2 : Jac.bdim n n = some n := by unfold Jac.bdim; rw [if_pos rfl]
  simp [bshape, bshapeR, h1, h2]

theorem bidx_row {m n k : ℕ} (hk : k < m * n) : bidx [1, n] [m, n] k = k % n := by
  have h := (flatR_lt hk).2
  simp only [bidx, List.reverse_cons, List.reverse_nil, List.nil_append, List.singleton_append, bidxR]
  split
  · next h1 => subst h1; simp [Nat.mod_one]
  · simp

section
variable {s : SvdFn} {g : Graph ClassDef Par} {x n0 : ℕ} {v : Arr} {m n : ℕ}

/-- The values of the objects. -/
structure SvdUValues (s : SvdFn) (g : Graph ClassDef Par) (n0 : ℕ) (m n : ℕ) (A : Matrix (Fin m) (Fin n) ℝ) (P R : Arr) : Prop where
  d : Means lib g (.r n0) (.ok (Arr.of [n] (entV (s.dz A))))
  v : Means lib g (.r (n0 + 1)) (.ok (Arr.of [n, n] fun k => entR (s.v A) (k / n) (k % n)))
  p : Means lib g (.r (n0 + 2)) (.ok P)
  r : Means lib g (.r (n0 + 3)) (.ok R)
  q : Means lib g (.r (n0 + 4)) (.ok (bcastVal (· / ·) P R [m, n]))
  ps : P.shape = [m, n]
  pe : ∀ i : Fin m, ∀ k : Fin n, P.vec (i * n + k) = (A * s.v A) i k
  rs : R.shape = [1, n]
  re : ∀ k : Fin n, R.vec k = s.dz A k

theorem svdU_values (hm : MadeBySvdU s g x n0) (hx : Means lib g (.r x) (.ok v)) (hsh : v.shape = [m, n]) (hmn : n ≤ m) (hn : 0 < n) :
    ∃ P R, SvdUValues s g n0 m n (matOfR m n v.vec) P R := by
  have mD := means_of_isA (isA_un hm.d) (v := fun _ => v) (fun _ => hx) (by erw [env_one]; exact returns_svdD hsh hmn)
  have mV := means_of_isA (isA_un hm.v) (v := fun _ => v) (fun _ => hx) (by erw [env_one]; exact returns_svdV hsh hmn)
  obtain ⟨_, _, hE⟩ := exact_dot (s := [m]) (n := n) (C := n) (tm := (g (n0 + 2)).terms) (u := v)
    (v := Arr.of [n, n] fun k => entR (s.v (matOfR m n v.vec)) (k / n) (k % n)) (osh := [m, n]) hsh hn (Or.inr ⟨rfl, rfl⟩)
  have mP := means_of_isA (isA_bin hm.p) (kids2 hx mV) hE.val
  have hsz : (Arr.of [n] (entV (s.dz (matOfR m n v.vec)))).size = n := by simp [Arr.size, Arr.of]
  have hE2 := exact_reshape (tm := (g (n0 + 3)).terms) (v := Arr.of [n] (entV (s.dz (matOfR m n v.vec)))) (sh := [1, -1]) (o := [1, n])
    (by rw [hm.r]; rfl) (by rw [hsz]; exact fillShape_row n)
  have mR := means_of_isA (isA_unP hm.r) (v := fun _ => Arr.of [n] (entV (s.dz (matOfR m n v.vec)))) (fun _ => mD) hE2.val
  have hq := returns_bcast (c := chNanDivide) (f := (· / ·)) (by rw [nanDivide_eq]; rfl) (g (n0 + 4)).terms (o := [m, n])
    (u := Arr.of [m, n] (bilin n (fun _ _ => 1) (fun i k => i / n * n + k) (fun i k => k * n + i % n) v.vec
      (Arr.of [n, n] fun k => entR (s.v (matOfR m n v.vec)) (k / n) (k % n)).vec))
    (v := (Arr.of [1, n] (Arr.of [n] (entV (s.dz (matOfR m n v.vec)))).vec).atleast1) (bshape_row m n)
  have mQ := means_of_isA (isA_bin hm.q) (kids2 mP mR) (by erw [env_two]; exact hq)
  refine ⟨_, _, mD, mV, mP, mR, mQ, rfl, fun i k => ?_, rfl, fun k => ?_⟩
  · rw [Arr.vec_of _ _ (by simpa using posR_lt i k)]
    unfold bilin
    beta_reduce
    rw [posR_div, posR_mod, Matrix.mul_apply, ← Fin.sum_univ_eq_sum_range
      (fun a => 1 * (v.vec (i * n + a) * (Arr.of [n, n] fun k => entR (s.v (matOfR m n v.vec)) (k / n) (k % n)).vec (a * n + k)))]
    refine Finset.sum_congr rfl fun a _ => ?_
    rw [Arr.vec_of _ _ (by simpa using posR_lt a k), posR_div, posR_mod, entR_fin, one_mul]
    rfl
  · rw [atleast1_of_ne (by simp [Arr.of])]
    rw [Arr.vec_of _ _ (by simp), Arr.vec_of _ _ (by simp), entV_fin]

/-- The quotient is the left singular vectors. -/
theorem svdU_quotient {A : Matrix (Fin m) (Fin n) ℝ} {P R : Arr} (hs : IsSvd A (s.u A) (s.d A) (s.v A)) (h : SvdUValues s g n0 m n A P R)
    (hp : ∀ k, svdEps < s.d A k) : bcastVal (· / ·) P R [m, n] = Arr.of [m, n] fun k => entR (s.u A) (k / n) (k % n) := by
  unfold bcastVal
  show Arr.mk [m, n] _ = Arr.mk [m, n] _
  congr 1
  funext k
  have hk : (k : ℕ) < m * n := by have := k.2; simpa using this
  have hf := flatR_lt hk
  beta_reduce
  rw [h.ps, h.rs, bidx_self (by simpa using hk), bidx_row hk]
  have e1 := h.pe ⟨k / n, hf.1⟩ ⟨k % n, hf.2⟩
  have e2 := h.re ⟨k % n, hf.2⟩
  have e3 := entR_fin (s.u A) ⟨k / n, hf.1⟩ ⟨k % n, hf.2⟩
  have e4 : ((k : ℕ) / n) * n + k % n = k := by rw [Nat.mul_comm, Nat.div_add_mod]
  rw [e4] at e1
  rw [e1, e2, e3, hs.av, Matrix.mul_diagonal, dz_eq (hp _), mul_div_cancel_right₀ _ (eps_ne hp _)]
end

section
variable {s : SvdFn} {h : Heap ClassDef Par Arr Jac} {x n0 : ℕ} {v : Arr} {m n : ℕ}

/-- What `SvdU.compute_dr_wrt` evaluates, `NanDivide(x.dot(svd_v), svd_d.reshape((1,-1))).dr_wrt(x)`, returns the entries written out in
`svdUEnt`, for a plain `x` with more than one entry. -/
theorem svdU_expression (hr : Reach lib ⟨False, True⟩ h) (hm : MadeBySvdU s h.graph x n0) (hl : IsLeaf h.graph x)
    (hx : Means lib h.graph (.r x) (.ok v)) (hsh : v.shape = [m, n]) (hmn : n ≤ m) (hn : 0 < n) (h1 : m * n ≠ 1) (hs : s.Correct)
    (hi : Function.Injective (s.d (matOfR m n v.vec))) (hp : ∀ k, svdEps < s.d (matOfR m n v.vec) k)
    (hc : ContinuousAt (s.v (m := m) (n := n)) (matOfR m n v.vec)) :
    Reports h (n0 + 4) x (m * n) (m * n) (svdUEnt s (matOfR m n v.vec)) := by
  have hN := svd_size hsh
  obtain ⟨P, R, hV⟩ := svdU_values hm hx hsh hmn hn
  have iD := isA_un hm.d
  have iV := isA_un hm.v
  have iP := isA_bin hm.p
  have iR := isA_unP hm.r
  have iQ := isA_bin hm.q
  have uD : ∀ c, Uses h.graph n0 c → c = x := fun c hc => (uses_isA iD hc).choose_spec
  have uV : ∀ c, Uses h.graph (n0 + 1) c → c = x := fun c hc => (uses_isA iV hc).choose_spec
  have uR : ∀ c, Uses h.graph (n0 + 3) c → c = n0 := fun c hc => (uses_isA iR hc).choose_spec
  have uP : ∀ c, Uses h.graph (n0 + 2) c → c = x ∨ c = n0 + 1 := by
    intro c hc
    obtain ⟨j, rfl⟩ := uses_isA iP hc
    rcases fin2 j with rfl | rfl
    · exact Or.inl rfl
    · exact Or.inr rfl
  have uQ : ∀ c, Uses h.graph (n0 + 4) c → c = n0 + 2 ∨ c = n0 + 3 := by
    intro c hc
    obtain ⟨j, rfl⟩ := uses_isA iQ hc
    rcases fin2 j with rfl | rfl
    · exact Or.inl rfl
    · exact Or.inr rfl
  have hlt := hm.lt
  have key : ∀ i, Reaches h.graph (n0 + 4) i → i = n0 + 4 ∨ i = n0 + 3 ∨ i = n0 + 2 ∨ i = n0 + 1 ∨ i = n0 ∨ i = x := by
    intro i hi
    induction hi with
    | refl => exact Or.inl rfl
    | tail _ hc ih =>
      rcases ih with rfl | rfl | rfl | rfl | rfl | rfl
      · have := uQ _ hc; tauto
      · have := uR _ hc; tauto
      · have := uP _ hc; tauto
      · have := uV _ hc; tauto
      · have := uD _ hc; tauto
      · exact absurd hc hl.no_uses
  have dec : ∀ i, Reaches h.graph (n0 + 4) i → ∀ c, Uses h.graph i c → c < i := by
    intro i hi c hc
    rcases key i hi with rfl | rfl | rfl | rfl | rfl | rfl
    · rcases uQ _ hc with e | e <;> rw [e]
      · exact Nat.add_lt_add_left (by decide) n0
      · exact Nat.add_lt_add_left (by decide) n0
    · rw [uR _ hc]; exact Nat.lt_add_of_pos_right (by decide)
    · rcases uP _ hc with e | e <;> rw [e]
      · exact Nat.lt_add_right 2 hlt
      · exact Nat.add_lt_add_left (by decide) n0
    · rw [uV _ hc]; exact Nat.lt_add_right 1 hlt
    · rw [uD _ hc]; exact hlt
    · exact absurd hc hl.no_uses
  have acc : ∀ k i : ℕ, i < k → Reaches h.graph (n0 + 4) i → Acc (fun a b => Uses h.graph b a) i := by
    intro k
    induction k with
    | zero => intro i hi; exact absurd hi (Nat.not_lt_zero _)
    | succ k ih =>
      intro i hi hr
      exact ⟨_, fun j hj => ih j (Nat.lt_of_lt_of_le (dec i hr j hj) (Nat.lt_succ_iff.1 hi)) (hr.tail hj)⟩
  have acy : ∀ i, Reaches h.graph (n0 + 4) i → ¬ Relation.TransGen (Uses h.graph) i i := by
    have : ∀ i j, Reaches h.graph (n0 + 4) i → Relation.TransGen (Uses h.graph) i j → j < i := by
      intro i j hi hij
      induction hij with
      | single hu => exact dec i hi _ hu
      | tail hij hu ih => exact Nat.lt_trans (dec _ (Relation.ReflTransGen.trans hi hij.to_reflTransGen) _ hu) ih
    exact fun i hi ht => Nat.lt_irrefl _ (this i i hi ht)
  have hdecl : ∀ i k c, (h.graph i).dterms k = some c → k ∈ (h.graph i).dnames := (reach_str hr).dn
  have hper : lib.isPermute (h.graph x).cls = false := by rw [hl.1]; rfl
  have two : ∀ (i a b : ℕ) (c : ClassDef), IsA h.graph i c [nmA, nmB] ![a, b] → a ≠ b → ∀ k k' q, (h.graph i).dterms k = some q →
      (h.graph i).dterms k' = some q → k = k' := by
    intro i a b c hI hab k k' q hk hk'
    have e1 := hdecl _ k q hk
    have e2 := hdecl _ k' q hk'
    have k0 : (h.graph i).dterms nmA = some a := hI.kid (0 : Fin 2)
    have k1 : (h.graph i).dterms nmB = some b := hI.kid (1 : Fin 2)
    rw [hI.dnames] at e1 e2
    simp at e1 e2
    rcases e1 with rfl | rfl <;> rcases e2 with rfl | rfl
    · rfl
    · rw [k0] at hk; rw [k1] at hk'; injection hk with hk; injection hk' with hk'; exact absurd (hk.trans hk'.symm) hab
    · rw [k1] at hk; rw [k0] at hk'; injection hk with hk; injection hk' with hk'; exact absurd (hk'.trans hk.symm) hab
    · rfl
  have hQd : ∀ k < [m, n].prod, R.vec (bidx R.shape [m, n] k) ≠ 0 := by
    intro k hk
    have hk' : k < m * n := by simpa using hk
    rw [hV.rs, bidx_row hk', hV.re ⟨k % n, (flatR_lt hk').2⟩, dz_eq (hp _)]
    exact eps_ne hp _
  have hb : bshape P.shape R.shape = some [m, n] := by rw [hV.ps, hV.rs]; exact bshape_row m n
  have hch : ChainOk lib h.graph (n0 + 4) x := by
    refine ⟨acy, hper, ?_, hdecl, ?_, ?_⟩
    · intro i hi
      rcases key i hi with rfl | rfl | rfl | rfl | rfl | rfl
      · exact iQ.dnames ▸ iQ.nodup
      · exact iR.dnames ▸ iR.nodup
      · exact iP.dnames ▸ iP.nodup
      · exact iV.dnames ▸ iV.nodup
      · exact iD.dnames ▸ iD.nodup
      · rw [hl.2.2]; exact List.nodup_nil
    · intro i k k' q hi hk hk' _ _
      have one : ∀ (c : ClassDef) (z : Id), IsA h.graph i c [nmA] (fun _ => z) → k = k' := by
        intro c z hI
        have e1 := hdecl i k q hk
        have e2 := hdecl i k' q hk'
        rw [hI.dnames] at e1 e2
        simp at e1 e2
        rw [e1, e2]
      rcases key i hi with rfl | rfl | rfl | rfl | rfl | rfl
      · exact two _ _ _ _ iQ (fun e => absurd (Nat.add_left_cancel e) (by decide)) k k' q hk hk'
      · exact one _ _ iR
      · exact two _ _ _ _ iP (Nat.ne_of_lt (Nat.lt_add_right 1 hlt)) k k' q hk hk'
      · exact one _ _ iV
      · exact one _ _ iD
      · rw [hl.2.1 k] at hk; cases hk
    · intro i k q hi hk hq
      have hU : Uses h.graph i q := ⟨k, hdecl i k q hk, hk⟩
      rcases key i hi with rfl | rfl | rfl | rfl | rfl | rfl
      · rcases uQ _ hU with rfl | rfl
        · rw [hm.p] at hq; cases hq
        · have hcomp : ∃ d, CompIs lib h.graph (n0 + 4) (n0 + 3) (some d) := by
            obtain ⟨d, hd, _⟩ := rep_broadcastSetup hb false fun k =>
              if R.vec (bidx R.shape [m, n] k) = 0 then 0 else -P.vec (bidx P.shape [m, n] k) / (R.vec (bidx R.shape [m, n] k) * R.vec (bidx R.shape [m, n] k))
            refine ⟨d, compIs_isA iQ (kids2 hV.p hV.r) hV.q (fun e => absurd (Nat.add_left_cancel e) (by decide)) ?_⟩
            rw [namesOf_right iQ (fun e => absurd (Nat.add_left_cancel e) (by decide))]; erw [env_two]
            exact ⟨0, by simp [lib, chNanDivide, runBody, env2, hb, hd, retOr, nmA, nmB]⟩
          exact hcomp.choose_spec.not_none
      · rw [uR _ hU, hm.d] at hq; cases hq
      · rcases uP _ hU with rfl | rfl
        · rw [hper] at hq; cases hq
        · rw [hm.v] at hq; cases hq
      · rw [uV _ hU, hper] at hq; cases hq
      · rw [uD _ hU, hper] at hq; cases hq
      · rw [hl.2.1 k] at hk; cases hk
  have hob : ∀ i, Reaches h.graph (n0 + 4) i → i ≠ x → ExactlyFor h.graph x i := by
    intro i hi' _
    rcases key i hi' with rfl | rfl | rfl | rfl | rfl | rfl
    · exact (exactly_of_exact iQ (kids2 hV.p hV.r) (nanDivide_eq ▸ exact_div _ hb hQd)).for x
    · refine (exactly_of_exact iR (v := fun _ => _) (fun _ => hV.d) (exact_reshape (sh := [1, -1]) (o := [1, n]) (by rw [hm.r]; rfl) ?_)).for x
      have hsz : (Arr.of [n] (entV (s.dz (matOfR m n v.vec)))).size = n := by simp [Arr.size, Arr.of]
      rw [hsz]; exact fillShape_row n
    · obtain ⟨_, _, hE⟩ := exact_dot (s := [m]) (n := n) (C := n) (tm := (h.graph (n0 + 2)).terms) (u := v)
        (v := Arr.of [n, n] fun k => entR (s.v (matOfR m n v.vec)) (k / n) (k % n)) (osh := [m, n]) hsh hn (Or.inr ⟨rfl, rfl⟩)
      exact (exactly_of_exact iP (kids2 hx hV.v) hE).for x
    · exact (exactly_of_exact iV (v := fun _ => v) (fun _ => hx) (exact_svdV hs hsh hmn hi hp hc)).for x
    · exact (exactly_of_exact iD (v := fun _ => v) (fun _ => hx) (exact_svdD hs hsh hmn hi hp)).for x
    · exact (hl.exactly hx).for _
  obtain ⟨vy, M, hJ, hM⟩ := C18_dr_wrt_returns_partial hr (acc _ _ (Nat.lt_succ_self _) .refl) hch hx (by rw [hN]; exact h1) hob
    (Nat.ne_of_gt (Nat.lt_add_right 4 hlt))
  have hvy : vy = Arr.of [m, n] fun k => entR (s.u (matOfR m n v.vec)) (k / n) (k % n) := by
    have := hJ.valY.unique hV.q
    injection this with this
    rw [this]
    exact svdU_quotient (hs _ hmn) hV hp
  subst hvy
  have hvs : (Arr.of [m, n] fun k => entR (s.u (matOfR m n v.vec)) (k / n) (k % n)).size = m * n := by simp [Arr.size, Arr.of]
  have hEq : Ent.EqOn (m * n) (m * n) M (svdUEnt s (matOfR m n v.vec)) := by
    obtain ⟨F, hF1, hF2⟩ := hJ.deriv
    have hx0 := matOfR_fn hN
    have hlin : Ent.lin (Arr.of [m, n] fun k => entR (s.u (matOfR m n v.vec)) (k / n) (k % n)).size v.size M =
        Ent.lin (Arr.of [m, n] fun k => entR (s.u (matOfR m n v.vec)) (k / n) (k % n)).size v.size (svdUEnt s (matOfR m n v.vec)) := by
      refine hF2.unique ?_
      rw [hasFDerivAt_pi']
      intro k
      have hk := flatR_lt (lt_of_lt_of_eq k.2 hvs)
      obtain ⟨L, k1, k2⟩ := lin_svdU hs hmn hi hp hN hc ⟨k / n, hk.1⟩ ⟨k % n, hk.2⟩
      refine HasFDerivAt.congr_fderiv (f' := L) ?_ ?_
      · refine (show HasFDerivAt _ L v.data by rw [← fn_eq]; exact k1).congr_of_eventuallyEq ?_
        have hdc : ∀ᶠ t in 𝓝 v.data, ∀ j, svdEps < s.d (matLinR m n v.size hN t) j := by
          rw [Filter.eventually_all]
          intro j
          have hd := hasFDerivAt_svdD hs hmn hN (num.fn v.size v) (by rw [hx0]; exact hi) (by rw [hx0]; exact eps_ne hp) j
          rw [← fn_eq]
          exact hd.continuousAt.tendsto.eventually (eventually_gt_nhds (by rw [hx0]; exact hp j))
        filter_upwards [hF1, hdc] with t ht htd
        have hne : ∀ i : ℕ, x < i → setTo h.graph x (v.put t) i = h.graph i := fun i hi => by
          simp [setTo, Nat.ne_of_gt hi]
        have hm' : MadeBySvdU s (setTo h.graph x (v.put t)) x n0 :=
          ⟨hlt, by rw [hne _ hlt]; exact hm.d, by rw [hne _ (Nat.lt_add_right 1 hlt)]; exact hm.v, by rw [hne _ (Nat.lt_add_right 2 hlt)]; exact hm.p,
            by rw [hne _ (Nat.lt_add_right 3 hlt)]; exact hm.r, by rw [hne _ (Nat.lt_add_right 4 hlt)]; exact hm.q⟩
        obtain ⟨P', R', hV'⟩ := svdU_values hm' (means_setTo h.graph x (v.put t)) (show (v.put t).shape = [m, n] from hsh) hmn hn
        rw [matOfR_put hN] at hV'
        have e := hV'.q.unique ht
        injection e with e
        rw [svdU_quotient (hs _ hmn) hV' htd] at e
        have e' := congrArg (fun w : Arr => w.vec k) e
        rw [Arr.vec_of _ _ (by simpa using lt_of_lt_of_eq k.2 hvs), Arr.vec_put _ _ k] at e'
        rw [← e']
        exact (entR_fin (s.u (matLinR m n v.size hN t)) ⟨k / n, hk.1⟩ ⟨k % n, hk.2⟩)
      · ext z
        rw [k2, ContinuousLinearMap.comp_apply, ContinuousLinearMap.proj_apply, Ent.lin_apply]
        have : ((k : ℕ) / n) * n + k % n = k := by rw [Nat.mul_comm, Nat.div_add_mod]
        simp only [this]
    have := Ent.lin_inj hlin
    rwa [hvs, hN] at this
  rw [hvs, hN] at hM
  exact Reports.congr hM hEq
end
end Chumpy
