import Verif.Properties.MergedMin
import Verif.Properties.Slices
/-!
# C20: no derivative with respect to a slice is lost
-/
namespace Chumpy
section
variable {C T V D : Type} {s : Sig C T V D} {g : Graph C T}

/-- If the list of terms has grown, one operand contributed. -/
theorem evalTerms_some {f : ℕ} {i w : Id} {ev : Id → Except Err (Option D)} : ∀ (ks : List Name) {acc ds : List D}, evalTerms s g f i w ev ks acc = .ok ds →
    ds = acc ∨ ∃ k ∈ ks, ∃ p d2 d, (g i).dterms k = some p ∧ p ≠ w ∧ ev p = .ok (some d2) ∧ evalSliced s g f i p = .ok (some d)
  | [], acc, ds, h => by
    simp only [evalTerms, Except.ok.injEq] at h
    exact Or.inl h.symm
  | k :: ks, acc, ds, h => by
    have skip : evalTerms s g f i w ev ks acc = .ok ds →
        ds = acc ∨ ∃ k' ∈ k :: ks, ∃ p d2 d, (g i).dterms k' = some p ∧ p ≠ w ∧ ev p = .ok (some d2) ∧ evalSliced s g f i p = .ok (some d) := by
      intro he
      rcases evalTerms_some ks he with h1 | ⟨k', hk', h1⟩
      · exact Or.inl h1
      · exact Or.inr ⟨k', List.mem_cons_of_mem _ hk', h1⟩
    unfold evalTerms at h
    split at h
    · exact skip h
    · rename_i p hp
      split at h
      · exact skip h
      · rename_i hpw
        split at h
        · cases h
        · exact skip h
        · rename_i d2 h2
          split at h
          · cases h
          · exact skip h
          · rename_i d hd
            exact Or.inr ⟨k, List.mem_cons_self, p, d2, d, hp, hpw, h2, hd⟩

/-- Every operand but `w` was asked, and did not raise. -/
theorem evalTerms_all {f : ℕ} {i w : Id} {ev : Id → Except Err (Option D)} : ∀ (ks : List Name) {acc ds : List D}, evalTerms s g f i w ev ks acc = .ok ds →
    ∀ k ∈ ks, ∀ p, (g i).dterms k = some p → p ≠ w → ∃ o, ev p = .ok o
  | [], _, _, _ => fun k hk => by cases hk
  | k :: ks, acc, ds, h => by
    intro k' hk' p hp hpw
    unfold evalTerms at h
    rcases List.mem_cons.1 hk' with rfl | hk'
    · rw [hp] at h
      dsimp only at h
      rw [if_neg hpw] at h
      split at h
      · cases h
      · rename_i e; exact ⟨_, e⟩
      · rename_i e; exact ⟨_, e⟩
    · split at h
      · exact evalTerms_all ks h k' hk' p hp hpw
      · split at h
        · exact evalTerms_all ks h k' hk' p hp hpw
        · split at h
          · cases h
          · exact evalTerms_all ks h k' hk' p hp hpw
          · split at h
            · cases h
            · exact evalTerms_all ks h k' hk' p hp hpw
            · split at h
              · cases h
              · exact evalTerms_all ks h k' hk' p hp hpw

/-- What `dr_wrt` returns comes from the object itself, or from an operand. -/
theorem evalDr_parts {n : ℕ} {i w : Id} {o : Option D} (h : evalDr s g (n + 1) i w = .ok o) :
    ∃ direct ds, evalSliced s g n i w = .ok direct ∧ evalTerms s g n i w (fun p => evalDr s g n p w) (g i).dnames direct.toList = .ok ds ∧ (o ≠ none → ds ≠ []) := by
  unfold evalDr at h
  split at h
  · cases h
  · rename_i direct h1
    split at h
    · cases h
    · rename_i ds h2
      refine ⟨direct, ds, h1, h2, ?_⟩
      rintro ho rfl
      simp [sumD] at h
      exact ho h.symm

/-- If `w` selects from `a` and `dr_wrt(w)` is `None`, so is `dr_wrt(a)`. -/
theorem none_of_slice {w a : Id} (hw : s.isPermute (g w).cls = true) (hwa : (g w).dterms s.permArg = some a) (ha : s.isPermute (g a).cls = false) :
    ∀ (n : ℕ) {i : Id}, i ≠ a → ∀ {d : D}, evalDr s g n i a = .ok (some d) → evalDr s g n i w = .ok none → False
  | 0, _, _, _, h, _ => by cases h
  | n + 1, i, hia, d, h, h' => by
    have hmean : MeansDr s g i w (.ok none) := ⟨by simp, _, h'⟩
    obtain ⟨direct, ds, h1, h2, h3⟩ := evalDr_parts h
    obtain ⟨direct', ds', h1', h2', _⟩ := evalDr_parts h'
    have hdir : direct' = none := by
      cases direct' with
      | none => rfl
      | some d' => exact absurd hmean (dr_not_none_direct ⟨_, h1'⟩)
    subst hdir
    cases direct with
    | some d0 =>
      -- the object itself depends on `a`
      have hc : evalCompDr s g n i a = .ok (some d0) := by
        unfold evalSliced at h1
        split at h1
        · cases h1
        · rename_i e; rw [e]; exact h1
        · cases n with
          | zero => cases h1
          | succ n =>
            simp only [evalSlice, ha] at h1
            cases h1
      unfold evalSliced at h1'
      split at h1'
      · cases h1'
      · cases h1'
      · cases n with
        | zero => cases h1'
        | succ n =>
          simp only [evalSlice, hw, hwa, if_true, if_neg (Ne.symm hia), hc] at h1'
          split at h1'
          · cases h1'
          · cases h1'
          · rename_i j _
            cases hsd : s.superdot d0 (s.transp j) with
            | error e => rw [hsd] at h1'; cases h1'
            | ok x => rw [hsd] at h1'; cases h1'
    | none =>
      rcases evalTerms_some _ h2 with e | ⟨k, hk, p, d2, dp, hp, hpa, e2, es⟩
      · exact h3 (by simp) e
      · by_cases hpw : p = w
        · subst hpw
          exact dr_not_none_direct ⟨_, es⟩ hmean
        · obtain ⟨o, ho⟩ := evalTerms_all _ h2' k hk p hp hpw
          cases o with
          | none => exact none_of_slice hw hwa ha n hpa e2 ho
          | some d3 => exact dr_not_none hp hk hpw ⟨by simp, _, ho⟩ ⟨_, es⟩ hmean

/-- C20, `None`.  In every reachable state, if `w` is a slice of `a` (or another reordering of it), `a` is not itself one, and `y` is not `a`: if `y.dr_wrt(w)`
returns `None`, then `y.dr_wrt(a)` returns `None` or raises.  No dependence is lost by asking about a slice, whatever is shared in the graph. -/
theorem C20_none_only_if_none (hp : s.PropsOk) (hl : s.LocalDr) (ho : s.PlainForm) {h : Heap C T V D} (hr : Reach s ⟨True, True⟩ h) {y w a : Id}
    (hw : s.isPermute (h.graph w).cls = true) (hwa : (h.graph w).dterms s.permArg = some a) (ha : s.isPermute (h.graph a).cls = false) (hya : y ≠ a)
    {f f' : ℕ} {o : Option D} (h1 : (drWrt s f y w h).2 = .ok none) (h2 : (drWrt s f' y a h).2 = .ok o) : o = none := by
  obtain ⟨_, n, e1⟩ := (C02_derivative_wrt_slices_partial hp hl ho hr f y w).1 _ h1
  obtain ⟨_, n', e2⟩ := (C02_derivative_wrt_slices_partial hp hl ho hr f' y a).1 _ h2
  cases o with
  | none => rfl
  | some d => exact (none_of_slice hw hwa ha (max n n') hya (evalDr_up (Nat.le_max_right _ _) e2) (evalDr_up (Nat.le_max_left _ _) e1)).elim
end

namespace ADDemo
/-- `a`, `w = a[[1, 0]]`, `b`, `exp(b)`. -/
noncomputable def apart : List (ObjSpec ClassDef Par) := [leafO (vec2 1 2), unPO chSelect (.nats [1, 0]) (.nats [2]) 0, leafO (vec2 3 4), unO chExp 2]

/-- The hypotheses are met: `exp(b).dr_wrt(a[[1, 0]])` is `None`, and so is `exp(b).dr_wrt(a)`. -/
example : ∃ h, Reach lib ⟨True, True⟩ h ∧ lib.isPermute (h.graph 1).cls = true ∧ (h.graph 1).dterms lib.permArg = some 0 ∧ lib.isPermute (h.graph 0).cls = false ∧
    (drWrt lib 4 3 1 h).2 = .ok none ∧ (drWrt lib 4 3 0 h).2 = .ok none := by
  have hfit : FitsFrom 0 apart := ⟨leafO_fits _ _, unPO_fits (by decide), leafO_fits _ _, unO_fits (by decide), trivial⟩
  obtain ⟨h, hr, hg⟩ := hfit.reach ⟨True, True⟩
  have h0 : IsLeaf h.graph 0 := by rw [hg]; exact isLeaf_leafO rfl
  have h1 : IsA h.graph 1 chSelect [nmA] (fun _ => 0) := by rw [hg]; exact isA_unP rfl
  have h2 : IsLeaf h.graph 2 := by rw [hg]; exact isLeaf_leafO rfl
  have h3 : IsA h.graph 3 chExp [nmA] (fun _ => 2) := by rw [hg]; exact isA_un rfl
  have p0 : lib.isPermute (h.graph 0).cls = false := by rw [h0.1]; rfl
  have p1 : lib.isPermute (h.graph 1).cls = true := by rw [h1.cls]; rfl
  have k1 : (h.graph 1).dterms lib.permArg = some 0 := h1.kid (0 : Fin 1)
  have k3 : (h.graph 3).dterms nmA = some 2 := h3.kid (0 : Fin 1)
  have kid3 : ∀ k, (h.graph 3).dterms k = none ∨ (h.graph 3).dterms k = some 2 := by
    intro k
    by_cases hk : k = nmA
    · subst hk; exact Or.inr k3
    · left
      cases hc : (h.graph 3).dterms k with
      | none => rfl
      | some c =>
        have := (reach_str hr).dn 3 k c hc
        change k ∈ (h.graph 3).dnames at this
        rw [h3.dnames, List.mem_singleton] at this
        exact absurd this hk
  have c3 : ∀ f p, p ≠ 3 → p ≠ 2 → evalCompDr lib h.graph f 3 p = .ok none := fun f p q1 q2 => evalCompDr_none (Ne.symm q1) fun k hk => by
    rcases kid3 k with e | e
    · rw [e] at hk; cases hk
    · rw [e] at hk; cases hk; exact q2 rfl
  have c2 : ∀ f p, p ≠ 2 → evalCompDr lib h.graph f 2 p = .ok none := fun f p q => evalCompDr_none (Ne.symm q) fun k hk => by
    rw [h2.2.1] at hk; cases hk
  have q0 : (h.graph 0).cls.permute = false := p0
  have q1 : (h.graph 1).cls.permute = true := p1
  have e1 : evalDr lib h.graph 4 3 1 = .ok none := by
    simp [evalDr, evalSliced, evalSlice, evalTerms, sumD, c3, c2, q1, k1, q0, h3.dnames, k3, h2.2.2]
  have e0 : evalDr lib h.graph 4 3 0 = .ok none := by
    simp [evalDr, evalSliced, evalSlice, evalTerms, sumD, c3, c2, q0, h3.dnames, k3, h2.2.2]
  refine ⟨h, hr, p1, k1, p0, ?_, ?_⟩
  · rw [(C02_derivative_wrt_slices_partial lib_propsOk lib_localDr lib_plainForm hr 4 3 1).2.2 (by rw [e1]; simp), e1]
  · rw [(C02_derivative_wrt_slices_partial lib_propsOk lib_localDr lib_plainForm hr 4 3 0).2.2 (by rw [e0]; simp), e0]

/-- C20 applied: `exp(a).dr_wrt(a[[1, 0]])` is never `None`. -/
example : ∃ h, Reach lib ⟨True, True⟩ h ∧ ∀ f, (drWrt lib f 3 1 h).2 ≠ .ok none := by
  obtain ⟨h, hr, hg⟩ := sliced_fits.reach ⟨True, True⟩
  have hs : Sliced h.graph := by rw [hg]; exact sliced_graph
  obtain ⟨d, ⟨_, n, hd⟩, _⟩ := hs.m30
  refine ⟨h, hr, fun f hf => ?_⟩
  have e := (C02_derivative_wrt_slices_partial lib_propsOk lib_localDr lib_plainForm hr n 3 0).2.2 (by rw [hd]; simp)
  have := C20_none_only_if_none lib_propsOk lib_localDr lib_plainForm hr (y := 3) (w := 1) (a := 0) (by rw [hs.is1.cls]; rfl) (hs.is1.kid (0 : Fin 1))
    (by rw [hs.leaf0.1]; rfl) (by decide) hf (e.trans hd)
  cases this
end ADDemo
end Chumpy
