import Verif.AD.Api
/-!
# Telling that a derivative is wrong

Used in refutations: a class whose value is known near the present one, and whose reported matrix is known, is `Right` only if
the matrix is the derivative.
-/
namespace Chumpy
open scoped BigOperators Topology

theorem jac_dims {d : Jac} {m n m' n' : ℕ} {A B : Ent} (h : Jac.Rep d m n A) (h' : Jac.Rep d m' n' B) : m = m' ∧ n = n' := by
  cases d with
  | num c => exact ⟨h.1.trans h'.1.symm, h.2.1.trans h'.2.1.symm⟩
  | dense a b e => exact ⟨h.1.symm.trans h'.1, h.2.1.symm.trans h'.2.1⟩
  | sparse a b e => exact ⟨h.1.symm.trans h'.1, h.2.1.symm.trans h'.2.1⟩

theorem jac_entries {d : Jac} {m n : ℕ} {A B : Ent} (h : Jac.Rep d m n A) (h' : Jac.Rep d m n B) : Ent.EqOn m n A B := by
  intro i hi j hj
  cases d with
  | num c =>
    have e := h.2.2
    have e' := h'.2.2
    have hm := h.1
    have hn := h.2.1
    subst hm; subst hn
    have : i = 0 := by omega
    have : j = 0 := by omega
    subst i; subst j
    rw [e, e']
  | dense a b e => exact (h.2.2 i hi j hj).symm.trans (h'.2.2 i hi j hj)
  | sparse a b e => exact (h.2.2 i hi j hj).symm.trans (h'.2.2 i hi j hj)

/-- A derivative that is not `None` has one size and one set of entries. -/
theorem reports_unique {h : Heap ClassDef Par Arr Jac} {y w : Id} {m n m' n' : ℕ} {E E' : Ent} (h1 : Reports h y w m n E)
    (h2 : Reports h y w m' n' E') (hne : ∃ i < m', ∃ j < n', E' i j ≠ 0) : m = m' ∧ n = n' ∧ Ent.EqOn m n E E' := by
  obtain ⟨f1, h1⟩ := h1
  obtain ⟨f2, h2⟩ := h2
  obtain ⟨o, ho, hE⟩ := h1 _ (Nat.le_max_left f1 f2)
  obtain ⟨o', ho', hE'⟩ := h2 _ (Nat.le_max_right f1 f2)
  rw [ho] at ho'
  cases ho'
  cases o with
  | none =>
    obtain ⟨i, hi, j, hj, hij⟩ := hne
    exact absurd (hE' i hi j hj) hij
  | some d =>
    obtain ⟨rfl, rfl⟩ := jac_dims hE hE'
    exact ⟨rfl, rfl, jac_entries hE hE'⟩

/-- If the class of `y` is `Right` then the matrix it reports is the derivative of its value. -/
theorem right_unique {h : Heap ClassDef Par Arr Jac} {y a : Id} {c : ClassDef} {v out : Arr} {M E : Ent} {m n : ℕ}
    (hR : Right h y out) (hr : Reach lib ⟨False, True⟩ h) (hy : IsA h.graph y c [nmA] fun _ => a) (hl : IsLeaf h.graph a)
    (hv : Means lib h.graph (.r a) (.ok v)) (F : (Fin v.size → ℝ) → Fin out.size → ℝ)
    (hF : ∀ᶠ t in 𝓝 v.data, Returns lib c (h.graph y).terms (env1 (v.put t)) (out.put (F t)))
    (hd : HasFDerivAt F (Ent.lin out.size v.size M) v.data) (hE : Reports h y a m n E) (hne : ∃ i < m, ∃ j < n, E i j ≠ 0) :
    m = out.size ∧ n = v.size ∧ Ent.EqOn m n M E := by
  have hya : y ≠ a := by
    intro e
    have h1 := hy.dnames
    rw [e, hl.2.2] at h1
    cases h1
  obtain ⟨vw, M', hJ, hrep⟩ := hR.deriv (by
      intro k b hb
      have : k ∈ (h.graph y).dnames := (reach_str hr).dn y k b hb
      rw [hy.dnames, List.mem_singleton] at this
      subst this
      have h0 : (h.graph y).dterms nmA = some a := hy.kid (0 : Fin 1)
      rw [h0] at hb; cases hb; exact hl) nmA a (hy.kid (0 : Fin 1))
  have e := hJ.valW.unique hv
  cases e
  obtain ⟨rfl, rfl, e⟩ := reports_unique hrep hE hne
  refine ⟨rfl, rfl, ?_⟩
  obtain ⟨G, hG, hG'⟩ := hJ.deriv
  have hFG : F =ᶠ[𝓝 v.data] G := by
    filter_upwards [hF, hG] with t h1 h2
    have hy' : IsA (setTo h.graph a (v.put t)) y c [nmA] fun _ => a := by
      have : setTo h.graph a (v.put t) y = h.graph y := if_neg hya
      exact ⟨by rw [this]; exact hy.cls, by rw [this]; exact hy.dnames, hy.nodup, by rw [this]; exact hy.kid⟩
    have hm := means_of_isA hy' (v := fun _ => v.put t) (fun _ => means_setTo _ _ _) (out := out.put (F t)) (by
      erw [env_one]
      have : setTo h.graph a (v.put t) y = h.graph y := if_neg hya
      rw [this]; exact h1)
    have := hm.unique h2
    injection this with this
    injection this with _ this
  have h3 := (hG'.congr_of_eventuallyEq hFG).unique hd
  have h4 := Ent.lin_inj h3
  intro i hi j hj
  rw [← h4 i hi j hj, e i hi j hj]
end Chumpy
