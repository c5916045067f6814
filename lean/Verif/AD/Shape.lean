import Verif.AD.Graph
/-!
# Sizes of Jacobians
-/
namespace Chumpy

/-- Every Jacobian the class of `i` computes has the sizes `n`. -/
def SizesOk (g : Graph ClassDef Par) (n : Id → ℕ) (i : Id) : Prop :=
  ∀ f p d, evalCompDr lib g f i p = .ok (some d) → ∃ E, Jac.Rep d (n i) (n p) E

section
variable {g : Graph ClassDef Par} {n : Id → ℕ}

theorem evalSlice_sizes {f : ℕ} {i : Id} (hi : SizesOk g n i) : ∀ (k : ℕ) (inner : Id) (q : Id) (d : Jac),
    evalSlice lib g f i k inner = .ok (some (q, d)) → ∃ E, Jac.Rep d (n i) (n q) E := by
  intro k
  induction k with
  | zero => intro inner q d h; cases h
  | succ k ih =>
    intro inner q d h
    simp only [evalSlice] at h
    split at h
    · split at h
      · cases h
      · split at h
        · cases h
        · split at h
          · cases h
          · next e => cases h; exact hi _ _ _ e
          · exact ih _ _ _ h
    · cases h

theorem evalSliced_sizes {f : ℕ} {i p : Id} {d : Jac} (hi : SizesOk g n i) (hp : SizesOk g n p)
    (h : evalSliced lib g f i p = .ok (some d)) : ∃ E, Jac.Rep d (n i) (n p) E := by
  unfold evalSliced at h
  split at h
  · cases h
  · next e => cases h; exact hi _ _ _ e
  · split at h
    · cases h
    · cases h
    · next q d' e =>
      split at h
      · cases h
      · cases h
      · next j ej =>
        obtain ⟨E, hE⟩ := evalSlice_sizes hi _ _ _ _ e
        obtain ⟨E', hE'⟩ := hp _ _ _ ej
        obtain ⟨x, hx, hr⟩ := Jac.superdot_rep hE (Jac.transp_rep hE')
        rw [show lib.superdot d' (lib.transp j) = .ok x from hx] at h; cases h
        exact ⟨_, hr⟩

theorem foldlM_sizes {m k : ℕ} : ∀ (ds : List Jac) (d x : Jac), (∃ A, Jac.Rep d m k A) → (∀ e ∈ ds, ∃ A, Jac.Rep e m k A) →
    ds.foldlM lib.add d = .ok x → ∃ A, Jac.Rep x m k A := by
  intro ds
  induction ds with
  | nil => intro d x h _ hx; cases hx; exact h
  | cons e ds ih =>
    intro d x ⟨A, hA⟩ h hx
    obtain ⟨B, hB⟩ := h e (by simp)
    simp only [List.foldlM] at hx
    cases h1 : Jac.add d e with
    | error _ => rw [h1] at hx; cases hx
    | ok y => rw [h1] at hx; exact ih y x ⟨_, Jac.add_rep hA hB h1⟩ (fun e' he => h e' (by simp [he])) hx

theorem evalDr_sizes {w : Id} (hw : SizesOk g n w) : ∀ (f : ℕ) (y : Id) (d : Jac), (∀ i, Reaches g y i → SizesOk g n i) →
    (∀ i k c, (g i).dterms k = some c → k ∈ (g i).dnames) →
    evalDr lib g f y w = .ok (some d) → d.dims = some (n y, n w) ∧ ∃ E, Jac.Rep d (n y) (n w) E := by
  intro f
  induction f with
  | zero => intro y d _ _ h; cases h
  | succ f ih =>
    intro y d hok hdecl h
    have hterms : ∀ (ks : List Name) (acc ds : List Jac), (∀ e ∈ acc, ∃ A, Jac.Rep e (n y) (n w) A) →
        evalTerms lib g f y w (fun p => evalDr lib g f p w) ks acc = .ok ds → ∀ e ∈ ds, ∃ A, Jac.Rep e (n y) (n w) A := by
      intro ks
      induction ks with
      | nil => intro acc ds ha h; cases h; exact ha
      | cons k ks ihk =>
        intro acc ds ha h
        simp only [evalTerms] at h
        split at h
        · exact ihk _ _ ha h
        · next p hp =>
          split at h
          · exact ihk _ _ ha h
          · split at h
            · cases h
            · exact ihk _ _ ha h
            · next d2 h2 =>
              split at h
              · cases h
              · exact ihk _ _ ha h
              · next d1 h1 =>
                split at h
                · cases h
                · next x hx =>
                  have hr : Reaches g y p := .single ⟨k, hdecl _ _ _ hp, hp⟩
                  obtain ⟨E1, hE1⟩ := evalSliced_sizes (hok y .refl) (hok p hr) h1
                  obtain ⟨E2, hE2⟩ := (ih p d2 (fun i hi => hok i (hr.trans hi)) hdecl h2).2
                  obtain ⟨x', hx', hxr⟩ := Jac.superdot_rep hE1 hE2
                  rw [show Jac.superdot d1 d2 = .ok x from hx] at hx'; cases hx'
                  refine ihk _ _ ?_ h
                  intro e he
                  rcases List.mem_append.1 he with he | he
                  · exact ha e he
                  · rw [List.mem_singleton] at he; subst he; exact ⟨_, hxr⟩
    simp only [evalDr] at h
    split at h
    · cases h
    · next direct hdir =>
      split at h
      · cases h
      · next ds hds =>
        have hall := hterms _ _ _ (by
          intro e he
          cases direct with
          | none => simp at he
          | some d0 => simp at he; subst he; exact evalSliced_sizes (hok y .refl) hw hdir) hds
        split at h
        · cases h
        · next r hr =>
          cases ds with
          | nil => cases hr; cases h
          | cons d0 ds =>
            simp only [sumD] at hr
            cases hx : ds.foldlM lib.add d0 with
            | error _ => rw [show List.foldlM Jac.add d0 ds = _ from hx] at hr; cases hr
            | ok x =>
              rw [show List.foldlM Jac.add d0 ds = _ from hx] at hr; cases hr
              obtain ⟨A, hA⟩ := foldlM_sizes ds d0 x (hall d0 (by simp)) (fun e he => hall e (by simp [he])) hx
              injection h with h; injection h with h
              subst h
              exact ⟨Jac.dims_finish _ _ hA, A, Jac.outForm_rep _ _ (Jac.finish_rep hA)⟩
end
end Chumpy
