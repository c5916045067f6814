import Verif.Core.Spec
/-! Monotonicity of the cache-free evaluator in its recursion limit, and consequences. -/
namespace Chumpy
variable {C T V D α β : Type}

/-- `b` is the same outcome as `a` unless `a` ran out of recursion depth. -/
def Le (a b : Except Err α) : Prop := a ≠ .error .fuel → b = a

theorem Le.rfl {a : Except Err α} : Le a a := fun _ => by rfl

theorem Le.trans {a b c : Except Err α} (h1 : Le a b) (h2 : Le b c) : Le a c := by
  intro h
  have := h1 h
  subst this
  exact h2 h

theorem evalProg_mono (g : Graph C T) {ev1 ev2 : Req → Except Err V}
    (hev : ∀ q, Le (ev1 q) (ev2 q)) (i : Id) (p : Prog T V α) :
    Le (evalProg g ev1 i p) (evalProg g ev2 i p) := by
  induction p with
  | ret a => exact Le.rfl
  | raise c => exact Le.rfl
  | term n k ih => exact ih _
  | child n k ih =>
    simp only [evalProg]
    cases hd : (g i).dterms n with
    | none => exact Le.rfl
    | some c =>
      dsimp only
      have := hev (.r c)
      cases h1 : ev1 (.r c) with
      | ok v => rw [h1] at this; rw [this (by simp)]; exact ih _
      | error e =>
        intro hne
        rw [h1] at this
        rw [this (by simpa using hne)]
  | prop p k ih =>
    simp only [evalProg]
    have := hev (.prop i p)
    cases h1 : ev1 (.prop i p) with
    | ok v => rw [h1] at this; rw [this (by simp)]; exact ih _
    | error e =>
      intro hne
      rw [h1] at this
      rw [this (by simpa using hne)]
  | selfR k ih =>
    simp only [evalProg]
    have := hev (.r i)
    cases h1 : ev1 (.r i) with
    | ok v => rw [h1] at this; rw [this (by simp)]; exact ih _
    | error e =>
      intro hne
      rw [h1] at this
      rw [this (by simpa using hne)]

theorem evalReq_succ (s : Sig C T V D) (g : Graph C T) (f : Nat) :
    ∀ q, Le (evalReq s g f q) (evalReq s g (f + 1) q) := by
  induction f with
  | zero => intro q h; cases q <;> exact absurd (by rfl) h
  | succ f ih =>
    intro q
    cases q with
    | r i => exact evalProg_mono g ih i _
    | prop i p =>
      simp only [evalReq]
      cases s.propDecl (g i).cls p with
      | none => exact Le.rfl
      | some d => exact evalProg_mono g ih i _

theorem le_of_succ {q : Nat → Except Err α} (hs : ∀ f, Le (q f) (q (f + 1))) {f f' : Nat}
    (h : f ≤ f') : Le (q f) (q f') := by
  induction h with
  | refl => exact Le.rfl
  | step _ ih => exact ih.trans (hs _)

theorem evalReq_mono (s : Sig C T V D) (g : Graph C T) {f f' : Nat} (h : f ≤ f') (q : Req) :
    Le (evalReq s g f q) (evalReq s g f' q) :=
  le_of_succ (q := fun f => evalReq s g f q) (fun f => evalReq_succ s g f q) h

/-- The specification is deterministic. -/
theorem Means.unique {s : Sig C T V D} {g : Graph C T} {q : Req} {r r' : Except Err V}
    (h : Means s g q r) (h' : Means s g q r') : r = r' := by
  obtain ⟨hn, f, hf⟩ := h
  obtain ⟨hn', f', hf'⟩ := h'
  have h1 := evalReq_mono s g (Nat.le_max_left f f') q (by rw [hf]; exact hn)
  have h2 := evalReq_mono s g (Nat.le_max_right f f') q (by rw [hf']; exact hn')
  rw [← hf, ← hf', ← h1, ← h2]

theorem evalCompDr_mono (s : Sig C T V D) (g : Graph C T) {f f' : Nat} (h : f ≤ f') (i w : Id) :
    Le (evalCompDr s g f i w) (evalCompDr s g f' i w) :=
  evalProg_mono g (evalReq_mono s g h) i _

theorem evalSlice_mono (s : Sig C T V D) (g : Graph C T) {f f' : Nat} (h : f ≤ f') (i : Id) :
    ∀ {n n' : Nat}, n ≤ n' → ∀ x, Le (evalSlice s g f i n x) (evalSlice s g f' i n' x) := by
  intro n
  induction n with
  | zero => intro n' _ x hne; exact absurd (by rfl) hne
  | succ n ih =>
    intro n' hn x
    obtain ⟨m, rfl⟩ : ∃ m, n' = m + 1 := ⟨n' - 1, by omega⟩
    simp only [evalSlice]
    split
    · split
      · exact Le.rfl
      · rename_i inner' _
        split
        · exact Le.rfl
        · have hc := evalCompDr_mono s g h i inner'
          cases h1 : evalCompDr s g f i inner' with
          | error e => intro hne; rw [h1] at hc; rw [hc (by simpa using hne)]
          | ok o =>
            rw [h1] at hc; rw [hc (by simp)]
            cases o with
            | none => exact ih (by omega) inner'
            | some d => exact Le.rfl
    · exact Le.rfl

theorem evalSliced_mono (s : Sig C T V D) (g : Graph C T) {f f' : Nat} (h : f ≤ f') (i w : Id) :
    Le (evalSliced s g f i w) (evalSliced s g f' i w) := by
  simp only [evalSliced]
  have hc := evalCompDr_mono s g h i w
  cases h1 : evalCompDr s g f i w with
  | error e => intro hne; rw [h1] at hc; rw [hc (by simpa using hne)]
  | ok o =>
    rw [h1] at hc; rw [hc (by simp)]
    cases o with
    | some d => exact Le.rfl
    | none =>
      dsimp only
      have hs := evalSlice_mono s g h i h w
      cases h2 : evalSlice s g f i f w with
      | error e => intro hne; rw [h2] at hs; rw [hs (by simpa using hne)]
      | ok o =>
        rw [h2] at hs; rw [hs (by simp)]
        cases o with
        | none => exact Le.rfl
        | some x =>
          obtain ⟨inner, d⟩ := x
          dsimp only
          have hc := evalCompDr_mono s g h w inner
          cases h3 : evalCompDr s g f w inner with
          | error e => intro hne; rw [h3] at hc; rw [hc (by simpa using hne)]
          | ok o => rw [h3] at hc; rw [hc (by simp)]; exact Le.rfl

theorem evalTerms_mono (s : Sig C T V D) (g : Graph C T) {f f' : Nat} (h : f ≤ f') (i w : Id)
    {ev ev' : Id → Except Err (Option D)} (hev : ∀ p, Le (ev p) (ev' p)) (ks : List Name) :
    ∀ acc, Le (evalTerms s g f i w ev ks acc) (evalTerms s g f' i w ev' ks acc) := by
  induction ks with
  | nil => intro acc; exact Le.rfl
  | cons k ks ih =>
    intro acc
    simp only [evalTerms]
    split
    · exact ih acc
    · rename_i p _
      split
      · exact ih acc
      · have h0 := hev p
        cases h1 : ev p with
        | error e => intro hne; rw [h1] at h0; rw [h0 (by simpa using hne)]
        | ok o =>
          rw [h1] at h0; rw [h0 (by simp)]
          cases o with
          | none => exact ih acc
          | some d2 =>
            dsimp only
            have hs := evalSliced_mono s g h i p
            cases h2 : evalSliced s g f i p with
            | error e => intro hne; rw [h2] at hs; rw [hs (by simpa using hne)]
            | ok o =>
              rw [h2] at hs; rw [hs (by simp)]
              cases o with
              | none => exact ih acc
              | some d =>
                dsimp only
                split
                · exact Le.rfl
                · exact ih _

theorem evalDr_succ (s : Sig C T V D) (g : Graph C T) (f : Nat) :
    ∀ i w, Le (evalDr s g f i w) (evalDr s g (f + 1) i w) := by
  induction f with
  | zero => intro i w h; exact absurd (by rfl) h
  | succ f ih =>
    intro i w
    rw [evalDr, evalDr]
    have hs := evalSliced_mono s g (Nat.le_succ f) i w
    cases h1 : evalSliced s g f i w with
    | error e => intro hne; rw [h1] at hs; rw [hs (by simpa using hne)]
    | ok o =>
      rw [h1] at hs; rw [hs (by simp)]
      dsimp only
      have ht := evalTerms_mono s g (Nat.le_succ f) i w (fun p => ih p w) (g i).dnames o.toList
      cases h2 : evalTerms s g f i w (fun p => evalDr s g f p w) (g i).dnames o.toList with
      | error e => intro hne; rw [h2] at ht; rw [ht (by simpa using hne)]
      | ok ds => rw [h2] at ht; rw [ht (by simp)]; exact Le.rfl

theorem evalDr_mono (s : Sig C T V D) (g : Graph C T) {f f' : Nat} (h : f ≤ f') (i w : Id) :
    Le (evalDr s g f i w) (evalDr s g f' i w) :=
  le_of_succ (q := fun f => evalDr s g f i w) (fun f => evalDr_succ s g f i w) h

theorem MeansDr.unique {s : Sig C T V D} {g : Graph C T} {i w : Id} {r r' : Except Err (Option D)}
    (h : MeansDr s g i w r) (h' : MeansDr s g i w r') : r = r' := by
  obtain ⟨hn, f, hf⟩ := h
  obtain ⟨hn', f', hf'⟩ := h'
  have h1 := evalDr_mono s g (Nat.le_max_left f f') i w (by rw [hf]; exact hn)
  have h2 := evalDr_mono s g (Nat.le_max_right f f') i w (by rw [hf']; exact hn')
  rw [← hf, ← hf', ← h1, ← h2]

end Chumpy
