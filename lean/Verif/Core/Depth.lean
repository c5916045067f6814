import Verif.Core.SpecLemmas
import Verif.Core.Traverse
/-!
# How deep the recursion goes

`y.r` asks the objects `y` refers to, these ask theirs, and so on (ch.py:593-600, 729-834).  If the graph under `y` has a finite height, a stack as
deep as that height suffices.
-/
namespace Chumpy
variable {C T V D α : Type} {s : Sig C T V D} {g : Graph C T}

/-- The body does not ask for the value of its own object. -/
def Prog.NoSelf : Prog T V α → Prop
  | .ret _ => True
  | .raise _ => True
  | .term _ k => ∀ t, (k t).NoSelf
  | .child _ k => ∀ v, (k v).NoSelf
  | .prop _ k => ∀ v, (k v).NoSelf
  | .selfR _ => False

/-- The objects of `P` refer to objects of `P` of smaller height only, and their classes neither have `@depends_on` properties nor a `compute_r`
that reads the own value. -/
structure Heights (s : Sig C T V D) (g : Graph C T) (P : Id → Prop) (ρ : Id → Nat) : Prop where
  kid : ∀ i, P i → ∀ k c, (g i).dterms k = some c → P c ∧ ρ c < ρ i
  props : ∀ i, P i → ∀ p, s.propDecl (g i).cls p = none
  noself : ∀ i, P i → (s.computeR (g i).cls).NoSelf

/-- Arithmetic on derivatives does not overflow the stack. -/
structure Shallow (s : Sig C T V D) : Prop where
  superdot : ∀ a b, s.superdot a b ≠ .error .fuel
  add : ∀ a b, s.add a b ≠ .error .fuel

theorem evalProg_ends {ev : Req → Except Err V} {i : Id} (hk : ∀ k c, (g i).dterms k = some c → ev (.r c) ≠ .error .fuel)
    (hp : ∀ p, ev (.prop i p) ≠ .error .fuel) (p : Prog T V α) (hs : p.NoSelf ∨ ev (.r i) ≠ .error .fuel) : evalProg g ev i p ≠ .error .fuel := by
  induction p with
  | ret a => simp [evalProg]
  | raise c => simp [evalProg]
  | term n k ih => exact ih _ (hs.imp (fun h => h _) id)
  | child n k ih =>
    simp only [evalProg]
    cases hd : (g i).dterms n with
    | none => simp
    | some c =>
      dsimp only
      have := hk n c hd
      cases h1 : ev (.r c) with
      | ok v => exact ih v (hs.imp (fun h => h v) id)
      | error e => rw [h1] at this; simpa using this
  | prop p k ih =>
    simp only [evalProg]
    have := hp p
    cases h1 : ev (.prop i p) with
    | ok v => exact ih v (hs.imp (fun h => h v) id)
    | error e => rw [h1] at this; simpa using this
  | selfR k ih =>
    simp only [evalProg]
    have := hs.resolve_left id
    cases h1 : ev (.r i) with
    | ok v => exact ih v (Or.inr this)
    | error e => rw [h1] at this; simpa using this

section
variable {P : Id → Prop} {ρ : Id → Nat}

theorem Heights.prop (hh : Heights s g P ρ) {i : Id} (hi : P i) {f : Nat} (hf : 0 < f) (p : Name) : evalReq s g f (.prop i p) ≠ .error .fuel := by
  obtain ⟨f, rfl⟩ : ∃ n, f = n + 1 := ⟨f - 1, by omega⟩
  simp [evalReq, hh.props i hi p]

/-- Values. -/
theorem Heights.value (hh : Heights s g P ρ) : ∀ (n : Nat) (i : Id), P i → ρ i ≤ n → ∀ f, ρ i + 2 ≤ f → evalReq s g f (.r i) ≠ .error .fuel
  | n, i, hi, hn, f, hf => by
    obtain ⟨f, rfl⟩ : ∃ n, f = n + 1 := ⟨f - 1, by omega⟩
    rw [evalReq]
    refine evalProg_ends (fun k c hk => ?_) (fun p => hh.prop hi (by omega) p) _ (Or.inl (hh.noself i hi))
    have := hh.kid i hi k c hk
    cases n with
    | zero => omega
    | succ n => exact Heights.value hh n c this.1 (by omega) f (by omega)

theorem Heights.comp (hh : Heights s g P ρ) {i : Id} (hi : P i) {f : Nat} (hf : ρ i + 2 ≤ f) (w : Id) : evalCompDr s g f i w ≠ .error .fuel := by
  refine evalProg_ends (fun k c hk => ?_) (fun p => hh.prop hi (by omega) p) _ (Or.inr (hh.value _ i hi (Nat.le_refl _) f hf))
  have := hh.kid i hi k c hk
  exact hh.value _ c this.1 (Nat.le_refl _) f (by omega)

theorem Heights.slice (hh : Heights s g P ρ) {i : Id} (hi : P i) {f : Nat} (hf : ρ i + 2 ≤ f) : ∀ (n : Nat) (x : Id), P x → ρ x < n →
    evalSlice s g f i n x ≠ .error .fuel ∧ ∀ q, evalSlice s g f i n x = .ok (some q) → P q.1
  | 0, _, _, h => absurd h (Nat.not_lt_zero _)
  | n + 1, x, hx, h => by
    simp only [evalSlice]
    split
    · cases hd : (g x).dterms s.permArg with
      | none => simp
      | some c =>
        have hc := hh.kid x hx _ c hd
        dsimp only
        split
        · simp
        · have h1 := hh.comp hi hf c
          cases h2 : evalCompDr s g f i c with
          | error e => rw [h2] at h1; simpa using h1
          | ok o =>
            cases o with
            | none => exact Heights.slice hh hi hf n c hc.1 (by omega)
            | some d =>
              refine ⟨by simp, fun q hq => ?_⟩
              simp only [Except.ok.injEq, Option.some.injEq] at hq
              rw [← hq]; exact hc.1
    · simp

theorem Heights.sliced (hh : Heights s g P ρ) (hs : Shallow s) {i w : Id} (hi : P i) (hw : P w) {f : Nat} (hf : ρ i + 2 ≤ f) (hfw : ρ w + 2 ≤ f) :
    evalSliced s g f i w ≠ .error .fuel := by
  unfold evalSliced
  have h1 := hh.comp hi hf w
  cases h2 : evalCompDr s g f i w with
  | error e => rw [h2] at h1; simpa using h1
  | ok o =>
    cases o with
    | some d => simp
    | none =>
      dsimp only
      have h3 := hh.slice hi hf f w hw (by omega)
      cases h4 : evalSlice s g f i f w with
      | error e => rw [h4] at h3; simpa using h3.1
      | ok o =>
        cases o with
        | none => simp
        | some q =>
          obtain ⟨inner, d⟩ := q
          dsimp only
          have h5 := hh.comp hw hfw inner
          cases h6 : evalCompDr s g f w inner with
          | error e => rw [h6] at h5; simpa using h5
          | ok o =>
            cases o with
            | none => simp
            | some j =>
              have := hs.superdot d (s.transp j)
              dsimp only
              cases h7 : s.superdot d (s.transp j) with
              | error e => rw [h7] at this; simpa [Except.map] using this
              | ok x => simp [Except.map]

theorem Heights.terms (hh : Heights s g P ρ) (hs : Shallow s) {i w : Id} (hi : P i) {f : Nat} (hf : ρ i + 2 ≤ f)
    {ev : Id → Except Err (Option D)} (hev : ∀ k c, (g i).dterms k = some c → ev c ≠ .error .fuel) (ks : List Name) :
    ∀ acc, evalTerms s g f i w ev ks acc ≠ .error .fuel := by
  induction ks with
  | nil => intro acc; simp [evalTerms]
  | cons k ks ih =>
    intro acc
    simp only [evalTerms]
    cases hd : (g i).dterms k with
    | none => exact ih acc
    | some p =>
      have hp := hh.kid i hi k p hd
      dsimp only
      split
      · exact ih acc
      · have h0 := hev k p hd
        cases h1 : ev p with
        | error e => rw [h1] at h0; simpa using h0
        | ok o =>
          cases o with
          | none => exact ih acc
          | some d2 =>
            dsimp only
            have h2 := hh.sliced hs hi hp.1 hf (by omega)
            cases h3 : evalSliced s g f i p with
            | error e => rw [h3] at h2; simpa using h2
            | ok o =>
              cases o with
              | none => exact ih acc
              | some d =>
                dsimp only
                have h4 := hs.superdot d d2
                cases h5 : s.superdot d d2 with
                | error e => rw [h5] at h4; simpa using h4
                | ok x => exact ih _

theorem sumD_ends (hs : Shallow s) (ds : List D) : sumD s ds ≠ .error .fuel := by
  cases ds with
  | nil => simp [sumD]
  | cons d ds =>
    have key : ∀ (ds : List D) d, ds.foldlM s.add d ≠ (.error .fuel : Except Err D) := by
      intro ds
      induction ds with
      | nil => intro d; simp [pure, Except.pure]
      | cons e ds ih =>
        intro d
        rw [List.foldlM_cons]
        have h1 := hs.add d e
        cases h2 : s.add d e with
        | error e => rw [h2] at h1; simpa [bind, Except.bind] using h1
        | ok x => exact ih x
    have := key ds d
    simp only [sumD]
    cases h : ds.foldlM s.add d with
    | error e => rw [h] at this; simpa [Except.map] using this
    | ok x => simp [Except.map]

/-- Derivatives. -/
theorem Heights.dr (hh : Heights s g P ρ) (hs : Shallow s) {w : Id} (hw : P w) : ∀ (n : Nat) (i : Id), P i → ρ i ≤ n →
    ∀ f, ρ i + max (ρ i) (ρ w) + 3 ≤ f → evalDr s g f i w ≠ .error .fuel
  | n, i, hi, hn, f, hf => by
    obtain ⟨f, rfl⟩ : ∃ n, f = n + 1 := ⟨f - 1, by omega⟩
    rw [evalDr]
    have h1 := hh.sliced hs hi hw (f := f) (by omega) (by omega)
    cases h2 : evalSliced s g f i w with
    | error e => rw [h2] at h1; simpa using h1
    | ok o =>
      dsimp only
      have h3 := hh.terms hs (w := w) hi (f := f) (by omega) (ev := fun p => evalDr s g f p w) (by
        intro k c hk
        have := hh.kid i hi k c hk
        cases n with
        | zero => omega
        | succ n => exact Heights.dr hh hs hw n c this.1 (by omega) f (by omega)) (g i).dnames o.toList
      cases h4 : evalTerms s g f i w (fun p => evalDr s g f p w) (g i).dnames o.toList with
      | error e => rw [h4] at h3; simpa using h3
      | ok ds =>
        dsimp only
        have h5 := sumD_ends hs ds
        cases h6 : sumD s ds with
        | error e => rw [h6] at h5; simpa using h5
        | ok r => simp
end
end Chumpy
