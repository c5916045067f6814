import Verif.AD.Reverse
import Verif.AD.Select
/-!
# `dr_wrt` of a slice selects columns of `dr_wrt` of what it is a slice of (ch.py:283-312)
-/
namespace Chumpy
open scoped BigOperators

theorem evalSlice_perm {C T V D : Type} {S : Sig C T V D} {g : Graph C T} {f n : ℕ} {i inner a : Id} (hp : S.isPermute (g inner).cls = true)
    (ha : (g inner).dterms S.permArg = some a) : evalSlice S g f i (n + 1) inner =
      if a = i then .ok none
      else match evalCompDr S g f i a with
        | .error e => .error e
        | .ok (some d) => .ok (some (a, d))
        | .ok none => evalSlice S g f i n a := by
  simp only [evalSlice, hp, ha, if_true]
  rfl

theorem evalSlice_base {C T V D : Type} {S : Sig C T V D} {g : Graph C T} {f n : ℕ} {i inner : Id} (hp : S.isPermute (g inner).cls = false) :
    evalSlice S g f i (n + 1) inner = .ok none := by
  simp only [evalSlice, hp, Bool.false_eq_true, if_false]

section
variable {g : Graph ClassDef Par} {n : Id → ℕ}

/-- The sum that `dr_wrt` (ch.py:744-793) is, in terms of the matrices of the summands. -/
theorem evalDr_rep_sum {f : ℕ} {i w : Id} {o : Option Jac} {Pw : Ent} {Pm Dm : Id → Ent}
    (hPw : ∀ F o, evalSliced lib g F i w = .ok o → num.RepO o (n i) (n w) Pw)
    (hPm : ∀ k p, (g i).dterms k = some p → p ≠ w → ∀ F o, evalSliced lib g F i p = .ok o → num.RepO o (n i) (n p) (Pm p))
    (hDm : ∀ k p, (g i).dterms k = some p → p ≠ w → ∀ F o, F < f → evalDr lib g F p w = .ok o → num.RepO o (n p) (n w) (Dm p))
    (h : evalDr lib g f i w = .ok o) :
    num.RepO o (n i) (n w) (Pw + (((g i).dnames.filter fun k => ((g i).dterms k).isSome).map fun k =>
      if (g i).kid k = w then 0 else Ent.mul (n ((g i).kid k)) (Pm ((g i).kid k)) (Dm ((g i).kid k))).sum) := by
  cases f with
  | zero => cases h
  | succ f =>
  simp only [evalDr] at h
  cases hs : evalSliced lib g f i w with
  | error e => rw [hs] at h; cases h
  | ok direct =>
  rw [hs] at h; dsimp only at h
  cases ht : evalTerms lib g f i w (fun p => evalDr lib g f p w) (g i).dnames direct.toList with
  | error e => rw [ht] at h; cases h
  | ok ds =>
  rw [ht] at h; dsimp only at h
  cases hr : sumD lib ds with
  | error e => rw [hr] at h; cases h
  | ok r =>
  rw [hr] at h
  have hdirect := hPw f direct hs
  have hsr : SumRep num direct.toList (n i) (n w) Pw := by
    cases direct with
    | none => exact (SumRep.nil _ _).congr (Ent.EqOn.symm hdirect)
    | some d => simpa using (SumRep.nil (N := num) (n i) (n w)).append hdirect
  have hfw := sumD_rep (evalTerms_rep (N := num) n (fun k => Pm ((g i).kid k)) Dm
    (fun k p o hk hp he => hDm k p hk hp f o (Nat.lt_succ_self f) he)
    (fun k p d2 o hk hp he hso => by
      have : (g i).kid k = p := by simp [GNode.kid, hk]
      rw [this]
      exact hPm k p hk hp f o hso) (g i).dnames direct.toList ds _ hsr ht) hr
  injection h with h
  subst h
  cases r with
  | none => exact hfw
  | some d => exact Jac.outForm_rep _ _ (Jac.finish_rep hfw)

/-- If `dr_wrt` returns, it returned for every child that was asked. -/
theorem evalDr_kids_ok {f : ℕ} {i w : Id} {o : Option Jac} (hdecl : ∀ i k c, (g i).dterms k = some c → k ∈ (g i).dnames)
    (h : evalDr lib g f i w = .ok o) {k : Name} {p : Id} (hk : (g i).dterms k = some p) (hp : p ≠ w) :
    ∃ F o, evalDr lib g F p w = .ok o := by
  cases f with
  | zero => cases h
  | succ f =>
  simp only [evalDr] at h
  cases hs : evalSliced lib g f i w with
  | error e => rw [hs] at h; cases h
  | ok direct =>
  rw [hs] at h; dsimp only at h
  cases ht : evalTerms lib g f i w (fun p => evalDr lib g f p w) (g i).dnames direct.toList with
  | error e => rw [ht] at h; cases h
  | ok ds =>
  obtain ⟨o, ho⟩ := evalTerms_link_ok ht k (hdecl i k p hk) p hk hp
  exact ⟨f, o, ho⟩

/-- Conditions on a slice `s` of `a`, used in the derivative of `y`:
* `s` is a reordering object with the only operand `a`, and `a` is not one itself (one level);
* `y` is not `a`, and the graph has no cycles;
* under `y`, no object has `s` as two operands, and none but `s` has both `s` and `a` as operands. -/
structure SliceOk (g : Graph ClassDef Par) (y s a : Id) : Prop where
  permute : lib.isPermute (g s).cls = true
  arg : (g s).dterms nmA = some a
  only : ∀ k c, (g s).dterms k = some c → k = nmA
  base : lib.isPermute (g a).cls = false
  top : y ≠ a
  acyclic : ∀ i, Reaches g y i ∨ i = s → ¬ Relation.TransGen (Uses g) i i
  once : ∀ i k k', Reaches g y i → (g i).dterms k = some s → (g i).dterms k' = some s → k = k'
  apart : ∀ i k k', Reaches g y i → i ≠ s → (g i).dterms k = some s → (g i).dterms k' ≠ some a

theorem evalCompDr_none {f : ℕ} {i p : Id} (hip : i ≠ p) (hn : ∀ k, (g i).dterms k ≠ some p) : evalCompDr lib g f i p = .ok none := by
  have hnm : (g i).namesOf p = [] := by
    rw [List.eq_nil_iff_forall_not_mem]
    intro k hk
    simp only [GNode.namesOf, List.mem_filter, decide_eq_true_eq] at hk
    exact hn k hk.2
  have hb : (i == p) = false := by simpa using hip
  unfold evalCompDr
  rw [hb, hnm, lib_localDr]; rfl

variable {y s a : Id}

/-- The detour over `a` (ch.py:295-310). -/
theorem evalSliced_detour {f : ℕ} {i : Id} {o : Option Jac} (hperm : lib.isPermute (g s).cls = true) (harg : (g s).dterms nmA = some a)
    (hbase : lib.isPermute (g a).cls = false) (hia : i ≠ a) (hn : evalCompDr lib g f i s = .ok none)
    (h : evalSliced lib g f i s = .ok o) :
    (evalCompDr lib g f i a = .ok none ∧ o = none) ∨
    ∃ d j x, evalCompDr lib g f i a = .ok (some d) ∧ evalCompDr lib g f s a = .ok (some j) ∧ Jac.superdot d j.transp = .ok x ∧ o = some x := by
  unfold evalSliced at h
  rw [hn] at h; dsimp only at h
  cases f with
  | zero => simp [evalSlice] at h
  | succ f =>
    have harg' : (g s).dterms lib.permArg = some a := harg
    rw [evalSlice_perm hperm harg', if_neg (Ne.symm hia)] at h
    cases hc : evalCompDr lib g (f + 1) i a with
    | error e => rw [hc] at h; cases h
    | ok oa =>
      rw [hc] at h
      cases oa with
      | none =>
        left
        dsimp only at h
        cases f with
        | zero => simp [evalSlice] at h
        | succ f =>
          rw [evalSlice_base hbase] at h
          cases h
          exact ⟨rfl, rfl⟩
      | some d =>
        right
        dsimp only at h
        cases hj : evalCompDr lib g (f + 1) s a with
        | error e => rw [hj] at h; cases h
        | ok oj =>
          rw [hj] at h
          cases oj with
          | none => cases h
          | some j =>
            dsimp only at h
            cases hx : Jac.superdot d j.transp with
            | error e => rw [hx] at h; cases h
            | ok x =>
              rw [hx] at h
              cases h
              exact ⟨d, j, x, rfl, rfl, hx, rfl⟩

theorem evalDr_none_of {f : ℕ} {i w : Id} {o : Option Jac} (hd : ∀ F o, evalSliced lib g F i w = .ok o → o = none)
    (hk : ∀ k p F o, (g i).dterms k = some p → p ≠ w → F < f → evalDr lib g F p w = .ok o → o = none) (h : evalDr lib g f i w = .ok o) : o = none := by
  cases f with
  | zero => cases h
  | succ f =>
  simp only [evalDr] at h
  cases hs : evalSliced lib g f i w with
  | error e => rw [hs] at h; cases h
  | ok direct =>
  have := hd _ _ hs
  subst this
  rw [hs] at h; dsimp only at h
  cases ht : evalTerms lib g f i w (fun p => evalDr lib g f p w) (g i).dnames (Option.toList (none : Option Jac)) with
  | error e => rw [ht] at h; cases h
  | ok ds =>
    have := evalTerms_nil (fun k p o hk' hp he => hk k p f o hk' hp (Nat.lt_succ_self f) he) _ _ _ ht
    subst this
    rw [ht] at h
    simp only [Option.toList, sumD] at h
    cases h; rfl

/-- What does not use `a` has no derivative with respect to its slice. -/
theorem slice_none_of_not_reach (hperm : lib.isPermute (g s).cls = true) (harg : (g s).dterms nmA = some a) (hbase : lib.isPermute (g a).cls = false)
    (hdecl : ∀ i k c, (g i).dterms k = some c → k ∈ (g i).dnames) : ∀ (f : ℕ) (i : Id) (o : Option Jac), ¬ Reaches g i a →
    evalDr lib g f i s = .ok o → o = none := by
  intro f
  induction f using Nat.strong_induction_on with
  | _ f ih =>
  intro i o hi h
  have hsa : Uses g s a := ⟨nmA, hdecl _ _ _ harg, harg⟩
  have his : ∀ k, (g i).dterms k ≠ some s := fun k hk => hi (.head ⟨k, hdecl _ _ _ hk, hk⟩ (.single hsa))
  have hia : ∀ k, (g i).dterms k ≠ some a := fun k hk => hi (.single ⟨k, hdecl _ _ _ hk, hk⟩)
  have hne : i ≠ a := fun e => hi (e ▸ .refl)
  have hne' : i ≠ s := fun e => hi (e ▸ .single hsa)
  refine evalDr_none_of (fun F o ho => ?_) (fun k p F o hk hp hF ho => ?_) h
  · rcases evalSliced_detour hperm harg hbase hne (evalCompDr_none hne' his) ho with ⟨_, h⟩ | ⟨d, j, x, h, _⟩
    · exact h
    · rw [evalCompDr_none hne hia] at h; cases h
  · exact ih F hF p o (fun hr => hi (.head ⟨k, hdecl _ _ _ hk, hk⟩ hr)) ho

/-- `a.dr_wrt(a[key])` is `None` (ch.py:298-299). -/
theorem slice_none_base (hperm : lib.isPermute (g s).cls = true) (harg : (g s).dterms nmA = some a) (hbase : lib.isPermute (g a).cls = false)
    (hdecl : ∀ i k c, (g i).dterms k = some c → k ∈ (g i).dnames) (hacy : ¬ Relation.TransGen (Uses g) a a) {f : ℕ} {o : Option Jac}
    (h : evalDr lib g f a s = .ok o) : o = none := by
  have hsa : Uses g s a := ⟨nmA, hdecl _ _ _ harg, harg⟩
  have has : a ≠ s := fun e => by rw [← e, hbase] at hperm; cases hperm
  refine evalDr_none_of (fun F o ho => ?_) (fun k p F o hk hp hF ho => ?_) h
  · have hn : evalCompDr lib g F a s = .ok none := evalCompDr_none has fun k hk => hacy (.head ⟨k, hdecl _ _ _ hk, hk⟩ (.single hsa))
    unfold evalSliced at ho
    rw [hn] at ho; dsimp only at ho
    cases F with
    | zero => simp [evalSlice] at ho
    | succ F =>
      have harg' : (g s).dterms lib.permArg = some a := harg
      rw [evalSlice_perm hperm harg', if_pos rfl] at ho
      cases ho; rfl
  · refine slice_none_of_not_reach hperm harg hbase hdecl F p o (fun hr => ?_) ho
    exact hacy (Relation.TransGen.head' ⟨k, hdecl _ _ _ hk, hk⟩ hr)

/-- The columns `σ` of a matrix. -/
def Ent.cols (σ : ℕ → ℕ) (M : Ent) : Ent := fun r j => M r (σ j)

theorem Ent.cols_mul (m : ℕ) (σ : ℕ → ℕ) (A B : Ent) : (Ent.mul m A B).cols σ = Ent.mul m A (B.cols σ) := rfl
theorem Ent.cols_add (σ : ℕ → ℕ) (A B : Ent) : (A + B).cols σ = A.cols σ + B.cols σ := rfl
theorem Ent.cols_zero (σ : ℕ → ℕ) : (0 : Ent).cols σ = 0 := rfl
theorem Ent.cols_sum {ι : Type} (σ : ℕ → ℕ) (l : List ι) (G : ι → Ent) : (l.map G).sum.cols σ = (l.map fun k => (G k).cols σ).sum := by
  induction l with
  | nil => rfl
  | cons x l ih => rw [List.map_cons, List.sum_cons, List.map_cons, List.sum_cons, Ent.cols_add, ih]

theorem Ent.EqOn.cols {m k n : ℕ} {σ : ℕ → ℕ} (hσ : ∀ j < k, σ j < n) {A B : Ent} (h : Ent.EqOn m n A B) : Ent.EqOn m k (A.cols σ) (B.cols σ) :=
  fun r hr j hj => h r hr (σ j) (hσ j hj)

/-- Multiplication with the transpose of a selection selects columns. -/
theorem Ent.mul_sel_tr {m k n : ℕ} {σ : ℕ → ℕ} (hσ : ∀ j < k, σ j < n) (A : Ent) :
    Ent.EqOn m k (Ent.mul n A (selMat σ fun _ => 1).tr) (A.cols σ) := by
  intro r _ j hj
  simp only [Ent.mul, Ent.tr, selMat, Ent.cols]
  rw [Finset.sum_eq_single (σ j)]
  · simp
  · intro b _ hb; rw [if_neg (by first | exact hb | exact Ne.symm hb)]; simp
  · intro h; exact absurd (Finset.mem_range.2 (hσ j hj)) h

/-- Selecting what was selected. -/
theorem Ent.sel_cols {k : ℕ} {σ : ℕ → ℕ} (hi : ∀ j < k, ∀ j' < k, σ j = σ j' → j = j') :
    Ent.EqOn k k ((selMat σ fun _ => 1).cols σ) Ent.one := by
  intro r hr j hj
  simp only [selMat, Ent.cols, Ent.one]
  by_cases h : r = j
  · subst h; simp
  · rw [if_neg (fun e => h (hi r hr j hj e)), if_neg h]

theorem sum_split {ι : Type} (l : List ι) (G H K : ι → Ent) {m n : ℕ} (h : ∀ k ∈ l, Ent.EqOn m n (G k) (H k + K k)) :
    Ent.EqOn m n (l.map G).sum ((l.map H).sum + (l.map K).sum) := by
  induction l with
  | nil => intro r _ j _; simp
  | cons x l ih =>
    simp only [List.map_cons, List.sum_cons]
    have h1 := h x (by simp)
    have h2 := ih fun k hk => h k (by simp [hk])
    intro r hr j hj
    have e1 := h1 r hr j hj
    have e2 := h2 r hr j hj
    simp only [Pi.add_apply] at e1 e2 ⊢
    rw [e1, e2]; ring

/-- Main lemma: the derivative with respect to the slice is the columns `σ`. -/
theorem slice_columns (hdecl : ∀ i k c, (g i).dterms k = some c → k ∈ (g i).dnames) (hnd : ∀ i, Reaches g y i → (g i).dnames.Nodup)
    (hsz : ∀ i, Reaches g y i ∨ i = s ∨ i = a → SizesOk g n i) (hs : SliceOk g y s a)
    {σ : ℕ → ℕ} (hσ : ∀ j < n s, σ j < n a) (hinj : ∀ j < n s, ∀ j' < n s, σ j = σ j' → j = j')
    (hJ : ∀ F o, evalCompDr lib g F s a = .ok o → num.RepO o (n s) (n a) (selMat σ fun _ => 1)) :
    ∀ (f : ℕ) (i : Id) (f' : ℕ) (o o' : Option Jac) (M : Ent), Reaches g y i → i ≠ a → i ≠ s → evalDr lib g f i s = .ok o →
      evalDr lib g f' i a = .ok o' → num.RepO o' (n i) (n a) M → num.RepO o (n i) (n s) (M.cols σ) := by
  intro f
  induction f using Nat.strong_induction_on with
  | _ f ih =>
  intro i f' o o' M hi hia his h h' hM
  have hsa : Uses g s a := ⟨nmA, hdecl _ _ _ hs.arg, hs.arg⟩
  have hreach : ∀ k p, (g i).dterms k = some p → Reaches g y p := fun k p hk => hi.tail ⟨k, hdecl i k p hk, hk⟩
  have hP : ∀ p, ∃ E, (SizesOk g n p → ∀ F o, evalSliced lib g F i p = .ok o → num.RepO o (n i) (n p) E) := by
    intro p
    by_cases hp : SizesOk g n p
    · obtain ⟨E, hE⟩ := pick_rep (R := fun o => ∃ F, evalSliced lib g F i p = .ok o) (m := n i) (n := n p)
        (by rintro a b ⟨F, ha⟩ ⟨F', hb⟩; exact evalSliced_unique ha hb)
        (by rintro d ⟨F, hd⟩; exact evalSliced_sizes (hsz i (Or.inl hi)) hp hd)
      exact ⟨E, fun _ F o ho => hE o ⟨F, ho⟩⟩
    · exact ⟨0, fun h => absurd h hp⟩
  have hD : ∀ p, ∃ E, (Reaches g y p → ∀ F o, evalDr lib g F p a = .ok o → num.RepO o (n p) (n a) E) := by
    intro p
    by_cases hp : Reaches g y p
    · obtain ⟨E, hE⟩ := pick_rep (R := fun o => ∃ F, evalDr lib g F p a = .ok o) (m := n p) (n := n a)
        (by rintro a b ⟨F, ha⟩ ⟨F', hb⟩; exact evalDr_unique ha hb)
        (by rintro d ⟨F, hd⟩
            exact (evalDr_sizes (hsz a (Or.inr (Or.inr rfl))) F p d (fun i hi => hsz i (Or.inl (hp.trans hi))) hdecl hd).2)
      exact ⟨E, fun _ F o ho => hE o ⟨F, ho⟩⟩
    · exact ⟨0, fun h => absurd h hp⟩
  choose Pm hPm using hP
  choose Dm hDm using hD
  have ha := hPm a (hsz a (Or.inr (Or.inr rfl)))
  have hss := hPm s (hsz s (Or.inr (Or.inl rfl)))
  have hfa := evalDr_rep_sum (n := n) (Pw := Pm a) (Pm := Pm) (Dm := Dm) ha
    (fun k p hk _ => hPm p (hsz p (Or.inl (hreach k p hk)))) (fun k p hk _ F o _ => hDm p (hreach k p hk) F o) h'
  have hMa := repO_unique hM hfa
  have hfs := evalDr_rep_sum (n := n) (Pw := Pm s) (Pm := Pm) (Dm := fun p => if p = a then 0 else (Dm p).cols σ) hss
    (fun k p hk _ => hPm p (hsz p (Or.inl (hreach k p hk)))) (fun k p hk hps F o hF ho => by
      by_cases hpa : p = a
      · subst hpa
        rw [if_pos rfl]
        have := slice_none_base hs.permute hs.arg hs.base hdecl (hs.acyclic p (Or.inl (hreach k p hk))) ho
        subst this
        exact Ent.EqOn.refl _
      · rw [if_neg hpa]
        obtain ⟨F', o', ho'⟩ := evalDr_kids_ok hdecl h' hk hpa
        exact ih F hF p F' o o' _ (hreach k p hk) hpa hps ho ho' (hDm p (hreach k p hk) F' o' ho')) h
  refine num.repO_congr (Ent.EqOn.symm ?_) hfs
  refine (Ent.EqOn.cols hσ hMa).trans ?_
  rw [Ent.cols_add, Ent.cols_sum]
  -- the derivative of the slice itself
  have hDs : Reaches g y s → Ent.EqOn (n s) (n a) (Dm s) (selMat σ fun _ => 1) ∨ ∀ F o, evalDr lib g F s a ≠ .ok o := by
    intro hys
    by_cases hex : ∃ F o, evalDr lib g F s a = .ok o
    · left
      obtain ⟨F, o, ho⟩ := hex
      have h1 := hDm s hys F o ho
      have h2 := evalDr_rep_sum (n := n) (Pw := selMat σ fun _ => 1) (Pm := fun _ => 0) (Dm := fun _ => 0) (fun F o ho => by
        exact hJ F o (evalSliced_plain hs.base ho))
        (fun k p hk hp => by
          have := hs.only k p hk
          subst this
          rw [hs.arg] at hk; cases hk; exact absurd rfl hp)
        (fun k p hk hp => by
          have := hs.only k p hk
          subst this
          rw [hs.arg] at hk; cases hk; exact absurd rfl hp) ho
      refine (repO_unique h1 h2).trans ?_
      intro r hr j hj
      have e : ∀ l : List Name, (l.map fun k => if (g s).kid k = a then (0 : Ent) else Ent.mul (n ((g s).kid k)) 0 0).sum = 0 := by
        intro l
        induction l with
        | nil => rfl
        | cons x l ih => rw [List.map_cons, List.sum_cons, ih, Ent.mul_zero_left]; simp
      rw [e]; simp
    · right
      intro F o ho; exact hex ⟨F, o, ho⟩
  by_cases huse : ∃ k, (g i).dterms k = some s
  · -- `i` uses the slice, and so not `a`
    obtain ⟨k₀, hk₀⟩ := huse
    have hna : ∀ k, (g i).dterms k ≠ some a := fun k => hs.apart i k₀ k hi his hk₀
    have hPa : Ent.EqOn (n i) (n a) (Pm a) 0 := by
      have hs1 : evalSliced lib g 1 i a = .ok none := by
        unfold evalSliced
        rw [evalCompDr_none hia hna]; dsimp only
        rw [evalSlice_base hs.base]
      exact ha 1 none hs1
    have hsne : s ≠ a := fun e => by
      have := hs.permute
      rw [e, hs.base] at this; cases this
    have hJs : Ent.EqOn (n s) (n a) (Dm s) (selMat σ fun _ => 1) := by
      rcases hDs (hreach k₀ s hk₀) with h | h
      · exact h
      · obtain ⟨F, o, ho⟩ := evalDr_kids_ok hdecl h' hk₀ hsne
        exact absurd ho (h F o)
    have hone : Ent.EqOn (n i) (n s) (Ent.mul (n s) (Pm s) ((Dm s).cols σ)) (Pm s) :=
      (Ent.mul_congr (Ent.EqOn.refl _) ((Ent.EqOn.cols hσ hJs).trans (Ent.sel_cols hinj))).trans (Ent.mul_one _)
    -- move the summand of `k₀`
    have hsum := sum_split ((g i).dnames.filter fun k => ((g i).dterms k).isSome)
      (fun k => (if (g i).kid k = a then (0 : Ent) else Ent.mul (n ((g i).kid k)) (Pm ((g i).kid k)) (Dm ((g i).kid k))).cols σ)
      (fun k => if k = k₀ then Pm s else 0)
      (fun k => if (g i).kid k = s then (0 : Ent) else Ent.mul (n ((g i).kid k)) (Pm ((g i).kid k)) (if (g i).kid k = a then 0 else (Dm ((g i).kid k)).cols σ))
      (m := n i) (n := n s) (by
        intro k hk
        obtain ⟨p, hp⟩ := Option.isSome_iff_exists.1 (List.mem_filter.1 hk).2
        have hkid : (g i).kid k = p := by simp [GNode.kid, hp]
        simp only [hkid]
        have hpa : p ≠ a := fun e => hna k (e ▸ hp)
        rw [if_neg hpa, Ent.cols_mul, if_neg hpa]
        by_cases hps : p = s
        · have : k = k₀ := hs.once i k k₀ hi (hps ▸ hp) hk₀
          rw [if_pos this, if_pos hps, hps, add_zero]
          exact hone
        · have : k ≠ k₀ := fun e => by rw [e, hk₀] at hp; cases hp; exact hps rfl
          rw [if_neg this, if_neg hps, zero_add]
          exact Ent.EqOn.refl _)
    have hk₀s : (((g i).dnames.filter fun k => ((g i).dterms k).isSome).map fun k => if k = k₀ then Pm s else 0).sum = Pm s := by
      have hmem : k₀ ∈ (g i).dnames.filter fun k => ((g i).dterms k).isSome := by
        rw [List.mem_filter]; exact ⟨hdecl _ _ _ hk₀, by rw [hk₀]; rfl⟩
      have hn := (hnd i hi).filter fun k => ((g i).dterms k).isSome
      generalize (g i).dnames.filter (fun k => ((g i).dterms k).isSome) = l at hmem hn
      induction l with
      | nil => cases hmem
      | cons x l ihl =>
        rw [List.map_cons, List.sum_cons]
        rw [List.nodup_cons] at hn
        rcases List.mem_cons.1 hmem with rfl | hm
        · rw [if_pos rfl]
          have : ∀ l : List Name, k₀ ∉ l → (l.map fun k => if k = k₀ then Pm s else 0).sum = 0 := by
            intro l hl
            induction l with
            | nil => rfl
            | cons z l ih2 =>
              rw [List.mem_cons, not_or] at hl
              rw [List.map_cons, List.sum_cons, if_neg (Ne.symm hl.1), ih2 hl.2, add_zero]
          rw [this l hn.1, add_zero]
        · rw [if_neg (fun e : x = k₀ => hn.1 (by rw [e]; exact hm)), zero_add]
          exact ihl hm hn.2
    rw [hk₀s] at hsum
    refine ((Ent.EqOn.cols hσ hPa).add hsum).trans ?_
    rw [Ent.cols_zero, zero_add]
    exact Ent.EqOn.refl _
  · -- `i` does not use the slice
    rw [not_exists] at huse
    have hPs : Ent.EqOn (n i) (n s) ((Pm a).cols σ) (Pm s) := by
      have hdet : ∀ F o, evalSliced lib g F i s = .ok o → num.RepO o (n i) (n s) ((Pm a).cols σ) := by
        intro F o ho
        rcases evalSliced_detour hs.permute hs.arg hs.base hia (evalCompDr_none his huse) ho with ⟨h1, rfl⟩ | ⟨d, j, x, h1, h2, h3, rfl⟩
        · have hs1 : evalSliced lib g (F + 1) i a = .ok none := by
            unfold evalSliced
            rw [evalCompDr_up (Nat.le_succ F) h1]; dsimp only
            rw [evalSlice_base hs.base]
          have := Ent.EqOn.cols hσ (ha _ none hs1 : Ent.EqOn _ _ _ _)
          exact this
        · have hs1 : evalSliced lib g F i a = .ok (some d) := by unfold evalSliced; rw [h1]
          have h4 := ha F (some d) hs1
          obtain ⟨x', hx', hr⟩ := Jac.superdot_rep (show Jac.Rep d (n i) (n a) (Pm a) from h4) (Jac.transp_rep (show Jac.Rep j (n s) (n a) _ from hJ F (some j) h2))
          rw [h3] at hx'; cases hx'
          exact Jac.rep_congr (Ent.mul_sel_tr hσ _) hr
      have hex : ∃ F o, evalSliced lib g F i s = .ok o := by
        cases f with
        | zero => cases h
        | succ f =>
          simp only [evalDr] at h
          cases hs' : evalSliced lib g f i s with
          | error e => rw [hs'] at h; cases h
          | ok direct => exact ⟨f, direct, hs'⟩
      obtain ⟨F, o, ho⟩ := hex
      exact repO_unique (hdet F o ho) (hss F o ho)
    refine hPs.add ?_
    have hsum := sum_split ((g i).dnames.filter fun k => ((g i).dterms k).isSome)
      (fun k => (if (g i).kid k = a then (0 : Ent) else Ent.mul (n ((g i).kid k)) (Pm ((g i).kid k)) (Dm ((g i).kid k))).cols σ)
      (fun k => 0)
      (fun k => if (g i).kid k = s then (0 : Ent) else Ent.mul (n ((g i).kid k)) (Pm ((g i).kid k)) (if (g i).kid k = a then 0 else (Dm ((g i).kid k)).cols σ))
      (m := n i) (n := n s) (by
        intro k hk
        obtain ⟨p, hp⟩ := Option.isSome_iff_exists.1 (List.mem_filter.1 hk).2
        have hkid : (g i).kid k = p := by simp [GNode.kid, hp]
        simp only [hkid]
        have hps : p ≠ s := fun e => huse k (by rw [← e]; exact hp)
        rw [if_neg hps, zero_add]
        by_cases hpa : p = a
        · rw [if_pos hpa, if_pos hpa, Ent.mul_zero_right]; exact Ent.EqOn.refl _
        · rw [if_neg hpa, if_neg hpa]; exact Ent.EqOn.refl _)
    have hz : (((g i).dnames.filter fun k => ((g i).dterms k).isSome).map fun _ => (0 : Ent)).sum = 0 := by
      generalize (g i).dnames.filter (fun k => ((g i).dterms k).isSome) = l
      induction l with
      | nil => rfl
      | cons x l ihl => rw [List.map_cons, List.sum_cons, ihl, add_zero]
    rw [hz, zero_add] at hsum
    exact hsum
end
end Chumpy
