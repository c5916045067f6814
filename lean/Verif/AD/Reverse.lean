import Verif.Core.Reverse
import Verif.AD.Shape
import Verif.AD.Total
import Verif.AD.Steps
/-!
# `lop`, `lmult_wrt` and reverse mode multiply the same matrices as `dr_wrt`
-/
namespace Chumpy
open scoped BigOperators

namespace Jac
/-- The truth value of `d != None` (ch.py:657): numpy compares entry by entry, and an array with several entries has no
truth value (`ValueError`); numbers and sparse matrices compare as one object. -/
def neNone : Jac → Except Err Bool
  | .num _ => .ok true
  | .sparse _ _ _ => .ok true
  | .dense m n _ => if m * n = 1 then .ok true else if m * n = 0 then .ok false else .error (.user 0)

theorem neNone_false {d : Jac} {m n : ℕ} {E : Ent} (h : neNone d = .ok false) (hr : Rep d m n E) : m * n = 0 := by
  cases d with
  | num c => cases h
  | sparse a b e => cases h
  | dense a b e =>
    obtain ⟨rfl, rfl, _⟩ := hr
    simp only [neNone] at h
    split at h
    · cases h
    · split at h
      · assumption
      · cases h

theorem Rep.unique {d : Jac} {m n : ℕ} {A B : Ent} (hA : Rep d m n A) (hB : Rep d m n B) : Ent.EqOn m n A B := by
  cases d with
  | num c =>
    obtain ⟨rfl, rfl, h⟩ := hA
    obtain ⟨_, _, h'⟩ := hB
    intro i hi j hj
    have hi : i = 0 := by omega
    have hj : j = 0 := by omega
    subst hi hj; rw [h, h']
  | dense a b e => obtain ⟨rfl, rfl, h⟩ := hA; exact h.symm.trans hB.2.2
  | sparse a b e => obtain ⟨rfl, rfl, h⟩ := hA; exact h.symm.trans hB.2.2

theorem todense_rep_iff {d : Jac} {m n : ℕ} {A : Ent} : Rep d.todense m n A ↔ Rep d m n A := by
  cases d <;> exact Iff.rfl
end Jac

theorem repO_unique {o : Option Jac} {m n : ℕ} {A B : Ent} (hA : num.RepO o m n A) (hB : num.RepO o m n B) : Ent.EqOn m n A B := by
  cases o with
  | none =>
    have h1 : Ent.EqOn m n A 0 := hA
    have h2 : Ent.EqOn m n B 0 := hB
    exact h1.trans h2.symm
  | some d => exact Jac.Rep.unique hA hB

theorem pick_rep {R : Option Jac → Prop} {m n : ℕ} (hu : ∀ a b, R a → R b → a = b)
    (hs : ∀ d, R (some d) → ∃ E, Jac.Rep d m n E) : ∃ E, ∀ o, R o → num.RepO o m n E := by
  by_cases h : ∃ d, R (some d)
  · obtain ⟨d, hd⟩ := h
    obtain ⟨E, hE⟩ := hs d hd
    refine ⟨E, fun o ho => ?_⟩
    have := hu _ _ ho hd
    subst this; exact hE
  · refine ⟨0, fun o ho => ?_⟩
    cases o with
    | none => exact Ent.EqOn.refl _
    | some d => exact absurd ⟨d, ho⟩ h

theorem Ent.mul_list_sum (n : ℕ) (A : Ent) (l : List Ent) : Ent.mul n A l.sum = (l.map fun B => Ent.mul n A B).sum := by
  induction l with
  | nil => simp [Ent.mul_zero_right]
  | cons B l ih => simp [Ent.mul_add, ih]

theorem SumRep.map {m n : ℕ} {ds : List Jac} {E : Ent} {p : Jac → Jac} (hp : ∀ d A, Jac.Rep d m n A → Jac.Rep (p d) m n A)
    (h : SumRep num ds m n E) : SumRep num (ds.map p) m n E := by
  obtain ⟨Es, h1, h2⟩ := h
  refine ⟨Es, ?_, h2⟩
  clear h2
  induction h1 with
  | nil => exact .nil
  | cons hd _ ih => exact .cons (hp _ _ hd) ih

/-- What the two walks need of their style, if they visit the objects `S`. -/
structure StyleOk (g : Graph ClassDef Par) (w : Id) (st : RevStyle ClassDef Par Jac) (S : Id → Prop) : Prop where
  keep : ∀ f f' p o, S p → p ≠ w → st.keep g f p w = some false → evalDr lib g f' p w = .ok o → o = none
  use : ∀ d m n E, st.use d = .ok false → Jac.Rep d m n E → m * n = 0
  post : ∀ d m n E, Jac.Rep d m n E → Jac.Rep (st.post d) m n E

section
variable {g : Graph ClassDef Par} {w : Id} {st : RevStyle ClassDef Par Jac} {S : Id → Prop}

theorem evalSliced_unique {i p : Id} {f f' : ℕ} {a b : Option Jac} (h : evalSliced lib g f i p = .ok a)
    (h' : evalSliced lib g f' i p = .ok b) : a = b := by
  have h1 := evalSliced_mono lib g (Nat.le_max_left f f') i p
  have h2 := evalSliced_mono lib g (Nat.le_max_right f f') i p
  rw [Le, h] at h1; rw [Le, h'] at h2
  have := (h1 (by simp)).symm.trans (h2 (by simp))
  injection this

theorem evalDr_unique {i p : Id} {f f' : ℕ} {a b : Option Jac} (h : evalDr lib g f i p = .ok a)
    (h' : evalDr lib g f' i p = .ok b) : a = b := by
  have h1 := evalDr_mono lib g (Nat.le_max_left f f') i p
  have h2 := evalDr_mono lib g (Nat.le_max_right f f') i p
  rw [Le, h] at h1; rw [Le, h'] at h2
  have := (h1 (by simp)).symm.trans (h2 (by simp))
  injection this

theorem bind_ok {α β : Type} {a : Except Err α} {k : α → Except Err β} {b : β} (h : a.bind k = .ok b) : ∃ x, a = .ok x ∧ k x = .ok b := by
  cases a with
  | error e => cases h
  | ok x => exact ⟨x, rfl, h⟩

/-- The sum over the terms that `leftTerms` and `dr_wrt` both compute. -/
theorem evalLeftTerms_rep {f : ℕ} {i : Id} {L : Jac} {A : Ent} {m n : ℕ} (sz : Id → ℕ) (Pm Dm : Id → Ent)
    {rec : Id → Jac → Except Err (Option Jac)} (hL : Jac.Rep L m (sz i) A)
    (hkeep : ∀ k p, (g i).dterms k = some p → p ≠ w → st.keep g f p w = some false → Ent.IsZero (sz p) n (Dm p))
    (hsl : ∀ k p o, (g i).dterms k = some p → p ≠ w → evalSliced lib g f i p = .ok o → num.RepO o (sz i) (sz p) (Pm p))
    (hrec : ∀ k p L' A' o, (g i).dterms k = some p → p ≠ w → Jac.Rep L' m (sz p) A' → rec p L' = .ok o →
      num.RepO o m n (Ent.mul (sz p) A' (Dm p))) :
    ∀ (ks : List Name) (acc ds : List Jac) (E : Ent), SumRep num acc m n E → evalLeftTerms lib st g f i w L rec ks acc = .ok ds →
      SumRep num ds m n (E + ((ks.filter fun k => ((g i).dterms k).isSome).map fun k =>
        if (g i).kid k = w then 0 else Ent.mul (sz i) A (Ent.mul (sz ((g i).kid k)) (Pm ((g i).kid k)) (Dm ((g i).kid k)))).sum) := by
  intro ks
  induction ks with
  | nil => intro acc ds E hE h; cases h; simpa using hE
  | cons k ks ih =>
    intro acc ds E hE h
    simp only [evalLeftTerms] at h
    obtain ⟨p, hk, h⟩ := bind_ok h
    have hk : (g i).dterms k = some p := by
      cases hd : (g i).dterms k with
      | none => rw [hd] at hk; cases hk
      | some q => rw [hd] at hk; cases hk; rfl
    have hkid : (g i).kid k = p := by simp [GNode.kid, hk]
    rw [List.filter_cons]
    simp only [hk, Option.isSome_some, if_true, List.map_cons, List.sum_cons, hkid]
    have skip : ∀ {X : Ent}, Ent.IsZero m n X → evalLeftTerms lib st g f i w L rec ks acc = .ok ds →
        SumRep num ds m n (E + (X + ((ks.filter fun k => ((g i).dterms k).isSome).map fun k =>
        if (g i).kid k = w then 0 else Ent.mul (sz i) A (Ent.mul (sz ((g i).kid k)) (Pm ((g i).kid k)) (Dm ((g i).kid k)))).sum)) := by
      intro X hX h
      refine (ih _ _ _ hE h).congr ?_
      refine (Ent.EqOn.refl E).add ?_
      intro a ha b hb
      have := hX a ha b hb
      simp only [Pi.zero_apply] at this
      simp [this]
    by_cases hp : p = w
    · rw [if_pos hp] at h
      rw [if_pos hp]
      exact skip (Ent.EqOn.refl 0) h
    · rw [if_neg hp] at h
      rw [if_neg hp]
      obtain ⟨b, hb, h⟩ := bind_ok h
      have hb : st.keep g f p w = some b := by
        cases hd : st.keep g f p w with
        | none => rw [hd] at hb; cases hb
        | some q => rw [hd] at hb; cases hb; rfl
      cases b with
      | false =>
        simp only [Bool.false_eq_true, if_false] at h
        refine skip ?_ h
        have hz := hkeep k p hk hp hb
        have h1 := Ent.mul_congr (m := sz i) (Ent.EqOn.refl (Pm p)) (hz : Ent.EqOn (sz p) n (Dm p) 0)
        rw [Ent.mul_zero_right] at h1
        have h2 := Ent.mul_congr (m := m) (Ent.EqOn.refl A) h1
        rwa [Ent.mul_zero_right] at h2
      | true =>
        simp only [if_true] at h
        obtain ⟨o, ho, h⟩ := bind_ok h
        have hP := hsl k p o hk hp ho
        cases o with
        | none =>
          refine skip ?_ h
          have h1 := Ent.mul_congr (n := sz p) (hP : Ent.EqOn (sz i) (sz p) (Pm p) 0) (Ent.EqOn.refl (n := n) (Dm p))
          rw [Ent.mul_zero_left] at h1
          have h2 := Ent.mul_congr (m := m) (Ent.EqOn.refl A) h1
          rwa [Ent.mul_zero_right] at h2
        | some d =>
          obtain ⟨L', hL', h⟩ := bind_ok h
          obtain ⟨x', hx', hxr⟩ := Jac.superdot_rep hL hP
          rw [show Jac.superdot L d = .ok L' from hL'] at hx'; cases hx'
          obtain ⟨o, ho, h⟩ := bind_ok h
          have hR := hrec k p L' _ o hk hp hxr ho
          rw [Ent.mul_assoc] at hR
          cases o with
          | none => exact skip hR h
          | some x =>
            have := ih _ _ _ (hE.append hR) h
            rwa [add_assoc] at this

variable {n : Id → ℕ}

/-- `y.lop(w, L)` (or `y.lmult_wrt(L, w)`) is `L` times `y.dr_wrt(w)`, whatever the sharing and whatever the entries. -/
theorem left_rep (hst : StyleOk g w st S) (hw : SizesOk g n w) (hdecl : ∀ i k c, (g i).dterms k = some c → k ∈ (g i).dnames) :
    ∀ (f : ℕ) (y : Id) (f' : ℕ) (L : Jac) (o o' : Option Jac) (m : ℕ) (A M : Ent),
      (∀ i, Reaches g y i → SizesOk g n i) → (∀ i, Reaches g y i → S i) → evalDr lib g f' y w = .ok o → num.RepO o (n y) (n w) M →
      Jac.Rep L m (n y) A → evalLeft lib st g f y w L = .ok o' → num.RepO o' m (n w) (Ent.mul (n y) A M) := by
  intro f
  induction f with
  | zero => intro y f' L o o' m A M _ _ _ _ _ h; cases h
  | succ f ih =>
    intro y f' L o o' m A M hok hS hdr hM hL h
    cases f' with
    | zero => cases hdr
    | succ f' =>
    -- the matrices
    have hP : ∀ p, ∃ E, (SizesOk g n p → ∀ F o, evalSliced lib g F y p = .ok o → num.RepO o (n y) (n p) E) := by
      intro p
      by_cases hp : SizesOk g n p
      · obtain ⟨E, hE⟩ := pick_rep (R := fun o => ∃ F, evalSliced lib g F y p = .ok o) (m := n y) (n := n p)
          (by rintro a b ⟨F, ha⟩ ⟨F', hb⟩; exact evalSliced_unique ha hb)
          (by rintro d ⟨F, hd⟩; exact evalSliced_sizes (hok y .refl) hp hd)
        exact ⟨E, fun _ F o ho => hE o ⟨F, ho⟩⟩
      · exact ⟨0, fun h => absurd h hp⟩
    have hD : ∀ p, ∃ E, (Reaches g y p → ∀ F o, evalDr lib g F p w = .ok o → num.RepO o (n p) (n w) E) := by
      intro p
      by_cases hp : Reaches g y p
      · obtain ⟨E, hE⟩ := pick_rep (R := fun o => ∃ F, evalDr lib g F p w = .ok o) (m := n p) (n := n w)
          (by rintro a b ⟨F, ha⟩ ⟨F', hb⟩; exact evalDr_unique ha hb)
          (by rintro d ⟨F, hd⟩; exact (evalDr_sizes hw F p d (fun i hi => hok i (hp.trans hi)) hdecl hd).2)
        exact ⟨E, fun _ F o ho => hE o ⟨F, ho⟩⟩
      · exact ⟨0, fun h => absurd h hp⟩
    choose Pm hPm using hP
    choose Dm hDm using hD
    have hreach : ∀ k p, (g y).dterms k = some p → Reaches g y p := fun k p hk => .single ⟨k, hdecl y k p hk, hk⟩
    -- forward
    simp only [evalDr] at hdr
    cases hs : evalSliced lib g f' y w with
    | error e => rw [hs] at hdr; cases hdr
    | ok direct =>
    rw [hs] at hdr; dsimp only at hdr
    cases ht : evalTerms lib g f' y w (fun p => evalDr lib g f' p w) (g y).dnames direct.toList with
    | error e => rw [ht] at hdr; cases hdr
    | ok ds =>
    rw [ht] at hdr; dsimp only at hdr
    cases hr : sumD lib ds with
    | error e => rw [hr] at hdr; cases hdr
    | ok r =>
    rw [hr] at hdr
    have hdirect := hPm w hw f' direct hs
    have hsr : SumRep num direct.toList (n y) (n w) (Pm w) := by
      cases direct with
      | none => exact (SumRep.nil _ _).congr (Ent.EqOn.symm hdirect)
      | some d => simpa using (SumRep.nil (N := num) (n y) (n w)).append hdirect
    have hfw := sumD_rep (evalTerms_rep (N := num) n (fun k => Pm ((g y).kid k)) Dm
      (fun k p o hk hp he => hDm p (hreach k p hk) f' o he)
      (fun k p d2 o hk hp he hso => by
        have : (g y).kid k = p := by simp [GNode.kid, hk]
        rw [this]
        exact hPm p (hok p (hreach k p hk)) f' o hso) (g y).dnames direct.toList ds _ hsr ht) hr
    have hM0 : num.RepO o (n y) (n w) (Pm w + (((g y).dnames.filter fun k => ((g y).dterms k).isSome).map fun k =>
        if (g y).kid k = w then 0 else Ent.mul (n ((g y).kid k)) (Pm ((g y).kid k)) (Dm ((g y).kid k))).sum) := by
      injection hdr with hdr
      subst hdr
      cases r with
      | none => exact hfw
      | some d => exact Jac.outForm_rep _ _ (Jac.finish_rep hfw)
    have hMeq := repO_unique hM hM0
    -- backward
    simp only [evalLeft] at h
    obtain ⟨direct', hd', h⟩ := bind_ok h
    have : direct' = direct := evalSliced_unique hd' hs
    subst this
    obtain ⟨ds0, hds0, h⟩ := bind_ok h
    obtain ⟨ds', hds', h⟩ := bind_ok h
    have hs0 : SumRep num ds0 m (n w) (Ent.mul (n y) A (Pm w)) := by
      cases direct' with
      | none =>
        cases hds0
        refine (SumRep.nil _ _).congr ?_
        have := Ent.mul_congr (m := m) (Ent.EqOn.refl A) (hdirect : Ent.EqOn (n y) (n w) (Pm w) 0)
        rw [Ent.mul_zero_right] at this
        exact this.symm
      | some d =>
        simp only [leftDirect] at hds0
        obtain ⟨b, hb, hds0⟩ := bind_ok hds0
        cases b with
        | false =>
          simp only [Bool.false_eq_true, if_false] at hds0
          cases hds0
          refine (SumRep.nil _ _).congr ?_
          have hz := hst.use d _ _ _ hb hdirect
          rcases Nat.mul_eq_zero.1 hz with h0 | h0
          · intro a _ b _; rw [h0]; simp [Ent.mul]
          · intro a _ b hb; rw [h0] at hb; exact absurd hb (Nat.not_lt_zero b)
        | true =>
          simp only [if_true] at hds0
          obtain ⟨x, hx, hxr⟩ := Jac.superdot_rep hL hdirect
          rw [hx] at hds0
          cases hds0
          simpa using (SumRep.nil (N := num) m (n w)).append hxr
    have hbw := evalLeftTerms_rep (st := st) (w := w) (f := f) (m := m) (n := n w) n Pm Dm hL
      (fun k p hk hp hf => by
        obtain ⟨o, ho⟩ := evalTerms_link_ok ht k (hdecl y k p hk) p hk hp
        have := hst.keep f f' p o (hS p (hreach k p hk)) hp hf ho
        subst this
        exact hDm p (hreach k p hk) f' none ho)
      (fun k p o hk hp hso => hPm p (hok p (hreach k p hk)) f o hso)
      (fun k p L' A' o'' hk hp hL' hrec => by
        obtain ⟨o, ho⟩ := evalTerms_link_ok ht k (hdecl y k p hk) p hk hp
        exact ih p f' L' o o'' m A' (Dm p) (fun i hi => hok i ((hreach k p hk).trans hi)) (fun i hi => hS i ((hreach k p hk).trans hi)) ho (hDm p (hreach k p hk) f' o ho) hL' hrec)
      (g y).dnames ds0 ds' _ hs0 hds'
    have := sumD_rep (hbw.map (p := st.post) (fun d A hd => hst.post d _ _ A hd)) h
    refine num.repO_congr ?_ this
    refine Ent.EqOn.trans ?_ (Ent.mul_congr (Ent.EqOn.refl A) hMeq.symm)
    rw [Ent.mul_add, Ent.mul_list_sum, List.map_map]
    have e : ∀ l : List Name, (l.map fun k => if (g y).kid k = w then (0 : Ent) else
          Ent.mul (n y) A (Ent.mul (n ((g y).kid k)) (Pm ((g y).kid k)) (Dm ((g y).kid k)))) =
        l.map ((fun B => Ent.mul (n y) A B) ∘ fun k => if (g y).kid k = w then 0 else
          Ent.mul (n ((g y).kid k)) (Pm ((g y).kid k)) (Dm ((g y).kid k))) := by
      intro l
      refine List.map_congr_left fun k _ => ?_
      simp only [Function.comp]
      split
      · rw [Ent.mul_zero_right]
      · rfl
    rw [e]
    exact Ent.EqOn.refl _

/-- `lop` drops nothing. -/
theorem lopStyle_styleOk : StyleOk g w (lopStyle Jac.todense) (fun _ => True) where
  keep := fun _ _ _ _ _ _ h => by cases h
  use := fun _ _ _ _ h => by cases h
  post := fun _ _ _ _ h => Jac.todense_rep h

/-- `i` and the leaves below it refer to nothing. -/
def LeafBelow (s : Sig C T V D) (g : Graph C T) (i : Id) : Prop :=
  ∀ j, Reaches g i j → s.isBase (g j).cls = true → ∀ c, ¬ Uses g j c

theorem LeafBelow.sub {s : Sig C T V D} {g : Graph C T} {i j : Id} (h : LeafBelow s g i) (hr : Reaches g i j) : LeafBelow s g j :=
  fun k hk => h k (hr.trans hk)

theorem LeafGraph.below {s : Sig C T V D} {g : Graph C T} (h : LeafGraph s g) (i : Id) : LeafBelow s g i := by
  rintro j _ hb c ⟨k, hk, _⟩
  rw [h j hb] at hk; cases hk

/-- `isDrWrt_spec`, with the condition on leaves only for what is below `i`. -/
theorem isDrWrt_below (s : Sig C T V D) {g : Graph C T} (f : ℕ) : ∀ {i w : Id} {b : Bool}, LeafBelow s g i → isDrWrt s g f i w = some b →
    (b = true ↔ (s.isBase (g i).cls = true ∧ i = w) ∨ Relation.TransGen (Uses g) i w) := by
  induction f with
  | zero => intro i w b _ h; cases h
  | succ f ih =>
    intro i w b hl h
    simp only [isDrWrt] at h
    split at h
    · rename_i hb
      simp only [Option.some.injEq] at h
      subst h
      have hno : ¬ Relation.TransGen (Uses g) i w := by
        intro ht
        obtain ⟨c, hc, _⟩ := Relation.TransGen.head'_iff.1 ht
        exact hl i .refl hb c hc
      simp only [decide_eq_true_eq, hb, true_and, hno, or_false]
      exact eq_comm
    · rename_i hb
      simp only [hb, Bool.false_eq_true, false_and, false_or]
      split at h
      · rename_i hw
        simp only [Option.some.injEq] at h
        subst h
        simp only [true_iff]
        exact .single (mem_kids.1 hw)
      · rename_i hw
        obtain ⟨ha, hb'⟩ := anyM_some h
        rw [hb']
        constructor
        · rintro ⟨d, hd, hdt⟩
          rcases (ih (hl.sub (.single (mem_kids.1 hd))) hdt).1 rfl with ⟨_, rfl⟩ | ht
          · exact .single (mem_kids.1 hd)
          · exact .head (mem_kids.1 hd) ht
        · intro ht
          obtain ⟨c, hc, hcw⟩ := Relation.TransGen.head'_iff.1 ht
          rcases Relation.reflTransGen_iff_eq_or_transGen.1 hcw with rfl | hcw
          · exact absurd (mem_kids.2 hc) hw
          · refine ⟨c, mem_kids.2 hc, ?_⟩
            obtain ⟨b', hb''⟩ := ha c (mem_kids.2 hc)
            rw [hb'', (ih (hl.sub (.single hc)) hb'').2 (Or.inr hcw)]

/-- `lmult_wrt` drops only what contributes nothing, if `w` is not a slice. -/
theorem lmultStyle_styleOk (hp : lib.isPermute (g w).cls = false)
    (hdecl : ∀ i k c, (g i).dterms k = some c → k ∈ (g i).dnames) : StyleOk g w (lmultStyle lib Jac.neNone) (LeafBelow lib g) where
  keep := by
    intro f f' p o hlb hpw hf h
    have := isDrWrt_below lib f hlb hf
    refine evalDr_none_of_not_reach lib_localDr hp hdecl f' p o ?_ h
    intro hr
    rcases Relation.reflTransGen_iff_eq_or_transGen.1 hr with e | e
    · exact hpw e.symm
    · have := this.2 (Or.inr e); cases this
  use := fun _ _ _ _ h hr => Jac.neNone_false h hr
  post := fun _ _ _ _ h => h

/-- Reverse mode adds up the same matrix as forward mode. -/
theorem rev_rep (hst : StyleOk g w (lmultStyle lib Jac.neNone) S) (hw : SizesOk g n w)
    (hdecl : ∀ i k c, (g i).dterms k = some c → k ∈ (g i).dnames) {f f' : ℕ} {y : Id} {o o' : Option Jac} {M : Ent}
    (hok : ∀ i, Reaches g y i → SizesOk g n i) (hS : ∀ i, Reaches g y i → S i) (hdr : evalDr lib g f' y w = .ok o) (hM : num.RepO o (n y) (n w) M)
    (h : evalRevSum lib Jac.neNone g f y w = .ok o') : num.RepO o' (n y) (n w) M := by
  cases f' with
  | zero => cases hdr
  | succ f' =>
  have hP : ∀ p, ∃ E, (SizesOk g n p → ∀ F o, evalSliced lib g F y p = .ok o → num.RepO o (n y) (n p) E) := by
    intro p
    by_cases hp : SizesOk g n p
    · obtain ⟨E, hE⟩ := pick_rep (R := fun o => ∃ F, evalSliced lib g F y p = .ok o) (m := n y) (n := n p)
        (by rintro a b ⟨F, ha⟩ ⟨F', hb⟩; exact evalSliced_unique ha hb)
        (by rintro d ⟨F, hd⟩; exact evalSliced_sizes (hok y .refl) hp hd)
      exact ⟨E, fun _ F o ho => hE o ⟨F, ho⟩⟩
    · exact ⟨0, fun h => absurd h hp⟩
  have hD : ∀ p, ∃ E, (Reaches g y p → ∀ F o, evalDr lib g F p w = .ok o → num.RepO o (n p) (n w) E) := by
    intro p
    by_cases hp : Reaches g y p
    · obtain ⟨E, hE⟩ := pick_rep (R := fun o => ∃ F, evalDr lib g F p w = .ok o) (m := n p) (n := n w)
        (by rintro a b ⟨F, ha⟩ ⟨F', hb⟩; exact evalDr_unique ha hb)
        (by rintro d ⟨F, hd⟩; exact (evalDr_sizes hw F p d (fun i hi => hok i (hp.trans hi)) hdecl hd).2)
      exact ⟨E, fun _ F o ho => hE o ⟨F, ho⟩⟩
    · exact ⟨0, fun h => absurd h hp⟩
  choose Pm hPm using hP
  choose Dm hDm using hD
  have hreach : ∀ k p, (g y).dterms k = some p → Reaches g y p := fun k p hk => .single ⟨k, hdecl y k p hk, hk⟩
  simp only [evalDr] at hdr
  cases hs : evalSliced lib g f' y w with
  | error e => rw [hs] at hdr; cases hdr
  | ok direct =>
  rw [hs] at hdr; dsimp only at hdr
  cases ht : evalTerms lib g f' y w (fun p => evalDr lib g f' p w) (g y).dnames direct.toList with
  | error e => rw [ht] at hdr; cases hdr
  | ok ds =>
  rw [ht] at hdr; dsimp only at hdr
  cases hr : sumD lib ds with
  | error e => rw [hr] at hdr; cases hdr
  | ok r =>
  rw [hr] at hdr
  have hdirect := hPm w hw f' direct hs
  have hsr : SumRep num direct.toList (n y) (n w) (Pm w) := by
    cases direct with
    | none => exact (SumRep.nil _ _).congr (Ent.EqOn.symm hdirect)
    | some d => simpa using (SumRep.nil (N := num) (n y) (n w)).append hdirect
  have hfw := sumD_rep (evalTerms_rep (N := num) n (fun k => Pm ((g y).kid k)) Dm
    (fun k p o hk hp he => hDm p (hreach k p hk) f' o he)
    (fun k p d2 o hk hp he hso => by
      have : (g y).kid k = p := by simp [GNode.kid, hk]
      rw [this]
      exact hPm p (hok p (hreach k p hk)) f' o hso) (g y).dnames direct.toList ds _ hsr ht) hr
  have hM0 : num.RepO o (n y) (n w) (Pm w + (((g y).dnames.filter fun k => ((g y).dterms k).isSome).map fun k =>
      if (g y).kid k = w then 0 else Ent.mul (n ((g y).kid k)) (Pm ((g y).kid k)) (Dm ((g y).kid k))).sum) := by
    injection hdr with hdr
    subst hdr
    cases r with
    | none => exact hfw
    | some d => exact Jac.outForm_rep _ _ (Jac.finish_rep hfw)
  have hMeq := repO_unique hM hM0
  simp only [evalRevSum] at h
  obtain ⟨direct', hd', h⟩ := bind_ok h
  have : direct' = direct := evalSliced_unique hd' hs
  subst this
  obtain ⟨ds', hds', h⟩ := bind_ok h
  have hloop : ∀ (ks : List Name) (acc ds : List Jac) (E : Ent), SumRep num acc (n y) (n w) E →
      evalRevTerms lib Jac.neNone g f y w ks acc = .ok ds →
      SumRep num ds (n y) (n w) (E + ((ks.filter fun k => ((g y).dterms k).isSome).map fun k =>
        if (g y).kid k = w then 0 else Ent.mul (n ((g y).kid k)) (Pm ((g y).kid k)) (Dm ((g y).kid k))).sum) := by
    intro ks
    induction ks with
    | nil => intro acc ds E hE h; cases h; simpa using hE
    | cons k ks ih =>
      intro acc ds E hE h
      simp only [evalRevTerms] at h
      cases hk : (g y).dterms k with
      | none =>
        rw [hk] at h
        have := ih _ _ _ hE h
        rw [List.filter_cons]; simpa [hk] using this
      | some p =>
        have hkid : (g y).kid k = p := by simp [GNode.kid, hk]
        rw [hk] at h; dsimp only at h
        rw [List.filter_cons]
        simp only [hk, Option.isSome_some, if_true, List.map_cons, List.sum_cons, hkid]
        have skip : ∀ {X : Ent}, Ent.IsZero (n y) (n w) X → evalRevTerms lib Jac.neNone g f y w ks acc = .ok ds →
            SumRep num ds (n y) (n w) (E + (X + ((ks.filter fun k => ((g y).dterms k).isSome).map fun k =>
              if (g y).kid k = w then 0 else Ent.mul (n ((g y).kid k)) (Pm ((g y).kid k)) (Dm ((g y).kid k))).sum)) := by
          intro X hX h
          refine (ih _ _ _ hE h).congr ?_
          refine (Ent.EqOn.refl E).add ?_
          intro a ha b hb
          have := hX a ha b hb
          simp only [Pi.zero_apply] at this
          simp [this]
        by_cases hp : p = w
        · rw [if_pos hp] at h
          rw [if_pos hp]
          exact skip (Ent.EqOn.refl 0) h
        · rw [if_neg hp] at h
          rw [if_neg hp]
          obtain ⟨l, hl, h⟩ := bind_ok h
          obtain ⟨o, ho, h⟩ := bind_ok h
          have hP := hPm p (hok p (hreach k p hk)) f l hl
          obtain ⟨o2, ho2⟩ := evalTerms_link_ok ht k (hdecl y k p hk) p hk hp
          have hR : num.RepO o (n y) (n w) (Ent.mul (n p) (Pm p) (Dm p)) := by
            cases l with
            | none =>
              cases ho
              have := Ent.mul_congr (n := n p) (hP : Ent.EqOn (n y) (n p) (Pm p) 0) (Ent.EqOn.refl (n := n w) (Dm p))
              rwa [Ent.mul_zero_left] at this
            | some L =>
              exact left_rep hst hw hdecl f p f' L o2 o _ _ _ (fun i hi => hok i ((hreach k p hk).trans hi)) (fun i hi => hS i ((hreach k p hk).trans hi)) ho2
                (hDm p (hreach k p hk) f' o2 ho2) hP ho
          cases o with
          | none => exact skip hR h
          | some x =>
            have := ih _ _ _ (hE.append hR) h
            rwa [add_assoc] at this
  exact num.repO_congr hMeq.symm (sumD_rep (hloop _ _ _ _ hsr hds') h)

namespace Jac
theorem todense_not_sparse (d : Jac) : ∀ a b E, d.todense ≠ .sparse a b E := by
  intro a b E; cases d <;> simp [todense]
end Jac

theorem sumD_dense_total {m k : ℕ} {ds : List Jac} (h : ∀ e ∈ ds, ∃ A, Jac.Rep e m k A) :
    ∃ o E, sumD lib (ds.map Jac.todense) = .ok o ∧ num.RepO o m k E := by
  have key : ∀ (ds : List Jac) (d : Jac), (∃ A, Jac.Rep d m k A) → (∀ a b E, d ≠ .sparse a b E) → (∀ e ∈ ds, ∃ A, Jac.Rep e m k A) →
      ∃ x A, (ds.map Jac.todense).foldlM lib.add d = .ok x ∧ Jac.Rep x m k A := by
    intro ds
    induction ds with
    | nil => intro d ⟨A, hA⟩ _ _; exact ⟨d, A, rfl, hA⟩
    | cons e ds ih =>
      intro d ⟨A, hA⟩ hs h
      obtain ⟨B, hB⟩ := h e (by simp)
      obtain ⟨x, hx, hxr, hxs⟩ := Jac.add_dense_total hA (Jac.todense_rep hB) hs (Jac.todense_not_sparse e)
      obtain ⟨z, C, hz, hzr⟩ := ih x ⟨_, hxr⟩ hxs (fun e' he => h e' (by simp [he]))
      refine ⟨z, C, ?_, hzr⟩
      simp only [List.map_cons, List.foldlM]
      rw [hx]
      exact hz
  cases ds with
  | nil => exact ⟨none, 0, rfl, Ent.EqOn.refl _⟩
  | cons d ds =>
    obtain ⟨A, hA⟩ := h d (by simp)
    obtain ⟨x, E, hx, hr⟩ := key ds d.todense ⟨A, Jac.todense_rep hA⟩ (Jac.todense_not_sparse d) (fun e he => h e (by simp [he]))
    refine ⟨some x, E, ?_, hr⟩
    simp only [List.map_cons, sumD]
    rw [hx]; rfl

theorem evalLeft_mono (hst : st.Ok) {f f' : ℕ} (hf : f ≤ f') (i : Id) (L : Jac) :
    Le (evalLeft lib st g f i w L) (evalLeft lib st g f' i w L) :=
  (leftMul_simM (s := lib) (U := Fresh lib) (W := fun _ _ => True) (P := True) (g := g) hst 0 i w L).mono hf

/-- If no class raises and all declared names are set, the walk does not raise, if the tests it makes do not and its summands can be
added. -/
theorem left_returns (hst : st.Ok) {y : Id} {vw : Arr} (hacc : Acc (fun a b => Uses g b a) y) (hc : ChainOk lib g y w)
    (hw : Means lib g (.r w) (.ok vw)) (hob : ∀ i, Reaches g y i → i ≠ w → Exactly g i)
    (hset : ∀ i, Reaches g y i → ∀ k ∈ (g i).dnames, ∃ c, (g i).dterms k = some c)
    (hkeep : ∀ i, Reaches g y i → ∃ f b, st.keep g f i w = some b)
    (huse : ∀ i f d, Reaches g y i → i ≠ w → evalSliced lib g f i w = .ok (some d) → ∃ b, st.use d = .ok b)
    (hsum : ∀ (m : ℕ) (ds : List Jac), (∀ e ∈ ds, ∃ A, Jac.Rep e m vw.size A) →
      ∃ o E, sumD lib (ds.map st.post) = .ok o ∧ num.RepO o m vw.size E)
    (hyw : y ≠ w) : ∀ (vy : Arr), Means lib g (.r y) (.ok vy) → ∀ (L : Jac) (m : ℕ) (A : Ent), Jac.Rep L m vy.size A →
      ∃ f o E, evalLeft lib st g f y w L = .ok o ∧ num.RepO o m vw.size E := by
  induction hacc with
  | intro y _ ih =>
  intro vy hvy L m A hL
  obtain ⟨out, v, P, hout, hv, hE⟩ := hob y .refl hyw
  have : vy = out := by have := hvy.unique hout; injection this
  subst this
  have hper : ∀ k p, (g y).dterms k = some p → lib.isPermute (g p).cls = true → ∀ f, evalCompDr lib g f y p ≠ .ok none :=
    fun k p hk => hc.slice y k p .refl hk
  obtain ⟨f1, direct, hf1, E1, hE1⟩ := sliced_total (hc.nodup y .refl) hout hv (hE.on (fun _ => True) _) hyw (fun _ _ => trivial) hw (fun h => by
    have h' := hc.wrt
    rw [h] at h'; cases h')
  obtain ⟨ds0, hds0, hds0r⟩ : ∃ ds0, leftDirect lib st L direct = .ok ds0 ∧
      ∀ e ∈ ds0, ∃ A, Jac.Rep e m vw.size A := by
    cases direct with
    | none => exact ⟨[], rfl, by simp⟩
    | some d =>
      obtain ⟨x, hx, hxr⟩ := Jac.superdot_rep hL hE1
      obtain ⟨b, hub⟩ := huse y f1 d .refl hyw hf1
      cases b with
      | false =>
        refine ⟨[], ?_, by simp⟩
        simp only [leftDirect, hub, Except.bind, Bool.false_eq_true, if_false]
      | true =>
      refine ⟨[x], ?_, ?_⟩
      · simp only [leftDirect, hub, Except.bind, if_true]
        rw [hx]; rfl
      · intro e he; rw [List.mem_singleton] at he; subst he; exact ⟨_, hxr⟩
  have hb : ∀ {α β : Type} {a : Except Err α} {k : α → Except Err β} {x : α}, a = .ok x → a.bind k = k x := by
    rintro α β _ k x rfl; rfl
  have upS : ∀ {p : Id} {f f' : ℕ} {o : Option Jac}, f ≤ f' → evalSliced lib g f y p = .ok o → evalSliced lib g f' y p = .ok o := by
    intro p f f' o hf h
    have := evalSliced_mono lib g hf y p
    rw [Le, h] at this; exact this (by simp)
  have upL : ∀ {p : Id} {L : Jac} {f f' : ℕ} {o : Option Jac}, f ≤ f' → evalLeft lib st g f p w L = .ok o →
      evalLeft lib st g f' p w L = .ok o := by
    intro p L f f' o hf h
    have := evalLeft_mono (g := g) (w := w) hst hf p L
    rw [Le, h] at this; exact this (by simp)
  have upT : ∀ (ks : List Name) {f f' : ℕ} {acc ds : List Jac}, f ≤ f' →
      evalLeftTerms lib st g f y w L (fun p L' => evalLeft lib st g f p w L') ks acc = .ok ds →
      evalLeftTerms lib st g f' y w L (fun p L' => evalLeft lib st g f' p w L') ks acc = .ok ds := by
    intro ks f f' acc ds hf h
    have hs : ∀ p L', SimM lib (Fresh lib) (fun _ _ => True) True g (leftMul lib st 0 p w L')
        (fun f => evalLeft lib st g f p w L') 0 :=
      fun p L' => leftMul_simM hst 0 p w L'
    have := (leftTerms_simM hst 0 y w L hs ks acc).mono hf
    rw [Le] at this
    rw [h] at this
    exact this (by simp)
  have hterms : ∀ (ks : List Name), (∀ k ∈ ks, k ∈ (g y).dnames) → ∀ (acc : List Jac), (∀ e ∈ acc, ∃ A, Jac.Rep e m vw.size A) →
      ∃ f ds, evalLeftTerms lib st g f y w L (fun p L' => evalLeft lib st g f p w L') ks acc = .ok ds ∧
        ∀ e ∈ ds, ∃ A, Jac.Rep e m vw.size A := by
    intro ks
    induction ks with
    | nil => intro _ acc h; exact ⟨0, acc, rfl, h⟩
    | cons k ks ihk =>
      intro hks acc h
      have hks' : ∀ k ∈ ks, k ∈ (g y).dnames := fun k hk => hks k (by simp [hk])
      obtain ⟨p, hk⟩ := hset y .refl k (hks k (by simp))
      by_cases hpw : p = w
      · obtain ⟨f, ds, h1, h2⟩ := ihk hks' acc h
        refine ⟨f, ds, ?_, h2⟩
        simp only [evalLeftTerms, hk]
        rw [hb (show liftO st.missing (some p) = .ok p from rfl), if_pos hpw]; exact h1
      · have hu : Uses g y p := ⟨k, hc.decl y k p hk, hk⟩
        have hr : Reaches g y p := .single hu
        have hyp : y ≠ p := by
          rintro rfl
          exact hc.acyclic _ .refl (.single hu)
        obtain ⟨vp, _, _, hvp, _, _⟩ := hob p hr hpw
        obtain ⟨f0, b, hkb⟩ := hkeep p hr
        have upK : ∀ {f : ℕ}, f0 ≤ f → liftO Err.fuel (st.keep g f p w) = .ok b := fun hf => by rw [hst g p w hf hkb]; rfl
        cases b with
        | false =>
          obtain ⟨f, ds, h1, h2⟩ := ihk hks' acc h
          refine ⟨max f f0, ds, ?_, h2⟩
          simp only [evalLeftTerms, hk]
          rw [hb (show liftO st.missing (some p) = .ok p from rfl), if_neg hpw, hb (upK (Nat.le_max_right f f0)), if_neg (by simp)]
          exact upT ks (Nat.le_max_left f f0) h1
        | true =>
        obtain ⟨f3, d, hf3, E, hdE⟩ := sliced_total (hc.nodup y .refl) hout hv (hE.on (fun _ => True) _) hyp (fun _ _ => trivial) hvp (hper k p hk)
        cases d with
        | none =>
          obtain ⟨f, ds, h1, h2⟩ := ihk hks' acc h
          refine ⟨max f (max f3 f0), ds, ?_, h2⟩
          simp only [evalLeftTerms, hk]
          rw [hb (show liftO st.missing (some p) = .ok p from rfl), if_neg hpw, hb (upK (by omega)), if_pos rfl, hb (upS (by omega) hf3)]
          exact upT ks (by omega) h1
        | some d =>
          obtain ⟨L', hL', hLr⟩ := Jac.superdot_rep hL hdE
          obtain ⟨f4, o, E', ho, hor⟩ := ih p hu (hc.sub hr) (fun i hi => hob i (hr.trans hi)) (fun i hi => hset i (hr.trans hi)) (fun i hi => hkeep i (hr.trans hi)) (fun i f d hi => huse i f d (hr.trans hi)) hpw vp hvp L' m _ hLr
          cases o with
          | none =>
            obtain ⟨f, ds, h1, h2⟩ := ihk hks' acc h
            refine ⟨max f (max f3 (max f4 f0)), ds, ?_, h2⟩
            simp only [evalLeftTerms, hk]
            rw [hb (show liftO st.missing (some p) = .ok p from rfl), if_neg hpw, hb (upK (by omega)), if_pos rfl,
              hb (upS (by omega) hf3)]
            dsimp only
            rw [hb hL', hb (upL (by omega) ho)]
            exact upT ks (by omega) h1
          | some x =>
            obtain ⟨f, ds, h1, h2⟩ := ihk hks' (acc ++ [x]) (by
              intro e he
              rcases List.mem_append.1 he with he | he
              · exact h e he
              · rw [List.mem_singleton] at he; subst he; exact ⟨_, hor⟩)
            refine ⟨max f (max f3 (max f4 f0)), ds, ?_, h2⟩
            simp only [evalLeftTerms, hk]
            rw [hb (show liftO st.missing (some p) = .ok p from rfl), if_neg hpw, hb (upK (by omega)), if_pos rfl,
              hb (upS (by omega) hf3)]
            dsimp only
            rw [hb hL', hb (upL (by omega) ho)]
            exact upT ks (by omega) h1
  obtain ⟨f4, ds, hf4, hds⟩ := hterms (g y).dnames (fun _ h => h) ds0 hds0r
  obtain ⟨o, E, ho, hor⟩ := hsum m ds hds
  refine ⟨max f1 f4 + 1, o, E, ?_, hor⟩
  simp only [evalLeft]
  rw [hb (upS (Nat.le_max_left f1 f4) hf1), hb hds0, hb (upT _ (Nat.le_max_right f1 f4) hf4)]
  exact ho

/-- If no class raises and all declared names are set, `lop` does not raise, whatever the number of entries of `w`. -/
theorem lop_returns {y : Id} {vw : Arr} (hacc : Acc (fun a b => Uses g b a) y) (hc : ChainOk lib g y w) (hw : Means lib g (.r w) (.ok vw))
    (hob : ∀ i, Reaches g y i → i ≠ w → Exactly g i) (hset : ∀ i, Reaches g y i → ∀ k ∈ (g i).dnames, ∃ c, (g i).dterms k = some c)
    (hyw : y ≠ w) : ∀ (vy : Arr), Means lib g (.r y) (.ok vy) → ∀ (L : Jac) (m : ℕ) (A : Ent), Jac.Rep L m vy.size A →
      ∃ f o E, evalLeft lib (lopStyle Jac.todense) g f y w L = .ok o ∧ num.RepO o m vw.size E :=
  left_returns lopStyle_ok hacc hc hw hob hset (fun _ _ => ⟨0, true, rfl⟩) (fun _ _ _ _ _ _ => ⟨true, rfl⟩)
    (fun _ _ h => sumD_dense_total h) hyw

/-- The matrix is not a dense array with several entries. -/
def NotManyDense (d : Jac) : Prop := ∀ a b E, d = .dense a b E → a * b ≤ 1

theorem neNone_total {d : Jac} (h : NotManyDense d) : ∃ b, d.neNone = .ok b := by
  cases d with
  | num c => exact ⟨true, rfl⟩
  | sparse a b e => exact ⟨true, rfl⟩
  | dense a b e =>
    have := h a b e rfl
    simp only [Jac.neNone]
    split
    · exact ⟨true, rfl⟩
    · split
      · exact ⟨false, rfl⟩
      · omega

theorem sumRep_of_each {m n : ℕ} : ∀ {ds : List Jac}, (∀ e ∈ ds, ∃ A, Jac.Rep e m n A) → ∃ E, SumRep num ds m n E := by
  intro ds
  induction ds with
  | nil => intro _; exact ⟨0, .nil m n⟩
  | cons d ds ih =>
    intro h
    obtain ⟨A, hA⟩ := h d (by simp)
    obtain ⟨E, Es, h1, _⟩ := ih fun e he => h e (by simp [he])
    exact ⟨(A :: Es).sum, A :: Es, .cons hA h1, Ent.EqOn.refl _⟩

/-- If no class raises, all declared names are set and no derivative with respect to `w` is a dense array, `lmult_wrt` does not raise. -/
theorem lmult_returns {y : Id} {vw : Arr} (hacc : Acc (fun a b => Uses g b a) y) (hc : ChainOk lib g y w) (hw : Means lib g (.r w) (.ok vw))
    (hsz : vw.size ≠ 1) (hob : ∀ i, Reaches g y i → i ≠ w → Exactly g i)
    (hset : ∀ i, Reaches g y i → ∀ k ∈ (g i).dnames, ∃ c, (g i).dterms k = some c)
    (hden : ∀ i f d, Reaches g y i → i ≠ w → evalSliced lib g f i w = .ok (some d) → NotManyDense d)
    (hyw : y ≠ w) {vy : Arr} (hy : Means lib g (.r y) (.ok vy)) {L : Jac} {m : ℕ} {A : Ent} (hL : Jac.Rep L m vy.size A) :
      ∃ f o E, evalLeft lib (lmultStyle lib Jac.neNone) g f y w L = .ok o ∧ num.RepO o m vw.size E := by
  refine left_returns lmultStyle_ok hacc hc hw hob hset ?_ (fun i f d hi hiw h => neNone_total (hden i f d hi hiw h)) ?_ hyw vy hy L m A hL
  · intro i hi
    have : Acc (fun c i => Uses g i c) i := by
      clear hob hset hden hL hy hc
      induction hi with
      | refl => exact hacc
      | tail _ hu ih => exact ih.inv hu
    obtain ⟨f, b, h⟩ := isDrWrt_total lib g w this
    exact ⟨f, b, h⟩
  · intro m ds h
    obtain ⟨o, ho⟩ := sumD_total hsz h
    obtain ⟨E, hE⟩ := sumRep_of_each h
    exact ⟨o, E, by simpa [lmultStyle] using ho, sumD_rep hE ho⟩

/-- The same for reverse mode. -/
theorem rev_returns {y : Id} {vw : Arr} (hacc : Acc (fun a b => Uses g b a) y) (hc : ChainOk lib g y w) (hw : Means lib g (.r w) (.ok vw))
    (hsz : vw.size ≠ 1) (hob : ∀ i, Reaches g y i → i ≠ w → Exactly g i)
    (hset : ∀ i, Reaches g y i → ∀ k ∈ (g i).dnames, ∃ c, (g i).dterms k = some c)
    (hden : ∀ i f d, Reaches g y i → i ≠ y → i ≠ w → evalSliced lib g f i w = .ok (some d) → NotManyDense d)
    (hyw : y ≠ w) : ∃ f o, evalRevSum lib Jac.neNone g f y w = .ok o := by
  obtain ⟨vy, v, P, hout, hv, hE⟩ := hob y .refl hyw
  have hb : ∀ {α β : Type} {a : Except Err α} {k : α → Except Err β} {x : α}, a = .ok x → a.bind k = k x := by
    rintro α β _ k x rfl; rfl
  obtain ⟨f1, direct, hf1, E1, hE1⟩ := sliced_total (hc.nodup y .refl) hout hv (hE.on (fun _ => True) _) hyw (fun _ _ => trivial) hw (fun h => by
    have h' := hc.wrt
    rw [h] at h'; cases h')
  have upS : ∀ {p : Id} {f f' : ℕ} {o : Option Jac}, f ≤ f' → evalSliced lib g f y p = .ok o → evalSliced lib g f' y p = .ok o := by
    intro p f f' o hf h
    have := evalSliced_mono lib g hf y p
    rw [Le, h] at this; exact this (by simp)
  have upT : ∀ (ks : List Name) {f f' : ℕ} {acc ds : List Jac}, f ≤ f' → evalRevTerms lib Jac.neNone g f y w ks acc = .ok ds →
      evalRevTerms lib Jac.neNone g f' y w ks acc = .ok ds := by
    intro ks f f' acc ds hf h
    have := (revTerms_simM (s := lib) (U := Fresh lib) (W := fun _ _ => True) (P := True) (g := g) (n := Jac.neNone) 0 y w ks acc).mono hf
    rw [Le] at this
    rw [h] at this
    exact this (by simp)
  have hterms : ∀ (ks : List Name), (∀ k ∈ ks, k ∈ (g y).dnames) → ∀ (acc : List Jac), (∀ e ∈ acc, ∃ A, Jac.Rep e vy.size vw.size A) →
      ∃ f ds, evalRevTerms lib Jac.neNone g f y w ks acc = .ok ds ∧ ∀ e ∈ ds, ∃ A, Jac.Rep e vy.size vw.size A := by
    intro ks
    induction ks with
    | nil => intro _ acc h; exact ⟨0, acc, rfl, h⟩
    | cons k ks ihk =>
      intro hks acc h
      have hks' : ∀ k ∈ ks, k ∈ (g y).dnames := fun k hk => hks k (by simp [hk])
      obtain ⟨p, hk⟩ := hset y .refl k (hks k (by simp))
      by_cases hpw : p = w
      · obtain ⟨f, ds, h1, h2⟩ := ihk hks' acc h
        exact ⟨f, ds, by simp only [evalRevTerms, hk, if_pos hpw]; exact h1, h2⟩
      · have hu : Uses g y p := ⟨k, hc.decl y k p hk, hk⟩
        have hr : Reaches g y p := .single hu
        have hyp : y ≠ p := by
          rintro rfl
          exact hc.acyclic _ .refl (.single hu)
        obtain ⟨vp, _, _, hvp, _, _⟩ := hob p hr hpw
        obtain ⟨f3, d, hf3, E, hdE⟩ := sliced_total (hc.nodup y .refl) hout hv (hE.on (fun _ => True) _) hyp (fun _ _ => trivial) hvp
          (hc.slice y k p .refl hk)
        obtain ⟨f4, o, ho, hor⟩ : ∃ f o, evalLmult lib Jac.neNone g f p w d = .ok o ∧ ∀ x, o = some x → ∃ A, Jac.Rep x vy.size vw.size A := by
          cases d with
          | none => exact ⟨0, none, rfl, fun x hx => by cases hx⟩
          | some d =>
            obtain ⟨f4, o, E', ho, hor⟩ := lmult_returns (hacc.inv hu) (hc.sub hr) hw hsz (fun i hi => hob i (hr.trans hi))
              (fun i hi => hset i (hr.trans hi)) (fun i f d hi => hden i f d (hr.trans hi) (by
                rintro rfl
                exact hc.acyclic _ .refl (Relation.TransGen.head' hu hi))) hpw hvp hdE
            refine ⟨f4, o, ho, fun x hx => ?_⟩
            subst hx
            exact ⟨_, hor⟩
        have upL : ∀ {f}, f4 ≤ f → evalLmult lib Jac.neNone g f p w d = .ok o := by
          intro f hf
          cases d with
          | none => exact ho
          | some d =>
            have := evalLeft_mono (g := g) (w := w) (lmultStyle_ok (s := lib) (n := Jac.neNone)) hf p d
            have ho' : evalLeft lib (lmultStyle lib Jac.neNone) g f4 p w d = .ok o := ho
            rw [Le, ho'] at this; exact this (by simp)
        obtain ⟨f, ds, h1, h2⟩ := ihk hks' (acc ++ o.toList) (by
          intro e he
          rcases List.mem_append.1 he with he | he
          · exact h e he
          · cases o with
            | none => cases he
            | some x => rw [Option.toList, List.mem_singleton] at he; subst he; exact hor _ rfl)
        refine ⟨max f (max f3 f4), ds, ?_, h2⟩
        simp only [evalRevTerms, hk, if_neg hpw]
        rw [hb (upS (by omega) hf3), hb (upL (by omega))]
        have h1' := upT ks (f' := max f (max f3 f4)) (by omega) h1
        cases o with
        | none => simpa using h1'
        | some x => exact h1'
  obtain ⟨f4, ds, hf4, hds⟩ := hterms (g y).dnames (fun _ h => h) direct.toList (by
    intro e he
    cases direct with
    | none => cases he
    | some d => rw [Option.toList, List.mem_singleton] at he; subst he; exact ⟨_, hE1⟩)
  obtain ⟨o, ho⟩ := sumD_total hsz hds
  refine ⟨max f1 f4, o, ?_⟩
  simp only [evalRevSum]
  rw [hb (upS (Nat.le_max_left f1 f4) hf1), hb (upT _ (Nat.le_max_right f1 f4) hf4)]
  exact ho
end
end Chumpy
