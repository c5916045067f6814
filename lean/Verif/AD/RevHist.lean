import Verif.Core.RevHist
import Verif.Properties.Reverse
/-!
# Cached derivatives when reverse mode is used

What reverse mode leaves in the caches is, as a matrix, what forward mode computes, and forward mode that meets such values computes
the same matrix again.
-/
namespace Chumpy
open scoped BigOperators

/-- What holds of every cached derivative: if `y` does not depend on `w`, it is `None`; otherwise, if the classes below `y` return matrices
of the right sizes and forward mode without caches returns a matrix, it is that matrix. -/
def RevOk (g : Graph ClassDef Par) (y w : Id) (d : Option Jac) : Prop :=
  lib.isPermute (g w).cls = false → (¬ Reaches g y w ∧ d = none) ∨ (Reaches g y w ∧
    (LeafBelow lib g y → (∀ i, Reaches g y i → SizesOk g (objSize g) i) → ∀ d₁, MeansDr lib g y w (.ok d₁) →
      ∀ E, num.RepO d₁ (objSize g y) (objSize g w) E → num.RepO d (objSize g y) (objSize g w) E))

/-! ## It depends only on what the derivative is computed from -/

theorem objSize_congr {g g' : Graph ClassDef Par} {i : Id} (h : ∀ f, evalReq lib g' f (.r i) = evalReq lib g f (.r i)) :
    objSize g' i = objSize g i := by
  have : ∀ v, Means lib g' (.r i) (.ok v) ↔ Means lib g (.r i) (.ok v) := by
    intro v
    simp only [Means, h]
  by_cases he : ∃ v, Means lib g (.r i) (.ok v)
  · obtain ⟨v, hv⟩ := he
    rw [objSize_eq hv, objSize_eq ((this v).2 hv)]
  · unfold objSize
    rw [dif_neg he, dif_neg (fun ⟨v, hv⟩ => he ⟨v, (this v).1 hv⟩)]

theorem compDr_local {g : Graph ClassDef Par} {f : ℕ} {i p : Id} {d : Jac} (h : evalCompDr lib g f i p = .ok (some d)) :
    p = i ∨ Uses g i p := by
  by_contra hc
  simp only [not_or] at hc
  have hnm : (g i).namesOf p = [] := by
    rw [List.eq_nil_iff_forall_not_mem]
    intro k hk
    simp only [GNode.namesOf, List.mem_filter, decide_eq_true_eq] at hk
    exact hc.2 ⟨k, hk.1, hk.2⟩
  have hb : (i == p) = false := by simpa using fun e : i = p => hc.1 e.symm
  unfold evalCompDr at h
  rw [hb, hnm, lib_localDr] at h
  cases h

theorem revOk_transfer {g g' : Graph ClassDef Par} {y w : Id} {d : Option Jac} (hcw : (g' w).cls = (g w).cls)
    (hreach : ∀ i, Reaches g' y i ↔ Reaches g y i) (hcls : ∀ i, Reaches g y i → (g' i).cls = (g i).cls)
    (huses : ∀ i, Reaches g y i → ∀ c, Uses g' i c ↔ Uses g i c)
    (hval : ∀ i, Reaches g y i → ∀ f, evalReq lib g' f (.r i) = evalReq lib g f (.r i))
    (hcomp : ∀ i, Reaches g y i → ∀ f p, evalCompDr lib g' f i p = evalCompDr lib g f i p)
    (hdr : ∀ f, evalDr lib g' f y w = evalDr lib g f y w) (h : RevOk g y w d) : RevOk g' y w d := by
  intro hp
  rw [hcw] at hp
  rcases h hp with ⟨a, b⟩ | ⟨a, b⟩
  · exact Or.inl ⟨fun h => a ((hreach w).1 h), b⟩
  · refine Or.inr ⟨(hreach w).2 a, fun hl hs d₁ hd E hE => ?_⟩
    have hz : ∀ i, Reaches g y i → objSize g' i = objSize g i := fun i hi => objSize_congr (hval i hi)
    rw [hz y .refl, hz w a] at hE ⊢
    refine b (fun j hj hb c hc => ?_) (fun i hi f p e he => ?_) d₁ (hd.congr fun f => (hdr f).symm) E hE
    · exact hl j ((hreach j).2 hj) (by rw [hcls j hj]; exact hb) c ((huses j hj c).2 hc)
    · have := hs i ((hreach i).2 hi) f p e (by rw [hcomp i hi]; exact he)
      rcases compDr_local he with rfl | hu
      · rwa [hz _ hi] at this
      · rwa [hz _ hi, hz _ (hi.tail hu)] at this

instance : Local lib RevOk where
  off {g g' x y w d} hoff hy hcw hw h := by
    have hna : ∀ i, Reaches g y i → ¬ Anc g x i := by
      intro i hi
      induction hi with
      | refl => exact hy
      | tail _ hu ih => obtain ⟨k, _, hk⟩ := hu; exact not_anc_child ih hk
    have hg : ∀ i, Reaches g y i → g' i = g i := fun i hi => hoff i (not_anc_ne (hna i hi))
    have hr : ∀ i, Reaches g' y i ↔ Reaches g y i := by
      intro i
      constructor
      · intro hi
        induction hi with
        | refl => exact .refl
        | tail _ hu ih => exact ih.tail (by unfold Uses at hu ⊢; rwa [hg _ ih] at hu)
      · intro hi
        induction hi with
        | refl => exact .refl
        | @tail b c hb hu ih => exact ih.tail (by unfold Uses at hu ⊢; rwa [hg b hb])
    exact revOk_transfer hcw hr (fun i hi => by rw [hg i hi]) (fun i hi c => by unfold Uses; rw [hg i hi])
      (fun i hi f => (evalReq_off lib hoff f i (hna i hi)).1) (fun i hi f p => evalCompDr_off lib hoff f (hna i hi) p)
      (fun f => evalDr_off lib hoff hw f y hy) h
  geq {g g' y w d} hg h := by
    have hu : ∀ i c, Uses g' i c ↔ Uses g i c := by
      intro i c
      have key : ∀ k, (g i).dterms k = some c → (k ∈ (g' i).dnames ↔ k ∈ (g i).dnames) := by
        intro k hk
        have := congrArg (k ∈ ·) (hg.names i)
        simpa [List.mem_filter, hk] using this
      unfold Uses
      rw [hg.dterms i]
      exact ⟨fun ⟨k, h1, h2⟩ => ⟨k, (key k h2).1 h1, h2⟩, fun ⟨k, h1, h2⟩ => ⟨k, (key k h2).2 h1, h2⟩⟩
    have hu' : Uses g' = Uses g := by funext i c; exact propext (hu i c)
    exact revOk_transfer (hg.cls w) (fun i => by unfold Reaches; rw [hu']) (fun i _ => hg.cls i) (fun i _ c => hu i c)
      (fun i _ f => hg.req f _) (fun i _ f p => hg.compDr f i p) (fun f => hg.dr f y w) h

/-! ## Objects that do not depend on `w` -/

section
variable {g : Graph ClassDef Par} {w : Id} {st : RevStyle ClassDef Par Jac}

theorem sliced_none_of_not_reach (hp : lib.isPermute (g w).cls = false) {f : ℕ} {i : Id} {o : Option Jac} (hn : ¬ Reaches g i w)
    (h : evalSliced lib g f i w = .ok o) : o = none := by
  cases o with
  | none => rfl
  | some d =>
    rcases compDr_local (evalSliced_plain hp h) with rfl | hu
    · exact absurd .refl hn
    · exact absurd (.single hu) hn

theorem evalLeft_none_of_not_reach (hp : lib.isPermute (g w).cls = false) (hdecl : NamesDeclared g) (f : ℕ) :
    ∀ i L o, ¬ Reaches g i w → evalLeft lib st g f i w L = .ok o → o = none := by
  induction f with
  | zero => intro i L o _ h; cases h
  | succ f ih =>
    intro i L o hn h
    simp only [evalLeft] at h
    obtain ⟨direct, hd, h⟩ := bind_ok h
    have := sliced_none_of_not_reach hp hn hd
    subst this
    obtain ⟨ds0, hds0, h⟩ := bind_ok h
    cases hds0
    obtain ⟨ds, hds, h⟩ := bind_ok h
    have key : ∀ (ks : List Name) (ds : List Jac), evalLeftTerms lib st g f i w L (fun p L' => evalLeft lib st g f p w L') ks [] = .ok ds →
        ds = [] := by
      intro ks
      induction ks with
      | nil => intro ds h; cases h; rfl
      | cons k ks ihk =>
        intro ds h
        simp only [evalLeftTerms] at h
        obtain ⟨p, hk, h⟩ := bind_ok h
        have hk : (g i).dterms k = some p := by
          cases hd : (g i).dterms k with
          | none => rw [hd] at hk; cases hk
          | some q => rw [hd] at hk; cases hk; rfl
        split at h
        · exact ihk _ h
        · obtain ⟨b, _, h⟩ := bind_ok h
          split at h
          · obtain ⟨o, _, h⟩ := bind_ok h
            cases o with
            | none => exact ihk _ h
            | some d =>
              obtain ⟨L', _, h⟩ := bind_ok h
              obtain ⟨o, ho, h⟩ := bind_ok h
              have := ih p L' o (fun hr => hn (.head ⟨k, hdecl i k p hk, hk⟩ hr)) ho
              subst this
              exact ihk _ h
          · exact ihk _ h
    have := key _ _ hds
    subst this
    cases h; rfl

theorem evalRevSum_none_of_not_reach (hp : lib.isPermute (g w).cls = false) (hdecl : NamesDeclared g) {f : ℕ} {i : Id} {r : Option Jac}
    (hn : ¬ Reaches g i w) (h : evalRevSum lib Jac.neNone g f i w = .ok r) : r = none := by
  simp only [evalRevSum] at h
  obtain ⟨direct, hd, h⟩ := bind_ok h
  have := sliced_none_of_not_reach hp hn hd
  subst this
  obtain ⟨ds, hds, h⟩ := bind_ok h
  have key : ∀ (ks : List Name) (ds : List Jac), evalRevTerms lib Jac.neNone g f i w ks [] = .ok ds → ds = [] := by
    intro ks
    induction ks with
    | nil => intro ds h; cases h; rfl
    | cons k ks ihk =>
      intro ds h
      simp only [evalRevTerms] at h
      cases hk : (g i).dterms k with
      | none => rw [hk] at h; exact ihk _ h
      | some p =>
        rw [hk] at h
        dsimp only at h
        split at h
        · exact ihk _ h
        · obtain ⟨l, _, h⟩ := bind_ok h
          obtain ⟨o, ho, h⟩ := bind_ok h
          have : o = none := by
            cases l with
            | none => cases ho; rfl
            | some L => exact evalLeft_none_of_not_reach hp hdecl f p L o (fun hr => hn (.head ⟨k, hdecl i k p hk, hk⟩ hr)) ho
          subst this
          exact ihk _ h
  have := key _ _ hds
  subst this
  cases h; rfl

/-! ## Forward walks over such values -/

theorem SumRep.cons {m n : ℕ} {xs : List Jac} {E X : Ent} {x : Jac} (hx : num.Rep x m n X) (h : SumRep num xs m n E) :
    SumRep num (x :: xs) m n (X + E) := by
  obtain ⟨Es, h1, h2⟩ := h
  exact ⟨X :: Es, .cons hx h1, by rw [List.sum_cons]; exact (Ent.EqOn.refl X).add h2⟩

theorem termsBy_rep {U : Graph ClassDef Par → Id → Id → Option Jac → Prop} {i : Id} {n : Id → ℕ} (Pm Dm : Id → Ent)
    (hU : ∀ k p o, (g i).dterms k = some p → p ≠ w → U g p w o → num.RepO o (n p) (n w) (Dm p))
    (hsl : ∀ k p F o, (g i).dterms k = some p → evalSliced lib g F i p = .ok o → num.RepO o (n i) (n p) (Pm p))
    {ks : List Name} {xs : List Jac} (h : TermsBy lib U g i w ks xs) :
    SumRep num xs (n i) (n w) ((ks.filter fun k => ((g i).dterms k).isSome).map fun k =>
      if (g i).kid k = w then 0 else Ent.mul (n ((g i).kid k)) (Pm ((g i).kid k)) (Dm ((g i).kid k))).sum := by
  have zl : ∀ {X E : Ent}, Ent.IsZero (n i) (n w) X → Ent.EqOn (n i) (n w) E (X + E) := by
    intro X E hX a ha b hb
    have := hX a ha b hb
    simp only [Pi.zero_apply] at this
    simp [this]
  induction h with
  | nil => exact SumRep.nil _ _
  | unset hk _ ih => rw [List.filter_cons]; simpa [hk] using ih
  | @direct k ks xs hk _ ih =>
    rw [List.filter_cons]
    have hkid : (g i).kid k = w := by simp [GNode.kid, hk]
    simp only [hk, Option.isSome_some, if_true, List.map_cons, List.sum_cons, hkid, zero_add]
    exact ih
  | @zero k p ks xs hk hpw hu _ ih =>
    rw [List.filter_cons]
    have hkid : (g i).kid k = p := by simp [GNode.kid, hk]
    simp only [hk, Option.isSome_some, if_true, List.map_cons, List.sum_cons, hkid, if_neg hpw]
    refine ih.congr (zl ?_)
    have := Ent.mul_congr (m := n i) (Ent.EqOn.refl (Pm p)) (hU k p none hk hpw hu : Ent.EqOn (n p) (n w) (Dm p) 0)
    rwa [Ent.mul_zero_right] at this
  | @blind k p d2 f ks xs hk hpw hu hs _ ih =>
    rw [List.filter_cons]
    have hkid : (g i).kid k = p := by simp [GNode.kid, hk]
    simp only [hk, Option.isSome_some, if_true, List.map_cons, List.sum_cons, hkid, if_neg hpw]
    refine ih.congr (zl ?_)
    have := Ent.mul_congr (n := n p) (hsl k p f none hk hs : Ent.EqOn (n i) (n p) (Pm p) 0) (Ent.EqOn.refl (n := n w) (Dm p))
    rwa [Ent.mul_zero_left] at this
  | @term k p d2 d x f ks xs hk hpw hu hs hx _ ih =>
    rw [List.filter_cons]
    have hkid : (g i).kid k = p := by simp [GNode.kid, hk]
    simp only [hk, Option.isSome_some, if_true, List.map_cons, List.sum_cons, hkid, if_neg hpw]
    exact SumRep.cons (num.superdot (hsl k p f _ hk hs) (hU k p _ hk hpw hu) hx) ih

theorem termsBy_nil {U : Graph ClassDef Par → Id → Id → Option Jac → Prop} {i : Id}
    (hU : ∀ k p o, (g i).dterms k = some p → U g p w o → o = none) {ks : List Name} {xs : List Jac} (h : TermsBy lib U g i w ks xs) : xs = [] := by
  induction h with
  | nil => rfl
  | unset _ _ ih => exact ih
  | direct _ _ ih => exact ih
  | zero _ _ _ _ ih => exact ih
  | blind hk _ hu _ _ ih => exact ih
  | term hk _ hu _ _ _ ih => cases hU _ _ _ hk hu

/-- The matrix that forward mode without caches computes, written as the sum over the names. -/
theorem evalDr_sum {y : Id} {f : ℕ} {o : Option Jac} (hdecl : NamesDeclared g) {n : Id → ℕ} (hw : SizesOk g n w)
    (hok : ∀ i, Reaches g y i → SizesOk g n i) (h : evalDr lib g f y w = .ok o) :
    ∃ Pm Dm : Id → Ent, (∀ p, SizesOk g n p → ∀ F o, evalSliced lib g F y p = .ok o → num.RepO o (n y) (n p) (Pm p)) ∧
      (∀ k p, (g y).dterms k = some p → p ≠ w → ∃ F o, evalDr lib g F p w = .ok o ∧ num.RepO o (n p) (n w) (Dm p)) ∧
      num.RepO o (n y) (n w) (Pm w + (((g y).dnames.filter fun k => ((g y).dterms k).isSome).map fun k =>
        if (g y).kid k = w then 0 else Ent.mul (n ((g y).kid k)) (Pm ((g y).kid k)) (Dm ((g y).kid k))).sum) := by
  cases f with
  | zero => cases h
  | succ f' =>
  have hP : ∀ p, ∃ E, (SizesOk g n p → ∀ F o, evalSliced lib g F y p = .ok o → num.RepO o (n y) (n p) E) := by
    intro p
    by_cases hp : SizesOk g n p
    · obtain ⟨E, hE⟩ := pick_rep (R := fun o => ∃ F, evalSliced lib g F y p = .ok o) (m := n y) (n := n p)
        (by rintro a b ⟨F, ha⟩ ⟨F', hb⟩; exact evalSliced_unique ha hb)
        (by rintro d ⟨F, hd⟩; exact evalSliced_sizes (hok y .refl) hp hd)
      exact ⟨E, fun _ F o ho => hE o ⟨F, ho⟩⟩
    · exact ⟨0, fun h => absurd h hp⟩
  have hD : ∀ p, ∃ E, (Reaches g y p → ∀ F o, evalDr lib g F p w = .ok o → num.RepO o (n p) (n w) E) := by
    intro p
    by_cases hp : Reaches g y p
    · obtain ⟨E, hE⟩ := pick_rep (R := fun o => ∃ F, evalDr lib g F p w = .ok o) (m := n p) (n := n w)
        (by rintro a b ⟨F, ha⟩ ⟨F', hb⟩; exact evalDr_unique ha hb)
        (by rintro d ⟨F, hd⟩; exact (evalDr_sizes hw F p d (fun i hi => hok i (hp.trans hi)) hdecl hd).2)
      exact ⟨E, fun _ F o ho => hE o ⟨F, ho⟩⟩
    · exact ⟨0, fun h => absurd h hp⟩
  choose Pm hPm using hP
  choose Dm hDm using hD
  have hreach : ∀ k p, (g y).dterms k = some p → Reaches g y p := fun k p hk => .single ⟨k, hdecl y k p hk, hk⟩
  simp only [evalDr] at h
  cases hs : evalSliced lib g f' y w with
  | error e => rw [hs] at h; cases h
  | ok direct =>
  rw [hs] at h; dsimp only at h
  cases ht : evalTerms lib g f' y w (fun p => evalDr lib g f' p w) (g y).dnames direct.toList with
  | error e => rw [ht] at h; cases h
  | ok ds =>
  rw [ht] at h; dsimp only at h
  cases hr : sumD lib ds with
  | error e => rw [hr] at h; cases h
  | ok r =>
  rw [hr] at h
  have hdirect := hPm w hw f' direct hs
  have hsr : SumRep num direct.toList (n y) (n w) (Pm w) := by
    cases direct with
    | none => exact (SumRep.nil _ _).congr (Ent.EqOn.symm hdirect)
    | some d => simpa using (SumRep.nil (N := num) (n y) (n w)).append hdirect
  have hfw := sumD_rep (evalTerms_rep (N := num) n (fun k => Pm ((g y).kid k)) Dm
    (fun k p o hk hp he => hDm p (hreach k p hk) f' o he)
    (fun k p d2 o hk hp he hso => by
      have : (g y).kid k = p := by simp [GNode.kid, hk]
      rw [this]
      exact hPm p (hok p (hreach k p hk)) f' o hso) (g y).dnames direct.toList ds _ hsr ht) hr
  refine ⟨Pm, Dm, hPm, fun k p hk hp => ?_, ?_⟩
  · obtain ⟨o2, ho2⟩ := evalTerms_link_ok ht k (hdecl y k p hk) p hk hp
    exact ⟨f', o2, ho2, hDm p (hreach k p hk) f' o2 ho2⟩
  · injection h with h
    subst h
    cases r with
    | none => exact hfw
    | some d => exact Jac.outForm_rep _ _ (Jac.finish_rep hfw)

theorem repO_finish {r : Option Jac} {m n : ℕ} {E : Ent} (h : num.RepO r m n E) : num.RepO (r.map lib.finish) m n E := by
  cases r with
  | none => exact h
  | some d => exact Jac.finish_rep h

/-- Forward mode, over values of which `RevOk` holds. -/
theorem forwardOk (hdecl : NamesDeclared g) : ForwardOk lib RevOk (Wf lib ⟨False, True⟩) g := by
  intro f i w direct xs r _ hW hs ht hsum hp
  by_cases hr : Reaches g i w
  · refine Or.inr ⟨hr, fun hl hok d₁ hd₁ E hE => repO_finish ?_⟩
    obtain ⟨_, f', hf'⟩ := hd₁
    obtain ⟨Pm, Dm, hPm, hDm, hM⟩ := evalDr_sum hdecl (hok w hr) hok hf'
    have hdirect := hPm w (hok w hr) f direct hs
    have hreach : ∀ k p, (g i).dterms k = some p → Reaches g i p := fun k p hk => .single ⟨k, hdecl i k p hk, hk⟩
    have hxs := termsBy_rep (n := objSize g) Pm Dm (fun k p o hk hpw hu => by
      obtain ⟨F, o2, ho2, hR⟩ := hDm k p hk hpw
      rcases hu hp with ⟨hn, rfl⟩ | ⟨_, hh⟩
      · have := evalDr_none_of_not_reach lib_localDr hp hdecl F p o2 hn ho2
        subst this; exact hR
      · exact hh (hl.sub (hreach k p hk)) (fun j hj => hok j ((hreach k p hk).trans hj)) o2 ⟨by simp, F, ho2⟩ _ hR)
      (fun k p F o hk hso => hPm p (hok p (hreach k p hk)) F o hso) ht
    have hall : SumRep num (direct.toList ++ xs) (objSize g i) (objSize g w) (Pm w + (((g i).dnames.filter fun k => ((g i).dterms k).isSome).map fun k =>
        if (g i).kid k = w then 0 else Ent.mul (objSize g ((g i).kid k)) (Pm ((g i).kid k)) (Dm ((g i).kid k))).sum) := by
      cases direct with
      | none =>
        refine hxs.congr ?_
        intro a ha b hb
        have := (hdirect : Ent.EqOn _ _ (Pm w) 0) a ha b hb
        simp only [Pi.zero_apply] at this
        simp [this]
      | some d => exact SumRep.cons hdirect hxs
    exact num.repO_congr (repO_unique hM hE) (sumD_rep hall hsum)
  · refine Or.inl ⟨hr, ?_⟩
    have := sliced_none_of_not_reach hp hr hs
    subst this
    have := termsBy_nil (fun k p o hk hu => by
      rcases hu hp with ⟨_, h⟩ | ⟨h, _⟩
      · exact h
      · exact absurd (Relation.ReflTransGen.head ⟨k, hdecl i k p hk, hk⟩ h) hr) ht
    subst this
    cases hsum; rfl

/-- Reverse mode. -/
theorem reverseOk (hdecl : NamesDeclared g) : ReverseOk lib Jac.neNone RevOk (Wf lib ⟨False, True⟩) g := by
  intro f i w r _ _ h hp
  by_cases hr : Reaches g i w
  · refine Or.inr ⟨hr, fun hl hok d₁ hd₁ E hE => repO_finish ?_⟩
    obtain ⟨_, f', hf'⟩ := hd₁
    exact rev_rep (lmultStyle_styleOk hp hdecl) (hok w hr) hdecl hok (fun j hj => hl.sub hj) hf' hE h
  · refine Or.inl ⟨hr, ?_⟩
    rw [evalRevSum_none_of_not_reach hp hdecl hr h]; rfl
end

theorem reachR_revOk {h : Heap ClassDef Par Arr Jac} (hr : ReachR lib Jac.neNone ⟨False, True⟩ h) : InvU lib RevOk ⟨False, True⟩ h :=
  reachR_inv lib_propsOk (fun _ => lib_localDr) (fun _ => forwardOk) (fun _ => reverseOk) hr
end Chumpy
