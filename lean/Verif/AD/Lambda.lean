import Verif.AD.Steps
import Verif.Core.LambdaReach
/-!
# `ChHandle` and `ChLambda`, and the chain rule through them

Both hand on one of their children and report the number 1 as derivative wrt it.  The number acts as the identity in products, but
`dr_wrt` turns it into a 1×1 matrix when it is returned.
-/
namespace Chumpy
open scoped BigOperators Topology

/-- `compute_r` returns the value of child `k`, `compute_dr_wrt` the number 1 if asked about that child, `None` otherwise. -/
noncomputable def chPass (k : Name) : ClassDef where
  r := .child k fun v => .ret v
  dr := fun _ ns => if k ∈ ns then .ret (some (.num 1)) else .ret Option.none
  dr_none := by simp

/-- `ChHandle` (ch.py:1224-1233): hands on `x`. -/
noncomputable def chHandle : ClassDef := chPass nmX

/-- The attribute `_result`. -/
abbrev nmResult : Name := 8

/-- `ChLambda` (ch.py:1236-1273): hands on `_result`; the arguments are differentiable terms too, about which it answers `None`
(`on_changed` is modelled by `callOnChangedL`). -/
noncomputable def chLambda : ClassDef := chPass nmResult

/-- Object `i` hands on `p`: it is of such a class, `p` is the child it hands on, it asks for no special form of derivatives, and no other
child depends on `p` (else there would be a cycle: the other children of a lambda are the arguments, on which the result depends). -/
structure HandsOn (g : Graph ClassDef Par) (i p : Id) : Prop where
  cls : ∃ k, (g i).cls = chPass k ∧ (g i).dterms k = some p ∧ ∀ k' q, k' ≠ k → (g i).dterms k' = some q → ¬ Reaches g q p
  dense : (g i).makeDense = false
  sparse : (g i).makeSparse = false

/-- From `i` to `w` by handing on only, as in `Ch(lambda a: a)`. -/
inductive Straight (g : Graph ClassDef Par) (w : Id) : Id → Prop
  | here {i} : HandsOn g i w → Straight g w i
  | next {i p} : HandsOn g i p → Straight g w p → Straight g w i

/-- What `dr_wrt` makes of the number 1 (ch.py:803). -/
noncomputable def Jac.unit : Jac := .dense 1 1 fun _ _ => 1

section
variable {g : Graph ClassDef Par}

theorem pass_compDr {f : ℕ} {i q : Id} {k : Name} (hc : (g i).cls = chPass k) :
    evalCompDr lib g f i q = .ok (if k ∈ (g i).namesOf q then some (.num 1) else Option.none) := by
  unfold evalCompDr
  show evalProg g _ i ((g i).cls.dr _ _) = _
  rw [hc]
  simp only [chPass]
  split <;> rfl

theorem mem_namesOf (hd : ∀ i k c, (g i).dterms k = some c → k ∈ (g i).dnames) {i q : Id} {k : Name} :
    k ∈ (g i).namesOf q ↔ (g i).dterms k = some q := by
  simp only [GNode.namesOf, List.mem_filter, decide_eq_true_eq]
  exact ⟨fun h => h.2, fun h => ⟨hd i k q h, h⟩⟩

theorem pass_slice (hd : ∀ i k c, (g i).dterms k = some c → k ∈ (g i).dnames) {f : ℕ} {i p : Id} {k : Name} (hc : (g i).cls = chPass k)
    (hk : (g i).dterms k = some p) (n : ℕ) :
    ∀ q o, ¬ Reaches g q p → evalSlice lib g f i n q = .ok o → o = none := by
  induction n with
  | zero => intro q o _ h; cases h
  | succ n ih =>
    intro q o hq h
    simp only [evalSlice] at h
    by_cases hp : (g q).cls.permute = true
    · rw [if_pos hp] at h
      cases ha : (g q).dterms lib.permArg with
      | none => rw [ha] at h; cases h
      | some r =>
        rw [ha] at h; dsimp only at h
        by_cases hri : r = i
        · rw [if_pos hri] at h; cases h; rfl
        · rw [if_neg hri] at h
          have hr : ¬ Reaches g r p := fun hr => hq (Relation.ReflTransGen.head ⟨_, hd _ _ _ ha, ha⟩ hr)
          have hn : k ∉ (g i).namesOf r := by
            rw [mem_namesOf hd, hk]
            intro e; injection e with e
            exact hr (e ▸ .refl)
          rw [pass_compDr hc, if_neg hn] at h
          exact ih r o hr h
    · rw [if_neg hp] at h; cases h; rfl

theorem pass_sliced (hd : ∀ i k c, (g i).dterms k = some c → k ∈ (g i).dnames) {f : ℕ} {i p q : Id} {k : Name} {o : Option Jac}
    (hc : (g i).cls = chPass k) (hk : (g i).dterms k = some p) (hq : ¬ Reaches g q p) (h : evalSliced lib g f i q = .ok o) : o = none := by
  have hn : k ∉ (g i).namesOf q := by
    rw [mem_namesOf hd, hk]
    intro e; injection e with e
    exact hq (e ▸ .refl)
  unfold evalSliced at h
  rw [pass_compDr hc, if_neg hn] at h
  dsimp only at h
  cases hs : evalSlice lib g f i f q with
  | error e => rw [hs] at h; cases h
  | ok o' =>
    have := pass_slice hd hc hk f q o' hq hs
    subst this
    rw [hs] at h; cases h; rfl

theorem pass_terms_other (hd : ∀ i k c, (g i).dterms k = some c → k ∈ (g i).dnames) {f : ℕ} {i p w : Id} {k : Name}
    {ev : Id → Except Err (Option Jac)} (hc : (g i).cls = chPass k) (hk : (g i).dterms k = some p)
    (ho : ∀ k' q, k' ≠ k → (g i).dterms k' = some q → ¬ Reaches g q p) :
    ∀ (ks : List Name) (acc ds : List Jac), k ∉ ks → evalTerms lib g f i w ev ks acc = .ok ds → ds = acc := by
  intro ks
  induction ks with
  | nil => intro acc ds _ h; cases h; rfl
  | cons j ks ih =>
    intro acc ds hn h
    simp only [List.mem_cons, not_or] at hn
    simp only [evalTerms] at h
    cases hj : (g i).dterms j with
    | none => rw [hj] at h; exact ih _ _ hn.2 h
    | some q =>
      rw [hj] at h; dsimp only at h
      by_cases hq : q = w
      · rw [if_pos hq] at h; exact ih _ _ hn.2 h
      · rw [if_neg hq] at h
        rcases hev : ev q with e | o
        · rw [hev] at h; cases h
        · rw [hev] at h
          cases o with
          | none => exact ih _ _ hn.2 h
          | some d2 =>
            dsimp only at h
            cases hs : evalSliced lib g f i q with
            | error e => rw [hs] at h; cases h
            | ok o =>
              have := pass_sliced hd hc hk (ho j q (Ne.symm hn.1) hj) hs
              subst this
              rw [hs] at h; exact ih _ _ hn.2 h

theorem pass_terms (hd : ∀ i k c, (g i).dterms k = some c → k ∈ (g i).dnames) {f : ℕ} {i p w : Id} {k : Name}
    {ev : Id → Except Err (Option Jac)} (hc : (g i).cls = chPass k) (hk : (g i).dterms k = some p) (hp : p ≠ w)
    (ho : ∀ k' q, k' ≠ k → (g i).dterms k' = some q → ¬ Reaches g q p) :
    ∀ (ks : List Name) (acc ds : List Jac), ks.Nodup → k ∈ ks → evalTerms lib g f i w ev ks acc = .ok ds →
      ∃ o, ev p = .ok o ∧ ds = acc ++ (o.map fun d => Jac.scale 1 d.unwrap).toList := by
  intro ks
  induction ks with
  | nil => intro acc ds _ h; cases h
  | cons j ks ih =>
    intro acc ds hnd hm h
    rw [List.nodup_cons] at hnd
    simp only [evalTerms] at h
    by_cases hjk : j = k
    · subst hjk
      rw [hk] at h; dsimp only at h
      rw [if_neg hp] at h
      cases he : ev p with
      | error e => rw [he] at h; cases h
      | ok o =>
        rw [he] at h
        refine ⟨o, rfl, ?_⟩
        cases o with
        | none => simpa using pass_terms_other hd hc hk ho ks _ _ hnd.1 h
        | some d2 =>
          dsimp only at h
          have hn : j ∈ (g i).namesOf p := (mem_namesOf hd).2 hk
          have hs : evalSliced lib g f i p = .ok (some (.num 1)) := by
            unfold evalSliced
            rw [pass_compDr hc, if_pos hn]
          rw [hs] at h
          dsimp only at h
          exact pass_terms_other hd hc hk ho ks _ _ hnd.1 h
    · have hm : k ∈ ks := by
        rcases List.mem_cons.1 hm with e | e
        · exact absurd e.symm hjk
        · exact e
      cases hj : (g i).dterms j with
      | none => rw [hj] at h; exact ih _ _ hnd.2 hm h
      | some q =>
        rw [hj] at h; dsimp only at h
        by_cases hq : q = w
        · rw [if_pos hq] at h; exact ih _ _ hnd.2 hm h
        · rw [if_neg hq] at h
          rcases hev : ev q with e | o
          · rw [hev] at h; cases h
          · rw [hev] at h
            cases o with
            | none => exact ih _ _ hnd.2 hm h
            | some d2 =>
              dsimp only at h
              cases hs : evalSliced lib g f i q with
              | error e => rw [hs] at h; cases h
              | ok o =>
                have := pass_sliced hd hc hk (ho j q hjk hj) hs
                subst this
                rw [hs] at h; exact ih _ _ hnd.2 hm h

theorem pass_terms_wrt (hd : ∀ i k c, (g i).dterms k = some c → k ∈ (g i).dnames) {f : ℕ} {i p w : Id} {k : Name}
    {ev : Id → Except Err (Option Jac)} (hc : (g i).cls = chPass k) (hk : (g i).dterms k = some p) (hp : p = w)
    (ho : ∀ k' q, k' ≠ k → (g i).dterms k' = some q → ¬ Reaches g q p) :
    ∀ (ks : List Name) (acc ds : List Jac), evalTerms lib g f i w ev ks acc = .ok ds → ds = acc := by
  subst hp
  intro ks
  induction ks with
  | nil => intro acc ds h; cases h; rfl
  | cons j ks ih =>
    intro acc ds h
    simp only [evalTerms] at h
    cases hj : (g i).dterms j with
    | none => rw [hj] at h; exact ih _ _ h
    | some q =>
      rw [hj] at h; dsimp only at h
      by_cases hq : q = p
      · rw [if_pos hq] at h; exact ih _ _ h
      · rw [if_neg hq] at h
        rcases hev : ev q with e | o
        · rw [hev] at h; cases h
        · rw [hev] at h
          cases o with
          | none => exact ih _ _ h
          | some d2 =>
            dsimp only at h
            cases hs : evalSliced lib g f i q with
            | error e => rw [hs] at h; cases h
            | ok o =>
              have hjk : j ≠ k := by
                rintro rfl
                rw [hk] at hj; injection hj with hj; exact hq hj.symm
              have := pass_sliced hd hc hk (ho j q hjk hj) hs
              subst this
              rw [hs] at h; exact ih _ _ h

/-- `dr_wrt` of an object that hands on `p`. -/
theorem pass_dr (hd : ∀ i k c, (g i).dterms k = some c → k ∈ (g i).dnames) {f : ℕ} {i p w : Id} {o : Option Jac}
    (hnd : (g i).dnames.Nodup) (hw : (g w).cls.permute = false) (hi : HandsOn g i p) (h : evalDr lib g (f + 1) i w = .ok o) :
    (p = w ∧ o = some Jac.unit) ∨
      (p ≠ w ∧ ∃ o', evalDr lib g f p w = .ok o' ∧ o = o'.map fun d => (Jac.scale 1 d.unwrap).finish) := by
  obtain ⟨⟨k, hc, hk, ho⟩, h1, h2⟩ := hi
  simp only [evalDr] at h
  cases hs : evalSliced lib g f i w with
  | error e => rw [hs] at h; cases h
  | ok direct =>
    rw [hs] at h; dsimp only at h
    have hs := evalSliced_plain hw hs
    rw [pass_compDr hc] at hs
    injection hs with hs
    cases ht : evalTerms lib g f i w (fun p => evalDr lib g f p w) (g i).dnames direct.toList with
    | error e => rw [ht] at h; cases h
    | ok ds =>
      rw [ht] at h; dsimp only at h
      by_cases hpw : p = w
      · refine Or.inl ⟨hpw, ?_⟩
        subst hpw
        rw [if_pos ((mem_namesOf hd).2 hk)] at hs
        subst hs
        have := pass_terms_wrt hd hc hk rfl ho _ _ _ ht
        subst this
        simp only [Option.toList, sumD, List.foldlM, Except.map, pure, Except.pure] at h
        cases h
        show some (Jac.outForm _ _ _) = _
        rw [h1, h2]
        simp [Jac.outForm, Jac.finish, Jac.unit]
      · refine Or.inr ⟨hpw, ?_⟩
        have hn : k ∉ (g i).namesOf w := by
          rw [mem_namesOf hd, hk]
          intro e; injection e with e; exact hpw e
        rw [if_neg hn] at hs
        subst hs
        obtain ⟨o', e1, e2⟩ := pass_terms hd hc hk hpw ho _ _ _ hnd (hd i k p hk) ht
        refine ⟨o', e1, ?_⟩
        subst e2
        cases o' with
        | none =>
          simp only [Option.toList, sumD, Option.map] at h
          cases h; rfl
        | some d =>
          simp only [Option.map, Option.toList, List.nil_append, sumD, List.foldlM, Except.map, pure, Except.pure] at h
          cases h
          show some (Jac.outForm _ _ _) = _
          rw [h1, h2]
          simp [Jac.outForm]

theorem Jac.scale_one_rep {d : Jac} {m n : ℕ} {M : Ent} (h : Jac.Rep d m n M) : Jac.Rep (Jac.scale 1 d.unwrap).finish m n M :=
  Jac.finish_rep (Jac.scale_rep (Jac.rep_unwrap h) (fun i _ j _ => by simp))

theorem Jac.scale_one_unit : (Jac.scale 1 Jac.unit.unwrap).finish = Jac.unit := by
  simp [Jac.unit, Jac.unwrap, Jac.scale, Jac.finish]

/-- A product with the 1×1 matrix is a product with the identity. -/
theorem acts_unit {m n : ℕ} {M : Ent} (hm : m = n) (h : Ent.EqOn n n M Ent.one) : Acts num (some Jac.unit) m n M := by
  subst hm
  intro d x l A hd hx
  have hu : Jac.RepI (.num 1) m m M := ⟨rfl, h⟩
  have e : lib.superdot d Jac.unit = Jac.superdot d (.num 1) := rfl
  rw [e] at hx
  unfold Jac.superdot at hx
  have hd' := Jac.rep_unwrap hd
  have hmul : Ent.EqOn l m A (Ent.mul m A M) := (Ent.mul_one A).symm.trans (Ent.mul_congr (.refl _) h.symm)
  generalize d.unwrap = d' at hd' hx
  cases d' with
  | num c =>
    simp only [Jac.unwrap, Jac.scale, mul_one] at hx
    cases hx
    exact Jac.rep_congr hmul hd'
  | dense m' n' e =>
    simp only [Jac.unwrap] at hx
    cases hx
    exact Jac.scale_rep hd' (fun i hi j hj => by rw [← hmul i hi j hj]; simp)
  | sparse m' n' e =>
    simp only [Jac.unwrap] at hx
    cases hx
    exact Jac.scale_rep hd' (fun i hi j hj => by rw [← hmul i hi j hj]; simp)

theorem means_pass {i p : Id} {r : Except Err Arr} (hi : HandsOn g i p) (h : Means lib g (.r p) r) : Means lib g (.r i) r := by
  obtain ⟨⟨k, hc, hk, -⟩, -, -⟩ := hi
  obtain ⟨h1, f, hf⟩ := h
  refine ⟨h1, f + 1, ?_⟩
  show evalProg g _ i (g i).cls.r = _
  rw [hc]
  simp only [chPass, evalProg, hk, hf]
  cases r <;> rfl
end

/-- The restrictions under which the chain rule is right in graphs with lambdas: as `ChainOk` and `Correct`, except for objects that hand
on. -/
structure PassChain (g : Graph ClassDef Par) (y w : Id) : Prop where
  acyclic : ∀ i, Reaches g y i → ¬ Relation.TransGen (Uses g) i i
  wrt : (g w).cls.permute = false
  nodup : ∀ i, Reaches g y i → (g i).dnames.Nodup
  decl : ∀ i k c, (g i).dterms k = some c → k ∈ (g i).dnames
  obj : ∀ i, Reaches g y i → i ≠ w →
    (∃ p v, HandsOn g i p ∧ Means lib g (.r i) (.ok v)) ∨
    (Correct g w i ∧
      (∀ k k' p, (g i).dterms k = some p → (g i).dterms k' = some p → p ≠ w → Reaches g p w → k = k') ∧
      ∀ k p, (g i).dterms k = some p → (g p).cls.permute = true → ∀ f, evalCompDr lib g f i p ≠ .ok none)

/-- The derivative `o` is the matrix `M`, or the 1×1 matrix instead of the identity. -/
def UpToUnit (g : Graph ClassDef Par) (w i : Id) (o : Option Jac) (m n : ℕ) (M : Ent) : Prop :=
  num.RepO o m n M ∨ (Straight g w i ∧ o = some Jac.unit ∧ m = n ∧ Ent.EqOn n n M Ent.one)

/-- The chain rule through lambdas. -/
theorem jacobian_pass {g : Graph ClassDef Par} {y w : Id} {o : Option Jac} (hc : PassChain g y w) {vw : Arr}
    (hw : Means lib g (.r w) (.ok vw)) (hyw : y ≠ w) (h : MeansDr lib g y w (.ok o)) :
    ∃ vy M, HasJacobian g y w vy vw M ∧ UpToUnit g w y o vy.size vw.size M := by
  classical
  let φ : (Fin vw.size → ℝ) → Id → Arr := fun t i =>
    if h : ∃ v, Means lib (setTo g w (vw.put t)) (.r i) (.ok v) then h.choose else vw
  have hφ : ∀ t i v, Means lib (setTo g w (vw.put t)) (.r i) (.ok v) → φ t i = v := by
    intro t i v hv
    have he : ∃ v, Means lib (setTo g w (vw.put t)) (.r i) (.ok v) := ⟨v, hv⟩
    simp only [φ, dif_pos he]
    have := he.choose_spec.unique hv
    injection this
  have hφw : ∀ t, φ t w = vw.put t := fun t => hφ t w _ (means_setTo g w _)
  have h0 : ∀ i v, Means lib g (.r i) (.ok v) → φ vw.data i = v := by
    intro i v hv
    refine hφ _ i v ?_
    rw [Arr.put_data]
    exact means_other (w := w) (vw := vw) (fun j hj => by simp [setTo, hj]) hw (means_setTo g w vw) hv
  have hm : ∀ i, Reaches g y i → Means lib g (.r i) (.ok (φ vw.data i)) := by
    intro i hi
    by_cases hiw : i = w
    · subst hiw; rw [hφw, Arr.put_data]; exact hw
    · rcases hc.obj i hi hiw with ⟨_, v, _, hv⟩ | ⟨⟨out, _, _, hout, _⟩, _⟩
      · rw [h0 i v hv]; exact hv
      · rw [h0 i out hout]; exact hout
  have hsz : φ vw.data w = vw := by rw [hφw, Arr.put_data]
  have hw1 : num.size (φ vw.data w) = vw.size := by rw [hsz]
  have hw2 : ∀ t, num.fn vw.size (φ t w) = t := fun t => by rw [hφw]; exact num.fn_put vw t
  have hw3 : ∀ t, φ t w = num.put (φ vw.data w) (num.fn _ (φ t w)) := fun t => by
    rw [hφw, hφw]; rw [Arr.put_data]; exact (congrArg (Arr.put vw) (num.fn_put vw t)).symm
  have hGe : ∀ t i, i ≠ w → setTo g w (vw.put t) i = g i := fun t i hi => by simp [setTo, hi]
  have key : ∀ f i o, Reaches g y i → i ≠ w → evalDr lib g f i w = .ok o →
      ∃ M, UpToUnit g w i o (φ vw.data i).size vw.size M ∧
        HasFDerivAt (fun t => num.fn (φ vw.data i).size (φ t i)) (Ent.lin (φ vw.data i).size vw.size M) vw.data ∧
        ∀ᶠ t in 𝓝 vw.data, φ t i = (φ vw.data i).put (num.fn _ (φ t i)) ∧ Means lib (setTo g w (vw.put t)) (.r i) (.ok (φ t i)) := by
    intro f
    induction f with
    | zero => intro i o _ _ h; cases h
    | succ f ih =>
      intro i o hr hiw h
      rcases hc.obj i hr hiw with ⟨p, v, hi, hv⟩ | ⟨hob, honce, hslice⟩
      · have hup : Uses g i p := by
          obtain ⟨⟨k, _, hk, _⟩, _, _⟩ := hi
          exact uses_of_link hc.decl hk
        have e0 : φ vw.data i = φ vw.data p := h0 i _ (means_pass hi (hm p (hr.tail hup)))
        have hpass : ∀ t v, Means lib (setTo g w (vw.put t)) (.r p) (.ok v) → Means lib (setTo g w (vw.put t)) (.r i) (.ok v) := by
          intro t v hv
          obtain ⟨⟨k, hcl, hk, -⟩, -, -⟩ := hi
          obtain ⟨h1, f, hf⟩ := hv
          refine ⟨h1, f + 1, ?_⟩
          show evalProg _ _ i (setTo g w (vw.put t) i).cls.r = _
          rw [hGe t i hiw, hcl]
          simp only [chPass, evalProg, hGe t i hiw, hk, hf]
        rcases pass_dr hc.decl (hc.nodup i hr) hc.wrt hi h with ⟨rfl, rfl⟩ | ⟨hpw, o', ho', rfl⟩
        · have et : ∀ t, φ t i = φ t p := fun t => hφ t i _ (hpass t _ (by rw [hφw]; exact means_setTo g p _))
          refine ⟨Ent.one, .inr ⟨.here hi, rfl, by rw [e0, hsz], .refl _⟩, ?_, ?_⟩
          · rw [e0, hsz, Ent.lin_one]
            refine (hasFDerivAt_id vw.data).congr_of_eventuallyEq (Filter.Eventually.of_forall fun t => ?_)
            show num.fn vw.size (φ t i) = t
            rw [et]; exact hw2 t
          · refine Filter.Eventually.of_forall fun t => ?_
            rw [et, e0]
            exact ⟨hw3 t, hpass t _ (by rw [hφw]; exact means_setTo g p _)⟩
        · obtain ⟨M, r1, r2, r3⟩ := ih p o' (hr.tail hup) hpw ho'
          rw [← e0] at r1 r2 r3
          refine ⟨M, ?_, ?_, ?_⟩
          · rcases r1 with r1 | ⟨hst, rfl, r1⟩
            · left
              cases o' with
              | none => exact r1
              | some d => exact Jac.scale_one_rep r1
            · right
              exact ⟨.next hi hst, congrArg some Jac.scale_one_unit, r1⟩
          · refine r2.congr_of_eventuallyEq ?_
            filter_upwards [r3] with t ht
            rw [hφ t i _ (hpass t _ ht.2)]
          · filter_upwards [r3] with t ht
            rw [hφ t i _ (hpass t _ ht.2)]
            exact ⟨ht.1, hpass t _ ht.2⟩
      · have hobj : ObjOk num g w (φ vw.data) i := by
          obtain ⟨out, v, P, h1, h2, h3⟩ := hob
          refine ⟨P, ?_⟩
          rw [h0 i out h1]
          have : (fun a => φ vw.data ((g i).kid ((g i).links.get a))) = v := funext fun a => h0 _ _ (h2 a)
          rw [this]; exact h3
        obtain ⟨M, r1, r2, r3⟩ := chain_step (N := num) lib_localDr (g := g) (i := i) (w := w) (f := f) (n := vw.size) hc.wrt
          (hc.nodup i hr) hc.decl (fun k hk => hc.acyclic i hr (.single (uses_of_link hc.decl hk))) honce hslice
          (φ := φ) (t₀ := vw.data) hw1 hw2 hw3 (G := fun t => setTo g w (vw.put t)) hGe
          (fun t => by rw [hφw]; exact means_setTo g w _) hφ (hm i hr)
          (fun k c hk => hm c (hr.tail (uses_of_link hc.decl hk))) hobj
          (fun k p o hk hp ho => by
            obtain ⟨M, q1, q2, q3⟩ := ih p o (hr.tail (uses_of_link hc.decl hk)) hp ho
            refine ⟨M, ?_, q2, q3⟩
            rcases q1 with q1 | ⟨_, rfl, q1, q1'⟩
            · exact acts_of_repO q1
            · exact acts_unit q1 q1') hiw h
        exact ⟨M, .inl r1, r2, r3⟩
  obtain ⟨_, f, hf⟩ := h
  obtain ⟨M, r1, r2, r3⟩ := key f y o .refl hyw hf
  refine ⟨φ vw.data y, M, ⟨hm y .refl, hw, _, ?_, r2⟩, r1⟩
  filter_upwards [r3] with t ht
  rw [← ht.1]; exact ht.2

/-! ## `dr_wrt` does not raise -/

section
variable {g : Graph ClassDef Par} {y w : Id} {vw : Arr}

theorem PassChain.sub {p : Id} (hc : PassChain g y w) (hp : Reaches g y p) : PassChain g p w where
  acyclic := fun i hi => hc.acyclic i (hp.trans hi)
  wrt := hc.wrt
  nodup := fun i hi => hc.nodup i (hp.trans hi)
  decl := hc.decl
  obj := fun i hi => hc.obj i (hp.trans hi)

/-- The walk down the slices under a child about which the object answers `None` ends. -/
theorem pass_slice_total {i p : Id} {k : Name} (hd : ∀ i k c, (g i).dterms k = some c → k ∈ (g i).dnames) (hc : (g i).cls = chPass k)
    (hk : (g i).dterms k = some p) {q : Id} (hacc : Acc (fun a b => Uses g b a) q) (hq : ¬ Reaches g q p)
    (hs : ∀ j, Reaches g q j → (g j).cls.permute = true → ∃ c, (g j).dterms nmA = some c) :
    ∃ n, ∀ f, evalSlice lib g f i n q = .ok none := by
  induction hacc with
  | intro q _ ih =>
    cases hp : (g q).cls.permute with
    | false => exact ⟨1, fun f => by simp only [evalSlice]; rw [if_neg (by rw [hp]; simp)]⟩
    | true =>
      obtain ⟨r, hr⟩ := hs q .refl hp
      have hu : Uses g q r := ⟨_, hd _ _ _ hr, hr⟩
      have hrp : ¬ Reaches g r p := fun h => hq (.head hu h)
      obtain ⟨n, hn⟩ := ih r hu hrp (fun j hj => hs j (.head hu hj))
      refine ⟨n + 1, fun f => ?_⟩
      simp only [evalSlice]
      rw [if_pos hp, show (g q).dterms lib.permArg = some r from hr]
      dsimp only
      split
      · rfl
      · have hnn : k ∉ (g i).namesOf r := by
          rw [mem_namesOf hd, hk]
          intro e; injection e with e
          exact hrp (e ▸ .refl)
        rw [pass_compDr hc, if_neg hnn]
        exact hn f

theorem pass_sliced_total {i p : Id} {k : Name} (hd : ∀ i k c, (g i).dterms k = some c → k ∈ (g i).dnames) (hc : (g i).cls = chPass k)
    (hk : (g i).dterms k = some p) {q : Id} (hacc : Acc (fun a b => Uses g b a) q) (hq : ¬ Reaches g q p)
    (hs : ∀ j, Reaches g q j → (g j).cls.permute = true → ∃ c, (g j).dterms nmA = some c) : SlicedIs lib g i q none := by
  obtain ⟨n, hn⟩ := pass_slice_total hd hc hk hacc hq hs
  have hnn : k ∉ (g i).namesOf q := by
    rw [mem_namesOf hd, hk]
    intro e; injection e with e
    exact hq (e ▸ .refl)
  exact ⟨n, by unfold evalSliced; rw [pass_compDr hc, if_neg hnn]; dsimp only; rw [hn n]⟩

/-- If no class raises, `dr_wrt` does not raise, except possibly when `w` has exactly one entry. -/
theorem dr_returns_pass (hacc : Acc (fun a b => Uses g b a) y) (hc : PassChain g y w) (hw : Means lib g (.r w) (.ok vw))
    (hsz : vw.size ≠ 1) (hob : ∀ i, Reaches g y i → i ≠ w → (∃ p, HandsOn g i p) ∨ ExactlyFor g w i)
    (hs : ∀ j, Reaches g y j → (g j).cls.permute = true → ∃ c, (g j).dterms nmA = some c) (hyw : y ≠ w) :
    ∃ o, MeansDr lib g y w (.ok o) := by
  induction hacc with
  | intro y hacc ih =>
  have kids : ∀ k p, (g y).dterms k = some p → p ≠ w → ∃ o, MeansDr lib g p w (.ok o) := by
    intro k p hk hpw
    have hu : Uses g y p := ⟨k, hc.decl y k p hk, hk⟩
    have hr : Reaches g y p := .single hu
    exact ih p hu (hc.sub hr) (fun i hi => hob i (hr.trans hi)) (fun i hi => hs i (hr.trans hi)) hpw
  have hcase : (∃ p, HandsOn g y p) ∨ (ExactlyFor g w y ∧
      ∀ k p, (g y).dterms k = some p → (g p).cls.permute = true → ∀ f, evalCompDr lib g f y p ≠ .ok none) := by
    rcases hob y .refl hyw with h | h
    · exact .inl h
    · rcases hc.obj y .refl hyw with ⟨p, _, hi, _⟩ | ⟨_, _, hslice⟩
      · exact .inl ⟨p, hi⟩
      · exact .inr ⟨h, hslice⟩
  rcases hcase with ⟨p, hi⟩ | ⟨hex, hslice⟩
  · obtain ⟨⟨k, hcl, hk, ho⟩, -, -⟩ := hi
    have hsl : ∀ q, SlicedIs lib g y q (if k ∈ (g y).namesOf q then some (.num 1) else none) ∨ ¬ (∃ j, (g y).dterms j = some q) := by
      intro q
      by_cases hq : ∃ j, (g y).dterms j = some q
      · left
        obtain ⟨j, hj⟩ := hq
        by_cases hjk : (g y).dterms k = some q
        · rw [if_pos ((mem_namesOf hc.decl).2 hjk)]
          exact .some ⟨0, by rw [pass_compDr hcl, if_pos ((mem_namesOf hc.decl).2 hjk)]⟩
        · rw [if_neg (fun h => hjk ((mem_namesOf hc.decl).1 h))]
          have hu : Uses g y q := ⟨j, hc.decl y j q hj, hj⟩
          exact pass_sliced_total hc.decl hcl hk (hacc q hu) (ho j q (by rintro rfl; exact hjk hj) hj) (fun i hi => hs i (.head hu hi))
      · exact .inr hq
    have hdirect : ∃ o : Option Jac, SlicedIs lib g y w o ∧ (o = none ∨ (o = some (.num 1) ∧ p = w)) := by
      have hcd : CompIs lib g y w (if k ∈ (g y).namesOf w then some (.num 1) else none) := ⟨0, pass_compDr hcl⟩
      by_cases hkw : k ∈ (g y).namesOf w
      · rw [if_pos hkw] at hcd
        refine ⟨_, .some hcd, .inr ⟨rfl, ?_⟩⟩
        have := (mem_namesOf hc.decl).1 hkw
        rw [hk] at this; injection this
      · rw [if_neg hkw] at hcd
        exact ⟨_, .none hcd hc.wrt, .inl rfl⟩
    obtain ⟨o, hso, hoo⟩ := hdirect
    have hterms : ∀ (ks : List Name), ∀ acc : List Jac, ∃ ds, TermsIs lib g y w ks acc ds := by
      intro ks
      induction ks with
      | nil => intro acc; exact ⟨acc, .nil _ _ _⟩
      | cons j ks ihk =>
        intro acc
        cases hj : (g y).dterms j with
        | none => obtain ⟨ds, h⟩ := ihk acc; exact ⟨ds, .unset hj h⟩
        | some q =>
          by_cases hqw : q = w
          · obtain ⟨ds, h⟩ := ihk acc; exact ⟨ds, .wrt (hqw ▸ hj) h⟩
          · obtain ⟨o', ho'⟩ := kids j q hj hqw
            cases o' with
            | none => obtain ⟨ds, h⟩ := ihk acc; exact ⟨ds, .none hj hqw ho' h⟩
            | some d2 =>
              rcases hsl q with h1 | h1
              · by_cases hkq : k ∈ (g y).namesOf q
                · rw [if_pos hkq] at h1
                  obtain ⟨ds, h⟩ := ihk (acc ++ [Jac.scale 1 d2.unwrap])
                  exact ⟨ds, .some hj hqw ho' h1 (x := Jac.scale 1 d2.unwrap) rfl h⟩
                · rw [if_neg hkq] at h1
                  obtain ⟨ds, h⟩ := ihk acc
                  obtain ⟨f, hf⟩ := h
                  obtain ⟨f2, hf2⟩ := h1
                  obtain ⟨_, f3, hf3⟩ := ho'
                  refine ⟨ds, max f (max f2 f3), ?_⟩
                  simp only [evalTerms, hj, if_neg hqw]
                  rw [evalDr_up ((Nat.le_max_right f2 f3).trans (Nat.le_max_right f _)) hf3]
                  dsimp only
                  rw [evalSliced_up ((Nat.le_max_left f2 f3).trans (Nat.le_max_right f _)) hf2]
                  exact evalTerms_up (Nat.le_max_left f _) hf
              · exact absurd ⟨j, hj⟩ h1
    obtain ⟨ds, hds⟩ := hterms (g y).dnames o.toList
    -- there is at most one summand
    have hlen : ∃ r, sumD lib ds = .ok r := by
      obtain ⟨f, hf⟩ := hds
      rcases hoo with rfl | ⟨rfl, hpw⟩
      · by_cases hpw : p = w
        · subst hpw
          exfalso
          obtain ⟨f', hf'⟩ := hso
          have := evalSliced_plain hc.wrt hf'
          rw [pass_compDr hcl, if_pos ((mem_namesOf hc.decl).2 hk)] at this
          cases this
        · obtain ⟨o', _, e⟩ := pass_terms hc.decl hcl hk hpw ho _ _ _ (hc.nodup y .refl) (hc.decl y k p hk) hf
          subst e
          cases o' with
          | none => exact ⟨none, rfl⟩
          | some d => exact ⟨some _, rfl⟩
      · have : ds = [.num 1] := pass_terms_wrt hc.decl hcl hk hpw ho _ _ _ hf
        subst this
        exact ⟨some _, rfl⟩
    obtain ⟨r, hr⟩ := hlen
    obtain ⟨f, hf⟩ := hds
    obtain ⟨f', hf'⟩ := hso
    refine ⟨r.map (fun d => lib.outForm (g y).makeDense (g y).makeSparse (lib.finish d)), by simp, max f f' + 1, ?_⟩
    simp only [evalDr]
    rw [evalSliced_up (Nat.le_max_right f f') hf']
    dsimp only
    rw [evalTerms_up (Nat.le_max_left f f') hf]
    dsimp only
    rw [hr]
  · refine dr_step_returns (hc.nodup y .refl) hc.decl (fun k hk => hc.acyclic y .refl (.single ⟨k, hc.decl _ _ _ hk, hk⟩)) hc.wrt
      hslice hw hsz hex hyw ?_
    intro k p hk hpw
    have hr : Reaches g y p := .single ⟨k, hc.decl y k p hk, hk⟩
    obtain ⟨o, ho⟩ := kids k p hk hpw
    obtain ⟨vp, M, hJ, hM⟩ := jacobian_pass (hc.sub hr) hw hpw ho
    refine ⟨o, vp, ho, hJ.valY, ?_⟩
    rintro d2 rfl d l A hd
    rcases hM with hM | ⟨_, hu, e1, e2⟩
    · obtain ⟨x, hx, hxr⟩ := Jac.superdot_rep hd hM
      exact ⟨x, _, hx, hxr⟩
    · injection hu with hu
      subst hu
      obtain ⟨x, hx⟩ : ∃ x, Jac.superdot d Jac.unit = .ok x := by
        unfold Jac.superdot
        generalize d.unwrap = d'
        cases d' <;> exact ⟨_, rfl⟩
      exact ⟨x, _, hx, acts_unit e1 e2 d x l A hd hx⟩
end

end Chumpy
