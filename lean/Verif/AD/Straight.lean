import Verif.Properties.Tensordot
/-!
# Graphs of objects made one after the other

The conditions of the chain rule (C18) for an expression written down in code: every object was made after those it uses, does not use
an object twice, and is exact.
-/
namespace Chumpy
open scoped BigOperators Topology

/-- Object `i` is a plain `Ch`, or was made from one or two different older objects in `S` and its class is exact at their values. -/
inductive MadeOf (g : Graph ClassDef Par) (S : Id → Prop) (i : Id) : Prop
  | leaf {v : Arr} (hl : IsLeaf g i) (hv : Means lib g (.r i) (.ok v))
  | one {c : ClassDef} {p : Id} {v out : Arr} {P : Ent} (hi : IsA g i c [nmA] fun _ => p) (hp : S p) (lt : (p : ℕ) < i)
      (hv : Means lib g (.r p) (.ok v)) (hE : Exact c (g i).terms [nmA] (fun _ => v) out fun _ => P)
      (hs : lib.isPermute (g p).cls = true → ∃ d, ReturnsDr lib c (g i).terms (env1 v) out [nmA] (some d))
  | two {c : ClassDef} {p q : Id} {u v out : Arr} {P Q : Ent} (hi : IsA g i c [nmA, nmB] ![p, q]) (hp : S p) (hq : S q) (ne : p ≠ q)
      (lt : (p : ℕ) < i) (lt' : (q : ℕ) < i) (hu : Means lib g (.r p) (.ok u)) (hv : Means lib g (.r q) (.ok v))
      (hE : Exact c (g i).terms [nmA, nmB] ![u, v] out ![P, Q])
      (hs : lib.isPermute (g p).cls = true → ∃ d, ReturnsDr lib c (g i).terms (env2 u v) out [nmA] (some d))
      (hs' : lib.isPermute (g q).cls = true → ∃ d, ReturnsDr lib c (g i).terms (env2 u v) out [nmB] (some d))

section
variable {g : Graph ClassDef Par} {S : Id → Prop} {i : Id}

theorem MadeOf.uses (h : MadeOf g S i) {c : Id} (hc : Uses g i c) : S c ∧ (c : ℕ) < i := by
  cases h with
  | leaf hl _ => exact absurd hc hl.no_uses
  | one hi hp lt _ _ _ =>
    obtain ⟨j, rfl⟩ := uses_isA hi hc
    exact ⟨hp, lt⟩
  | two hi hp hq _ lt lt' _ _ _ _ _ =>
    obtain ⟨j, rfl⟩ := uses_isA hi hc
    rcases fin2 j with rfl | rfl
    · exact ⟨hp, lt⟩
    · exact ⟨hq, lt'⟩

theorem MadeOf.mono (h : MadeOf g S i) {S' : Id → Prop} (hS : ∀ j, S j → S' j) : MadeOf g S' i := by
  cases h with
  | leaf hl hv => exact .leaf hl hv
  | one hi hp lt hv hE hs => exact .one hi (hS _ hp) lt hv hE hs
  | two hi hp hq ne lt lt' hu hv hE hs hs' => exact .two hi (hS _ hp) (hS _ hq) ne lt lt' hu hv hE hs hs'

theorem MadeOf.exactly (h : MadeOf g S i) : Exactly g i := by
  cases h with
  | leaf hl hv => exact hl.exactly hv
  | one hi _ _ hv hE _ => exact exactly_of_exact hi (v := fun _ => _) (fun _ => hv) hE
  | two hi _ _ _ _ _ hu hv hE _ _ => exact exactly_of_exact hi (kids2 hu hv) hE

theorem MadeOf.dnames (h : MadeOf g S i) : (g i).dnames.Nodup := by
  cases h with
  | leaf hl _ => rw [hl.2.2]; exact List.nodup_nil
  | one hi _ _ _ _ _ => exact hi.dnames ▸ hi.nodup
  | two hi _ _ _ _ _ _ _ _ _ _ => exact hi.dnames ▸ hi.nodup

theorem MadeOf.once (h : MadeOf g S i) (hd : ∀ i k c, (g i).dterms k = some c → k ∈ (g i).dnames) {k k' : Name} {q : Id}
    (hk : (g i).dterms k = some q) (hk' : (g i).dterms k' = some q) : k = k' := by
  have e1 := hd _ _ _ hk
  have e2 := hd _ _ _ hk'
  cases h with
  | leaf hl _ => rw [hl.2.2] at e1; cases e1
  | one hi _ _ _ _ _ =>
    rw [hi.dnames, List.mem_singleton] at e1 e2
    rw [e1, e2]
  | @two c a b u v out P Q hi _ _ ne _ _ _ _ _ _ _ =>
    have k0 : (g i).dterms nmA = some a := hi.kid (0 : Fin 2)
    have k1 : (g i).dterms nmB = some b := hi.kid (1 : Fin 2)
    rw [hi.dnames] at e1 e2
    simp at e1 e2
    rcases e1 with rfl | rfl <;> rcases e2 with rfl | rfl
    · rfl
    · rw [k0] at hk; rw [k1] at hk'; injection hk with hk; injection hk' with hk'; exact absurd (hk.trans hk'.symm) ne
    · rw [k1] at hk; rw [k0] at hk'; injection hk with hk; injection hk' with hk'; exact absurd (hk'.trans hk.symm) ne
    · rfl

theorem MadeOf.notNone (h : MadeOf g S i) (hd : ∀ i k c, (g i).dterms k = some c → k ∈ (g i).dnames) {k : Name} {q : Id}
    (hk : (g i).dterms k = some q) (hq : lib.isPermute (g q).cls = true) (f : ℕ) : evalCompDr lib g f i q ≠ .ok none := by
  have hU : Uses g i q := ⟨k, hd _ _ _ hk, hk⟩
  cases h with
  | leaf hl _ => exact absurd hU hl.no_uses
  | one hi hp lt hv hE hs =>
    obtain ⟨j, rfl⟩ := uses_isA hi hU
    obtain ⟨d, hd⟩ := hs hq
    refine CompIs.not_none (d := d) (compIs_isA hi (v := fun _ => _) (fun _ => hv) (means_of_isA hi (v := fun _ => _) (fun _ => hv) hE.val)
      (Nat.ne_of_gt lt) ?_) f
    rw [namesOf_one hi]; erw [env_one]; exact hd
  | two hi hp hq' ne lt lt' hu hv hE hs hs' =>
    obtain ⟨j, rfl⟩ := uses_isA hi hU
    have hm := means_of_isA hi (kids2 hu hv) hE.val
    rcases fin2 j with rfl | rfl
    · obtain ⟨d, hd⟩ := hs hq
      refine CompIs.not_none (d := d) (compIs_isA hi (kids2 hu hv) hm (Nat.ne_of_gt lt) ?_) f
      show ReturnsDr _ _ _ _ _ (GNode.namesOf (g i) _) _
      rw [namesOf_left hi ne]; erw [env_two]; exact hd
    · obtain ⟨d, hd⟩ := hs' hq
      refine CompIs.not_none (d := d) (compIs_isA hi (kids2 hu hv) hm (Nat.ne_of_gt lt') ?_) f
      show ReturnsDr _ _ _ _ _ (GNode.namesOf (g i) _) _
      rw [namesOf_right hi ne]; erw [env_two]; exact hd
end

/-- The chain rule for an expression: if `y` belongs to a set of objects each made of older ones in the set, then `y.dr_wrt(w)` returns the
Jacobian, for every plain `w` with a number of entries other than 1. -/
theorem straight_reports {h : Heap ClassDef Par Arr Jac} (hr : Reach lib ⟨False, True⟩ h) {S : Id → Prop} (hS : ∀ i, S i → MadeOf h.graph S i)
    {y w : Id} (hy : S y) {vw : Arr} (hl : IsLeaf h.graph w) (hw : Means lib h.graph (.r w) (.ok vw)) (h1 : vw.size ≠ 1) (hyw : y ≠ w) :
    ∃ vy M, HasJacobian h.graph y w vy vw M ∧ Reports h y w vy.size vw.size M := by
  have key : ∀ i, Reaches h.graph y i → S i := by
    intro i hi
    induction hi with
    | refl => exact hy
    | tail _ hc ih => exact ((hS _ ih).uses hc).1
  have hdecl : ∀ i k c, (h.graph i).dterms k = some c → k ∈ (h.graph i).dnames := (reach_str hr).dn
  have acc : ∀ k i : ℕ, i < k → S i → Acc (fun a b => Uses h.graph b a) i := by
    intro k
    induction k with
    | zero => intro i hi; exact absurd hi (Nat.not_lt_zero _)
    | succ k ih =>
      intro i hi hs
      exact ⟨_, fun j hj => ih j (Nat.lt_of_lt_of_le ((hS i hs).uses hj).2 (Nat.lt_succ_iff.1 hi)) ((hS i hs).uses hj).1⟩
  have acy : ∀ i, S i → ¬ Relation.TransGen (Uses h.graph) i i := by
    have : ∀ i j, S i → Relation.TransGen (Uses h.graph) i j → S j ∧ (j : ℕ) < i := by
      intro i j hi hij
      induction hij with
      | single hu => exact (hS i hi).uses hu
      | tail hij hu ih => exact ⟨((hS _ ih.1).uses hu).1, Nat.lt_trans ((hS _ ih.1).uses hu).2 ih.2⟩
    exact fun i hi ht => Nat.lt_irrefl _ (this i i hi ht).2
  have hch : ChainOk lib h.graph y w := ⟨fun i hi => acy i (key i hi), by rw [hl.1]; rfl, fun i hi => (hS i (key i hi)).dnames, hdecl,
    fun i k k' q hi hk hk' _ _ => (hS i (key i hi)).once hdecl hk hk', fun i k q hi hk hq => (hS i (key i hi)).notNone hdecl hk hq⟩
  obtain ⟨vy, M, hJ, hM⟩ := C18_dr_wrt_returns_partial hr (acc _ y (Nat.lt_succ_self _) hy) hch hw h1
    (fun i hi _ => ((hS i (key i hi)).exactly).for w) hyw
  exact ⟨vy, M, hJ, hM⟩
/-! ## The same for one variable

Classes need only be exact in the operands that depend on the variable, and the order in which the objects were made is given by a rank. -/

/-- Object `i` was made from objects in `S` of smaller rank, uses none twice, and is exact as far as `w` is concerned. -/
structure MadeFor (g : Graph ClassDef Par) (S : Id → Prop) (ρ : Id → ℕ) (w i : Id) : Prop where
  uses : ∀ c, Uses g i c → S c ∧ ρ c < ρ i
  exactly : ExactlyFor g w i
  dnames : (g i).dnames.Nodup
  once : (∀ i k c, (g i).dterms k = some c → k ∈ (g i).dnames) → ∀ k k' q, (g i).dterms k = some q → (g i).dterms k' = some q → k = k'
  notNone : (∀ i k c, (g i).dterms k = some c → k ∈ (g i).dnames) → ∀ k q, (g i).dterms k = some q → lib.isPermute (g q).cls = true →
    ∀ f, evalCompDr lib g f i q ≠ .ok none

section
variable {g : Graph ClassDef Par} {S : Id → Prop} {ρ : Id → ℕ} {w i : Id}

theorem madeFor_leaf {v : Arr} (hl : IsLeaf g i) (hv : Means lib g (.r i) (.ok v)) : MadeFor g S ρ w i where
  uses := fun _ hc => absurd hc hl.no_uses
  exactly := (hl.exactly hv).for w
  dnames := by rw [hl.2.2]; exact List.nodup_nil
  once := fun hd k _ q hk _ => by have := hd _ _ _ hk; rw [hl.2.2] at this; cases this
  notNone := fun hd k q hk _ => absurd ⟨k, hd _ _ _ hk, hk⟩ hl.no_uses

theorem madeFor_one {c : ClassDef} {p : Id} {v out : Arr} {P : Ent} (hi : IsA g i c [nmA] fun _ => p) (hp : S p) (lt : ρ p < ρ i)
    (hv : Means lib g (.r p) (.ok v)) (hE : Exact c (g i).terms [nmA] (fun _ => v) out fun _ => P)
    (hs : lib.isPermute (g p).cls = true → ∃ d, ReturnsDr lib c (g i).terms (env1 v) out [nmA] (some d)) : MadeFor g S ρ w i where
  uses := fun _ hc => by obtain ⟨j, rfl⟩ := uses_isA hi hc; exact ⟨hp, lt⟩
  exactly := (exactly_of_exact hi (v := fun _ => _) (fun _ => hv) hE).for w
  dnames := hi.dnames ▸ hi.nodup
  once := fun hd k k' q hk hk' => by
    have e1 := hd _ _ _ hk
    have e2 := hd _ _ _ hk'
    rw [hi.dnames, List.mem_singleton] at e1 e2
    rw [e1, e2]
  notNone := fun hd k q hk hq f => by
    obtain ⟨j, rfl⟩ := uses_isA hi ⟨k, hd _ _ _ hk, hk⟩
    obtain ⟨d, hd⟩ := hs hq
    refine CompIs.not_none (d := d) (compIs_isA hi (v := fun _ => _) (fun _ => hv) (means_of_isA hi (v := fun _ => _) (fun _ => hv) hE.val)
      (fun e => by rw [e] at lt; exact Nat.lt_irrefl _ lt) ?_) f
    rw [namesOf_one hi]; erw [env_one]; exact hd

theorem madeFor_two {c : ClassDef} {p q : Id} {u v out : Arr} (hi : IsA g i c [nmA, nmB] ![p, q]) (hp : S p) (hq : S q) (ne : p ≠ q)
    (lt : ρ p < ρ i) (lt' : ρ q < ρ i) (hu : Means lib g (.r p) (.ok u)) (hv : Means lib g (.r q) (.ok v))
    (hE : ExactlyFor g w i) (hm : Means lib g (.r i) (.ok out))
    (hs : lib.isPermute (g p).cls = true → ∃ d, ReturnsDr lib c (g i).terms (env2 u v) out [nmA] (some d))
    (hs' : lib.isPermute (g q).cls = true → ∃ d, ReturnsDr lib c (g i).terms (env2 u v) out [nmB] (some d)) : MadeFor g S ρ w i where
  uses := fun _ hc => by
    obtain ⟨j, rfl⟩ := uses_isA hi hc
    rcases fin2 j with rfl | rfl
    · exact ⟨hp, lt⟩
    · exact ⟨hq, lt'⟩
  exactly := hE
  dnames := hi.dnames ▸ hi.nodup
  once := fun hd k k' x hk hk' => by
    have e1 := hd _ _ _ hk
    have e2 := hd _ _ _ hk'
    have k0 : (g i).dterms nmA = some p := hi.kid (0 : Fin 2)
    have k1 : (g i).dterms nmB = some q := hi.kid (1 : Fin 2)
    rw [hi.dnames] at e1 e2
    simp at e1 e2
    rcases e1 with rfl | rfl <;> rcases e2 with rfl | rfl
    · rfl
    · rw [k0] at hk; rw [k1] at hk'; injection hk with hk; injection hk' with hk'; exact absurd (hk.trans hk'.symm) ne
    · rw [k1] at hk; rw [k0] at hk'; injection hk with hk; injection hk' with hk'; exact absurd (hk'.trans hk.symm) ne
    · rfl
  notNone := fun hd k x hk hx f => by
    obtain ⟨j, rfl⟩ := uses_isA hi ⟨k, hd _ _ _ hk, hk⟩
    rcases fin2 j with rfl | rfl
    · obtain ⟨d, hd⟩ := hs hx
      refine CompIs.not_none (d := d) (compIs_isA hi (kids2 hu hv) hm (fun e => by rw [e] at lt; exact Nat.lt_irrefl _ lt) ?_) f
      show ReturnsDr _ _ _ _ _ (GNode.namesOf (g i) p) _
      rw [namesOf_left hi ne]; erw [env_two]; exact hd
    · obtain ⟨d, hd⟩ := hs' hx
      refine CompIs.not_none (d := d) (compIs_isA hi (kids2 hu hv) hm (fun e => by rw [e] at lt'; exact Nat.lt_irrefl _ lt') ?_) f
      show ReturnsDr _ _ _ _ _ (GNode.namesOf (g i) q) _
      rw [namesOf_right hi ne]; erw [env_two]; exact hd
end

theorem straight_reports_for {h : Heap ClassDef Par Arr Jac} (hr : Reach lib ⟨False, True⟩ h) {S : Id → Prop} {ρ : Id → ℕ} {y w : Id}
    (hS : ∀ i, S i → MadeFor h.graph S ρ w i) (hy : S y) {vw : Arr} (hl : IsLeaf h.graph w) (hw : Means lib h.graph (.r w) (.ok vw))
    (h1 : vw.size ≠ 1) (hyw : y ≠ w) : ∃ vy M, HasJacobian h.graph y w vy vw M ∧ Reports h y w vy.size vw.size M := by
  have key : ∀ i, Reaches h.graph y i → S i := by
    intro i hi
    induction hi with
    | refl => exact hy
    | tail _ hc ih => exact ((hS _ ih).uses _ hc).1
  have hdecl : ∀ i k c, (h.graph i).dterms k = some c → k ∈ (h.graph i).dnames := (reach_str hr).dn
  have acc : ∀ (k : ℕ) (i : Id), ρ i < k → S i → Acc (fun a b => Uses h.graph b a) i := by
    intro k
    induction k with
    | zero => intro i hi; exact absurd hi (Nat.not_lt_zero _)
    | succ k ih =>
      intro i hi hs
      exact ⟨_, fun j hj => ih j (Nat.lt_of_lt_of_le ((hS i hs).uses _ hj).2 (Nat.lt_succ_iff.1 hi)) ((hS i hs).uses _ hj).1⟩
  have acy : ∀ i, S i → ¬ Relation.TransGen (Uses h.graph) i i := by
    have : ∀ i j, S i → Relation.TransGen (Uses h.graph) i j → S j ∧ ρ j < ρ i := by
      intro i j hi hij
      induction hij with
      | single hu => exact (hS i hi).uses _ hu
      | tail hij hu ih => exact ⟨((hS _ ih.1).uses _ hu).1, Nat.lt_trans ((hS _ ih.1).uses _ hu).2 ih.2⟩
    exact fun i hi ht => Nat.lt_irrefl _ (this i i hi ht).2
  have hch : ChainOk lib h.graph y w := ⟨fun i hi => acy i (key i hi), by rw [hl.1]; rfl, fun i hi => (hS i (key i hi)).dnames, hdecl,
    fun i k k' q hi hk hk' _ _ => (hS i (key i hi)).once hdecl k k' q hk hk', fun i k q hi hk hq => (hS i (key i hi)).notNone hdecl k q hk hq⟩
  obtain ⟨vy, M, hJ, hM⟩ := C18_dr_wrt_returns_partial hr (acc _ y (Nat.lt_succ_self _) hy) hch hw h1
    (fun i hi _ => (hS i (key i hi)).exactly) hyw
  exact ⟨vy, M, hJ, hM⟩
end Chumpy
