import Verif.Properties.MergedJac
/-!
# C86 for a list of objectives, from the objectives themselves

Each objective satisfies the conditions under which it could be minimised alone (C87_minimize_depth); then so does the merged one.
-/
namespace Chumpy
open scoped BigOperators Topology
open Dog

/-! ## When `dr_wrt` is not `None` -/

section
variable {C T V D : Type} {s : Sig C T V D} {g : Graph C T}

theorem evalTerms_grow {f : ℕ} {i w : Id} {ev : Id → Except Err (Option D)} : ∀ (ks : List Name) {acc ds : List D},
    evalTerms s g f i w ev ks acc = .ok ds → acc.length ≤ ds.length ∧
      ∀ k ∈ ks, ∀ p d2 d, (g i).dterms k = some p → p ≠ w → ev p = .ok (some d2) → evalSliced s g f i p = .ok (some d) → acc.length < ds.length
  | [], acc, ds, h => by
    simp only [evalTerms, Except.ok.injEq] at h
    subst h
    exact ⟨Nat.le_refl _, fun k hk => by cases hk⟩
  | k :: ks, acc, ds, h => by
    have skip : ∀ {acc' : List D}, acc.length ≤ acc'.length → evalTerms s g f i w ev ks acc' = .ok ds → acc.length ≤ ds.length ∧
        ∀ k' ∈ ks, ∀ p d2 d, (g i).dterms k' = some p → p ≠ w → ev p = .ok (some d2) → evalSliced s g f i p = .ok (some d) → acc.length < ds.length := by
      intro acc' hle he
      obtain ⟨h1, h2⟩ := evalTerms_grow ks he
      exact ⟨hle.trans h1, fun k' hk' p d2 d a1 a2 a3 a4 => Nat.lt_of_le_of_lt hle (h2 k' hk' p d2 d a1 a2 a3 a4)⟩
    unfold evalTerms at h
    cases hk : (g i).dterms k with
    | none =>
      rw [hk] at h
      obtain ⟨h1, h2⟩ := skip (Nat.le_refl _) h
      refine ⟨h1, fun k' hk' p d2 d a1 => ?_⟩
      rcases List.mem_cons.1 hk' with rfl | hk'
      · rw [hk] at a1; cases a1
      · exact h2 k' hk' p d2 d a1
    | some q =>
      rw [hk] at h
      dsimp only at h
      by_cases hq : q = w
      · rw [if_pos hq] at h
        obtain ⟨h1, h2⟩ := skip (Nat.le_refl _) h
        refine ⟨h1, fun k' hk' p d2 d a1 a2 => ?_⟩
        rcases List.mem_cons.1 hk' with rfl | hk'
        · rw [hk] at a1; cases a1; exact absurd hq a2
        · exact h2 k' hk' p d2 d a1 a2
      · rw [if_neg hq] at h
        cases he : ev q with
        | error e => rw [he] at h; cases h
        | ok o =>
          cases o with
          | none =>
            rw [he] at h
            obtain ⟨h1, h2⟩ := skip (Nat.le_refl _) h
            refine ⟨h1, fun k' hk' p d2 d a1 a2 a3 => ?_⟩
            rcases List.mem_cons.1 hk' with rfl | hk'
            · rw [hk] at a1; cases a1; rw [he] at a3; cases a3
            · exact h2 k' hk' p d2 d a1 a2 a3
          | some e2 =>
            rw [he] at h
            dsimp only at h
            cases hs : evalSliced s g f i q with
            | error e => rw [hs] at h; cases h
            | ok o =>
              cases o with
              | none =>
                rw [hs] at h
                obtain ⟨h1, h2⟩ := skip (Nat.le_refl _) h
                refine ⟨h1, fun k' hk' p d2 d a1 a2 a3 a4 => ?_⟩
                rcases List.mem_cons.1 hk' with rfl | hk'
                · rw [hk] at a1; cases a1; rw [hs] at a4; cases a4
                · exact h2 k' hk' p d2 d a1 a2 a3 a4
              | some e1 =>
                rw [hs] at h
                dsimp only at h
                cases hx : s.superdot e1 e2 with
                | error e => rw [hx] at h; cases h
                | ok x =>
                  rw [hx] at h
                  have h1 := (evalTerms_grow ks h).1
                  rw [List.length_append, List.length_singleton] at h1
                  exact ⟨by omega, fun _ _ _ _ _ _ _ _ _ => by omega⟩

/-- If one operand has a derivative, and the object has one with respect to it, the object has one. -/
theorem dr_not_none {i w p : Id} {k : Name} {d d2 : D} (hk : (g i).dterms k = some p) (hm : k ∈ (g i).dnames) (hp : p ≠ w)
    (hd : MeansDr s g p w (.ok (some d2))) (hs : SlicedIs s g i p (some d)) : ¬ MeansDr s g i w (.ok none) := by
  rintro ⟨_, f, hf⟩
  obtain ⟨_, f2, hf2⟩ := hd
  obtain ⟨f3, hf3⟩ := hs
  have h := evalDr_up (f' := max f (max f2 f3) + 1) ((Nat.le_max_left _ _).trans (Nat.le_succ _)) hf
  have e2 := evalDr_up (f' := max f (max f2 f3)) ((Nat.le_max_left _ _).trans (Nat.le_max_right _ _)) hf2
  have e3 := evalSliced_up (f' := max f (max f2 f3)) ((Nat.le_max_right _ _).trans (Nat.le_max_right _ _)) hf3
  generalize max f (max f2 f3) = n at h e2 e3
  unfold evalDr at h
  cases h1 : evalSliced s g n i w with
  | error e => rw [h1] at h; cases h
  | ok direct =>
    rw [h1] at h
    dsimp only at h
    cases h2 : evalTerms s g n i w (fun p => evalDr s g n p w) (g i).dnames direct.toList with
    | error e => rw [h2] at h; cases h
    | ok ds =>
      rw [h2] at h
      dsimp only at h
      have hlt := (evalTerms_grow _ h2).2 k hm p d2 d hk hp e2 e3
      cases ds with
      | nil => simp at hlt
      | cons x xs =>
        cases h3 : xs.foldlM s.add x with
        | error e => simp [sumD, h3, Except.map] at h
        | ok r => simp [sumD, h3, Except.map] at h

/-- If the object has a derivative of its own with respect to `w`, `dr_wrt` is not `None`. -/
theorem dr_not_none_direct {i w : Id} {d : D} (hs : SlicedIs s g i w (some d)) : ¬ MeansDr s g i w (.ok none) := by
  rintro ⟨_, f, hf⟩
  obtain ⟨f3, hf3⟩ := hs
  have h := evalDr_up (f' := max f f3 + 1) ((Nat.le_max_left _ _).trans (Nat.le_succ _)) hf
  have e3 := evalSliced_up (f' := max f f3) (Nat.le_max_right _ _) hf3
  generalize max f f3 = n at h e3
  unfold evalDr at h
  rw [e3] at h
  dsimp only at h
  cases h2 : evalTerms s g n i w (fun p => evalDr s g n p w) (g i).dnames (some d).toList with
  | error e => rw [h2] at h; cases h
  | ok ds =>
    rw [h2] at h
    dsimp only at h
    have hle := (evalTerms_grow _ h2).1
    cases ds with
    | nil => simp at hle
    | cons x xs =>
      cases h3 : xs.foldlM s.add x with
      | error e => simp [sumD, h3, Except.map] at h
      | ok r => simp [sumD, h3, Except.map] at h
end

/-! ## The merged objective, in every graph -/

theorem Merged.withArr {g : Graph ClassDef Par} {objs : List Id} {y l : Id} (hm : Merged g objs y) (hyl : y ≠ l) (hl : IsLeaf g l) (x : Arr) :
    Merged (withArr g l x) objs y := by
  have hne : ∀ j, (g j).cls = chReshape → j ≠ l := by
    rintro j hj rfl
    rw [hl.1] at hj
    have := congrArg ClassDef.permute hj
    simp [chReshape, chLeaf] at this
  obtain ⟨bs, ls, h1, h2, h3, h4, h5, h6⟩ := hm
  refine ⟨bs, ls, h1, h2, by rw [withArr_other hyl]; exact h3, fun j hj hj' => ?_, fun a ha1 ha2 => ?_, h6⟩
  · rw [withArr_other (hne _ (isA_ravelO (h4 j hj hj')).cls)]; exact h4 j hj hj'
  · have key : ∀ {a b : Id}, ReshapeArg g a b → ReshapeArg (Chumpy.withArr g l x) a b := by
      intro a b hab
      induction hab with
      | @done a hc => exact .done (by rw [(withArr_kind x a).2]; exact hc)
      | @step a c b hc hd _ ih => exact .step (c := c) (by rw [(withArr_kind x a).2]; exact hc) (by rw [(withArr_kind x a).1]; exact hd) ih
    exact key (h5 a ha1 ha2)

section
variable {g : Graph ClassDef Par} {objs : List Id} {vs : List Arr} {y w : Id} {n : ℕ}

/-- The derivative of a merged objective of objects that are no reshapes, at least one of which is the object asked about or has a derivative that is not
`None`. -/
theorem Merged.dr {E : ℕ → Ent} (hm : Merged g objs y) (hne : objs ≠ []) (hlen : objs.length = vs.length)
    (hv : ∀ (a : ℕ) (h1 : a < objs.length) (h2 : a < vs.length), Means lib g (.r objs[a]) (.ok vs[a])) (hyw : y ≠ w) (hw : lib.isPermute (g w).cls = false)
    (hnr : ∀ x ∈ objs, (g x).cls ≠ chReshape)
    (hd : ∀ (a : ℕ) (h1 : a < objs.length) (h2 : a < vs.length), (objs[a] = w ∧ vs[a].size = n ∧ E a = Ent.one) ∨ (objs[a] ≠ w ∧ DrRep g objs[a] w vs[a].size n (E a)))
    (hex : ∃ x ∈ objs, x = w ∨ ∃ d, MeansDr lib g x w (.ok (some d))) :
    ∃ out d J, Means lib g (.r y) (.ok out) ∧ Joined vs out ∧ MeansDr lib g y w (.ok (some d)) ∧ Jac.Rep d out.size n J ∧
      ∀ (a : ℕ) (h2 : a < vs.length) (k j : ℕ), k < vs[a].size → j < n → J (offset vs a + k) j = E a k j := by
  obtain ⟨bs, l, hlb, hll, hgy, hgl, hba, hnd, hyl, hlb'⟩ := hm
  have hnv : vs ≠ [] := fun e => hne (List.length_eq_zero_iff.1 (by rw [hlen, e]; rfl))
  have hbo : ∀ (a : ℕ) (h1 : a < objs.length) (h2 : a < bs.length), bs[a] = objs[a] := fun a h1 h2 =>
    (hba a h1 h2).unique (.done (hnr _ (List.getElem_mem h1)))
  obtain ⟨out, hc, hosh⟩ := flat_concat hnv
  have hJ := flat_joined hc hosh
  have hy := isA_concatO hgy
  have hcl : (concatNames l.length).length = vs.length := by simp [concatNames]; omega
  have hgl' : ∀ a : Fin (concatNames l.length).length, g (l.get (a.cast (by simp [concatNames]))) = (ravelO (objs[(a : ℕ)]'(by have := a.2; omega))).node := by
    intro a
    have := hgl a (by have := a.2; omega) (by have := a.2; omega)
    rw [hbo a (by have := a.2; omega) (by have := a.2; omega)] at this
    exact this
  have hva : ∀ a : Fin (concatNames l.length).length, Means lib g (.r (objs[(a : ℕ)]'(by have := a.2; omega))) (.ok (vs[(a : ℕ)]'(by have := a.2; omega))) :=
    fun a => hv a _ _
  have hkv : ∀ a : Fin (concatNames l.length).length, Means lib g (.r (l.get (a.cast (by simp [concatNames])))) (.ok (flatOf (vs[(a : ℕ)]'(by have := a.2; omega)))) :=
    fun a => means_ravelO (hgl' a) (hva a)
  have hvs : (List.ofFn fun a : Fin (concatNames l.length).length => flatOf (vs[(a : ℕ)]'(by have := a.2; omega))) = vs.map flatOf := by
    refine List.ext_getElem (by simp; omega) fun j h1 h2 => ?_
    simp
  have h0 : normAxis out.shape.length 0 = some 0 := by rw [hosh]; exact normAxis_nat (n := 1) (k := 0) (by decide)
  have hp : (g y).terms nmP = some (.int 0) := by rw [hgy]; exact (concatO_node 0 l).2.2.1
  have hval : Means lib g (.r y) (.ok out) := means_of_isA hy hkv (exact_concat hy.nodup hp h0 (by rw [hvs]; exact hc)).val
  have hinj : Function.Injective fun a : Fin (concatNames l.length).length => l.get (a.cast (by simp [concatNames])) := by
    intro a b e
    have := (List.nodup_iff_injective_get.1 hnd) e
    exact Fin.ext (by simpa using congrArg Fin.val this)
  have hkw : ∀ a : Fin (concatNames l.length).length, l.get (a.cast (by simp [concatNames])) ≠ w := by
    intro a e
    have hcls := (isA_ravelO (hgl' a)).cls
    rw [e] at hcls
    rw [hcls] at hw
    cases hw
  have hyk : ∀ a : Fin (concatNames l.length).length, y ≠ l.get (a.cast (by simp [concatNames])) := fun a e => hyl (by rw [e]; exact List.get_mem ..)
  have hkb : ∀ a : Fin (concatNames l.length).length, l.get (a.cast (by simp [concatNames])) ≠ objs[(a : ℕ)]'(by have := a.2; omega) := by
    intro a
    have := hlb' a (by have := a.2; omega) (by have := a.2; omega)
    rwa [hbo a (by have := a.2; omega) (by have := a.2; omega)] at this
  have hQ : ∀ a : Fin (concatNames l.length).length, DrRep g (l.get (a.cast (by simp [concatNames]))) w (flatOf (vs[(a : ℕ)]'(by have := a.2; omega))).size n (E a) := by
    intro a
    rw [flatOf_size]
    exact DrRep.reshape (isA_ravelO (hgl' a)) (hva a) (hkv a) (flatOf_size _) (hkb a) (hkw a) hw
      (hd a (by have := a.2; omega) (by have := a.2; omega))
  obtain ⟨_, o, ho, hoR⟩ := DrRep.concat (n := n) (w := w) (out := out) (Q := fun a => E a) hy hp hinj hkv h0 (by rw [hvs]; exact hc) hyw hkw hyk hw hQ
  -- it is not `None`
  have hsome : o ≠ none := by
    rintro rfl
    obtain ⟨x, hxm, hx⟩ := hex
    obtain ⟨j, hj, rfl⟩ := List.getElem_of_mem hxm
    let a : Fin (concatNames l.length).length := ⟨j, by omega⟩
    have hR := isA_ravelO (hgl' a)
    have hs1 : SlicedIs lib g (l.get (a.cast (by simp [concatNames]))) objs[j] (some (.sparse _ _ fun i j => if i = j then 1 else 0)) :=
      SlicedIs.some (compIs_isA hR (v := fun _ => vs[j]'(by omega)) (fun _ => hv j _ _) (hkv a) (hkb a) (by
        rw [namesOf_one hR]; erw [env_one]; exact reshape_dr))
    obtain ⟨q, hq, _⟩ := hQ a
    cases q with
    | none =>
      by_cases hjw : objs[j] = w
      · rw [hjw] at hs1
        exact dr_not_none_direct hs1 hq
      · obtain ⟨d, hd1⟩ := hx.resolve_left hjw
        exact dr_not_none (hR.kid (0 : Fin 1)) (by rw [hR.dnames]; simp) hjw hd1 hs1 hq
    | some d2 =>
      have hns : (g y).namesOf (l.get (a.cast (by simp [concatNames]))) = [(concatNames l.length).get a] := by
        have hmem : ∀ b, (concatNames l.length).get b ∈ (g y).namesOf (l.get (a.cast (by simp [concatNames]))) ↔ b = a := by
          intro b
          unfold GNode.namesOf
          rw [List.mem_filter, hy.dnames]
          simp only [List.get_mem, true_and, decide_eq_true_eq]
          rw [hy.kid b]
          exact ⟨fun e => hinj (Option.some.inj e), fun e => by rw [e]⟩
        have hsub : ((g y).namesOf (l.get (a.cast (by simp [concatNames])))).Sublist (concatNames l.length) := by
          unfold GNode.namesOf; rw [hy.dnames]; exact List.filter_sublist
        refine List.perm_singleton.1 ((List.perm_ext_iff_of_nodup (hy.nodup.sublist hsub) (List.nodup_singleton _)).2 fun n => ?_)
        constructor
        · intro hmn
          obtain ⟨b, rfl⟩ := List.get_of_mem (hsub.subset hmn)
          rw [(hmem b).1 hmn]; simp
        · intro hmn
          rw [List.mem_singleton] at hmn
          rw [hmn]; exact (hmem a).2 rfl
      obtain ⟨e, he1, _⟩ := concat_dr hy.nodup hp h0 (by rw [hvs]; exact hc) [(concatNames l.length).get a] (flatOf (vs[(a : ℕ)]'(by have := a.2; omega))) (by simp)
        (List.singleton_sublist.2 (List.get_mem ..)) (fun b hb => by
          rw [List.mem_singleton] at hb
          rw [(List.nodup_iff_injective_get.1 hy.nodup) hb])
      have hs2 := SlicedIs.some (compIs_isA hy hkv hval (hyk a) (by rw [hns]; exact he1))
      exact dr_not_none (hy.kid a) (by rw [hy.dnames]; exact List.get_mem ..) (hkw a) hq hs2 ho
  cases o with
  | none => exact absurd rfl hsome
  | some d =>
    refine ⟨out, d, _, hval, hJ, ho, hoR, fun a h2' k j hk hj => ?_⟩
    have := flat_rows (vs := vs) (m := (concatNames l.length).length) (n := (vs.map Arr.size).sum) hcl (Q := fun a => E a) a (by omega) k hk j
    rw [← this]
    simp only [flatOf_size, hvs, flat_start, hosh]
    rfl
end

/-! ## Its height -/

theorem concatO_child {l : List Id} {k : Name} {c : Id} (hk : (concatO 0 l).node.dterms k = some c) : c ∈ l := by
  have := ObjSpec.node_dterms hk
  simp only [concatO, List.mem_append, List.mem_map, List.mem_singleton] at this
  rcases this with ⟨p, hp, e⟩ | e
  · obtain ⟨j, hj, rfl⟩ := List.getElem_of_mem hp
    rw [List.getElem_zipIdx] at e
    injection e with _ e
    rw [← e]
    exact List.getElem_mem _
  · cases e

theorem ravelO_child {b : Id} {k : Name} {c : Id} (hk : (ravelO b).node.dterms k = some c) : c = b := by
  have := ObjSpec.node_dterms hk
  simp [ravelO] at this
  exact this.2

/-- A chain of references from the merged objective: at most two references, or two and then a chain from one of the objectives. -/
theorem Merged.chain {g : Graph ClassDef Par} {objs : List Id} {y : Id} (hm : Merged g objs y) (hnr : ∀ x ∈ objs, (g x).cls ≠ chReshape) {k : ℕ} {b : Id}
    (hc : RefChain g k y b) : (k = 0 ∧ b = y) ∨ (k = 1 ∧ (g b).cls = chReshape) ∨ ∃ x ∈ objs, ∃ j, k = j + 2 ∧ RefChain g j x b := by
  obtain ⟨bs, l, hlb, hll, hgy, hgl, hba, _⟩ := hm
  cases hc with
  | nil => exact Or.inl ⟨rfl, rfl⟩
  | cons hk h1 =>
    rw [hgy] at hk
    obtain ⟨j, hj, rfl⟩ := List.getElem_of_mem (concatO_child hk)
    have hg := hgl j hj (by omega)
    cases h1 with
    | nil => exact Or.inr (Or.inl ⟨rfl, (isA_ravelO hg).cls⟩)
    | cons hk' h2 =>
      rw [hg] at hk'
      have e := ravelO_child hk'
      have hbo : bs[j] = objs[j] := (hba j (by omega) (by omega)).unique (.done (hnr _ (List.getElem_mem (by omega))))
      rw [e, hbo] at h2
      exact Or.inr (Or.inr ⟨objs[j], List.getElem_mem _, _, rfl, h2⟩)

theorem refChain_part {g g' : Graph ClassDef Par} {A : Id → Prop} (he : ∀ j, A j → g' j = g j) (hc : ∀ j, A j → ∀ k c, (g j).dterms k = some c → A c)
    {k : ℕ} {a b : Id} (h : RefChain g' k a b) (ha : A a) : RefChain g k a b ∧ A b := by
  induction h with
  | nil a => exact ⟨.nil a, ha⟩
  | cons hk _ ih =>
    rw [he _ ha] at hk
    obtain ⟨h1, h2⟩ := ih (hc _ ha _ _ hk)
    exact ⟨.cons hk h1, h2⟩

theorem reshape_plain : (∀ p, lib.propDecl chReshape p = none) ∧ (lib.computeR chReshape).NoSelf := by
  refine ⟨fun _ => rfl, ?_⟩
  intro v p
  dsimp only
  split
  · split <;> trivial
  · trivial

theorem concat_plain (ns : List Name) : (∀ p, lib.propDecl (chConcat ns) p = none) ∧ (lib.computeR (chConcat ns)).NoSelf := by
  refine ⟨fun _ => rfl, ?_⟩
  refine ADDemo.noSelf_readAll _ fun vs p => ?_
  dsimp only
  split
  · split <;> trivial
  · trivial

/-- The objective merged from reshapes is merged from what is reshaped. -/
theorem Merged.bases {g : Graph ClassDef Par} {objs bs : List Id} {y : Id} (hm : Merged g objs y) (hb : List.Forall₂ (ReshapeArg g) objs bs) : Merged g bs y := by
  obtain ⟨bs', l, h1, h2, h3, h4, h5, h6⟩ := hm
  have hlen := hb.length_eq
  have e : bs' = bs := by
    refine List.ext_getElem (by omega) fun a q1 q2 => ?_
    exact (h5 a (by omega) q1).unique ((List.forall₂_iff_get.1 hb).2 a (by omega) q2)
  subst e
  exact ⟨bs', l, rfl, by omega, h3, h4, fun a q1 q2 => .done (h5 a (by omega) q1).not_reshape, h6⟩

/-! ## The call -/

/-- As `Smooth`, for an objective of a list: `dr_wrt` may be `None`. -/
structure SmoothPart (m : ℕ) (o l : Id) (x0 : Arr) (g : Graph ClassDef Par) : Prop where
  value : ∀ x : Arr, x.shape = x0.shape → ∃ a, Means lib (withArr g l x) (.r o) (.ok a) ∧ a.size = m
  dr : ∀ x : Arr, x.shape = x0.shape → ∃ d, MeansDr lib (withArr g l x) o l (.ok d)
  chain : ∀ x : Arr, x.shape = x0.shape → ChainOk lib (withArr g l x) o l
  correct : ∀ x : Arr, x.shape = x0.shape → ∀ i, Reaches (withArr g l x) o i → i ≠ l → Correct (withArr g l x) l i

theorem Smooth.part {m : ℕ} {o l : Id} {x0 : Arr} {g : Graph ClassDef Par} (h : Smooth m o l x0 g) : SmoothPart m o l x0 g :=
  ⟨h.value, fun x hx => ⟨_, (h.dr x hx).choose_spec⟩, h.chain, h.correct⟩

/-- Holding what it holds changes nothing. -/
theorem withArr_held {g : Graph ClassDef Par} {l : Id} {x0 : Arr} (hx : (g l).terms nmX = some (.arr x0)) : withArr g l x0 = g := by
  funext j
  unfold withArr
  split
  · rename_i e
    subst e
    have : (fun k => if k = nmX then some (.arr x0) else (g j).terms k) = (g j).terms := by
      funext k
      split
      · rename_i e; rw [e, hx]
      · rfl
    rw [this]
  · rfl

section
variable {h : Heap ClassDef Par Arr Jac} {objs bs : List Id} {vals : List Arr} {sizes : List ℕ} {N n : ℕ} {l : Id} {x0 : Arr}

/-- C86 for a list of objectives, with nothing assumed of the merged object.  Let `bs` be the objects under the reshapes of the objectives (the objectives
themselves if they are no reshapes).  Let each of them be the `Ch` `l` itself, or `SmoothPart` (it has a value and a derivative whatever `l` holds, and its parts
return their true partial Jacobians); and let one of them be `l`, or depend on it (`dr_wrt` is not `None`).  Then `minimize` of the list over `l` ends, at a
stack depth given by the height of these objects, and the sum of the sums of squares of all objectives is not larger than before. -/
theorem C86_list_chain_rule (hr : Reach lib ⟨False, True⟩ h) (ht : TagsLe h) (hne : objs ≠ []) (ha : ∀ x ∈ objs, (h.node x).alive = true)
    (hl : IsLeaf h.graph l) (hla : (h.node l).alive = true) (hx : (h.graph l).terms nmX = some (.arr x0)) (hn : x0.size = n)
    (hv : List.Forall₂ (fun x v => Means lib h.graph (.r x) (.ok v)) objs vals)
    (hb : List.Forall₂ (ReshapeArg h.graph) objs bs) (hob : ∀ x ∈ bs, HeightLe h.graph N x ∧ PlainBelow lib h.graph x)
    (hs : List.Forall₂ (fun x m => (x = l ∧ m = n) ∨ (x ≠ l ∧ SmoothPart m x l x0 h.graph)) bs sizes)
    (hex : ∃ x ∈ bs, x = l ∨ ∀ v : Arr, v.shape = x0.shape → ∃ d, MeansDr lib (withArr h.graph l v) x l (.ok (some d))) :
    ∃ f₀ h' y, (∀ f ≥ f₀, mergeObjective f objs h = (h', .ok y)) ∧
      ∀ (fm : ℕ), 2 * N + 7 < fm → h'.next < fm →
      ∀ (flip disp md ms : Bool) (solve : (RVec n →L[ℝ] RVec n) → RVec n → RVec n) (opt : DogOpts ℝ), 0 < opt.e1 → 0 ≤ opt.e2 →
      ∃ (k : ℕ) (s : DogState ℝ (RVec n) (RVec sizes.sum) (RVec n →L[ℝ] RVec sizes.sum) (RVec n →L[ℝ] RVec n) (Heap ClassDef Par Arr Jac)),
        minimizeDogleg n sizes.sum fm flip disp md ms y [l] solve opt h' k = .ok (h'.next, .halt, s) ∧
        ∀ vals', List.Forall₂ (fun x v => Means lib s.world.graph (.r x) (.ok v)) objs vals' → (vals'.map energy).sum ≤ (vals.map energy).sum := by
  have hst := reach_str hr
  have hlen := hs.length_eq
  have hget := (List.forall₂_iff_get.1 hs).2
  have hlb := hb.length_eq
  have hbget := (List.forall₂_iff_get.1 hb).2
  have hba : ∀ x ∈ bs, (h.node x).alive = true ∧ (h.graph x).cls ≠ chReshape := by
    intro x hx'
    obtain ⟨a, ha', rfl⟩ := List.getElem_of_mem hx'
    have := hbget a (by omega) ha'
    exact ⟨this.alive hst (ha _ (List.get_mem ..)), this.not_reshape⟩
  have hbne : bs ≠ [] := fun e => hne (List.length_eq_zero_iff.1 (by rw [hlb, e]; rfl))
  obtain ⟨f₀, h', y, hmk, hmain⟩ := C86_list_of_objectives (objs := objs) (vs := [wholeCh l x0.atleast1.shape]) hr ht hne ha hv (by
    intro u hu
    obtain rfl : u = wholeCh l x0.atleast1.shape := by simpa using hu
    exact ⟨⟨hl, ⟨x0, hx, .leaf⟩, fun i _ j _ e => e⟩, hla⟩) (by simp)
  obtain ⟨f₁, h'', y', out, hmk', hr', ⟨hy, hyd, hkeep⟩, hmg, _⟩ := merged_objective hr hne ha hv
  have e := (hmk (max f₀ f₁) (Nat.le_max_left _ _)).symm.trans (hmk' (max f₀ f₁) (Nat.le_max_right _ _))
  obtain ⟨rfl, rfl⟩ : h' = h'' ∧ y = y' := by
    injection e with e1 e2
    injection e2 with e2
    exact ⟨e1, e2⟩
  refine ⟨f₀, h', y, hmk, fun fm hd2 hd3 flip disp md ms solve opt he1 he2 => ?_⟩
  have hyl : y ≠ l := by
    rintro rfl
    rw [hyd] at hla
    cases hla
  have hgl : h'.graph l = h.graph l := (hkeep l hla).1
  have hl' : IsLeaf h'.graph l := by unfold IsLeaf; rw [hgl]; exact hl
  have hclosed : ∀ j, (h.node j).alive = true → ∀ k c, (h.graph j).dterms k = some c → (h.node c).alive = true := fun j _ k c hc => hst.child_alive hc
  have hmb : Merged h'.graph bs y := hmg.bases (List.forall₂_iff_get.2 ⟨hlb, fun a q1 q2 =>
    (hbget a q1 q2).keep hst (fun j hj => (hkeep j hj).1) (ha _ (List.get_mem ..))⟩)
  have hnr' : ∀ x ∈ bs, (h'.graph x).cls ≠ chReshape := fun x hx => by rw [(hkeep x (hba x hx).1).1]; exact (hba x hx).2
  -- the heights
  have hH : HeightLe h'.graph (N + 2) y := by
    intro k b hc
    rcases hmb.chain hnr' hc with ⟨e, _⟩ | ⟨e, _⟩ | ⟨x, hx', j, e, hc'⟩
    · omega
    · omega
    · have := (hob x hx').1 j b (refChain_part (fun j hj => (hkeep j hj).1) hclosed hc' (hba x hx').1).1
      omega
  have hP : PlainBelow lib h'.graph y := by
    intro k b hc
    rcases hmb.chain hnr' hc with ⟨_, rfl⟩ | ⟨_, e⟩ | ⟨x, hx', j, _, hc'⟩
    · obtain ⟨bs, ls, _, _, hgy, _⟩ := hmb
      rw [(isA_concatO hgy).cls]
      exact concat_plain _
    · rw [e]; exact reshape_plain
    · obtain ⟨h1, h2⟩ := refChain_part (fun j hj => (hkeep j hj).1) hclosed hc' (hba x hx').1
      rw [(hkeep b h2).1]
      exact (hob x hx').2 j b h1
  have hHl : HeightLe h'.graph (N + 2) l := by
    intro k b hb
    cases hb with
    | nil => exact Nat.zero_le _
    | cons hk _ => exact absurd hk (by rw [hl'.2.1]; simp)
  have hPl : PlainBelow lib h'.graph l := by
    intro k b hb
    cases hb with
    | nil => rw [hl'.1]; exact ⟨fun _ => rfl, fun t => by dsimp only; split <;> trivial⟩
    | cons hk _ => exact absurd hk (by rw [hl'.2.1]; simp)
  -- the merged objective as a function
  obtain ⟨F, F', hF⟩ : ∃ (F : RVec n → RVec sizes.sum) (F' : RVec n → RVec n →L[ℝ] RVec sizes.sum),
      IsFunction (2 * (N + 2) + 3) y [wholeCh l x0.atleast1.shape] F F' h'.graph := by
    refine isFunction_of_jacobians hl' (by rw [hgl]; exact hx) hn fun x hxs => ?_
    have hlx : IsLeaf (withArr h.graph l x) l := isLeaf_withArr hl
    have hm : Means lib (withArr h.graph l x) (.r l) (.ok x.atleast1) := means_leaf hlx.1 (by unfold withArr; rw [if_pos rfl]; rfl)
    have he : ∀ j, (h.node j).alive = true → withArr h'.graph l x j = withArr h.graph l x j := by
      intro j hj
      unfold withArr
      rw [hgl, (hkeep j hj).1]
    have hcl : ∀ j, (h.node j).alive = true → ∀ k c, (withArr h.graph l x j).dterms k = some c → (h.node c).alive = true := by
      intro j hj k c hc
      rw [(withArr_kind x j).1] at hc
      exact hclosed j hj k c hc
    have hpart : ∀ a : Fin bs.length, ∃ v M, v.size = sizes[(a : ℕ)]'(by rw [← hlen]; exact a.2) ∧ HasJacobian (withArr h'.graph l x) bs[(a : ℕ)] l v x.atleast1 M ∧
        ((bs[(a : ℕ)] = l ∧ v.size = x.atleast1.size ∧ M = Ent.one) ∨ (bs[(a : ℕ)] ≠ l ∧ DrRep (withArr h'.graph l x) bs[(a : ℕ)] l v.size x.atleast1.size M)) := by
      intro a
      have hal := (hba _ (List.getElem_mem a.2)).1
      have hcase : (bs[(a : ℕ)] = l ∧ sizes[(a : ℕ)]'(by rw [← hlen]; exact a.2) = n) ∨
          (bs[(a : ℕ)] ≠ l ∧ SmoothPart (sizes[(a : ℕ)]'(by rw [← hlen]; exact a.2)) bs[(a : ℕ)] l x0 h.graph) := hget a a.2 (by rw [← hlen]; exact a.2)
      rcases hcase with ⟨e, em⟩ | ⟨hal', hsm⟩
      · refine ⟨x.atleast1, Ent.one, ?_, ?_, Or.inl ⟨e, rfl, rfl⟩⟩
        · rw [em, Arr.atleast1_size, ← hn]
          unfold Arr.size
          rw [hxs]
        · rw [e]
          exact hasJacobian_part (A := fun j => (h.node j).alive = true) he hcl hla hla (hasJacobian_self hm)
      · obtain ⟨v, h1, h2⟩ := hsm.value x hxs
        obtain ⟨d, h3⟩ := hsm.dr x hxs
        obtain ⟨vy, M, h4, h5⟩ := jacobian (hsm.chain x hxs) hm (hsm.correct x hxs) hal' h3
        obtain rfl : vy = v := by have := h4.valY.unique h1; injection this
        exact ⟨vy, M, h2, hasJacobian_part (A := fun j => (h.node j).alive = true) he hcl hal hla h4, Or.inr ⟨hal', d,
          meansDr_part (A := fun j => (h.node j).alive = true) he hcl hal hla h3, h5⟩⟩
    choose v M p1 p2 p3 using hpart
    let us : List Arr := List.ofFn v
    have hul : bs.length = us.length := by simp [us]
    have hug : ∀ (a : ℕ) (h1 : a < bs.length) (h2 : a < us.length), us[a] = v ⟨a, h1⟩ := by intro a h1 h2; simp [us]
    have hm' := hmb.withArr hyl hl' x
    have hlx' : IsLeaf (withArr h'.graph l x) l := isLeaf_withArr hl'
    obtain ⟨out', d', J, q1, q2, q3, q4, q5⟩ := hm'.dr (w := l) (vs := us) (n := x.atleast1.size) (E := fun a => if ha : a < bs.length then M ⟨a, ha⟩ else 0) hbne hul
      (fun a h1 h2 => by rw [hug a h1 h2]; exact (p2 ⟨a, h1⟩).valY) hyl (by rw [hlx'.1]; rfl)
      (fun z hz => by rw [(withArr_kind x z).2]; exact hnr' z hz)
      (fun a h1 h2 => by rw [hug a h1 h2, dif_pos h1]; exact p3 ⟨a, h1⟩)
      (by
        obtain ⟨z, hz, hcase⟩ := hex
        refine ⟨z, hz, hcase.imp id fun hz' => ?_⟩
        obtain ⟨d, hd⟩ := hz' x hxs
        exact ⟨d, meansDr_part (A := fun j => (h.node j).alive = true) he hcl (hba z hz).1 hla hd⟩)
    have hJ := hm'.hasJacobian (w := l) (vs := us) (vw := x.atleast1) (J := J) (E := fun a => if ha : a < bs.length then M ⟨a, ha⟩ else 0) hbne hyl
      (by rw [hlx'.1]; rfl) hul (fun a h1 h2 => by rw [hug a h1 h2, dif_pos h1]; exact p2 ⟨a, h1⟩) q1 q2 q5
    have hsz : us.map Arr.size = sizes := by
      refine List.ext_getElem (by simp [us, hlen]) fun a h1 h2 => ?_
      have h3 : a < bs.length := by rw [hlen]; exact h2
      rw [List.getElem_map, hug a h3 (by rw [← hul]; exact h3)]
      exact p1 ⟨a, h3⟩
    have hHx : HeightLe (withArr h'.graph l x) (N + 2) y := fun k b hc => hH k b (refChain_withArr hc)
    have hHlx : HeightLe (withArr h'.graph l x) (N + 2) l := fun k b hc => hHl k b (refChain_withArr hc)
    have hPx : PlainBelow lib (withArr h'.graph l x) y := fun k b hc => by rw [(withArr_kind x b).2]; exact hP k b (refChain_withArr hc)
    have hPlx : PlainBelow lib (withArr h'.graph l x) l := fun k b hc => by rw [(withArr_kind x b).2]; exact hPl k b (refChain_withArr hc)
    exact ⟨out', d', J, value_at_depth hHx hPx q1, by rw [q2.size, hsz], dr_at_depth hHx hHlx hPx hPlx q3, hJ, q4⟩
  obtain ⟨k, s, e1, e2⟩ := hmain (m := sizes.sum) (f := 2 * (N + 2) + 3) (fm := fm) ⟨by simp, by
      show x0.atleast1.size + 0 = n
      rw [Nat.add_zero, Arr.atleast1_size, hn], by simp, by
      intro u hu
      obtain rfl : u = wholeCh l x0.atleast1.shape := by simpa using hu
      exact Nat.zero_le _, by
      have : enough [wholeCh l x0.atleast1.shape] ≤ 5 := by simp [enough, wholeCh]
      omega, by omega, hd3⟩ hF flip disp md ms solve opt he1 he2
  exact ⟨k, s, e1, e2⟩
end

namespace ADDemo
/-- `a = Ch([1, 2])`, `b = SumOfSquares(a)`: `minimize([b, a, b], [a])` ends. -/
example (flip : Bool) (solve : (RVec 2 →L[ℝ] RVec 2) → RVec 2 → RVec 2) (opt : DogOpts ℝ) (he1 : 0 < opt.e1) (he2 : 0 ≤ opt.e2) :
    ∃ h h' y fm k s, (∃ f₀, ∀ f ≥ f₀, mergeObjective f [1, 0, 1] h = (h', .ok y)) ∧
      minimizeDogleg 2 4 fm flip true true false y [0] solve opt h' k = .ok (h'.next, .halt, s) ∧
      ∀ b a b' a', Means lib h.graph (.r 1) (.ok b) → Means lib h.graph (.r 0) (.ok a) → Means lib s.world.graph (.r 1) (.ok b') →
        Means lib s.world.graph (.r 0) (.ok a') → 2 * energy b' + energy a' ≤ 2 * energy b + energy a := by
  have hok := fun (i : ℕ) (o : ObjSpec ClassDef Par) (ho : (sqOf ⟨[2], ![1, 2]⟩)[i]? = some o) => (sqOf_ok _).earlier i o ho
  let ops : List (Op ClassDef Par Jac) := buildOps (sqOf ⟨[2], ![1, 2]⟩)
  obtain ⟨hr, ht⟩ := NoFailingSets.run (s := lib) (m := ⟨False, True⟩) ops id (fun _ => ⟨⟨rfl, rfl⟩, ⟨rfl, rfl⟩, trivial⟩) .init tagsLe_empty
    ⟨trivial, trivial, trivial⟩
  obtain ⟨_, hal⟩ := build_alive (s := lib) _ hok
  have hg : (run lib ops (Heap.empty lib)).graph = buildGraph lib (sqOf ⟨[2], ![1, 2]⟩) := build_graph _ hok
  have hal0 : ((run lib ops (Heap.empty lib)).node 0).alive = true := by rw [hal]; simp [sqOf]
  have hal1 : ((run lib ops (Heap.empty lib)).node 1).alive = true := by rw [hal]; simp [sqOf]
  generalize run lib ops (Heap.empty lib) = h at *
  obtain ⟨c1, c2, c3⟩ := sq_heights
  rw [← hg] at c1 c2 c3
  have hl : IsLeaf h.graph 0 := by rw [hg]; exact isLeaf_leafO rfl
  have hx0 : (h.graph 0).terms nmX = some (.arr ⟨[2], ![1, 2]⟩) := by rw [hg]; rfl
  obtain ⟨vb, hvb, -⟩ := c1.value ⟨[2], ![1, 2]⟩ rfl
  rw [withArr_held hx0] at hvb
  have hva := means_leaf hl.1 hx0
  have r1 : ReshapeArg h.graph 1 1 := .done (by
    rw [hg]
    intro e
    have : chSumSq.permute = chReshape.permute := congrArg ClassDef.permute e
    cases this)
  have r0 : ReshapeArg h.graph 0 0 := .done (by
    rw [hl.1]
    intro e
    have : chLeaf.permute = chReshape.permute := congrArg ClassDef.permute e
    cases this)
  obtain ⟨f₀, h', y, e, H⟩ := C86_list_chain_rule (objs := [1, 0, 1]) (bs := [1, 0, 1]) (vals := [vb, _, vb]) (sizes := [1, 2, 1]) (N := 1) (n := 2) (l := 0) (x0 := ⟨[2], ![1, 2]⟩) hr ht (by simp)
    (by simp [hal0, hal1]) hl hal0 hx0 rfl (.cons hvb (.cons hva (.cons hvb .nil))) (.cons r1 (.cons r0 (.cons r1 .nil)))
    (by
      intro x hx
      have hx' : x = 1 ∨ x = 0 := by
        simp at hx
        tauto
      rcases hx' with rfl | rfl
      · exact ⟨c2, c3 1⟩
      · refine ⟨fun k b hb => ?_, c3 0⟩
        cases hb with
        | nil => exact Nat.zero_le _
        | cons hk _ => exact absurd hk (by rw [hl.2.1]; simp))
    (.cons (Or.inr ⟨by decide, c1.part⟩) (.cons (Or.inl ⟨rfl, rfl⟩) (.cons (Or.inr ⟨by decide, c1.part⟩) .nil))) ⟨0, by simp, Or.inl rfl⟩
  obtain ⟨k, s, e1, e2⟩ := H (10 + h'.next) (by omega) (by omega) flip true true false solve opt he1 he2
  refine ⟨h, h', y, _, k, s, ⟨f₀, e⟩, e1, fun b a b' a' hb ha hb' ha' => ?_⟩
  obtain rfl : b = vb := by
    have := hb.unique hvb
    injection this
  have ea := ha.unique hva
  injection ea with ea
  subst ea
  have := e2 [b', a', b'] (.cons hb' (.cons ha' (.cons hb' .nil)))
  simp at this
  linarith

/-- `x = Ch([1, 2, 3])`: `minimize([x.reshape(1, 3), x], [x])` ends. -/
example (flip : Bool) (solve : (RVec 3 →L[ℝ] RVec 3) → RVec 3 → RVec 3) (opt : DogOpts ℝ) (he1 : 0 < opt.e1) (he2 : 0 ≤ opt.e2) :
    ∃ h h' y fm k s, (∃ f₀, ∀ f ≥ f₀, mergeObjective f [1, 0] h = (h', .ok y)) ∧
      minimizeDogleg 3 6 fm flip true true false y [0] solve opt h' k = .ok (h'.next, .halt, s) ∧
      ∃ r x, Means lib h.graph (.r 1) (.ok r) ∧ Means lib h.graph (.r 0) (.ok x) ∧
        ∀ r' x', Means lib s.world.graph (.r 1) (.ok r') → Means lib s.world.graph (.r 0) (.ok x') → energy r' + energy x' ≤ energy r + energy x := by
  have hfit : FitsFrom 0 threeObjs := ⟨leafO_fits _ _, unPO_fits (by decide), unO_fits (by decide), trivial⟩
  have hok : ∀ (i : ℕ) (o : ObjSpec ClassDef Par), threeObjs[i]? = some o → ∀ kw ∈ o.kws, KW.Earlier i o.dnames kw := fun i o ho => by
    have := (hfit.get ho).1; rwa [Nat.zero_add] at this
  let ops : List (Op ClassDef Par Jac) := buildOps threeObjs
  obtain ⟨hr, ht⟩ := NoFailingSets.run (s := lib) (m := ⟨False, True⟩) ops id (fun _ => ⟨⟨rfl, rfl⟩, ⟨rfl, rfl⟩, ⟨rfl, rfl⟩, trivial⟩) .init tagsLe_empty
    ⟨trivial, trivial, trivial, trivial⟩
  obtain ⟨_, hal⟩ := build_alive (s := lib) _ hok
  have hg : (run lib ops (Heap.empty lib)).graph = buildGraph lib threeObjs := build_graph _ hok
  have hal0 : ((run lib ops (Heap.empty lib)).node 0).alive = true := by rw [hal]; simp [threeObjs]
  have hal1 : ((run lib ops (Heap.empty lib)).node 1).alive = true := by rw [hal]; simp [threeObjs]
  generalize run lib ops (Heap.empty lib) = h at *
  have hl : IsLeaf h.graph 0 := by rw [hg]; exact isLeaf_leafO rfl
  have hx0 : (h.graph 0).terms nmX = some (.arr ⟨[3], fun k => k.1 + 1⟩) := by rw [hg]; rfl
  have hv := means_leaf hl.1 hx0
  have hy1 : IsA h.graph 1 chReshape [nmA] (fun _ => 0) := by rw [hg]; exact isA_unP rfl
  have hm1 := means_of_isA hy1 (v := fun _ => _) (fun _ => hv)
    (exact_reshape (tm := (h.graph 1).terms) (sh := [1, 3]) (o := [1, 3]) (by rw [hg]; rfl) (by rfl)).val
  have r0 : ReshapeArg h.graph 0 0 := .done (by
    rw [hl.1]
    intro e
    have : chLeaf.permute = chReshape.permute := congrArg ClassDef.permute e
    cases this)
  have r1 : ReshapeArg h.graph 1 0 := .step hy1.cls (hy1.kid (0 : Fin 1)) r0
  have hch : ∀ {k : ℕ} {b : Id}, RefChain h.graph k 0 b → k = 0 ∧ b = 0 := by
    intro k b hb
    cases hb with
    | nil => exact ⟨rfl, rfl⟩
    | cons hk _ => exact absurd hk (by rw [hl.2.1]; simp)
  obtain ⟨f₀, h', y, e, H⟩ := C86_list_chain_rule (objs := [1, 0]) (bs := [0, 0]) (vals := [_, _]) (sizes := [3, 3]) (N := 0) (n := 3) (l := 0)
    (x0 := ⟨[3], fun k => k.1 + 1⟩) hr ht (by simp) (by simp [hal0, hal1]) hl hal0 hx0 rfl (.cons hm1 (.cons hv .nil)) (.cons r1 (.cons r0 .nil))
    (by
      intro x hx
      obtain rfl : x = 0 := by simpa using hx
      refine ⟨fun k b hb => (hch hb).1.le, fun k b hb => ?_⟩
      obtain ⟨-, rfl⟩ := hch hb
      rw [hl.1]
      exact ⟨fun _ => rfl, fun t => by dsimp only; split <;> trivial⟩)
    (.cons (Or.inl ⟨rfl, rfl⟩) (.cons (Or.inl ⟨rfl, rfl⟩) .nil)) ⟨0, by simp, Or.inl rfl⟩
  obtain ⟨k, s, e1, e2⟩ := H (8 + h'.next) (by omega) (by omega) flip true true false solve opt he1 he2
  refine ⟨h, h', y, _, k, s, ⟨f₀, e⟩, e1, _, _, hm1, hv, fun r' x' hr' hx' => ?_⟩
  have := e2 [r', x'] (.cons hr' (.cons hx' .nil))
  simpa only [List.map_cons, List.map_nil, List.sum_cons, List.sum_nil, add_zero] using this
end ADDemo
end Chumpy
