import Verif.Properties.DoglegList
/-!
# C69: the derivative of the merged objective is the Jacobian of its value

`minimize([o1, o2, ...], ...)` merges the objectives (optimization_internal.py:137-141). If each objective is differentiable and its derivative is
right, so is the merged one.
-/
namespace Chumpy
open scoped BigOperators Topology

/-- Every place of the joined array belongs to one of the arrays. -/
theorem offset_find : ∀ (vs : List Arr) (i : ℕ), i < (vs.map Arr.size).sum → ∃ (a : ℕ) (ha : a < vs.length) (k : ℕ), k < vs[a].size ∧ i = offset vs a + k
  | [], i, h => by simp at h
  | v :: vs, i, h => by
    by_cases hi : i < v.size
    · exact ⟨0, by simp, i, hi, by simp [offset]⟩
    · obtain ⟨a, ha, k, hk, e⟩ := offset_find vs (i - v.size) (by simp at h; omega)
      refine ⟨a + 1, by simpa using ha, k, by simpa using hk, ?_⟩
      have : offset (v :: vs) (a + 1) = v.size + offset vs a := by simp [offset]
      omega

theorem offset_sizes {vs us : List Arr} (h : vs.map Arr.size = us.map Arr.size) (a : ℕ) : offset vs a = offset us a := by
  unfold offset
  rw [List.map_take, List.map_take, h]

theorem constClass_ne_reshape (v : Arr) : constClass v ≠ chReshape := by
  intro e
  have := congrArg ClassDef.permute e
  simp [chReshape, constClass] at this

/-- Giving an older object other entries leaves the merged objective made of the same objects. -/
theorem Merged.withEntries {g : Graph ClassDef Par} {objs : List Id} {y w : Id} (hm : Merged g objs y) (hyw : y ≠ w) (hw : lib.isPermute (g w).cls = false) (u : Arr) :
    Merged (setTo g w u) objs y := by
  have hne : ∀ j, (g j).cls = chReshape → j ≠ w := by
    rintro j hj rfl
    rw [hj] at hw
    cases hw
  obtain ⟨bs, l, h1, h2, h3, h4, h5, h6⟩ := hm
  refine ⟨bs, l, h1, h2, ?_, fun j hj hj' => ?_, fun a ha1 ha2 => ?_, h6⟩
  · unfold setTo; rw [if_neg hyw]; exact h3
  · unfold setTo
    rw [if_neg (hne _ (isA_ravelO (h4 j hj hj')).cls)]
    exact h4 j hj hj'
  · have key : ∀ {a b : Id}, ReshapeArg g a b → ReshapeArg (setTo g w u) a b := by
      intro a b hab
      induction hab with
      | @done a hc =>
        refine .done ?_
        unfold setTo
        split
        · exact constClass_ne_reshape u
        · exact hc
      | @step a c b hc hd _ ih =>
        refine .step (c := c) ?_ ?_ ih
        · unfold setTo; rw [if_neg (hne a hc)]; exact hc
        · unfold setTo; rw [if_neg (hne a hc)]; exact hd
    exact key (h5 a ha1 ha2)

section
variable {g g' : Graph ClassDef Par} {A : Id → Prop}

/-- Objects outside a part of the graph that refers to nothing else do not matter for what is in it: values. -/
theorem means_part (he : ∀ j, A j → g' j = g j) (hc : ∀ j, A j → ∀ k c, (g j).dterms k = some c → A c) {o : Id} (ho : A o) {v : Arr}
    (hm : Means lib g (.r o) (.ok v)) : Means lib g' (.r o) (.ok v) := by
  obtain ⟨_, f, e⟩ := hm
  exact ⟨by simp, f, (((Iso.of_eq he hc).req (s := lib) f o ho).1).trans e⟩

/-- The same for derivatives. -/
theorem meansDr_part (he : ∀ j, A j → g' j = g j) (hc : ∀ j, A j → ∀ k c, (g j).dterms k = some c → A c) {o w : Id} (ho : A o) (hw : A w) {d : Option Jac}
    (hm : MeansDr lib g o w (.ok d)) : MeansDr lib g' o w (.ok d) := by
  obtain ⟨_, f, e⟩ := hm
  exact ⟨by simp, f, ((Iso.of_eq he hc).dr (s := lib) f o w ho hw).trans e⟩

/-- The same for Jacobians. -/
theorem hasJacobian_part (he : ∀ j, A j → g' j = g j) (hc : ∀ j, A j → ∀ k c, (g j).dterms k = some c → A c) {o w : Id} (ho : A o) (hw : A w) {vo vw : Arr} {M : Ent}
    (hJ : HasJacobian g o w vo vw M) : HasJacobian g' o w vo vw M := by
  obtain ⟨F, h1, h2⟩ := hJ.deriv
  refine ⟨means_part he hc ho hJ.valY, means_part he hc hw hJ.valW, F, h1.mono fun t ht => means_part (g := setTo g w (vw.put t)) ?_ ?_ ho ht, h2⟩
  · intro j hj
    unfold setTo
    split
    · rfl
    · exact he j hj
  · intro j hj k c hk
    unfold setTo at hk
    split at hk
    · cases hk
    · exact hc j hj k c hk
end

/-- The merged objective is differentiable if its parts are, and its Jacobian has their rows. -/
theorem Merged.hasJacobian {g : Graph ClassDef Par} {objs : List Id} {vs : List Arr} {y w : Id} {out vw : Arr} {E : ℕ → Ent} {J : Ent} (hmg : Merged g objs y)
    (hne : objs ≠ []) (hyw : y ≠ w) (hw : lib.isPermute (g w).cls = false) (hlen : objs.length = vs.length)
    (hJ : ∀ (a : ℕ) (h1 : a < objs.length) (h2 : a < vs.length), HasJacobian g objs[a] w vs[a] vw (E a)) (hmo : Means lib g (.r y) (.ok out)) (hjo : Joined vs out)
    (hJE : ∀ (a : ℕ) (h2 : a < vs.length) (k j : ℕ), k < vs[a].size → j < vw.size → J (offset vs a + k) j = E a k j) : HasJacobian g y w out vw J := by
  have hvw : Means lib g (.r w) (.ok vw) := (hJ 0 (List.length_pos_iff.2 hne) (by rw [← hlen]; exact List.length_pos_iff.2 hne)).valW
  refine ⟨hmo, hvw, ?_⟩
  -- the parts as functions
  have hF : ∀ a : Fin vs.length, ∃ F : (Fin vw.size → ℝ) → Fin (vs[(a : ℕ)]).size → ℝ,
      (∀ᶠ t in 𝓝 vw.data, Means lib (setTo g w (vw.put t)) (.r (objs[(a : ℕ)]'(by rw [hlen]; exact a.2))) (.ok ((vs[(a : ℕ)]).put (F t)))) ∧
      HasFDerivAt F (Ent.lin (vs[(a : ℕ)]).size vw.size (E a)) vw.data := fun a => (hJ a (by rw [hlen]; exact a.2) a.2).deriv
  choose F hF1 hF2 using hF
  have hos : out.size = (vs.map Arr.size).sum := hjo.size
  have hloc : ∀ i : Fin out.size, ∃ (a : Fin vs.length) (k : Fin (vs[(a : ℕ)]).size), (i : ℕ) = offset vs a + k := by
    intro i
    obtain ⟨a, ha, k, hk, e⟩ := offset_find vs i (by rw [← hos]; exact i.2)
    exact ⟨⟨a, ha⟩, ⟨k, hk⟩, e⟩
  choose A K hAK using hloc
  refine ⟨fun t i => F (A i) t (K i), ?_, ?_⟩
  · have hall : ∀ᶠ t in 𝓝 vw.data, ∀ a : Fin vs.length,
        Means lib (setTo g w (vw.put t)) (.r (objs[(a : ℕ)]'(by rw [hlen]; exact a.2))) (.ok ((vs[(a : ℕ)]).put (F a t))) :=
      Filter.eventually_all.2 hF1
    refine hall.mono fun t ht => ?_
    let us : List Arr := List.ofFn fun a : Fin vs.length => (vs[(a : ℕ)]).put (F a t)
    have hul : us.length = vs.length := by simp [us]
    have hug : ∀ (a : ℕ) (ha : a < vs.length) (ha' : a < us.length), us[a] = (vs[a]).put (F ⟨a, ha⟩ t) := by
      intro a ha ha'
      simp [us]
    have husz : us.map Arr.size = vs.map Arr.size := by
      refine List.ext_getElem (by simp [hul]) fun a h1 h2 => ?_
      have h3 : a < vs.length := by simpa using h2
      rw [List.getElem_map, List.getElem_map, hug a h3 (by rw [hul]; exact h3)]
      rfl
    have hm' := hmg.withEntries hyw hw (vw.put t)
    obtain ⟨o, ho, hjo', _⟩ := Merged.value (h := ADDemo.heapOf (setTo g w (vw.put t))) (objs := objs) (vs := us) hm' hne
      (List.forall₂_iff_get.2 ⟨by rw [hul, hlen], fun a h1 h2 => by
        have h3 : a < vs.length := by rw [← hul]; exact h2
        have := ht ⟨a, h3⟩
        rw [List.get_eq_getElem, List.get_eq_getElem, hug a h3 h2]
        exact this⟩)
    have e : o = out.put (fun i => F (A i) t (K i)) := by
      refine Arr.ext_vec (by rw [hjo'.shape, husz]; exact hjo.shape.symm) fun i hi => ?_
      have hi' : i < out.size := by rw [hos, ← husz, ← hjo'.size]; exact hi
      have e1 : (out.put fun i => F (A i) t (K i)).vec i = F (A ⟨i, hi'⟩) t (K ⟨i, hi'⟩) := Arr.vec_put _ _ ⟨i, hi'⟩
      have e2 : i = offset vs (A ⟨i, hi'⟩) + K ⟨i, hi'⟩ := hAK ⟨i, hi'⟩
      have h3 : ((A ⟨i, hi'⟩ : Fin vs.length) : ℕ) < us.length := by rw [hul]; exact (A ⟨i, hi'⟩).2
      have e3 := hjo'.entry (A ⟨i, hi'⟩) h3 (K ⟨i, hi'⟩) (by rw [hug _ (A ⟨i, hi'⟩).2 h3]; exact (K ⟨i, hi'⟩).2)
      rw [offset_sizes husz, ← e2, hug _ (A ⟨i, hi'⟩).2 h3] at e3
      rw [e1, e3]
      exact Arr.vec_put _ _ (K ⟨i, hi'⟩)
    rw [← e]
    exact ho
  · rw [hasFDerivAt_pi']
    intro i
    have h1 := (hasFDerivAt_pi'.1 (hF2 (A i))) (K i)
    have e : (ContinuousLinearMap.proj i).comp (Ent.lin out.size vw.size J) =
        (ContinuousLinearMap.proj (K i)).comp (Ent.lin (vs[((A i : Fin vs.length) : ℕ)]).size vw.size (E (A i))) := by
      ext1 x
      show Ent.lin out.size vw.size J x i = Ent.lin _ vw.size (E (A i)) x (K i)
      rw [Ent.lin_apply, Ent.lin_apply]
      refine Finset.sum_congr rfl fun j _ => ?_
      rw [hAK i, hJE (A i) (A i).2 (K i) j (K i).2 j.2]
    rw [e]
    exact h1

section
variable {h : Heap ClassDef Par Arr Jac} {objs : List Id} {vs : List Arr}

/-- C69, the derivative: if every objective is differentiable as a function of `w`, with the Jacobian it contributes, then the merged objective is
differentiable as a function of `w`, and `dr_wrt(w)` of it returns its Jacobian. -/
theorem C69_merged_jacobian (hr : Reach lib ⟨False, True⟩ h) (hne : objs ≠ []) (ha : ∀ x ∈ objs, (h.node x).alive = true) {w : Id} {vw : Arr} {E : ℕ → Ent}
    (hwa : (h.node w).alive = true) (hw : lib.isPermute (h.graph w).cls = false) (hlen : objs.length = vs.length)
    (hJ : ∀ (a : ℕ) (h1 : a < objs.length) (h2 : a < vs.length), HasJacobian h.graph objs[a] w vs[a] vw (E a))
    (hc : ∀ (a : ℕ) (h1 : a < objs.length) (h2 : a < vs.length), Contributes h objs[a] w vs[a].size vw.size (E a)) :
    ∃ f₀ h' y out J, (∀ f ≥ f₀, mergeObjective f objs h = (h', .ok y)) ∧ Joined vs out ∧ HasJacobian h'.graph y w out vw J ∧
      Reports h' y w out.size vw.size J := by
  have hv : List.Forall₂ (fun x v => Means lib h.graph (.r x) (.ok v)) objs vs :=
    List.forall₂_iff_get.2 ⟨hlen, fun a h1 h2 => (hJ a h1 h2).valY⟩
  obtain ⟨f₀, h', y, out, hmk, hr', ⟨hy, hyd, hkeep⟩, hmg, ⟨f₁, hread⟩, hjo, hen, hrep⟩ := merged_objective hr hne ha hv
  obtain ⟨J, hR, hJE⟩ := hrep w vw.size E hwa hw hc
  have hs := reach_str hr
  have hyw : y ≠ w := by
    rintro rfl
    rw [hyd] at hwa
    cases hwa
  have hw' : lib.isPermute (h'.graph w).cls = false := by rw [(hkeep w hwa).1]; exact hw
  have hmo : Means lib h'.graph (.r y) (.ok out) :=
    (C01_value_never_stale_partial lib_propsOk (Reach.weaken (m := ⟨False, True⟩) (m' := ⟨False, False⟩) (fun h => h) (fun _ => trivial) hr') f₁ y).1 out
      (hread f₁ (Nat.le_refl _))
  exact ⟨f₀, h', y, out, J, hmk, hjo, hmg.hasJacobian hne hyw hw' hlen (fun a h1 h2 => hasJacobian_part (A := fun j => (h.node j).alive = true)
    (fun j hj => (hkeep j hj).1) (fun j _ k c hc => hs.child_alive hc) (ha _ (List.getElem_mem h1)) hwa (hJ a h1 h2)) hmo hjo hJE, hR⟩
end

/-- The object asked about is the identity as a function of itself. -/
theorem hasJacobian_self {g : Graph ClassDef Par} {w : Id} {vw : Arr} (hw : Means lib g (.r w) (.ok vw)) : HasJacobian g w w vw vw Ent.one := by
  refine ⟨hw, hw, fun t => t, Filter.Eventually.of_forall fun t => means_setTo _ _ _, ?_⟩
  rw [Ent.lin_one]
  exact hasFDerivAt_id _

namespace ADDemo
/-- C69_merged_jacobian applied: `[x ** 2, x]`, with respect to `x`. -/
example : ∃ (h h' : Heap ClassDef Par Arr Jac) (y : Id) (out vw : Arr) (J : Ent), Reach lib ⟨False, True⟩ h ∧
    (∃ f₀, ∀ f ≥ f₀, mergeObjective f [2, 0] h = (h', .ok y)) ∧ out.shape = [6] ∧ HasJacobian h'.graph y 0 out vw J ∧ Reports h' y 0 out.size vw.size J := by
  obtain ⟨h, hr, hg, hal⟩ := threeObjs_ready
  generalize hx : (⟨[3], fun k => k.1 + 1⟩ : Arr) = x at *
  have hxs : x.shape = [3] := by rw [← hx]
  have hxz : x.size = 3 := by unfold Arr.size; rw [hxs]; rfl
  have hl : IsLeaf h.graph 0 := by rw [hg]; exact isLeaf_leafO rfl
  have hv : Means lib h.graph (.r 0) (.ok x) := by rw [hg, ← hx]; exact (leaf_means rfl (by simp)).1
  have hy2 : IsA h.graph 2 chSquare [nmA] (fun _ => 0) := by rw [hg]; exact isA_un rfl
  have hdiag : DiagShape x.shape := by rw [hxs]; exact Or.inl ⟨3, [], rfl, by decide⟩
  obtain ⟨out2, hres, hR2, hrep⟩ := C32_elementwise_partial .square hr hy2 hv hdiag (fun _ _ => trivial)
  obtain ⟨u, M, hJ, hRM⟩ := hR2.deriv (fun k c hc => by
    have hk : k ∈ (h.graph 2).dnames := (reach_str hr).dn 2 k c hc
    rw [hy2.dnames, List.mem_singleton] at hk
    subst hk
    have := hy2.kid (0 : Fin 1)
    rw [show ([nmA] : List Name).get (0 : Fin 1) = nmA from rfl, hc] at this
    cases this; exact hl) nmA 0 (hy2.kid (0 : Fin 1))
  obtain rfl : u = x := by have := hJ.valW.unique hv; injection this
  have hz2 : out2.size = 3 := by unfold Arr.size; rw [hres.1, hxs]; rfl
  have hd : (h.graph 2).cls ≠ chReshape := by
    rw [hy2.cls]; intro e
    have := congrArg ClassDef.permute e
    cases this
  have hd0 : (h.graph 0).cls ≠ chReshape := by
    rw [hl.1]; intro e
    have := congrArg ClassDef.permute e
    cases this
  obtain ⟨f₀, h', y, out, J, e, hj, h1, h2⟩ := C69_merged_jacobian (objs := [2, 0]) (vs := [out2, u]) (w := 0) (vw := u) (E := fun a => if a = 0 then M else Ent.one) hr
    (by simp) (fun i hi => hal i (by simp at hi; rcases hi with rfl | rfl <;> decide)) (hal 0 (by decide)) (by rw [hl.1]; rfl) rfl
    (by
      intro a h1 h2
      have ha : a = 0 ∨ a = 1 := by simp at h1; omega
      rcases ha with rfl | rfl
      · exact hJ
      · exact hasJacobian_self hv)
    (by
      intro a h1 h2
      have ha : a = 0 ∨ a = 1 := by simp at h1; omega
      rcases ha with rfl | rfl
      · exact (C69_contributes_reported hd).1 (by decide) hRM
      · exact (C69_contributes_reported (w := 0) (n := 0) (E := Ent.one) hd0).2)
  exact ⟨h, h', y, out, u, J, hr, ⟨f₀, e⟩, by rw [hj.shape]; simp [hz2, hxz], h1, h2⟩
end ADDemo
end Chumpy
