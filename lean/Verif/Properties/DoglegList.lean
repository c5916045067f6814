import Verif.Properties.DoglegChain
import Verif.Properties.Objective
import Verif.Properties.DepthMin
/-!
# C86 for a list of objectives

`minimize([o1, o2, ...], ...)` first merges the objectives (optimization_internal.py:137-141, C69), then works on the merged object.
-/
namespace Chumpy
open scoped BigOperators
open Dog

/-- Making the objects of the merged objective keeps the tags below the counter. -/
theorem ravelAll_tags (f : ℕ) : ∀ (objs : List Id) {h : Heap ClassDef Par Arr Jac}, TagsLe h → Str h → TagsLe (ravelAll f objs h).1 ∧ Str (ravelAll f objs h).1
  | [], h, ht, hs => ⟨ht, hs⟩
  | a :: as, h, ht, hs => by
    have h1 : TagsLe (ravelObj f a h).1 ∧ Str (ravelObj f a h).1 := by
      unfold ravelObj
      split
      · exact ⟨ht, hs⟩
      · exact ⟨ht.new hs _ _ _ _ _, newObj_str hs _ _ _ _ _⟩
    unfold ravelAll M.bind
    rcases hq : ravelObj f a h with ⟨h', r⟩
    rw [hq] at h1
    cases r with
    | error e => exact h1
    | ok y =>
      have h2 := ravelAll_tags f as h1.1 h1.2
      dsimp only
      rcases hq' : ravelAll f as h' with ⟨h'', r'⟩
      rw [hq'] at h2
      cases r' with
      | error e => exact h2
      | ok ys => exact h2

theorem mergeObjective_tags {f : ℕ} {objs : List Id} {h : Heap ClassDef Par Arr Jac} (ht : TagsLe h) (hs : Str h) : TagsLe (mergeObjective f objs h).1 := by
  have h1 := ravelAll_tags f objs ht hs
  unfold mergeObjective M.bind
  rcases hq : ravelAll f objs h with ⟨h', r⟩
  rw [hq] at h1
  cases r with
  | error e => exact h1.1
  | ok l =>
    dsimp only
    unfold concatenate
    split
    · exact h1.1
    · exact h1.1.new h1.2 _ _ _ _ _

/-- Other arrays in the free variables: the merged objective is made of the same objects. -/
theorem Merged.untouched {h h' : Heap ClassDef Par Arr Jac} {objs : List Id} {y z : Id} {vs : List Free} (hm : Merged h.graph objs y) (hs : Str h)
    (ha : ∀ x ∈ objs, (h.node x).alive = true) (hy : (h.node y).alive = true) (hz : h.next ≤ z) (hl : ∀ u ∈ vs, IsLeaf h.graph u.l)
    (hu : Untouched h h' z vs) : Merged h'.graph objs y := by
  have hnz : ∀ j, (h.node j).alive = true → j ≠ z := fun j hj e => absurd (hs.alive_lt hj) (by rw [e]; exact Nat.not_lt.2 hz)
  have hsame : ∀ j, (h.node j).alive = true → (h.graph j).cls ≠ chLeaf → h'.graph j = h.graph j := fun j hj hc =>
    hu.other j hj (hnz j hj) fun u huv e => hc (by rw [e]; exact (hl u huv).1)
  have hcls : ∀ j, (h.node j).alive = true → (h'.graph j).cls = (h.graph j).cls ∧ (h'.graph j).dterms = (h.graph j).dterms := by
    intro j hj
    by_cases hjl : ∃ u ∈ vs, j = u.l
    · obtain ⟨u, huv, rfl⟩ := hjl
      obtain ⟨x0, x1, _, e, _⟩ := hu.rest u huv
      rw [e]
      simp [withArr]
    · rw [hu.other j hj (hnz j hj) fun u huv e => hjl ⟨u, huv, e⟩]
      exact ⟨rfl, rfl⟩
  obtain ⟨bs, l, h1, h2, h3, h4, h5, h6⟩ := hm
  have hIs := isA_concatO h3
  have hal : ∀ (j : ℕ) (hj : j < l.length), (h.node l[j]).alive = true := by
    intro j hj
    have := hIs.kid ⟨j, by simpa [concatNames] using hj⟩
    exact hs.child_alive this
  refine ⟨bs, l, h1, h2, ?_, fun j hj hj' => ?_, fun a ha1 ha2 => ?_, h6⟩
  · rw [hsame y hy (by rw [hIs.cls]; exact Ne.symm chLeaf_ne_concat)]; exact h3
  · rw [hsame _ (hal j hj) (by
      rw [h4 j hj hj']
      intro e
      have : chReshape = chLeaf := e
      have := congrArg ClassDef.permute this
      simp [chReshape, chLeaf] at this)]
    exact h4 j hj hj'
  · have key : ∀ {a b : Id}, ReshapeArg h.graph a b → (h.node a).alive = true → ReshapeArg h'.graph a b := by
      intro a b hab
      induction hab with
      | done hc => exact fun hx => .done (by rw [(hcls _ hx).1]; exact hc)
      | step hc hd _ ih => exact fun hx => .step (by rw [(hcls _ hx).1]; exact hc) (by rw [(hcls _ hx).2]; exact hd) (ih (hs.child_alive hd))
    exact key (h5 a ha1 ha2) (ha _ (List.getElem_mem _))

section
variable {h : Heap ClassDef Par Arr Jac} {objs : List Id} {vals : List Arr} {vs : List Free}

/-- C86 for a list of objectives (or the values of a dict): after every history in which no `set` of several keywords has raised, merging them and
minimising the merged object ends, and the sum of the sums of squares of all objectives is afterwards at most what it was before the call. -/
theorem C86_list_of_objectives (hr : Reach lib ⟨False, True⟩ h) (ht : TagsLe h) (hne : objs ≠ []) (ha : ∀ x ∈ objs, (h.node x).alive = true)
    (hv : List.Forall₂ (fun x v => Means lib h.graph (.r x) (.ok v)) objs vals)
    (hfree : ∀ u ∈ vs, u.Ok h.graph ∧ (h.node u.l).alive = true) (hd : (vs.map Free.fv).Nodup) :
    ∃ f₀ h' y, (∀ f ≥ f₀, mergeObjective f objs h = (h', .ok y)) ∧
      ∀ {n m f fm : ℕ} {F : RVec n → RVec m} {F' : RVec n → RVec n →L[ℝ] RVec m}, FreeOk n f fm h'.next vs → IsFunction f y vs F F' h'.graph →
      ∀ (flip disp md ms : Bool) (solve : (RVec n →L[ℝ] RVec n) → RVec n → RVec n) (opt : DogOpts ℝ), 0 < opt.e1 → 0 ≤ opt.e2 →
      ∃ (k : ℕ) (s : DogState ℝ (RVec n) (RVec m) (RVec n →L[ℝ] RVec m) (RVec n →L[ℝ] RVec n) (Heap ClassDef Par Arr Jac)),
        minimizeDogleg n m fm flip disp md ms y (vs.map Free.fv) solve opt h' k = .ok (h'.next, .halt, s) ∧
        ∀ vals', List.Forall₂ (fun x v => Means lib s.world.graph (.r x) (.ok v)) objs vals' → (vals'.map energy).sum ≤ (vals.map energy).sum := by
  obtain ⟨f₀, h', y, out, hmk, hr', ⟨hy, _, hkeep⟩, hmg, ⟨f₁, hread⟩, hJ, hen, _⟩ := merged_objective hr hne ha hv
  have hs := reach_str hr
  have hs' := reach_str hr'
  have ht' : TagsLe h' := by
    have := mergeObjective_tags (f := f₀) (objs := objs) ht hs
    rwa [hmk f₀ (Nat.le_refl _)] at this
  have hfree' : ∀ u ∈ vs, u.Ok h'.graph ∧ (h'.node u.l).alive = true := by
    intro u hu
    obtain ⟨h1, h2⟩ := hfree u hu
    refine ⟨h1.congr (hkeep _ h2).1 fun i hi => (hkeep i ?_).1, (hkeep _ h2).2⟩
    by_contra hna
    exact hi ((hs.dead i (by simpa using hna)).2.1 nmA)
  have hc : Called y vs h' := by
    refine ⟨optReach_of_reach hr', ?_, hy, hfree', hd⟩
    by_cases hgi : 9999 ≤ h'.giter
    · exact Or.inl hgi
    · refine Or.inr fun j e => ?_
      have := ht' j 9999 e
      omega
  refine ⟨f₀, h', y, hmk, ?_⟩
  intro n m f fm F F' hfo hF flip disp md ms solve opt he1 he2
  obtain ⟨k, s, before, after, e, _, hb, haft, hbm, ham, hle, hun⟩ := C86_objective_decreases hc hfo hF flip disp md ms solve opt he1 he2
  refine ⟨k, s, e, fun vals' hv' => ?_⟩
  have hm' := hmg.untouched hs' (fun x hx => (hkeep x (ha x hx)).2) hy (Nat.le_refl _) (fun u hu => (hfree' u hu).1.leaf) hun
  obtain ⟨out', ho', _, hen'⟩ := hm'.value hne hv'
  have e1 : out' = after := by have := ho'.unique haft; injection this
  have hmo : Means lib h'.graph (.r y) (.ok out) :=
    (C01_value_never_stale_partial lib_propsOk (Reach.weaken (m := ⟨False, True⟩) (m' := ⟨False, False⟩) (fun h => h) (fun _ => trivial) hr') f₁ y).1 out
      (hread f₁ (Nat.le_refl _))
  have e2 : out = before := by have := hmo.unique hb; injection this
  rw [← hen', ← hen, e1, e2]
  unfold energy
  rw [ham, hbm]
  exact hle
end

/-! ## A case: `minimize([a, a], [a])` -/

section
variable {g : Graph ClassDef Par} {N : ℕ} {y w : Id}

theorem value_at_depth (hy : HeightLe g N y) (py : PlainBelow lib g y) {a : Arr} (ha : Means lib g (.r y) (.ok a)) : evalReq lib g (2 * N + 3) (.r y) = .ok a := by
  have hh := heights hy hy py py
  have hle := heightOf_le hy
  have e0 := hh.value _ y (Or.inl ⟨0, .nil y⟩) (Nat.le_refl _) (2 * N + 3) (by omega)
  obtain ⟨_, f, e⟩ := ha
  have c1 := evalReq_mono lib g (Nat.le_max_left (2 * N + 3) f) (.r y) e0
  have c2 := evalReq_mono lib g (Nat.le_max_right (2 * N + 3) f) (.r y) (by rw [e]; simp)
  exact c1.symm.trans (c2.trans e)

theorem dr_at_depth (hy : HeightLe g N y) (hw : HeightLe g N w) (py : PlainBelow lib g y) (pw : PlainBelow lib g w) {d : Option Jac}
    (hd : MeansDr lib g y w (.ok d)) : evalDr lib g (2 * N + 3) y w = .ok d := by
  have hh := heights hy hw py pw
  have hle := heightOf_le hy
  have hle' := heightOf_le hw
  have e0 := hh.dr lib_shallow (w := w) (Or.inr ⟨0, .nil w⟩) _ y (Or.inl ⟨0, .nil y⟩) (Nat.le_refl _) (2 * N + 3) (by omega)
  obtain ⟨_, f, e⟩ := hd
  have c1 := evalDr_mono lib g (Nat.le_max_left (2 * N + 3) f) y w e0
  have c2 := evalDr_mono lib g (Nat.le_max_right (2 * N + 3) f) y w (by rw [e]; simp)
  exact c1.symm.trans (c2.trans e)
end

namespace ADDemo
/-- `0` is a `Ch`, `1` and `2` are `0.ravel()`, `3` is their concatenation. -/
structure Twice (g : Graph ClassDef Par) : Prop where
  one : g 1 = (ravelO 0).node
  two : g 2 = (ravelO 0).node
  three : g 3 = (concatO 0 [1, 2]).node

/-- A state with the given graph. -/
noncomputable def heapOf (g : Graph ClassDef Par) : Heap ClassDef Par Arr Jac :=
  { Heap.empty lib with node := fun i => { (blankNode chLeaf : Node ClassDef Par Arr Jac) with toGNode := g i } }

theorem Twice.merged {g : Graph ClassDef Par} (h : Twice g) (h0 : (g 0).cls ≠ chReshape) : Merged g [0, 0] 3 := by
  refine ⟨[0, 0], [1, 2], rfl, rfl, h.three, fun j h1 h2 => ?_, fun a h1 h2 => ?_, by decide, by decide, fun a h1 h2 => ?_⟩
  · have : j < 2 := h1
    interval_cases j
    · exact h.one
    · exact h.two
  · have : a < 2 := h1
    interval_cases a <;> exact .done h0
  · have : a < 2 := h1
    interval_cases a
    · exact (by decide : (1 : ℕ) ≠ 0)
    · exact (by decide : (2 : ℕ) ≠ 0)

/-- The entry of `x` at place `i` of `[x, x]`. -/
def half (n i : ℕ) : ℕ := if i < n then i else i - n

theorem twice_value {g : Graph ClassDef Par} (h : Twice g) (h0 : (g 0).cls ≠ chReshape) {u : Arr} (hu : Means lib g (.r 0) (.ok u)) :
    Means lib g (.r 3) (.ok (Arr.of [u.size + u.size] fun k => u.vec (half u.size k))) := by
  obtain ⟨out, h1, h2, _⟩ := Merged.value (h := heapOf g) (objs := [0, 0]) (vs := [u, u]) (h.merged h0) (by simp) (.cons hu (.cons hu .nil))
  have hsz : out.size = u.size + u.size := by rw [h2.size]; simp
  have e : out = Arr.of [u.size + u.size] fun k => u.vec (half u.size k) := by
    refine Arr.ext_vec (by rw [h2.shape]; simp [Arr.of]) fun k hk => ?_
    have hk' : k < u.size + u.size := by rw [← hsz]; exact hk
    rw [Arr.vec_of _ _ (by simpa using hk')]
    unfold half
    split
    · rename_i hlt
      have := h2.entry 0 (by simp) k hlt
      simpa [offset] using this
    · rename_i hlt
      have := h2.entry 1 (by simp) (k - u.size) (by show k - u.size < u.size; omega)
      have e1 : offset [u, u] 1 + (k - u.size) = k := by simp [offset]; omega
      rw [e1] at this
      exact this
  rwa [e] at h1

/-- The Jacobian: two identities, one above the other. -/
def twoOnes (n : ℕ) : Ent := fun i j => if half n i = j then 1 else 0

theorem twice_jacobian {g : Graph ClassDef Par} (h : Twice g) (h0 : (g 0).cls ≠ chReshape) {u : Arr} (hu : Means lib g (.r 0) (.ok u)) :
    HasJacobian g 3 0 (Arr.of [u.size + u.size] fun k => u.vec (half u.size k)) u (twoOnes u.size) := by
  have hsz : (Arr.of [u.size + u.size] fun k => u.vec (half u.size k)).size = u.size + u.size := by simp [Arr.size, Arr.of]
  refine ⟨twice_value h h0 hu, hu, fun t => Ent.lin _ u.size (twoOnes u.size) t, Filter.Eventually.of_forall fun t => ?_, (Ent.lin _ u.size (twoOnes u.size)).hasFDerivAt⟩
  have hT : Twice (setTo g 0 (u.put t)) := ⟨by simpa [setTo] using h.one, by simpa [setTo] using h.two, by simpa [setTo] using h.three⟩
  have hc : (setTo g 0 (u.put t) 0).cls ≠ chReshape := by
    intro e
    have := congrArg ClassDef.permute e
    simp [setTo, chReshape, constClass] at this
  have := twice_value hT hc (means_setTo _ _ _)
  have hus : (u.put t).size = u.size := rfl
  rw [hus] at this
  have e : (Arr.of [u.size + u.size] fun k => (u.put t).vec (half u.size k)) =
      (Arr.of [u.size + u.size] fun k => u.vec (half u.size k)).put (Ent.lin _ u.size (twoOnes u.size) t) := by
    refine Arr.ext_vec rfl fun k hk => ?_
    have hk' : k < u.size + u.size := by
      have h9 : k < ([u.size + u.size] : List ℕ).prod := hk
      simpa using h9
    have hh : half u.size k < u.size := by unfold half; split <;> omega
    rw [Arr.vec_of _ _ (by simpa using hk'),
      show (((Arr.of [u.size + u.size] fun k => u.vec (half u.size k)).put (Ent.lin _ u.size (twoOnes u.size) t)).vec k) =
        Ent.lin _ u.size (twoOnes u.size) t ⟨k, by rw [hsz]; exact hk'⟩ from Arr.vec_put _ _ ⟨k, by rw [hsz]; exact hk'⟩, Ent.lin_apply,
      show (u.put t).vec (half u.size k) = t ⟨half u.size k, hh⟩ from Arr.vec_put _ _ ⟨half u.size k, hh⟩]
    rw [Finset.sum_eq_single (⟨half u.size k, hh⟩ : Fin u.size)]
    · simp [twoOnes]
    · intro j _ hj
      have : half u.size k ≠ (j : ℕ) := fun e => hj (Fin.ext e.symm)
      simp [twoOnes, this]
    · exact fun h' => absurd (Finset.mem_univ _) h'
  rwa [e] at this

theorem twiceObj_dr {g : Graph ClassDef Par} (h : Twice g) (h0 : (g 0).cls = chLeaf) {u : Arr} (hu : Means lib g (.r 0) (.ok u)) (hpos : 0 < u.size) :
    ∃ d, MeansDr lib g 3 0 (.ok (some d)) ∧ Jac.Rep d (u.size + u.size) u.size (twoOnes u.size) := by
  have hw : lib.isPermute (g 0).cls = false := by rw [h0]; rfl
  have hnl : (g 0).cls ≠ chReshape := by
    rw [h0]; intro e
    have := congrArg ClassDef.permute e
    simp [chReshape, chLeaf] at this
  have h3 := isA_concatO h.three
  have hnode : ∀ a : Fin (concatNames 2).length, g (([1, 2] : List Id).get (a.cast (by simp [concatNames]))) = (ravelO 0).node := by
    intro ⟨a, ha⟩
    have ha' : a < 2 := by simpa [concatNames] using ha
    interval_cases a
    · exact h.one
    · exact h.two
  have hkne : ∀ a : Fin (concatNames 2).length, ([1, 2] : List Id).get (a.cast (by simp [concatNames])) ≠ 0 ∧
      (3 : Id) ≠ ([1, 2] : List Id).get (a.cast (by simp [concatNames])) := by
    intro ⟨a, ha⟩
    have ha' : a < 2 := by simpa [concatNames] using ha
    interval_cases a
    · exact ⟨(by decide : (1 : ℕ) ≠ 0), (by decide : (3 : ℕ) ≠ 1)⟩
    · exact ⟨(by decide : (2 : ℕ) ≠ 0), (by decide : (3 : ℕ) ≠ 2)⟩
  obtain ⟨out, hc, hosh⟩ := flat_concat (vs := [u, u]) (by simp)
  have hzero : normAxis out.shape.length 0 = some 0 := by rw [hosh]; exact normAxis_nat (n := 1) (k := 0) (by decide)
  have hvs : (List.ofFn fun _ : Fin (concatNames 2).length => flatOf u) = [u, u].map flatOf := rfl
  have hD := (DrRep.concat (n := u.size) (w := 0) (out := out) (v := fun _ => flatOf u) (Q := fun _ => Ent.one) h3
    (by rw [h.three]; exact (concatO_node 0 [1, 2]).2.2.1)
    (by
      intro ⟨a, ha⟩ ⟨b, hb⟩ e
      have ha' : a < 2 := by simpa [concatNames] using ha
      have hb' : b < 2 := by simpa [concatNames] using hb
      interval_cases a <;> interval_cases b <;> first | rfl | exact absurd (show (1 : ℕ) = 2 from e) (by decide) | exact absurd (show (2 : ℕ) = 1 from e) (by decide))
    (fun a => means_ravelO (hnode a) hu) hzero (hvs ▸ hc :) (by decide : (3 : ℕ) ≠ 0) (fun a => (hkne a).1) (fun a => (hkne a).2) hw
    (fun a => by
      rw [flatOf_size]
      exact DrRep.reshape (isA_ravelO (hnode a)) hu (means_ravelO (hnode a) hu) (flatOf_size u) (hkne a).1 (hkne a).1 hw (Or.inl ⟨rfl, rfl, rfl⟩))).2
  have hos : out.size = u.size + u.size := by rw [(flat_joined hc hosh).size]; simp
  have hget : ∀ c (hc : c < ([u, u] : List Arr).length), ([u, u] : List Arr)[c] = u := by
    intro c hc
    have : c < 2 := hc
    interval_cases c <;> rfl
  rw [hos] at hD
  obtain ⟨o, ho, hR⟩ := hD.congr (E' := twoOnes u.size) (by
    intro i hi j hj
    have key := fun (a : ℕ) (ha : a < 2) (k : ℕ) (hk : k < u.size) => flat_rows (vs := [u, u]) (m := (concatNames 2).length) (n := ([u, u].map Arr.size).sum) rfl
      (Q := fun _ => Ent.one) a ha k (by rw [hget]; exact hk) j
    have conv : ∀ c : Fin (concatNames 2).length, Ent.mul (flatOf u).size (placeE 0 out.shape (flatOf u).shape
        (startOf 0 ((List.ofFn fun _ : Fin (concatNames 2).length => flatOf u).map Arr.shape) c)) Ent.one =
        Ent.mul (([u, u] : List Arr)[(c : ℕ)]'(show (c : ℕ) < ([u, u] : List Arr).length from c.2)).size (placeE 0 [([u, u].map Arr.size).sum] [(([u, u] : List Arr)[(c : ℕ)]'(show (c : ℕ) < ([u, u] : List Arr).length from c.2)).size] (offset [u, u] c)) Ent.one := by
      intro c
      rw [hget c (show (c : ℕ) < ([u, u] : List Arr).length from c.2), hvs, flat_start, hosh, flatOf_size]
      rfl
    refine (congrFun (congrFun (Finset.sum_congr rfl fun c _ => conv c) i) j).trans ?_
    by_cases hlt : i < u.size
    · have := key 0 (by decide) i hlt
      have e0 : offset [u, u] 0 + i = i := by simp [offset]
      rw [e0] at this
      refine this.trans ?_
      simp [twoOnes, half, hlt, Ent.one]
    · have := key 1 (by decide) (i - u.size) (by omega)
      have e0 : offset [u, u] 1 + (i - u.size) = i := by simp [offset]; omega
      rw [e0] at this
      refine this.trans ?_
      simp [twoOnes, half, hlt, Ent.one])
  cases o with
  | none =>
    have := (show Ent.IsZero (u.size + u.size) u.size (twoOnes u.size) from hR) 0 (by omega) 0 hpos
    simp [twoOnes, half, hpos] at this
  | some d => exact ⟨d, ho, hR⟩

theorem Twice.withArr {g : Graph ClassDef Par} (h : Twice g) (x : Arr) : Twice (withArr g 0 x) :=
  ⟨by rw [withArr_other (by decide : (1 : ℕ) ≠ 0)]; exact h.one, by rw [withArr_other (by decide : (2 : ℕ) ≠ 0)]; exact h.two,
    by rw [withArr_other (by decide : (3 : ℕ) ≠ 0)]; exact h.three⟩

theorem twice_chains {g : Graph ClassDef Par} (h : Twice g) (h0 : IsLeaf g 0) {k : ℕ} {a b : Id} (hc : RefChain g k a b) :
    (a = 0 → k = 0 ∧ b = 0) ∧ (a = 1 ∨ a = 2 → k ≤ 1 ∧ (b = 0 ∨ b = 1 ∨ b = 2)) ∧ (a = 3 → k ≤ 2 ∧ (b = 0 ∨ b = 1 ∨ b = 2 ∨ b = 3)) := by
  have hrav : ∀ {k c}, (ravelO 0).node.dterms k = some c → c = 0 := by
    intro k c hk
    have := ObjSpec.node_dterms hk
    simp [ravelO] at this
    exact this.2
  have hcat : ∀ {k c}, (concatO 0 [1, 2]).node.dterms k = some c → c = 1 ∨ c = 2 := by
    intro k c hk
    have := ObjSpec.node_dterms hk
    simp [concatO] at this
    rcases this with ⟨_, e⟩ | ⟨_, e⟩
    · exact Or.inl e
    · exact Or.inr e
  induction hc with
  | nil a => exact ⟨fun e => ⟨rfl, e⟩, fun e => ⟨Nat.zero_le _, Or.inr e⟩, fun e => ⟨Nat.zero_le _, Or.inr (Or.inr (Or.inr e))⟩⟩
  | @cons n a b c q hk _ ih =>
    refine ⟨?_, ?_, ?_⟩
    · rintro rfl
      have := h0.2.1 q
      rw [this] at hk
      cases hk
    · intro e
      have hc0 : c = 0 := by
        rcases e with rfl | rfl
        · rw [h.one] at hk; exact hrav hk
        · rw [h.two] at hk; exact hrav hk
      obtain ⟨e1, e2⟩ := ih.1 hc0
      exact ⟨by omega, Or.inl e2⟩
    · rintro rfl
      rw [h.three] at hk
      obtain ⟨e1, e2⟩ := ih.2.1 (hcat hk)
      refine ⟨by omega, ?_⟩
      rcases e2 with e | e | e
      · exact Or.inl e
      · exact Or.inr (Or.inl e)
      · exact Or.inr (Or.inr (Or.inl e))

theorem noSelf_readAll : ∀ (ns : List Name) {k : List Arr → Prog Par Arr Arr}, (∀ vs, (k vs).NoSelf) → (readAll ns k).NoSelf
  | [], _, h => h []
  | _ :: ns, _, h => fun v => noSelf_readAll ns fun vs => h (v :: vs)

theorem twice_plain {g : Graph ClassDef Par} (h : Twice g) (h0 : IsLeaf g 0) {a : Id} (ha : a = 0 ∨ a = 3) : PlainBelow lib g a := by
  intro k b hc
  have hcs := twice_chains h h0 hc
  have hb : b = 0 ∨ b = 1 ∨ b = 2 ∨ b = 3 := by
    rcases ha with e | e
    · exact Or.inl (hcs.1 e).2
    · exact (hcs.2.2 e).2
  have hrs : (lib.computeR chReshape).NoSelf := by
    intro v p
    dsimp only
    split
    · split <;> trivial
    · trivial
  rcases hb with rfl | rfl | rfl | rfl
  · rw [h0.1]; exact ⟨fun _ => rfl, fun t => by dsimp only; split <;> trivial⟩
  · rw [(isA_ravelO h.one).cls]; exact ⟨fun _ => rfl, hrs⟩
  · rw [(isA_ravelO h.two).cls]; exact ⟨fun _ => rfl, hrs⟩
  · rw [(isA_concatO h.three).cls]
    refine ⟨fun _ => rfl, ?_⟩
    refine noSelf_readAll _ fun vs p => ?_
    dsimp only
    split
    · split <;> trivial
    · trivial

theorem twice_isFunction {g : Graph ClassDef Par} (h : Twice g) (h0 : IsLeaf g 0) {x0 : Arr} (hx : (g 0).terms nmX = some (.arr x0)) (hsh : x0.shape = [2]) :
    ∃ (F : RVec 2 → RVec 4) (F' : RVec 2 → RVec 2 →L[ℝ] RVec 4), IsFunction 7 3 [wholeCh 0 x0.atleast1.shape] F F' g := by
  refine isFunction_of_jacobians h0 hx (by unfold Arr.size; rw [hsh]; rfl) fun x hxs => ?_
  have hT := h.withArr x
  have hl : IsLeaf (withArr g 0 x) 0 := isLeaf_withArr h0
  have hm : Means lib (withArr g 0 x) (.r 0) (.ok x.atleast1) := means_leaf hl.1 (by unfold Chumpy.withArr; rw [if_pos rfl]; rfl)
  have hsz : x.atleast1.size = 2 := by rw [Arr.atleast1_size]; unfold Arr.size; rw [hxs, hsh]; rfl
  have hne : (withArr g 0 x 0).cls ≠ chReshape := by
    rw [hl.1]; intro e
    have := congrArg ClassDef.permute e
    simp [chReshape, chLeaf] at this
  have hH3 : HeightLe (withArr g 0 x) 2 3 := fun k b hc => ((twice_chains hT hl hc).2.2 rfl).1
  have hH0 : HeightLe (withArr g 0 x) 2 0 := fun k b hc => by rw [((twice_chains hT hl hc).1 rfl).1]; exact Nat.zero_le _
  obtain ⟨d, hd, hR⟩ := twiceObj_dr hT hl.1 hm (by rw [hsz]; decide)
  have hos : (Arr.of [x.atleast1.size + x.atleast1.size] fun k => x.atleast1.vec (half x.atleast1.size k)).size = x.atleast1.size + x.atleast1.size := by
    simp [Arr.size, Arr.of]
  refine ⟨_, d, twoOnes x.atleast1.size, value_at_depth (N := 2) hH3 (twice_plain hT hl (Or.inr rfl)) (twice_value hT hne hm), by rw [hos, hsz],
    dr_at_depth (N := 2) hH3 hH0 (twice_plain hT hl (Or.inr rfl)) (twice_plain hT hl (Or.inl rfl)) hd, twice_jacobian hT hne hm, by rw [hos]; exact hR⟩

/-- `a = Ch([1, 2])`, then `minimize([a, a], [a])`: it ends, and the sum of squares over both objectives has not grown. -/
example (flip : Bool) (solve : (RVec 2 →L[ℝ] RVec 2) → RVec 2 → RVec 2) (opt : DogOpts ℝ) (he1 : 0 < opt.e1) (he2 : 0 ≤ opt.e2) :
    ∃ h h' y k s, (∃ f₀, ∀ f ≥ f₀, mergeObjective f [0, 0] h = (h', .ok y)) ∧
      minimizeDogleg 2 4 10 flip true true false y [0] solve opt h' k = .ok (4, .halt, s) ∧
      ∀ a b, Means lib h.graph (.r 0) (.ok b) → Means lib s.world.graph (.r 0) (.ok a) → energy a + energy a ≤ energy b + energy b := by
  let ops : List (Op ClassDef Par Jac) := buildOps [leafO ⟨[2], ![1, 2]⟩]
  have hfit : FitsFrom 0 [leafO ⟨[2], ![1, 2]⟩] := ⟨leafO_fits _ _, trivial⟩
  have hok : ∀ (i : ℕ) (o : ObjSpec ClassDef Par), ([leafO ⟨[2], ![1, 2]⟩] : List (ObjSpec ClassDef Par))[i]? = some o → ∀ kw ∈ o.kws, KW.Earlier i o.dnames kw :=
    fun i o ho => by have := (hfit.get ho).1; rwa [Nat.zero_add] at this
  obtain ⟨hr, ht⟩ := NoFailingSets.run (s := lib) (m := ⟨False, True⟩) ops id (fun _ => ⟨⟨rfl, rfl⟩, trivial⟩) .init tagsLe_empty ⟨trivial, trivial⟩
  obtain ⟨hnx, hal⟩ := build_alive (s := lib) _ hok
  have hg : (run lib ops (Heap.empty lib)).graph = buildGraph lib [leafO ⟨[2], ![1, 2]⟩] := build_graph _ hok
  have hnx : (run lib ops (Heap.empty lib)).next = 1 := hnx
  have hal0 : ((run lib ops (Heap.empty lib)).node 0).alive = true := by rw [hal]; simp
  generalize run lib ops (Heap.empty lib) = h at *
  have hgx : (h.graph 0).terms nmX = some (.arr ⟨[2], ![1, 2]⟩) := by rw [hg]; rfl
  have hl : IsLeaf h.graph 0 := by rw [hg]; exact isLeaf_leafO rfl
  have hm : Means lib h.graph (.r 0) (.ok ⟨[2], ![1, 2]⟩) := by rw [hg]; exact (leaf_means rfl (by simp)).1
  have hne : (h.graph 0).cls ≠ chReshape := by
    rw [hl.1]; intro e
    have := congrArg ClassDef.permute e
    simp [chReshape, chLeaf] at this
  obtain ⟨f₀, h', y, hmk, hall⟩ := C86_list_of_objectives (objs := [0, 0]) (vs := [wholeCh 0 [2]]) hr ht (by simp) (by simpa using hal0)
    (.cons hm (.cons hm .nil)) (fun u hu => by
      obtain rfl : u = wholeCh 0 [2] := by simpa using hu
      exact ⟨⟨hl, ⟨⟨[2], ![1, 2]⟩, hgx, .leaf⟩, fun i _ j _ e => e⟩, hal0⟩) (by simp)
  -- what the merging makes
  have hbase : ∀ f, ravelBase h.graph (f + 1) 0 = .ok 0 := fun f => by unfold ravelBase; rw [if_neg hne]
  obtain ⟨h1, e1, hr1, hn1, hg1, hg1', ha1, ha1', _⟩ := ravelAll_state [0, 0] (f := f₀ + 3) (bs := [0, 0]) hr (by simpa using hal0)
    (.cons ⟨hbase _, .done hne⟩ (.cons ⟨hbase _, .done hne⟩ .nil))
  rw [hnx] at e1 hn1 hg1 hg1' ha1'
  have e1 : ravelAll (f₀ + 3) [0, 0] h = (h1, .ok [1, 2]) := e1
  have hn1 : h1.next = 3 := hn1
  have hp : ∀ kw ∈ (concatO 0 [1, 2]).kws, kw.Plain h1 (concatO 0 [1, 2]).dnames := by
    intro kw hm
    simp only [concatO, List.mem_append, List.mem_map, List.mem_singleton] at hm
    rcases hm with ⟨p, hp, rfl⟩ | rfl
    · simp at hp
      rcases hp with rfl | rfl
      · exact ⟨by simp [concatO, concatNames], ha1' 0 (by decide)⟩
      · exact ⟨by simp [concatO, concatNames], ha1' 1 (by decide)⟩
    · trivial
  obtain ⟨h2, e2, _, hg2, hn2, _⟩ := newObj_all hr1 (concatO 0 [1, 2]) hp
  have hnone : ∀ x ∈ ([1, 2] : List Id), ¬ SameConcat h1.graph 0 x := by
    intro x hx hsc
    have hs1 := hsc.1
    have hcl : (h1.graph x).cls = chReshape := by
      simp at hx
      rcases hx with rfl | rfl
      · exact (isA_ravelO (hg1 0 (by decide))).cls
      · exact (isA_ravelO (hg1 1 (by decide))).cls
    rw [hcl] at hs1
    exact chReshape_ne_concat hs1
  have e3 : mergeObjective (f₀ + 3) [0, 0] h = (h2, .ok 3) := by
    simp only [mergeObjective, M.bind]
    rw [e1]
    dsimp only
    unfold concatenate
    rw [expand_up (show ([1, 2] : List Id).length + 1 ≤ f₀ + 3 by simp) (expand_none hnone)]
    rw [hn1] at e2
    exact e2
  have e4 := (hmk (f₀ + 3) (Nat.le_add_right _ _)).symm.trans e3
  obtain ⟨rfl, e5⟩ := Prod.mk.inj e4
  obtain rfl : y = 3 := by injection e5
  have hT : Twice h'.graph := by
    refine ⟨?_, ?_, ?_⟩
    · rw [hg2, if_neg (by rw [hn1]; decide)]; exact hg1 0 (by decide)
    · rw [hg2, if_neg (by rw [hn1]; decide)]; exact hg1 1 (by decide)
    · rw [hg2, if_pos hn1.symm]
  have h00 : h'.graph 0 = h.graph 0 := by rw [hg2, if_neg (by rw [hn1]; decide)]; exact hg1' 0 (by decide)
  have hl' : IsLeaf h'.graph 0 := by unfold IsLeaf; rw [h00]; exact hl
  obtain ⟨F, F', hF⟩ := twice_isFunction hT hl' (x0 := ⟨[2], ![1, 2]⟩) (by rw [h00]; exact hgx) rfl
  have hn' : h'.next = 4 := by rw [hn2, hn1]
  obtain ⟨k, s, e6, hs⟩ := hall (n := 2) (m := 4) (f := 7) (fm := 10) ⟨by simp, rfl, by simp, fun u hu => by
      obtain rfl : u = wholeCh 0 [2] := by simpa using hu
      exact Nat.zero_le _, by simp [enough, wholeCh], by decide, by rw [hn']; decide⟩ hF flip true true false solve opt he1 he2
  rw [hn'] at e6
  refine ⟨h, h', 3, k, s, ⟨f₀, hmk⟩, e6, fun a b hb ha => ?_⟩
  have hbx : b = ⟨[2], ![1, 2]⟩ := by have := hb.unique hm; injection this
  subst hbx
  have := hs [a, a] (.cons ha (.cons ha .nil))
  simpa using this
end ADDemo
end Chumpy
