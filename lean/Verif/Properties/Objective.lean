import Verif.AD.Objective
import Verif.Properties.Elementwise
/-!
# C69: an objective given as a list
-/
namespace Chumpy
open scoped BigOperators Topology

/-- Where the entries of array `a` start when the arrays are laid end to end. -/
def offset (vs : List Arr) (a : ℕ) : ℕ := ((vs.take a).map Arr.size).sum

/-- The arrays `vs`, each flattened, one after another. -/
structure Joined (vs : List Arr) (out : Arr) : Prop where
  shape : out.shape = [(vs.map Arr.size).sum]
  entry : ∀ (a : ℕ) (ha : a < vs.length) (k : ℕ), k < vs[a].size → out.vec (offset vs a + k) = vs[a].vec k

/-- Half of what least squares minimises, doubled: `np.sum(v.r**2)`. -/
noncomputable def energy (v : Arr) : ℝ := ∑ k ∈ Finset.range v.size, v.vec k ^ 2

/-- "The objective `o` contributes the `m × n` matrix `E` to the Jacobian with respect to `w`": `b`, the object under the reshapes of `o`
(`o` itself if that is no reshape), reports it; or `b` is `w`, and it is the identity. -/
def Contributes (h : Heap ClassDef Par Arr Jac) (o w : Id) (m n : ℕ) (E : Ent) : Prop :=
  ∃ b, ReshapeArg h.graph o b ∧ ((b = w ∧ m = n ∧ E = Ent.one) ∨ (b ≠ w ∧ Reports h b w m n E))

/-! ## Flattened objects -/

/-- `v.ravel()`. -/
noncomputable def flatOf (v : Arr) : Arr := Arr.of [v.size] v.vec

theorem flatOf_size (v : Arr) : (flatOf v).size = v.size := by simp [flatOf, Arr.size, Arr.of]

theorem flatOf_vec (v : Arr) {k : ℕ} (hk : k < v.size) : (flatOf v).vec k = v.vec k := Arr.vec_of _ _ (by simpa using hk)

theorem flatOf_same {u v : Arr} (h : SameFlat u v) : flatOf v = flatOf u := by
  refine Arr.ext_vec (by simp [flatOf, Arr.of, h.1]) fun k hk => ?_
  have hk' : k < v.size := by rw [← flatOf_size]; exact hk
  rw [flatOf_vec v hk', flatOf_vec u (by rw [← h.1]; exact hk'), h.2 k (by rw [← h.1]; exact hk')]

section
variable {g : Graph ClassDef Par} {y b w : Id} {u : Arr} {n : ℕ} {E : Ent}

theorem isA_ravelO (hy : g y = (ravelO b).node) : IsA g y chReshape [nmA] fun _ => b := by
  refine ⟨by rw [hy]; rfl, by rw [hy]; rfl, by simp, fun a => ?_⟩
  have : a = (0 : Fin 1) := Fin.eq_zero a
  subst this; rw [hy]; rfl

theorem means_ravelO (hy : g y = (ravelO b).node) (hu : Means lib g (.r b) (.ok u)) : Means lib g (.r y) (.ok (flatOf u)) := by
  have hE := exact_reshape (tm := (g y).terms) (v := u) (sh := [-1]) (o := [u.size]) (by rw [hy]; rfl) (fillShape_flat _)
  have := means_of_isA (isA_ravelO hy) (v := fun _ => u) (fun _ => hu) hE.val
  have e : (Arr.of [u.size] u.vec).atleast1 = flatOf u := by
    refine Arr.ext_vec rfl fun k hk => ?_
    rw [Arr.atleast1_vec]; rfl
  rwa [e] at this

theorem reshape_dr {tm : Name → Option Par} {out : Arr} : ReturnsDr lib chReshape tm (env1 u) out [nmA]
    (some (.sparse u.size u.size fun i j => if i = j then 1 else 0)) := ⟨0, by simp [lib, chReshape, runBody, env1]⟩

/-- The derivative of a reshape is that of what is reshaped. -/
theorem DrRep.reshape {out : Arr} (hy : IsA g y chReshape [nmA] fun _ => b) (hu : Means lib g (.r b) (.ok u)) (hout : Means lib g (.r y) (.ok out))
    (hsz : out.size = u.size) (hyb : y ≠ b) (hyw : y ≠ w) (hw : lib.isPermute (g w).cls = false)
    (h : (b = w ∧ u.size = n ∧ E = Ent.one) ∨ (b ≠ w ∧ DrRep g b w u.size n E)) : DrRep g y w u.size n E := by
  have hR : Jac.Rep (.sparse u.size u.size fun i j => if i = j then 1 else 0) u.size u.size Ent.one := ⟨rfl, rfl, fun _ _ _ _ => rfl⟩
  rcases h with ⟨rfl, rfl, rfl⟩ | ⟨hbw, hd⟩
  · have hk : (g y).dterms nmA = some b := hy.kid (0 : Fin 1)
    have hs : SlicedIs lib g y b (some (.sparse u.size u.size fun i j => if i = j then 1 else 0)) :=
      SlicedIs.some (compIs_isA hy (v := fun _ => u) (fun _ => hu) hout hyb (by
        rw [namesOf_one hy]; erw [env_one]; exact reshape_dr))
    exact ⟨_, drIs (r := some _) hs (by rw [hy.dnames]; exact .wrt hk (.nil ..)) rfl, Jac.outForm_rep _ _ (Jac.finish_rep hR)⟩
  · have := DrRep.un hy hu hout hyb hyw hbw hw reshape_dr (by rw [hsz]; exact hR) hd
    rw [hsz] at this
    refine this.congr fun i hi j hj => ?_
    show ∑ k ∈ Finset.range u.size, (if i = k then 1 else 0) * E k j = E i j
    rw [Finset.sum_eq_single i (fun k _ hk => by rw [if_neg (Ne.symm hk), zero_mul]) (fun h' => absurd (Finset.mem_range.2 hi) h'), if_pos rfl, one_mul]
end

theorem Reports.drRep {h : Heap ClassDef Par Arr Jac} (hr : Reach lib ⟨False, True⟩ h) {y w : Id} {m n : ℕ} {E : Ent}
    (hw : lib.isPermute (h.graph w).cls = false) (hR : Reports h y w m n E) : DrRep h.graph y w m n E := by
  obtain ⟨f₀, h1⟩ := hR
  obtain ⟨o, h2, h3⟩ := h1 f₀ (Nat.le_refl _)
  have := (C02_derivative_never_stale_partial lib_propsOk lib_plainForm hr f₀ y w hw).1
  rw [h2] at this
  exact ⟨o, this o rfl, h3⟩

/-! ## Blocks of one dimension -/

theorem flat_sizes (vs : List Arr) : ((vs.map flatOf).map Arr.shape).map (fun t => t.getD 0 0) = vs.map Arr.size := by
  rw [List.map_map, List.map_map]
  exact List.map_congr_left fun v _ => rfl

theorem flat_start (vs : List Arr) (a : ℕ) : startOf 0 ((vs.map flatOf).map Arr.shape) a = offset vs a := by
  unfold startOf offset
  rw [flat_sizes, List.map_take]

theorem flat_stacks {vs : List Arr} (hne : vs ≠ []) : Stacks 0 ((vs.map flatOf).map Arr.shape) [(vs.map Arr.size).sum] := by
  refine ⟨by simp, by simpa using hne, ?_, ?_⟩
  · rw [flat_sizes]; rfl
  · intro t ht
    simp only [List.map_map, List.mem_map, Function.comp_apply] at ht
    obtain ⟨v, _, rfl⟩ := ht
    refine ⟨rfl, fun j hj => ?_⟩
    cases j with
    | zero => exact absurd rfl hj
    | succ j => rfl

theorem flat_concat {vs : List Arr} (hne : vs ≠ []) : ∃ out : Arr, IsConcat 0 (vs.map flatOf) out ∧ out.shape = [(vs.map Arr.size).sum] := by
  have hst := flat_stacks hne
  have hhead : ((vs.map flatOf).map Arr.shape).headD [] = [((vs.map Arr.size).headD 0)] := by
    cases vs with
    | nil => exact absurd rfl hne
    | cons v vs => rfl
  have h0 : normAxis (((vs.map flatOf).map Arr.shape).headD []).length 0 = some 0 := by
    rw [hhead]; exact normAxis_nat (n := 1) (k := 0) (by decide)
  obtain ⟨out, hout⟩ := concatArr_some h0 ((concatShape_iff (by rw [hhead]; simp)).2 hst)
  obtain ⟨i, hi, hc⟩ := concatArr_spec hout
  have hlen : out.shape.length = 1 := by
    obtain ⟨v, vs', rfl⟩ : ∃ v vs', vs = v :: vs' := List.exists_cons_of_ne_nil hne
    have := (hc.shapes.others (flatOf v).shape (by simp)).1
    rw [← this]; rfl
  have hi0 : i = 0 := by have := normAxis_lt hi; omega
  subst hi0
  refine ⟨out, hc, ?_⟩
  obtain ⟨n, hn⟩ := List.length_eq_one_iff.1 hlen
  have hd := hc.shapes.dim
  rw [flat_sizes, hn] at hd
  rw [hn, ← hd]; rfl

theorem ravel_single (n k : ℕ) : ravel [n] [k] = k := by simp [ravel]

theorem flat_joined {vs : List Arr} {out : Arr} (hc : IsConcat 0 (vs.map flatOf) out) (hs : out.shape = [(vs.map Arr.size).sum]) : Joined vs out := by
  refine ⟨hs, fun a ha k hk => ?_⟩
  have ha' : a < (vs.map flatOf).length := by simpa using ha
  have e : (vs.map flatOf)[a] = flatOf vs[a] := by simp
  have := hc.entry a ha' [k] (by rw [e]; exact .cons hk .nil)
  rw [flat_start, e] at this
  have h1 : out.at (placed 0 (offset vs a) [k]) = out.vec (offset vs a + k) := by
    show out.vec (ravel out.shape [offset vs a + k]) = _
    rw [hs, ravel_single]
  have h2 : (flatOf vs[a]).at [k] = vs[a].vec k := by
    show (flatOf vs[a]).vec (ravel [vs[a].size] [k]) = _
    rw [ravel_single, flatOf_vec _ hk]
  rw [← h1, this, h2]

theorem Joined.size {vs : List Arr} {out : Arr} (h : Joined vs out) : out.size = (vs.map Arr.size).sum := by
  unfold Arr.size; rw [h.shape]; simp

theorem offset_le {vs : List Arr} {a : ℕ} (ha : a < vs.length) : offset vs a + vs[a].size ≤ (vs.map Arr.size).sum := by
  have := take_sum_le (vs.map Arr.size) a (by simpa using ha)
  rw [List.getD_eq_getElem _ _ (by simpa using ha), List.getElem_map, ← List.map_take] at this
  exact this

/-- Summing over the result is summing over the parts. -/
theorem Joined.sum {F : ℝ → ℝ} : ∀ {vs : List Arr} {x : ℕ → ℝ}, (∀ (a : ℕ) (ha : a < vs.length) (k : ℕ), k < vs[a].size → x (offset vs a + k) = vs[a].vec k) →
    ∑ k ∈ Finset.range (vs.map Arr.size).sum, F (x k) = (vs.map fun v => ∑ k ∈ Finset.range v.size, F (v.vec k)).sum
  | [], x, _ => by simp
  | v :: vs, x, h => by
    rw [List.map_cons, List.sum_cons, List.map_cons, List.sum_cons, Finset.sum_range_add]
    congr 1
    · refine Finset.sum_congr rfl fun k hk => ?_
      have := h 0 (by simp) k (Finset.mem_range.1 hk)
      rw [show offset (v :: vs) 0 = 0 from rfl, Nat.zero_add] at this
      rw [this]; rfl
    · refine Joined.sum (x := fun k => x (v.size + k)) fun a ha k hk => ?_
      have := h (a + 1) (by simpa using ha) k hk
      rw [show offset (v :: vs) (a + 1) = v.size + offset vs a by simp [offset], Nat.add_assoc] at this
      exact this

theorem offset_disjoint {vs : List Arr} {a a' k k' : ℕ} (ha : a < vs.length) (ha' : a' < vs.length) (hk : k < vs[a].size) (hk' : k' < vs[a'].size)
    (e : offset vs a + k = offset vs a' + k') : a = a' ∧ k = k' := by
  have hne : vs ≠ [] := by rintro rfl; simp at ha
  have hst := flat_stacks hne
  have hl : ∀ c, c < vs.length → c < ((vs.map flatOf).map Arr.shape).length := fun c hc => by simpa using hc
  have hin : ∀ c (hc : c < vs.length) q, q < vs[c].size → InB (((vs.map flatOf).map Arr.shape)[c]'(hl c hc)) [q] := fun c hc q hq => by
    have : ((vs.map flatOf).map Arr.shape)[c]'(hl c hc) = [vs[c].size] := by simp [flatOf, Arr.of]
    rw [this]; exact .cons hq .nil
  have := hst.placed_inj (hl a ha) (hl a' ha') (hin a ha k hk) (hin a' ha' k' hk') (by
    rw [flat_start, flat_start]
    show [offset vs a + k] = [offset vs a' + k']
    rw [e])
  exact ⟨this.1, by simpa using this.2⟩

/-- Row by row: the product with the placement matrices puts each block in its place. -/
theorem flat_rows {vs : List Arr} {m : ℕ} (hm : m = vs.length) {Q : Fin m → Ent} {n : ℕ} (a : ℕ) (ha : a < m) (k : ℕ) (hk : k < (vs[a]'(by omega)).size) (j : ℕ) :
    (∑ c : Fin m, Ent.mul (vs[(c : ℕ)]'(by omega)).size
      (placeE 0 [n] [(vs[(c : ℕ)]'(by omega)).size] (offset vs c)) (Q c)) (offset vs a + k) j = Q ⟨a, ha⟩ k j := by
  subst hm
  rw [Finset.sum_apply, Finset.sum_apply]
  have hp : ∀ (c : Fin vs.length) q, q < vs[(c : ℕ)].size → placeE 0 [n] [vs[(c : ℕ)].size] (offset vs c) (offset vs a + k) q =
      if offset vs c + q = offset vs a + k then 1 else 0 := by
    intro c q hq
    unfold placeE
    have : ravel [n] (placed 0 (offset vs c) (unravel [vs[(c : ℕ)].size] q)) = offset vs c + q := by
      simp [unravel, placed, ravel]
    rw [this]
  have hval : ∀ c : Fin vs.length, Ent.mul vs[(c : ℕ)].size (placeE 0 [n] [vs[(c : ℕ)].size] (offset vs c)) (Q c) (offset vs a + k) j =
      if c = ⟨a, ha⟩ then Q ⟨a, ha⟩ k j else 0 := by
    intro c
    show ∑ q ∈ Finset.range vs[(c : ℕ)].size, placeE 0 [n] [vs[(c : ℕ)].size] (offset vs c) (offset vs a + k) q * Q c q j = _
    by_cases hc : c = ⟨a, ha⟩
    · subst hc
      rw [if_pos rfl, Finset.sum_eq_single k]
      · rw [hp ⟨a, ha⟩ k hk, if_pos rfl, one_mul]
      · intro q hq hqk
        rw [hp ⟨a, ha⟩ q (Finset.mem_range.1 hq), if_neg (fun e => hqk (Nat.add_left_cancel e)), zero_mul]
      · exact fun h' => absurd (Finset.mem_range.2 hk) h'
    · rw [if_neg hc]
      refine Finset.sum_eq_zero fun q hq => ?_
      rw [hp c q (Finset.mem_range.1 hq), if_neg (fun e => hc (Fin.ext (offset_disjoint c.2 ha (Finset.mem_range.1 hq) hk e).1)), zero_mul]
  rw [Finset.sum_congr rfl fun c _ => hval c, Finset.sum_ite_eq' Finset.univ (⟨a, ha⟩ : Fin vs.length), if_pos (Finset.mem_univ _)]

theorem chReshape_ne_concat {ns : List Name} : chReshape ≠ chConcat ns := fun e => absurd (congrArg ClassDef.permute e) (by simp [chReshape, chConcat])

section
variable {h : Heap ClassDef Par Arr Jac} {objs : List Id} {vs : List Arr}

/-- How the merged objective `y` is made of `objs`: the concatenation of a flattening of each (of what is under it, if it is itself a reshape). -/
def Merged (g : Graph ClassDef Par) (objs : List Id) (y : Id) : Prop :=
  ∃ bs l : List Id, bs.length = objs.length ∧ l.length = objs.length ∧ g y = (concatO 0 l).node ∧
    (∀ (j : ℕ) (h1 : j < l.length) (h2 : j < bs.length), g l[j] = (ravelO bs[j]).node) ∧
    (∀ (a : ℕ) (h1 : a < objs.length) (h2 : a < bs.length), ReshapeArg g objs[a] bs[a]) ∧
    l.Nodup ∧ y ∉ l ∧ ∀ (a : ℕ) (h1 : a < l.length) (h2 : a < bs.length), l[a] ≠ bs[a]

theorem merged_objective (hr : Reach lib ⟨False, True⟩ h) (hne : objs ≠ []) (ha : ∀ x ∈ objs, (h.node x).alive = true)
    (hv : List.Forall₂ (fun x v => Means lib h.graph (.r x) (.ok v)) objs vs) :
    ∃ f₀ h' y out, (∀ f ≥ f₀, mergeObjective f objs h = (h', .ok y)) ∧ Reach lib ⟨False, True⟩ h' ∧
      ((h'.node y).alive = true ∧ (h.node y).alive = false ∧ ∀ j, (h.node j).alive = true → h'.graph j = h.graph j ∧ (h'.node j).alive = true) ∧ Merged h'.graph objs y ∧
      (∃ f₁, ∀ f ≥ f₁, (read lib f (.r y) h').2 = .ok out) ∧ Joined vs out ∧ energy out = (vs.map energy).sum ∧
      ∀ (w : Id) (n : ℕ) (E : ℕ → Ent), (h.node w).alive = true → lib.isPermute (h.graph w).cls = false →
        (∀ (a : ℕ) (h1 : a < objs.length) (h2 : a < vs.length), Contributes h objs[a] w vs[a].size n (E a)) →
        ∃ J, Reports h' y w out.size n J ∧
          ∀ (a : ℕ) (h2 : a < vs.length) (k j : ℕ), k < vs[a].size → j < n → J (offset vs a + k) j = E a k j := by
  have hs := reach_str hr
  have hlen := hv.length_eq
  have hnv : vs ≠ [] := fun e => hne (List.length_eq_zero_iff.1 (by rw [hlen, e]; rfl))
  -- the objects under the reshapes
  obtain ⟨f₁, bs, hbs⟩ : ∃ f bs, ∀ f' ≥ f, List.Forall₂ (fun a b => ravelBase h.graph f' a = .ok b ∧ ReshapeArg h.graph a b) objs bs := by
    clear ha hne hlen hnv
    induction hv with
    | nil => exact ⟨0, [], fun _ _ => .nil⟩
    | @cons x v xs vs hx _ ih =>
      obtain ⟨_, F, hF⟩ := hx
      obtain ⟨f1, b, h1, h2⟩ := ravelBase_ends hF
      obtain ⟨f2, bs, h3⟩ := ih
      refine ⟨max f1 f2, b :: bs, fun f' hf => .cons ⟨ravelBase_mono ((Nat.le_max_left _ _).trans hf) h1, h2⟩ (h3 f' ((Nat.le_max_right _ _).trans hf))⟩
  have hlb := (hbs f₁ (Nat.le_refl _)).length_eq
  have hba : ∀ (a : ℕ) (h1 : a < objs.length) (h2 : a < bs.length), ReshapeArg h.graph objs[a] bs[a] := fun a h1 h2 =>
    ((List.forall₂_iff_get.1 (hbs f₁ (Nat.le_refl _))).2 a h1 h2).2
  have hbal : ∀ (a : ℕ) (h2 : a < bs.length), (h.node bs[a]).alive = true := fun a h2 =>
    (hba a (by omega) h2).alive hs (ha _ (List.getElem_mem _))
  have hbv : ∀ (a : ℕ) (h2 : a < bs.length), ∃ u, Means lib h.graph (.r bs[a]) (.ok u) ∧ SameFlat u (vs[a]'(by omega)) := fun a h2 =>
    reshapeArg_value (hba a (by omega) h2) ((List.forall₂_iff_get.1 hv).2 a (by omega) (by omega))
  -- the flattened objects
  obtain ⟨h1, e1, hr1, hn1, hg1, hg1', ha1, ha1', hk1, hd1⟩ := ravelAll_state objs hr ha (hbs f₁ (Nat.le_refl _))
  have e1' : ∀ f ≥ f₁, ravelAll f objs h = (h1, .ok ((List.range objs.length).map (h.next + ·))) := by
    exact fun f hf => ravelAll_mono hf e1
  generalize hldef : (List.range objs.length).map (h.next + ·) = l at e1'
  have hll : l.length = objs.length := by simp [← hldef]
  have hlget : ∀ j (hj : j < l.length), l[j] = h.next + j := fun j hj => by simp [← hldef]
  have hnone : ∀ x ∈ l, ¬ SameConcat h1.graph 0 x := by
    intro x hx hsc
    obtain ⟨j, hj, rfl⟩ := List.getElem_of_mem hx
    rw [hlget j hj] at hsc
    have hs1 := hsc.1
    rw [hg1 j (by omega)] at hs1
    exact chReshape_ne_concat hs1
  -- the concatenation
  obtain ⟨h2, e2, hr2, hg2, hn2, ha2, hk2, hd2⟩ := newObj_all hr1 (concatO 0 l) (by
    intro kw hm
    simp only [concatO, List.mem_append, List.mem_map, List.mem_singleton] at hm
    rcases hm with ⟨p, hp, rfl⟩ | rfl
    · obtain ⟨j, hj, rfl⟩ := List.getElem_of_mem hp
      have hj' : j < l.length := by simpa using hj
      refine ⟨?_, ?_⟩
      · simp only [concatO, concatNames, List.mem_map, List.mem_range, List.getElem_zipIdx]
        exact ⟨j, hj', by simp⟩
      · rw [List.getElem_zipIdx]
        dsimp only
        rw [hlget j hj']
        exact ha1' j (by omega)
    · trivial)
  obtain ⟨out, hc, hosh⟩ := flat_concat hnv
  have hJ := flat_joined hc hosh
  have hgy : h2.graph h1.next = (concatO 0 l).node := by rw [hg2, if_pos rfl]
  have hy := isA_concatO hgy
  have hcl : (concatNames l.length).length = vs.length := by simp [concatNames]; omega
  have hgl : ∀ j (hj : j < bs.length), h2.graph (h.next + j) = (ravelO bs[j]).node := by
    intro j hj
    rw [hg2, if_neg (by rw [hn1]; exact Nat.ne_of_lt (Nat.add_lt_add_left (by omega) _)), hg1 j hj]
  have hkid : ∀ a : Fin (concatNames l.length).length, l.get (a.cast (by simp [concatNames])) = h.next + a := fun a => hlget a (by have := a.2; omega)
  have hkv : ∀ a : Fin (concatNames l.length).length, Means lib h2.graph (.r (l.get (a.cast (by simp [concatNames])))) (.ok (flatOf (vs[(a : ℕ)]'(by have := a.2; omega)))) := by
    intro a
    have hab : (a : ℕ) < bs.length := by have := a.2; omega
    obtain ⟨u, hu, hsf⟩ := hbv a hab
    rw [hkid, flatOf_same hsf]
    exact means_ravelO (hgl a hab) (hk2 _ _ (ha1 _ (hbal a hab)) (hk1 _ _ (hbal a hab) hu))
  have hvs : (List.ofFn fun a : Fin (concatNames l.length).length => flatOf (vs[(a : ℕ)]'(by have := a.2; omega))) = vs.map flatOf := by
    refine List.ext_getElem (by simp; omega) fun j h1 h2 => ?_
    simp
  have h0 : normAxis out.shape.length 0 = some 0 := by rw [hosh]; exact normAxis_nat (n := 1) (k := 0) (by decide)
  have hval : Means lib h2.graph (.r h1.next) (.ok out) :=
    means_of_isA hy hkv (exact_concat hy.nodup (by rw [hgy]; exact (concatO_node 0 l).2.2.1) h0 (by rw [hvs]; exact hc)).val
  have hkeep : (h2.node h1.next).alive = true ∧ (h.node h1.next).alive = false ∧
      ∀ j, (h.node j).alive = true → h2.graph j = h.graph j ∧ (h2.node j).alive = true := by
    refine ⟨by rw [ha2, if_pos rfl], hs.unborn _ (by rw [hn1]; exact Nat.le_add_right _ _), fun j hj => ?_⟩
    have hjlt : j < h.next := hs.alive_lt hj
    have hjn : j ≠ h1.next := by rw [hn1]; exact Nat.ne_of_lt (Nat.lt_add_right _ hjlt)
    exact ⟨by rw [hg2, if_neg hjn, hg1' j hjlt], by rw [ha2, if_neg hjn]; exact ha1 j hj⟩
  have hmerged : Merged h2.graph objs h1.next := ⟨bs, l, hlb.symm, hll, hgy, fun j h3 h4 => by rw [hlget j h3]; exact hgl j h4,
    fun a h3 h4 => (hba a h3 h4).keep hs (fun j hj => (hkeep.2.2 j hj).1) (ha _ (List.getElem_mem _)),
    by rw [← hldef]; exact List.nodup_range.map (fun a b e => Nat.add_left_cancel e),
    fun hm => by
      obtain ⟨j, hj, e⟩ := List.getElem_of_mem hm
      rw [hlget j hj, hn1] at e
      have := Nat.add_left_cancel e
      omega,
    fun a h3 h4 e => by
      have hblt := hs.alive_lt (hbal a h4)
      rw [← e, hlget a h3] at hblt
      exact absurd hblt (Nat.not_lt.2 (Nat.le_add_right _ _))⟩
  refine ⟨max f₁ (l.length + 1), h2, h1.next, out, ?_, hr2, hkeep, hmerged, read_of_means hr2 hval, hJ, ?_, ?_⟩
  · intro f hf
    simp only [mergeObjective, M.bind]
    rw [e1' f ((Nat.le_max_left _ _).trans hf)]
    dsimp only
    unfold concatenate
    rw [expand_up ((Nat.le_max_right _ _).trans hf) (expand_none hnone)]
    exact e2
  · unfold energy
    rw [hJ.size]
    exact Joined.sum (F := fun t => t ^ 2) hJ.entry
  · intro w n E hwa hwp hE
    have hwlt : w < h.next := hs.alive_lt hwa
    have hgw : h2.graph w = h.graph w := by
      rw [hg2, if_neg (by rw [hn1]; exact Nat.ne_of_lt (Nat.lt_add_right _ hwlt)), hg1' w hwlt]
    have hw2 : lib.isPermute (h2.graph w).cls = false := by rw [hgw]; exact hwp
    have hnw : ∀ j, h.next + j ≠ w := fun j e => by
      have : w < h.next + j := Nat.lt_add_right _ hwlt
      rw [e] at this; exact Nat.lt_irrefl _ this
    obtain ⟨_, hrep⟩ := DrRep.concat (n := n) (w := w) (out := out) (Q := fun a => E a) hy (by rw [hgy]; exact (concatO_node 0 l).2.2.1)
      (by
        intro a b e
        have e : l.get (a.cast (by simp [concatNames])) = l.get (b.cast (by simp [concatNames])) := e
        rw [hkid, hkid] at e
        exact Fin.ext (Nat.add_left_cancel e)) hkv h0 (by rw [hvs]; exact hc)
      (by rw [hn1]; exact hnw _) (fun a => by rw [hkid]; exact hnw _)
      (fun a => by
        rw [hkid, hn1]
        intro e
        have := Nat.add_left_cancel e
        have := a.2
        omega) hw2
      (by
        intro a
        have hab : (a : ℕ) < bs.length := by have := a.2; omega
        obtain ⟨u, hu, hsf⟩ := hbv a hab
        have hu2 := hk2 _ _ (ha1 _ (hbal a hab)) (hk1 _ _ (hbal a hab) hu)
        rw [hkid, flatOf_same hsf, flatOf_size]
        obtain ⟨b, hb, hcase⟩ := hE a (by omega) (by omega)
        have hbb : b = bs[(a : ℕ)] := hb.unique (hba a (by omega) hab)
        subst hbb
        have hblt := hs.alive_lt (hbal a hab)
        refine DrRep.reshape (isA_ravelO (hgl a hab)) hu2 (means_ravelO (hgl a hab) hu2) (flatOf_size u)
          (fun e => by
            have : bs[(a : ℕ)] < h.next + a := Nat.lt_add_right _ hblt
            rw [e] at this; exact Nat.lt_irrefl _ this) (hnw _) hw2 ?_
        rcases hcase with ⟨h1', h2', h3'⟩ | ⟨h1', h2'⟩
        · exact Or.inl ⟨h1', by rw [← hsf.1]; exact h2', h3'⟩
        · refine Or.inr ⟨h1', ?_⟩
          obtain ⟨o, ho, hoE⟩ := h2'.drRep hr hwp
          rw [hsf.1] at hoE
          exact ⟨o, hd2 _ _ _ (ha1 _ (hbal a hab)) (ha1 _ hwa) (hd1 _ _ _ (hbal a hab) hwa ho), hoE⟩)
    refine ⟨_, hrep.reports hr2 hw2, fun a h2' k j hk hj => ?_⟩
    have := flat_rows (vs := vs) (m := (concatNames l.length).length) (n := (vs.map Arr.size).sum) hcl (Q := fun a => E a) a (by omega) k hk j
    rw [← this]
    simp only [flatOf_size, hvs, flat_start, hosh]
    rfl

/-- C69: a list of objectives, of any number, shapes and classes, the same one several times or not, some of them reshapes of others or not.
The merged objective holds the values of all of them, in the order of the list and each flattened; its sum of squares is the sum of theirs;
and the rows of its Jacobian with respect to any `w` (that is no slice) are the rows the objectives contribute, in the same places.  It is a new
object, and what existed before is as it was. -/
theorem C69_merged_objective (hr : Reach lib ⟨False, True⟩ h) (hne : objs ≠ []) (ha : ∀ x ∈ objs, (h.node x).alive = true)
    (hv : List.Forall₂ (fun x v => Means lib h.graph (.r x) (.ok v)) objs vs) :
    ∃ f₀ h' y out, (∀ f ≥ f₀, mergeObjective f objs h = (h', .ok y)) ∧ Reach lib ⟨False, True⟩ h' ∧
      ((h'.node y).alive = true ∧ (h.node y).alive = false ∧ ∀ j, (h.node j).alive = true → h'.graph j = h.graph j ∧ (h'.node j).alive = true) ∧
      (∃ f₁, ∀ f ≥ f₁, (read lib f (.r y) h').2 = .ok out) ∧ Joined vs out ∧ energy out = (vs.map energy).sum ∧
      ∀ (w : Id) (n : ℕ) (E : ℕ → Ent), (h.node w).alive = true → lib.isPermute (h.graph w).cls = false →
        (∀ (a : ℕ) (h1 : a < objs.length) (h2 : a < vs.length), Contributes h objs[a] w vs[a].size n (E a)) →
        ∃ J, Reports h' y w out.size n J ∧
          ∀ (a : ℕ) (h2 : a < vs.length) (k j : ℕ), k < vs[a].size → j < n → J (offset vs a + k) j = E a k j := by
  obtain ⟨f₀, h', y, out, h1, h2, h3, _, h4⟩ := merged_objective hr hne ha hv
  exact ⟨f₀, h', y, out, h1, h2, h3, h4⟩

/-- The value of a merged objective, in every graph. -/
theorem Merged.value {y : Id} (hm : Merged h.graph objs y) (hne : objs ≠ []) (hv : List.Forall₂ (fun x v => Means lib h.graph (.r x) (.ok v)) objs vs) :
    ∃ out, Means lib h.graph (.r y) (.ok out) ∧ Joined vs out ∧ energy out = (vs.map energy).sum := by
  obtain ⟨bs, l, hlb, hll, hgy, hgl, hba, _⟩ := hm
  have hlen := hv.length_eq
  have hnv : vs ≠ [] := fun e => hne (List.length_eq_zero_iff.1 (by rw [hlen, e]; rfl))
  obtain ⟨out, hc, hosh⟩ := flat_concat hnv
  have hJ := flat_joined hc hosh
  have hy := isA_concatO hgy
  have hcl : (concatNames l.length).length = vs.length := by simp [concatNames]; omega
  have hkv : ∀ a : Fin (concatNames l.length).length, Means lib h.graph (.r (l.get (a.cast (by simp [concatNames])))) (.ok (flatOf (vs[(a : ℕ)]'(by have := a.2; omega)))) := by
    intro a
    have hav : (a : ℕ) < vs.length := by have := a.2; omega
    obtain ⟨u, hu, hsf⟩ := reshapeArg_value (hba a (by omega) (by omega)) ((List.forall₂_iff_get.1 hv).2 a (by omega) hav)
    have e : flatOf (vs[(a : ℕ)]'hav) = flatOf u := flatOf_same hsf
    rw [e]
    exact means_ravelO (hgl a (by omega) (by omega)) hu
  have hvs : (List.ofFn fun a : Fin (concatNames l.length).length => flatOf (vs[(a : ℕ)]'(by have := a.2; omega))) = vs.map flatOf := by
    refine List.ext_getElem (by simp; omega) fun j h1 h2 => ?_
    simp
  have h0 : normAxis out.shape.length 0 = some 0 := by rw [hosh]; exact normAxis_nat (n := 1) (k := 0) (by decide)
  refine ⟨out, means_of_isA hy hkv (exact_concat hy.nodup (by rw [hgy]; exact (concatO_node 0 l).2.2.1) h0 (by rw [hvs]; exact hc)).val, hJ, ?_⟩
  unfold energy
  rw [hJ.size]
  exact Joined.sum (F := fun t => t ^ 2) hJ.entry
end

/-! ## Which matrix is contributed -/

/-- An object that is no reshape contributes what it reports; the object asked about contributes the identity. -/
theorem C69_contributes_reported {h : Heap ClassDef Par Arr Jac} {o w : Id} {m n : ℕ} {E : Ent} (ho : (h.graph o).cls ≠ chReshape) :
    (o ≠ w → Reports h o w m n E → Contributes h o w m n E) ∧ Contributes h o o m m Ent.one :=
  ⟨fun how hR => ⟨o, .done ho, Or.inr ⟨how, hR⟩⟩, o, .done ho, Or.inl ⟨rfl, rfl, rfl⟩⟩

/-- A chain of `Reshape` objects from `o` down to `b`. -/
inductive ReshapeChain (g : Graph ClassDef Par) : Id → Id → Prop
  | done {a : Id} : (g a).cls ≠ chReshape → ReshapeChain g a a
  | step {a c b : Id} : IsA g a chReshape [nmA] (fun _ => c) → ReshapeChain g c b → ReshapeChain g a b

theorem ReshapeChain.arg {g : Graph ClassDef Par} {a b : Id} (h : ReshapeChain g a b) : ReshapeArg g a b := by
  induction h with
  | done hc => exact .done hc
  | step hy _ ih => exact .step hy.cls (hy.kid (0 : Fin 1)) ih

/-- An object with a value is not its own operand. -/
theorem reshape_ne {g : Graph ClassDef Par} {a : Id} (hc : (g a).cls = chReshape) (hd : (g a).dterms nmA = some a) : ∀ {f : ℕ} {v : Arr},
    evalReq lib g f (.r a) ≠ .ok v
  | 0, _, h => by cases h
  | f + 1, v, h => by
    have h' : evalProg g (evalReq lib g f) a chReshape.r = .ok v := by
      have : evalProg g (evalReq lib g f) a (lib.computeR (g a).cls) = .ok v := h
      rwa [hc] at this
    simp only [chReshape, evalProg, hd] at h'
    cases hu : evalReq lib g f (.r a) with
    | error e => rw [hu] at h'; cases h'
    | ok u => exact reshape_ne hc hd hu

/-- A reshape reports what it contributes: the matrix of the object under the reshapes. -/
theorem C69_reshape_reports {h : Heap ClassDef Par Arr Jac} (hr : Reach lib ⟨False, True⟩ h) {o b w : Id} {v : Arr} {n : ℕ} {E : Ent}
    (hob : ReshapeChain h.graph o b) (how : o ≠ w) (hv : Means lib h.graph (.r o) (.ok v)) (hw : lib.isPermute (h.graph w).cls = false)
    (hE : Contributes h o w v.size n E) : Reports h o w v.size n E := by
  obtain ⟨b', hb', hcase⟩ := hE
  obtain rfl := hb'.unique hob.arg
  have key : ∀ {o b : Id} {v : Arr}, ReshapeChain h.graph o b → Means lib h.graph (.r o) (.ok v) →
      ((b = w ∧ v.size = n ∧ E = Ent.one) ∨ (b ≠ w ∧ DrRep h.graph b w v.size n E)) →
      ((o = w ∧ v.size = n ∧ E = Ent.one) ∨ (o ≠ w ∧ DrRep h.graph o w v.size n E)) := by
    intro o b v hob
    induction hob generalizing v with
    | done _ => exact fun _ h => h
    | @step a c b hy hcb ih =>
      intro hv hcase
      have hcls := hy.cls
      have hd : (h.graph a).dterms nmA = some c := hy.kid (0 : Fin 1)
      have haw : a ≠ w := by
        rintro rfl
        rw [hcls] at hw
        cases hw
      have hac : a ≠ c := by
        rintro rfl
        obtain ⟨_, f, hf⟩ := hv
        exact reshape_ne hcls hd hf
      obtain ⟨u, hu, hsz⟩ : ∃ u, Means lib h.graph (.r c) (.ok u) ∧ v.size = u.size := by
        obtain ⟨_, f, hf⟩ := hv
        cases f with
        | zero => cases hf
        | succ f =>
          have hf' : evalProg h.graph (evalReq lib h.graph f) a chReshape.r = .ok v := by
            have : evalProg h.graph (evalReq lib h.graph f) a (lib.computeR (h.graph a).cls) = .ok v := hf
            rwa [hcls] at this
          simp only [chReshape, evalProg, hd] at hf'
          cases hu : evalReq lib h.graph f (.r c) with
          | error e => rw [hu] at hf'; cases hf'
          | ok u =>
            rw [hu] at hf'
            refine ⟨u, ⟨by simp, f, hu⟩, ?_⟩
            dsimp only at hf'
            split at hf'
            · split at hf'
              · next ho => cases hf'; exact (sameFlat_reshape (fillShape_prod ho)).1
              · cases hf'
            · cases hf'
      rw [hsz] at hcase
      exact Or.inr ⟨haw, by rw [hsz]; exact DrRep.reshape hy hu hv hsz hac haw hw (ih hu hcase)⟩
  rcases key hob hv (hcase.imp id fun h' => ⟨h'.1, h'.2.drRep hr hw⟩) with h' | h'
  · exact absurd h'.1 how
  · exact h'.2.reports hr hw

/-! ## Free variables -/

/-- C69, the check on the free variables: with the same one twice `setup_objective` raises and makes nothing; else it merges the objectives. -/
theorem C69_free_variables_checked (f : ℕ) (objs frees : List Id) (h : Heap ClassDef Par Arr Jac) :
    (¬ frees.Nodup → setupObjective f objs frees h = (h, .error (.user 2))) ∧
    (frees.Nodup → setupObjective f objs frees = mergeObjective f objs) := by
  have hiff : frees.dedup.length = frees.length ↔ frees.Nodup :=
    ⟨fun e => List.dedup_eq_self.1 ((List.dedup_sublist frees).eq_of_length e), fun hn => by rw [List.dedup_eq_self.2 hn]⟩
  unfold setupObjective
  constructor
  · intro hn
    rw [if_pos (fun e => hn (hiff.1 e))]
  · intro hn
    rw [if_neg (fun e => e (hiff.2 hn))]

/-! ## A case -/

namespace ADDemo
/-- `x`, `x.reshape(1, 3)`, `x ** 2`. -/
noncomputable def threeObjs : List (ObjSpec ClassDef Par) :=
  [leafO ⟨[3], fun k => k.1 + 1⟩, unPO chReshape (.ints [1, 3]) .none 0, unO chSquare 0]

theorem threeObjs_ready : ∃ h, Reach lib ⟨False, True⟩ h ∧ h.graph = buildGraph lib threeObjs ∧ ∀ i < 3, (h.node i).alive = true := by
  have hok : FitsFrom 0 threeObjs := ⟨leafO_fits _ _, unPO_fits (by decide), unO_fits (by decide), trivial⟩
  have he : ∀ (i : ℕ) (o : ObjSpec ClassDef Par), threeObjs[i]? = some o → ∀ kw ∈ o.kws, KW.Earlier i o.dnames kw := fun i o ho => by
    have := (hok.get ho).1; rwa [Nat.zero_add] at this
  refine ⟨_, build_reach ⟨False, True⟩ threeObjs (fun o ho hp k hk => ?_), build_graph threeObjs he, fun i hi => ?_⟩
  · obtain ⟨j, hj⟩ := List.getElem?_of_mem ho
    exact (hok.get hj).2 hp k hk
  · rw [(build_alive threeObjs he).2 i]
    simpa [threeObjs] using hi

/-- C69 applied: `[x ** 2, x.reshape(1, 3), x, x ** 2]`, with respect to `x`. -/
example : ∃ (h h' : Heap ClassDef Par Arr Jac) (y : Id) (out : Arr) (J : Ent), Reach lib ⟨False, True⟩ h ∧
    (∃ f₀, ∀ f ≥ f₀, setupObjective f [2, 1, 0, 2] [0] h = (h', .ok y)) ∧
    out.shape = [12] ∧ out.vec 10 = 4 ∧ Reports h' y 0 out.size 3 J ∧ J 10 1 = 4 ∧ J 4 1 = 1 ∧ J 4 2 = 0 := by
  obtain ⟨h, hr, hg, hal⟩ := threeObjs_ready
  generalize hx : (⟨[3], fun k => k.1 + 1⟩ : Arr) = x at *
  have hxs : x.shape = [3] := by rw [← hx]
  have hxz : x.size = 3 := by unfold Arr.size; rw [hxs]; rfl
  have hx1 : x.vec 1 = 2 := by rw [← hx]; simp [Arr.vec]; norm_num
  have hl : IsLeaf h.graph 0 := by rw [hg]; exact isLeaf_leafO rfl
  have hv : Means lib h.graph (.r 0) (.ok x) := by rw [hg, ← hx]; exact (leaf_means rfl (by simp)).1
  have hy1 : IsA h.graph 1 chReshape [nmA] (fun _ => 0) := by rw [hg]; exact isA_unP rfl
  have hy2 : IsA h.graph 2 chSquare [nmA] (fun _ => 0) := by rw [hg]; exact isA_un rfl
  have hm1 := means_of_isA hy1 (v := fun _ => x) (fun _ => hv)
    (exact_reshape (tm := (h.graph 1).terms) (v := x) (sh := [1, 3]) (o := [1, 3]) (by rw [hg]; rfl) (by rw [hxz]; decide)).val
  have hdiag : DiagShape x.shape := by rw [hxs]; exact Or.inl ⟨3, [], rfl, by decide⟩
  obtain ⟨out2, hres, hR2, hrep⟩ := C32_elementwise_partial .square hr hy2 hv hdiag (fun _ _ => trivial)
  have hm2 : Means lib h.graph (.r 2) (.ok out2) := by
    obtain ⟨_, _, hJ, _⟩ := hR2.deriv (fun k c hc => by
      have hk : k ∈ (h.graph 2).dnames := (reach_str hr).dn 2 k c hc
      rw [hy2.dnames, List.mem_singleton] at hk
      subst hk
      have := hy2.kid (0 : Fin 1)
      rw [show ([nmA] : List Name).get (0 : Fin 1) = nmA from rfl, hc] at this
      cases this; exact hl) nmA 0 (hy2.kid (0 : Fin 1))
    exact hJ.valY
  generalize ho1 : (Arr.of [1, 3] x.vec).atleast1 = out1 at hm1
  have hz1 : out1.size = 3 := by rw [← ho1]; rfl
  have hz2 : out2.size = 3 := by unfold Arr.size; rw [hres.1, hxs]; rfl
  obtain ⟨f₀, h', y, out, hmk, _, _, _, hj, _, hjac⟩ := C69_merged_objective hr (objs := [2, 1, 0, 2]) (vs := [out2, out1, x, out2]) (by simp)
    (fun i hi => hal i (by simp at hi; rcases hi with rfl | rfl | rfl | rfl <;> decide)) (.cons hm2 (.cons hm1 (.cons hv (.cons hm2 .nil))))
  have hper : lib.isPermute (h.graph 0).cls = false := by rw [hl.1]; rfl
  have h1w : ReshapeArg h.graph 1 0 := .step hy1.cls (hy1.kid (0 : Fin 1)) (.done (by
    rw [hl.1]; intro e
    have := congrArg ClassDef.permute e
    cases this))
  have hd : (h.graph 2).cls ≠ chReshape := by
    rw [hy2.cls]; intro e
    have := congrArg ClassDef.permute e
    cases this
  have hd0 : (h.graph 0).cls ≠ chReshape := h1w.not_reshape
  have hsq : Reports h 2 0 3 3 fun i j => if i = j then deriv (fun t : ℝ => t ^ 2) (x.vec i) else 0 := by
    have := hrep hl
    rwa [hxz] at this
  obtain ⟨J, hJ, hrows⟩ := hjac 0 3 (fun a => if a = 0 ∨ a = 3 then (fun i j => if i = j then deriv (fun t : ℝ => t ^ 2) (x.vec i) else 0) else Ent.one)
    (hal 0 (by decide)) hper (by
      intro a h1 h2
      have ha : a = 0 ∨ a = 1 ∨ a = 2 ∨ a = 3 := by simp at h1; omega
      rcases ha with rfl | rfl | rfl | rfl
      · exact (C69_contributes_reported hd).1 (by decide) (by simpa [hz2] using hsq)
      · exact ⟨0, h1w, Or.inl ⟨rfl, by simpa using hz1, by simp⟩⟩
      · have := (C69_contributes_reported (m := 3) (n := 3) (w := 0) (E := Ent.one) hd0).2
        simpa [hxz] using this
      · exact (C69_contributes_reported hd).1 (by decide) (by simpa [hz2] using hsq))
  have ho3 : offset [out2, out1, x, out2] 3 = 9 := by simp [offset, hz1, hz2, hxz]
  have ho1' : offset [out2, out1, x, out2] 1 = 3 := by simp [offset, hz2]
  refine ⟨h, h', y, out, J, hr, ⟨f₀, fun f hf => ?_⟩, ?_, ?_, hJ, ?_, ?_, ?_⟩
  · rw [(C69_free_variables_checked f [2, 1, 0, 2] [0] h).2 (by simp)]
    exact hmk f hf
  · rw [hj.shape]; simp [hz1, hz2, hxz]
  · have := hj.entry 3 (by simp) 1 (by simp [hz2])
    rw [ho3] at this
    rw [this]
    show out2.vec 1 = 4
    rw [hres.2 1 (by rw [hxz]; decide), hx1]; norm_num
  · have := hrows 3 (by simp) 1 1 (by simp [hz2]) (by decide)
    rw [ho3] at this
    rw [this]
    simp [hx1]; norm_num
  · have := hrows 1 (by simp) 1 1 (by simp [hz1]) (by decide)
    rw [ho1'] at this
    rw [this]
    simp [Ent.one]
  · have := hrows 1 (by simp) 1 2 (by simp [hz1]) (by decide)
    rw [ho1'] at this
    rw [this]
    simp [Ent.one]
end ADDemo
end Chumpy
