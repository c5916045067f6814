import Verif.AD.Flatten
import Verif.AD.Compose
import Verif.Properties.Elementwise
/-!
# C28, C29: `concatenate`, `vstack`, `hstack`, `dstack`
-/
namespace Chumpy
open scoped BigOperators Topology

/-- The 0/1 placement matrix: row `r`, column `j` is 1 if some operand `a` that is the object asked about (`A a`) puts its entry `j` at
position `r` of the value.  `shs` are the shapes of the operands, `osh` that of the value, `sh` that of the object asked about. -/
noncomputable def placement (i : ℕ) (osh : List ℕ) (shs : List (List ℕ)) (A : ℕ → Prop) (sh : List ℕ) : Ent := fun r j =>
  open Classical in if ∃ a < shs.length, A a ∧ ravel osh (placed i (startOf i shs a) (unravel sh j)) = r then 1 else 0

open Classical in
theorem placement_eq {i n : ℕ} {v : Fin n → Arr} {out : Arr} (h : IsConcat i (List.ofFn v) out) {A : ℕ → Prop} {x : Arr}
    (hA : ∀ a : Fin n, A a → (v a).shape = x.shape) :
    Ent.EqOn out.size x.size (∑ a ∈ Finset.univ.filter (fun a : Fin n => A a), placeE i out.shape (v a).shape (startOf i ((List.ofFn v).map Arr.shape) a))
      (placement i out.shape ((List.ofFn v).map Arr.shape) A x.shape) := by
  intro r _ j hj
  have hla : ∀ b : Fin n, (b : ℕ) < ((List.ofFn v).map Arr.shape).length := fun b => by simp
  have hsh : ∀ b : Fin n, ((List.ofFn v).map Arr.shape)[(b : ℕ)]'(hla b) = (v b).shape := fun b => by simp
  have hin : ∀ (b : Fin n), A b → InB (((List.ofFn v).map Arr.shape)[(b : ℕ)]'(hla b)) (unravel x.shape j) := fun b hb => by
    rw [hsh, hA b hb]; exact unravel_inB hj
  rw [Finset.sum_apply, Finset.sum_apply]
  unfold placement
  split
  · next hex =>
    obtain ⟨a, ha, hAa, e⟩ := hex
    have ha' : a < n := by simpa using ha
    rw [Finset.sum_eq_single (⟨a, ha'⟩ : Fin n)]
    · unfold placeE
      rw [hA ⟨a, ha'⟩ hAa, if_pos e]
    · intro b hb hba
      have hAb : A b := (Finset.mem_filter.1 hb).2
      unfold placeE
      rw [hA b hAb, if_neg]
      intro e'
      have hb1 := h.shapes.inB (hla b) (hin b hAb)
      have hb2 := h.shapes.inB (hla ⟨a, ha'⟩) (hin ⟨a, ha'⟩ hAa)
      have := ravel_inj hb1 hb2 (e'.trans e.symm)
      exact hba (Fin.ext (h.shapes.placed_inj (hla b) (hla ⟨a, ha'⟩) (hin b hAb) (hin ⟨a, ha'⟩ hAa) this).1)
    · intro hn
      exact absurd (Finset.mem_filter.2 ⟨Finset.mem_univ (⟨a, ha'⟩ : Fin n), hAa⟩) hn
  · next hex =>
    refine Finset.sum_eq_zero fun b hb => ?_
    have hAb : A b := (Finset.mem_filter.1 hb).2
    unfold placeE
    rw [if_neg]
    intro e
    exact hex ⟨b, by simp, hAb, by rw [← hA b hAb]; exact e⟩

/-! ## C28 for the objects -/

section
variable {h : Heap ClassDef Par Arr Jac} {y : Id} {ax : ℤ} {i : ℕ} {ns : List Name} {kids : Fin ns.length → Id} {v : Fin ns.length → Arr} {out : Arr}

/-- C28 for a `Concatenate` of any number of operands of any shapes along any axis: the value holds the operands' blocks, the
derivatives are right, and asked about a plain `Ch` that is an operand, once or several times, the object reports the placement matrix.
Missing from C28: `hstack` of vectors, `C28_hstack_refuted`. -/
theorem C28_concatenate_partial (hr : Reach lib ⟨False, True⟩ h) (hy : IsA h.graph y (chConcat ns) ns kids)
    (hp : (h.graph y).terms nmP = some (.int ax)) (hk : ∀ a, Means lib h.graph (.r (kids a)) (.ok (v a)))
    (hi : normAxis out.shape.length ax = some i) (hc : IsConcat i (List.ofFn v) out) :
    Right h y out ∧ ((∀ a, IsLeaf h.graph (kids a)) → ∀ w x, (∃ a, kids a = w) → Means lib h.graph (.r w) (.ok x) →
      Reports h y w out.size x.size
        (placement i out.shape ((List.ofFn v).map Arr.shape) (fun a => ∃ ha : a < ns.length, kids ⟨a, ha⟩ = w) x.shape)) := by
  have hE := exact_concat hy.nodup hp hi hc
  refine ⟨right_of_exact hr hy hk hE, fun hl w x hw hx => ?_⟩
  have hv : ∀ a, kids a = w → v a = x := by
    intro a ha
    have := hk a
    rw [ha] at this
    have := this.unique hx
    injection this
  have hmem : ∀ a, ns.get a ∈ (h.graph y).namesOf w ↔ kids a = w := by
    intro a
    unfold GNode.namesOf
    rw [List.mem_filter, hy.dnames]
    simp only [List.get_mem, true_and, decide_eq_true_eq]
    rw [hy.kid a]
    exact ⟨fun e => Option.some.inj e, fun e => by rw [e]⟩
  obtain ⟨a0, ha0⟩ := hw
  obtain ⟨e, h1, h2⟩ := concat_dr hy.nodup hp hi hc ((h.graph y).namesOf w) x
    (List.ne_nil_of_mem ((hmem a0).2 ha0)) (by unfold GNode.namesOf; rw [hy.dnames]; exact List.filter_sublist)
    (fun a ha => hv a ((hmem a).1 ha))
  have hfin := placement_eq (A := fun a => ∃ ha : a < ns.length, kids ⟨a, ha⟩ = w) hc (fun a ⟨_, e⟩ => by rw [hv a e])
  have hbr : Ent.EqOn out.size x.size
      (∑ a with ns.get a ∈ (h.graph y).namesOf w, placeE i out.shape (v a).shape (startOf i ((List.ofFn v).map Arr.shape) a))
      (placement i out.shape ((List.ofFn v).map Arr.shape) (fun a => ∃ ha : a < ns.length, kids ⟨a, ha⟩ = w) x.shape) := by
    refine Ent.EqOn.trans ?_ hfin
    rw [Finset.sum_filter, Finset.sum_filter]
    refine (congrArg (Ent.EqOn out.size x.size _) (Finset.sum_congr rfl fun a _ => ?_)).mp (Ent.EqOn.refl _)
    by_cases e : kids a = w
    · rw [if_pos ((hmem a).2 e), if_pos ⟨a.2, e⟩]
    · rw [if_neg (fun h' => e ((hmem a).1 h')), if_neg (fun h' => e h'.2)]
  exact reports_of_rep hr hy hk (means_of_isA hy hk hE.val) hl ⟨a0, ha0⟩ h1 (by exact ⟨rfl, rfl, h2.trans hbr⟩)
end

/-! ## C29: flattening -/

/-- C29: `concatenate(mtxs, axis)` of objects that have values, nested concatenations among them or not, nested to any depth, makes an
object whose value is `np.concatenate` of the operands' values, unflattened; it raises exactly if that raises. -/
theorem C29_flattening_invisible {h : Heap ClassDef Par Arr Jac} {m : Mode} (hr : Reach lib m h) {mtxs : List Id} {vs : List Arr} {ax : ℤ}
    (ha : ∀ x ∈ mtxs, (h.node x).alive = true) (hv : List.Forall₂ (fun x v => Means lib h.graph (.r x) (.ok v)) mtxs vs) :
    ∃ f₀, ∃ h', ∀ f ≥ f₀, concatenate f ax mtxs h = (h', .ok h.next) ∧ Reach lib m h' ∧
      Means lib h'.graph (.r h.next) (match concatArr ax vs with
        | some out => .ok out
        | none => .error (.user 1)) := by
  have hs := reach_str hr
  obtain ⟨F, hF⟩ : ∃ F, List.Forall₂ (fun x v => evalReq lib h.graph F (.r x) = .ok v) mtxs vs := by
    clear ha
    induction hv with
    | nil => exact ⟨0, .nil⟩
    | @cons x v mtxs vs h1 _ ih =>
      obtain ⟨F, hF⟩ := ih
      obtain ⟨_, f, hf⟩ := h1
      refine ⟨max f F, .cons ?_ ?_⟩
      · have := evalReq_mono lib h.graph (Nat.le_max_left f F) (.r x)
        rw [Le, hf] at this; exact this (by simp)
      · refine hF.imp fun x v hx => ?_
        have := evalReq_mono lib h.graph (Nat.le_max_right f F) (.r x)
        rw [Le, hx] at this; exact this (by simp)
  obtain ⟨f₀, l, us, hl, hu, hin, hc⟩ := expand_spec (ax := ax) F hF
  have hal : ∀ x ∈ l, (h.node x).alive = true := by
    intro x hx
    rcases hin x hx with hx | ⟨q, k, hk⟩
    · exact ha x hx
    · exact hs.child_alive hk
  obtain ⟨h', hn, hr', hg, hnext, halive, hkeep⟩ := newObj_state hr (concatO ax l) rfl (by
    intro kw hm
    simp only [concatO, List.mem_append, List.mem_map, List.mem_singleton] at hm
    rcases hm with ⟨p, hp, rfl⟩ | rfl
    · obtain ⟨j, hj, rfl⟩ := List.getElem_of_mem hp
      have hj' : j < l.length := by simpa using hj
      refine ⟨?_, hal _ ?_⟩
      · simp only [concatO, concatNames, List.mem_map, List.mem_range, List.getElem_zipIdx]
        exact ⟨j, hj', by simp⟩
      · rw [List.getElem_zipIdx]; exact List.getElem_mem hj'
    · trivial)
  refine ⟨f₀, h', fun f hf => ⟨?_, hr', ?_⟩⟩
  · unfold concatenate
    rw [expand_up hf hl]
    exact hn
  have hgy : h'.graph h.next = (concatO ax l).node := by rw [hg, if_pos rfl]
  have hc' := hc [] []
  simp only [List.nil_append, List.append_nil] at hc'
  rw [hc']
  have hu' : List.Forall₂ (fun x v => Means lib h'.graph (.r x) (.ok v)) l us := by
    rw [List.forall₂_iff_get] at hu ⊢
    exact ⟨hu.1, fun j h1 h2 => hkeep _ _ (hal _ (List.get_mem ..)) (hu.2 j h1 h2)⟩
  -- the value of the new object
  obtain ⟨hcls, hdn, hax, hdt⟩ := concatO_node ax l
  obtain ⟨F', hF'⟩ : ∃ F', List.Forall₂ (fun x v => evalReq lib h'.graph F' (.r x) = .ok v) l us := by
    clear hl hu hin hc hal hn hgy hc' hcls hdn hax hdt hg
    induction hu' with
    | nil => exact ⟨0, .nil⟩
    | @cons x v mtxs vs h1 _ ih =>
      obtain ⟨F, hF⟩ := ih
      obtain ⟨_, f, hf⟩ := h1
      refine ⟨max f F, .cons ?_ ?_⟩
      · have := evalReq_mono lib h'.graph (Nat.le_max_left f F) (.r x)
        rw [Le, hf] at this; exact this (by simp)
      · refine hF.imp fun x v hx => ?_
        have := evalReq_mono lib h'.graph (Nat.le_max_right f F) (.r x)
        rw [Le, hx] at this; exact this (by simp)
  have hread : ∀ (ms : List Id) (vs : List Arr) (o : ℕ) (k : List Arr → Prog Par Arr Arr),
      (∀ j (hj : j < ms.length), (h'.graph h.next).dterms (nmM (o + j)) = some ms[j]) →
      List.Forall₂ (fun x v => evalReq lib h'.graph F' (.r x) = .ok v) ms vs →
      evalProg h'.graph (evalReq lib h'.graph F') h.next (readAll ((List.range ms.length).map fun j => nmM (o + j)) k) =
        evalProg h'.graph (evalReq lib h'.graph F') h.next (k vs) := by
    intro ms
    induction ms with
    | nil => intro vs o k _ hf; cases hf; rfl
    | cons x ms ih =>
      intro vs o k hd hf
      cases hf with
      | @cons _ v _ vs h1 h2 =>
        have e0 : (List.range (x :: ms).length).map (fun j => nmM (o + j)) =
            nmM o :: (List.range ms.length).map fun j => nmM (o + 1 + j) := by
          rw [List.length_cons, List.range_succ_eq_map, List.map_cons, List.map_map]
          congr 1
          refine List.map_congr_left fun j _ => ?_
          show 100 + (o + (j + 1)) = 100 + (o + 1 + j)
          omega
        rw [e0]
        have hd0 := hd 0 (by simp)
        simp only [Nat.add_zero, List.getElem_cons_zero] at hd0
        simp only [readAll, evalProg, hd0, h1]
        refine ih vs (o + 1) _ (fun j hj => ?_) h2
        have := hd (j + 1) (by simpa using hj)
        rw [show o + (j + 1) = o + 1 + j by omega] at this
        simpa using this
  have hev : evalReq lib h'.graph (F' + 1) (.r h.next) = (match concatArr ax us with
      | some out => .ok out
      | none => .error (.user 1)) := by
    show evalProg h'.graph (evalReq lib h'.graph F') h.next (lib.computeR (h'.graph h.next).cls) = _
    rw [hgy, hcls]
    have := hread l us 0 (fun vs => .term nmP fun
      | some (.int ax) =>
        match concatArr ax vs with
        | some out => .ret out
        | none => .raise 1
      | _ => .raise 1) (fun j hj => by rw [hgy, Nat.zero_add]; exact hdt j hj) hF'
    simp only [Nat.zero_add] at this
    refine this.trans ?_
    simp only [evalProg, hgy, hax]
    cases concatArr ax us <;> rfl
  refine ⟨?_, F' + 1, hev⟩
  cases concatArr ax us <;> simp

/-! ## C28 for `vstack` and `dstack` -/

/-- `np.atleast_1d`, `np.atleast_2d`, `np.atleast_3d`. -/
noncomputable def atleastArr (d : ℕ) (v : Arr) : Arr := Arr.of (atleastShape d v.shape) v.vec

theorem atleastArr_size (d : ℕ) (v : Arr) : (atleastArr d v).size = v.size := atleastShape_prod d v.shape

theorem sumD_sparse {m n : ℕ} : ∀ {ds : List Jac}, (∀ d ∈ ds, ∃ e, d = .sparse m n e) → ∃ o, sumD lib ds = .ok o := by
  have key : ∀ (ds : List Jac) (e : Ent), (∀ d ∈ ds, ∃ e, d = Jac.sparse m n e) → ∃ x, ds.foldlM lib.add (Jac.sparse m n e) = .ok x := by
    intro ds
    induction ds with
    | nil => intro e _; exact ⟨_, rfl⟩
    | cons d ds ih =>
      intro e hd
      obtain ⟨e', rfl⟩ := hd d (by simp)
      obtain ⟨x, hx⟩ := ih (e + e') (fun d h => hd d (by simp [h]))
      refine ⟨x, ?_⟩
      have : lib.add (Jac.sparse m n e) (Jac.sparse m n e') = .ok (Jac.sparse m n (e + e')) := if_pos ⟨rfl, rfl⟩
      rw [List.foldlM_cons, this]
      exact hx
  intro ds hd
  cases ds with
  | nil => exact ⟨none, rfl⟩
  | cons d ds =>
    obtain ⟨e, rfl⟩ := hd d (by simp)
    obtain ⟨x, hx⟩ := key ds e (fun d h => hd d (by simp [h]))
    exact ⟨some x, by simp only [sumD]; rw [hx]; rfl⟩

theorem atleast_means {g : Graph ClassDef Par} {y a : Id} {d : ℕ} {v : Arr} (hd : d = 1 ∨ d = 2 ∨ d = 3)
    (hy : IsA g y chAtleast [nmA] fun _ => a) (ht : (g y).terms nmNdims = some (.nat d)) (hv : Means lib g (.r a) (.ok v)) :
    Means lib g (.r y) (.ok (atleastArr d v)) := by
  refine means_of_isA hy (v := fun _ => v) (fun _ => hv) ?_
  erw [env_one]
  exact ⟨0, by simp [lib, chAtleast, runBody, env1, ht, hd, atleastArr]⟩

/-- What an `AtleastNd` of a plain `Ch` says about it. -/
theorem atleast_dr {g : Graph ClassDef Par} {y a w : Id} {d : ℕ} {v : Arr} (hd : d = 1 ∨ d = 2 ∨ d = 3)
    (hy : IsA g y chAtleast [nmA] fun _ => a) (ht : (g y).terms nmNdims = some (.nat d)) (hv : Means lib g (.r a) (.ok v))
    (hl : IsLeaf g a) (hw : IsLeaf g w) (hmd : (g y).makeDense = false) (hms : (g y).makeSparse = false) :
    MeansDr lib g y w (.ok (if a = w then some (.dense 1 1 fun _ _ => 1) else none)) := by
  have hk : (g y).dterms nmA = some a := hy.kid (0 : Fin 1)
  have hyw : y ≠ w := by rintro rfl; rw [hw.2.1] at hk; cases hk
  have hper : lib.isPermute (g w).cls = false := by rw [hw.1]; rfl
  by_cases haw : a = w
  · subst haw
    rw [if_pos rfl]
    have hc : CompIs lib g y a (some (.num 1)) := compIs_isA hy (v := fun _ => v) (fun _ => hv)
      (atleast_means hd hy ht hv) hyw (by
        rw [namesOf_one hy]; erw [env_one]
        exact ⟨0, by simp [lib, chAtleast, runBody]⟩)
    have := drIs (r := some (.num 1)) (SlicedIs.some hc) (by rw [hy.dnames]; exact .wrt hk (.nil ..)) rfl
    rw [hmd, hms] at this
    have e : lib.outForm false false (lib.finish (Jac.num 1)) = Jac.dense 1 1 fun _ _ => 1 := by
      show Jac.outForm false false (Jac.finish (Jac.num 1)) = _
      simp [Jac.finish, Jac.outForm]
    rw [Option.map_some, e] at this
    exact this
  · rw [if_neg haw]
    have hn : (g y).namesOf w = [] := by simp [GNode.namesOf, hy.dnames, hk, haw]
    exact drIs (r := none) (SlicedIs.none (compIs_none lib_localDr hyw hn) hper)
      (by rw [hy.dnames]; exact .none hk haw (hl.drNone haw hper) (.nil ..)) rfl

section
variable {h : Heap ClassDef Par Arr Jac} {y : Id} {ax : ℤ} {i d : ℕ} {ns : List Name} {kids arg : Fin ns.length → Id} {u : Fin ns.length → Arr} {out : Arr}

/-- A concatenation of the `AtleastNd`s of plain `Ch`s. -/
theorem stack_reports (hr : Reach lib ⟨False, True⟩ h) (hy : IsA h.graph y (chConcat ns) ns kids)
    (hp : (h.graph y).terms nmP = some (.int ax)) (hinj : Function.Injective kids) (hd : d = 1 ∨ d = 2 ∨ d = 3)
    (hkid : ∀ a, IsA h.graph (kids a) chAtleast [nmA] (fun _ => arg a)) (ht : ∀ a, (h.graph (kids a)).terms nmNdims = some (.nat d))
    (hl : ∀ a, IsLeaf h.graph (arg a)) (hu : ∀ a, Means lib h.graph (.r (arg a)) (.ok (u a)))
    (hi : normAxis out.shape.length ax = some i) (hc : IsConcat i (List.ofFn fun a => atleastArr d (u a)) out) :
    Means lib h.graph (.r y) (.ok out) ∧ ∀ w x, (∃ a, arg a = w) → Means lib h.graph (.r w) (.ok x) →
      Reports h y w out.size x.size (placement i out.shape ((List.ofFn fun a => atleastArr d (u a)).map Arr.shape)
        (fun a => ∃ ha : a < ns.length, arg ⟨a, ha⟩ = w) (atleastShape d x.shape)) := by
  have hk : ∀ a, Means lib h.graph (.r (kids a)) (.ok (atleastArr d (u a))) := fun a => atleast_means hd (hkid a) (ht a) (hu a)
  have hE := exact_concat hy.nodup hp hi hc
  have hout : Means lib h.graph (.r y) (.ok out) := means_of_isA hy hk hE.val
  refine ⟨hout, fun w x hw hx => ?_⟩
  obtain ⟨a0, ha0⟩ := hw
  have hlw : IsLeaf h.graph w := by rw [← ha0]; exact hl a0
  have hper : lib.isPermute (h.graph w).cls = false := by rw [hlw.1]; rfl
  have hux : ∀ a, arg a = w → u a = x := by
    intro a ha
    have h1 := hu a
    rw [ha] at h1
    have := h1.unique hx
    injection this
  have hyw : y ≠ w := by
    rintro rfl
    have := hy.kid a0
    rw [hlw.2.1] at this; cases this
  have hkw : ∀ a, kids a ≠ w := by
    intro a e
    have := (hkid a).kid (0 : Fin 1)
    rw [e, hlw.2.1] at this; cases this
  have hyk : ∀ a, y ≠ kids a := by
    intro a e
    have h1 := (hkid a).dnames
    rw [← e, hy.dnames] at h1
    subst h1
    have h2 := hy.kid (0 : Fin 1)
    have h3 := (hkid a).kid (0 : Fin 1)
    have ha : a = (0 : Fin 1) := Fin.eq_zero a
    rw [← e] at h3
    have h4 : kids (0 : Fin 1) = arg a := Option.some.inj (h2.symm.trans h3)
    have h5 := (hkid (0 : Fin 1)).kid (0 : Fin 1)
    rw [h4, (hl a).2.1] at h5
    cases h5
  have hn : (h.graph y).namesOf w = [] := by
    unfold GNode.namesOf
    rw [List.filter_eq_nil_iff, hy.dnames]
    intro k hk'
    obtain ⟨a, rfl⟩ := List.get_of_mem hk'
    rw [hy.kid a]
    simpa using hkw a
  have hns : ∀ a, (h.graph y).namesOf (kids a) = [ns.get a] := by
    intro a
    have hmem : ∀ b, ns.get b ∈ (h.graph y).namesOf (kids a) ↔ b = a := by
      intro b
      unfold GNode.namesOf
      rw [List.mem_filter, hy.dnames]
      simp only [List.get_mem, true_and, decide_eq_true_eq]
      rw [hy.kid b]
      exact ⟨fun e => hinj (Option.some.inj e), fun e => by rw [e]⟩
    have hsub : ((h.graph y).namesOf (kids a)).Sublist ns := by unfold GNode.namesOf; rw [hy.dnames]; exact List.filter_sublist
    have hnd := hy.nodup.sublist hsub
    refine List.perm_singleton.1 ((List.perm_ext_iff_of_nodup hnd (List.nodup_singleton _)).2 fun n => ?_)
    constructor
    · intro hmn
      obtain ⟨b, rfl⟩ := List.get_of_mem (hsub.subset hmn)
      rw [(hmem b).1 hmn]; simp
    · intro hmn
      rw [List.mem_singleton] at hmn
      rw [hmn]; exact (hmem a).2 rfl
  have hfl := (reach_inv lib_propsOk (fun _ => lib_localDr) hr).flags trivial
  let P : Fin ns.length → Ent := fun a => placeE i out.shape (atleastArr d (u a)).shape (startOf i ((List.ofFn fun a => atleastArr d (u a)).map Arr.shape) a)
  have hsz : ∀ a, arg a = w → (atleastArr d (u a)).size = x.size := fun a ha => by rw [hux a ha]; exact atleastArr_size d x
  have hterms : ∀ (as : List (Fin ns.length)) (acc : List Jac) (A : Ent), (∀ d ∈ acc, ∃ e, d = Jac.sparse out.size x.size e) →
      SumRep num acc out.size x.size A →
      ∃ ds, TermsIs lib h.graph y w (as.map ns.get) acc ds ∧ (∀ d ∈ ds, ∃ e, d = Jac.sparse out.size x.size e) ∧
        SumRep num ds out.size x.size (A + (as.map fun a => if arg a = w then P a else 0).sum) := by
    intro as
    induction as with
    | nil => intro acc A h1 h2; exact ⟨acc, .nil .., h1, by simpa using h2⟩
    | cons a as ih =>
      intro acc A h1 h2
      have hdr := atleast_dr hd (hkid a) (ht a) (hu a) (hl a) hlw (hfl (kids a)).1 (hfl (kids a)).2
      by_cases haw : arg a = w
      · rw [if_pos haw] at hdr
        obtain ⟨e, he1, he2⟩ := concat_dr hy.nodup hp hi hc [ns.get a] (atleastArr d (u a)) (by simp)
          (List.singleton_sublist.2 (List.get_mem ..)) (fun b hb => by
            rw [List.mem_singleton] at hb
            rw [(List.nodup_iff_injective_get.1 hy.nodup) hb])
        have hs : SlicedIs lib h.graph y (kids a) (some (.sparse out.size (atleastArr d (u a)).size e)) :=
          SlicedIs.some (compIs_isA hy hk hout (hyk a) (by rw [hns a]; exact he1))
        rw [hsz a haw] at hs he2
        have hx1 : lib.superdot (Jac.sparse out.size x.size e) (Jac.dense 1 1 fun _ _ => 1) = .ok (Jac.sparse out.size x.size fun i j => 1 * e i j) := rfl
        have hsum : (∑ b with ns.get b ∈ [ns.get a], P b) = P a := by
          have : (Finset.univ.filter fun b => ns.get b ∈ [ns.get a]) = {a} := by
            ext b
            simp only [Finset.mem_filter, Finset.mem_univ, true_and, Finset.mem_singleton, List.mem_singleton]
            exact ⟨fun e => (List.nodup_iff_injective_get.1 hy.nodup) e, fun e => by rw [e]⟩
          rw [this, Finset.sum_singleton]
        have hR : num.Rep (Jac.sparse out.size x.size fun i j => 1 * e i j) out.size x.size (P a) := by
          refine ⟨rfl, rfl, fun r hr' j hj => ?_⟩
          have := he2 r hr' j hj
          show 1 * e r j = P a r j
          rw [one_mul, this]
          exact congrFun (congrFun hsum r) j
        obtain ⟨ds, hds, hsp, hrep⟩ := ih (acc ++ [Jac.sparse out.size x.size fun i j => 1 * e i j]) (A + P a) (by
          intro d' hd'
          rcases List.mem_append.1 hd' with h' | h'
          · exact h1 d' h'
          · rw [List.mem_singleton] at h'; exact ⟨_, h'⟩) (h2.append hR)
        refine ⟨ds, .some (hy.kid a) (hkw a) hdr hs hx1 hds, hsp, ?_⟩
        rw [List.map_cons, List.sum_cons, if_pos haw, ← add_assoc]
        exact hrep
      · rw [if_neg haw] at hdr
        obtain ⟨ds, hds, hsp, hrep⟩ := ih acc A h1 h2
        refine ⟨ds, .none (hy.kid a) (hkw a) hdr hds, hsp, ?_⟩
        rw [List.map_cons, List.sum_cons, if_neg haw, zero_add]
        exact hrep
  obtain ⟨ds, hds, hsp, hrep⟩ := hterms (List.finRange ns.length) [] 0 (by simp) (SumRep.nil _ _)
  rw [show (List.finRange ns.length).map ns.get = ns from List.ext_getElem (by simp) fun j _ _ => by simp] at hds
  obtain ⟨o, ho⟩ := sumD_sparse hsp
  have hro := sumD_rep hrep ho
  have hdr := drIs (SlicedIs.none (compIs_none lib_localDr hyw hn) hper) (by rw [hy.dnames]; exact hds) ho
  obtain ⟨_, f₀, hf₀⟩ := hdr
  refine ⟨f₀, fun f hf => ⟨o.map fun d => lib.outForm (h.graph y).makeDense (h.graph y).makeSparse (lib.finish d), ?_, ?_⟩⟩
  · have e := evalDr_mono lib h.graph hf y w
    rw [Le, hf₀] at e
    have := (C02_derivative_never_stale_partial lib_propsOk lib_plainForm hr f y w hper).2.2
    rw [e (by simp)] at this
    exact this (by simp)
  · have hfin := placement_eq (A := fun a => ∃ ha : a < ns.length, arg ⟨a, ha⟩ = w) (x := atleastArr d x) hc (fun a ⟨_, e⟩ => by rw [hux a e])
    rw [atleastArr_size] at hfin
    have hro' : num.RepO o out.size x.size _ := num.repO_congr (B := placement i out.shape ((List.ofFn fun a => atleastArr d (u a)).map Arr.shape)
        (fun a => ∃ ha : a < ns.length, arg ⟨a, ha⟩ = w) (atleastShape d x.shape)) (Ent.EqOn.trans ?_ hfin) hro
    · cases o with
      | none => exact hro'
      | some d' => exact Jac.outForm_rep _ _ (Jac.finish_rep hro')
    · rw [zero_add, ← Fin.sum_univ_def, Finset.sum_filter]
      refine (congrArg (Ent.EqOn out.size x.size _) (Finset.sum_congr rfl fun a _ => ?_)).mp (Ent.EqOn.refl _)
      by_cases e : arg a = w
      · rw [if_pos e, if_pos ⟨a.2, e⟩]
      · rw [if_neg e, if_neg (fun h' => e h'.2)]
end

/-- Making the `AtleastNd`s. -/
theorem atleastAll_state {m : Mode} (d : ℕ) : ∀ (mtxs : List Id) {h : Heap ClassDef Par Arr Jac}, Reach lib m h →
    (∀ x ∈ mtxs, (h.node x).alive = true) →
    ∃ h', atleastAll d mtxs h = (h', .ok ((List.range mtxs.length).map (h.next + ·))) ∧ Reach lib m h' ∧ h'.next = h.next + mtxs.length ∧
      (∀ j (hj : j < mtxs.length), h'.graph (h.next + j) = (atleastO d mtxs[j]).node) ∧ (∀ j, j < h.next → h'.graph j = h.graph j) ∧
      (∀ j, (h.node j).alive = true → (h'.node j).alive = true) ∧ (∀ j < mtxs.length, (h'.node (h.next + j)).alive = true) ∧
      ∀ j v, (h.node j).alive = true → Means lib h.graph (.r j) (.ok v) → Means lib h'.graph (.r j) (.ok v)
  | [], h, hr, _ => ⟨h, rfl, hr, rfl, by simp, fun _ _ => rfl, fun _ h => h, by simp, fun _ _ _ h => h⟩
  | x :: ms, h, hr, ha => by
    obtain ⟨h1, e1, hr1, hg1, hn1, ha1, hk1⟩ := newObj_state hr (atleastO d x) rfl (by
      intro kw hm
      simp only [atleastO, List.mem_cons, List.not_mem_nil, or_false] at hm
      rcases hm with rfl | rfl
      · trivial
      · exact ⟨by simp [atleastO], ha x (by simp)⟩)
    have hal1 : ∀ j, (h.node j).alive = true → (h1.node j).alive = true := fun j hj => by
      rw [ha1]; split
      · rfl
      · exact hj
    obtain ⟨h2, e2, hr2, hn2, hg2, hg2', ha2, ha2', hk2⟩ := atleastAll_state d ms hr1 (fun j hj => hal1 j (ha j (by simp [hj])))
    refine ⟨h2, ?_, hr2, by rw [hn2, hn1, List.length_cons]; omega, ?_, ?_, fun j hj => ha2 j (hal1 j hj), ?_,
      fun j v hj hv => hk2 j v (hal1 j hj) (hk1 j v hj hv)⟩
    · have el : (List.range (x :: ms).length).map (h.next + ·) = h.next :: (List.range ms.length).map (h1.next + ·) := by
        rw [List.length_cons, List.range_succ_eq_map, List.map_cons, List.map_map, Nat.add_zero]
        congr 1
        refine List.map_congr_left fun j _ => ?_
        show h.next + (j + 1) = h1.next + j
        rw [hn1, Nat.add_right_comm, Nat.add_assoc]
      simp only [atleastAll, M.bind]
      rw [e1]
      dsimp only [M.bind]
      rw [e2, el]
      rfl
    · intro j hj
      cases j with
      | zero =>
        rw [Nat.add_zero, hg2' _ (by rw [hn1]; exact Nat.lt_succ_self _), hg1, if_pos rfl]; rfl
      | succ j =>
        have := hg2 j (by simpa using hj)
        rw [hn1] at this
        rw [show h.next + (j + 1) = h.next + 1 + j by rw [Nat.add_right_comm, Nat.add_assoc], this]; rfl
    · intro j hj
      rw [hg2' j (by rw [hn1]; exact Nat.lt_succ_of_lt hj), hg1, if_neg (Nat.ne_of_lt hj)]
    · intro j hj
      cases j with
      | zero => exact ha2 _ (by rw [ha1, Nat.add_zero, if_pos rfl])
      | succ j =>
        have := ha2' j (by simpa using hj)
        rw [hn1] at this
        rwa [show h.next + (j + 1) = h.next + 1 + j by rw [Nat.add_right_comm, Nat.add_assoc]]

theorem chAtleast_ne_concat : chAtleast ≠ chConcat [nmA] := by
  intro e
  have h1 := congrArg ClassDef.r e
  simp only [chAtleast, chConcat, readAll, Prog.child.injEq, true_and] at h1
  have h2 := congrFun h1 (Arr.of [] fun _ => 0)
  simp only [Prog.term.injEq] at h2
  exact absurd h2.1 (by decide)

theorem expand_none {g : Graph ClassDef Par} {ax : ℤ} : ∀ {ms : List Id}, (∀ x ∈ ms, ¬ SameConcat g ax x) →
    expandConcats g ax (ms.length + 1) ms = .ok ms
  | [], _ => rfl
  | x :: ms, h => by
    simp only [expandConcats]
    rw [if_neg (h x (by simp)), List.length_cons, expand_none (fun x hx => h x (by simp [hx]))]

/-- `vstack` (`d = 2`, axis 0) and `dstack` (`d = 3`, axis 2) of plain `Ch`s of any number and shapes, the same one several times or not: the
value is `np.concatenate` of the operands after `np.atleast_2d`/`np.atleast_3d`, and the reported derivative with respect to any operand is
the placement matrix. -/
theorem stack_spec {h : Heap ClassDef Par Arr Jac} (hr : Reach lib ⟨False, True⟩ h) {mtxs : List Id} {vs : List Arr} {d i : ℕ} {ax : ℤ} {out : Arr}
    (hd : d = 1 ∨ d = 2 ∨ d = 3) (ha : ∀ x ∈ mtxs, (h.node x).alive = true) (hl : ∀ x ∈ mtxs, IsLeaf h.graph x)
    (hv : List.Forall₂ (fun x v => Means lib h.graph (.r x) (.ok v)) mtxs vs)
    (hi : normAxis out.shape.length ax = some i) (hc : IsConcat i (vs.map (atleastArr d)) out) :
    ∃ f₀, ∀ f ≥ f₀, ∃ h' y, M.bind (atleastAll d mtxs) (concatenate f ax) h = (h', .ok y) ∧ Reach lib ⟨False, True⟩ h' ∧
      (∃ f₁, ∀ f ≥ f₁, (read lib f (.r y) h').2 = .ok out) ∧
      ∀ w x, w ∈ mtxs → Means lib h.graph (.r w) (.ok x) → Reports h' y w out.size x.size
        (placement i out.shape (vs.map fun v => atleastShape d v.shape) (fun a => mtxs[a]? = some w) (atleastShape d x.shape)) := by
  obtain ⟨h1, e1, hr1, hn1, hg1, hg1', ha1, ha1', hk1⟩ := atleastAll_state d mtxs hr ha
  have hlen := hv.length_eq
  set l := (List.range mtxs.length).map (h.next + ·) with hldef
  have hll : l.length = mtxs.length := by simp [hldef]
  have hlget : ∀ j (hj : j < l.length), l[j] = h.next + j := fun j hj => by simp [hldef]
  have hnone : ∀ x ∈ l, ¬ SameConcat h1.graph ax x := by
    intro x hx hs
    obtain ⟨j, hj, rfl⟩ := List.getElem_of_mem hx
    rw [hlget j hj] at hs
    have hs1 := hs.1
    rw [hg1 j (by omega)] at hs1
    exact chAtleast_ne_concat hs1
  obtain ⟨h2, e2, hr2, hg2, hn2, ha2, hk2⟩ := newObj_state hr1 (concatO ax l) rfl (by
    intro kw hm
    simp only [concatO, List.mem_append, List.mem_map, List.mem_singleton] at hm
    rcases hm with ⟨p, hp, rfl⟩ | rfl
    · obtain ⟨j, hj, rfl⟩ := List.getElem_of_mem hp
      have hj' : j < l.length := by simpa using hj
      refine ⟨?_, ?_⟩
      · simp only [concatO, concatNames, List.mem_map, List.mem_range, List.getElem_zipIdx]
        exact ⟨j, hj', by simp⟩
      · rw [List.getElem_zipIdx]
        dsimp only
        rw [hlget j hj']
        exact ha1' j (by omega)
    · trivial)
  refine ⟨l.length + 1, fun f hf => ⟨h2, h1.next, ?_, hr2, ?_⟩⟩
  · simp only [M.bind]
    rw [e1]
    dsimp only
    unfold concatenate
    rw [expand_up hf (expand_none hnone)]
    exact e2
  have hgy : h2.graph h1.next = (concatO ax l).node := by rw [hg2, if_pos rfl]
  have hy := isA_concatO hgy
  have hcast : ∀ a : Fin (concatNames l.length).length, (a : ℕ) < mtxs.length := fun a => by
    have := a.2; simp [concatNames] at this; omega
  have hgl : ∀ j (hj : j < mtxs.length), h2.graph (h.next + j) = (atleastO d mtxs[j]).node := by
    intro j hj
    rw [hg2, if_neg (by rw [hn1]; exact Nat.ne_of_lt (Nat.add_lt_add_left hj _)), hg1 j hj]
  have halt : ∀ x ∈ mtxs, x < h.next := fun x hx => (reach_str hr).alive_lt (ha x hx)
  have hleaf2 : ∀ x ∈ mtxs, IsLeaf h2.graph x := by
    intro x hx
    have hxl := halt x hx
    have e : h2.graph x = h.graph x := by
      rw [hg2, if_neg (by rw [hn1]; exact Nat.ne_of_lt (Nat.lt_add_right _ hxl)), hg1' x hxl]
    unfold IsLeaf; rw [e]; exact hl x hx
  have hval2 : ∀ x v, x ∈ mtxs → Means lib h.graph (.r x) (.ok v) → Means lib h2.graph (.r x) (.ok v) :=
    fun x v hx hm => hk2 x v (ha1 x (ha x hx)) (hk1 x v (ha x hx) hm)
  have hvs : (List.ofFn fun a : Fin (concatNames l.length).length => atleastArr d (vs[(a : ℕ)]'(by have := hcast a; omega))) = vs.map (atleastArr d) := by
    refine List.ext_getElem (by simp [concatNames]; omega) fun j h1 h2 => ?_
    simp
  obtain ⟨hm, hR⟩ := stack_reports (kids := fun a => l.get (a.cast (by simp [concatNames]))) (arg := fun a => mtxs[(a : ℕ)]'(hcast a))
    (u := fun a => vs[(a : ℕ)]'(by have := hcast a; omega)) (d := d) (out := out) hr2 hy
    (by rw [hgy]; exact (concatO_node ax l).2.2.1)
    (by
      intro a b e
      have e' : l[(a : ℕ)]'(by have := hcast a; omega) = l[(b : ℕ)]'(by have := hcast b; omega) := e
      rw [hlget, hlget] at e'
      exact Fin.ext (Nat.add_left_cancel e')) hd
    (by
      intro a
      have e : h2.graph (l.get (a.cast (by simp [concatNames]))) = (atleastO d (mtxs[(a : ℕ)]'(hcast a))).node := by
        rw [← hgl a (hcast a)]
        congr 1
        exact hlget a (by have := hcast a; omega)
      refine ⟨by rw [e]; rfl, by rw [e]; rfl, by simp, fun b => ?_⟩
      have : b = (0 : Fin 1) := Fin.eq_zero b
      subst this; rw [e]; rfl)
    (by
      intro a
      have e : h2.graph (l.get (a.cast (by simp [concatNames]))) = (atleastO d (mtxs[(a : ℕ)]'(hcast a))).node := by
        rw [← hgl a (hcast a)]
        congr 1
        exact hlget a (by have := hcast a; omega)
      rw [e]; rfl)
    (fun a => hleaf2 _ (List.getElem_mem _))
    (fun a => hval2 _ _ (List.getElem_mem _) ((List.forall₂_iff_get.1 hv).2 a (hcast a) (by have := hcast a; omega)))
    hi (by rw [hvs]; exact hc)
  refine ⟨read_of_means hr2 hm, fun w x hw hx => ?_⟩
  obtain ⟨j, hj, rfl⟩ := List.getElem_of_mem hw
  have hjc : j < (concatNames l.length).length := by simp [concatNames]; omega
  have := hR _ x ⟨⟨j, hjc⟩, rfl⟩ (hval2 _ _ hw hx)
  rw [hvs, List.map_map] at this
  have e : (fun a => ∃ ha : a < (concatNames l.length).length, mtxs[a]'(hcast ⟨a, ha⟩) = mtxs[j]) = fun a => mtxs[a]? = some mtxs[j] := by
    funext a
    refine propext ⟨fun ⟨ha, e⟩ => ?_, fun e => ?_⟩
    · rw [List.getElem?_eq_getElem (hcast ⟨a, ha⟩)]; exact congrArg some e
    · obtain ⟨h', e'⟩ := List.getElem?_eq_some_iff.1 e
      exact ⟨by simp [concatNames]; omega, e'⟩
  rw [e] at this
  exact this

theorem chLeaf_ne_concat {ns : List Name} : chLeaf ≠ chConcat ns := fun e => absurd (congrArg ClassDef.isBase e) (by simp [chLeaf, chConcat])

theorem normAxis_nat {n k : ℕ} (h : k < n) : normAxis n k = some k := by
  unfold normAxis; rw [if_pos (by omega)]; simp

theorem concatArr_some {ax : ℤ} {i : ℕ} {vs : List Arr} {osh : List ℕ} (hn : normAxis ((vs.map Arr.shape).headD []).length ax = some i)
    (hs : concatShape i (vs.map Arr.shape) = some osh) : ∃ out, concatArr ax vs = some out := by
  unfold concatArr; rw [hn]; dsimp only; rw [hs]; exact ⟨_, rfl⟩

theorem read_raises {h : Heap ClassDef Par Arr Jac} {m : Mode} (hr : Reach lib m h) {q : Req} {e : Err} (he : e ≠ .fuel)
    (hv : Means lib h.graph q (.error e)) : ∃ f₀, ∀ f ≥ f₀, (read lib f q h).2 = .error e := by
  obtain ⟨_, f₀, hf₀⟩ := hv
  refine ⟨f₀, fun f hf => ?_⟩
  have e' := evalReq_mono lib h.graph hf q
  rw [Le, hf₀] at e'
  have hs := (read_sim (P := True) f q h (reach_inv lib_propsOk (fun _ => lib_localDr) hr).coh rfl).2.2 trivial
  have := (readFresh_of_agree hs).2.2
  rw [e' (by simpa using he)] at this
  exact this (by simpa using he)

/-- C28 for `concatenate` itself, of plain `Ch`s of any number and shapes, the same one several times or not. -/
theorem concatenate_spec {h : Heap ClassDef Par Arr Jac} (hr : Reach lib ⟨False, True⟩ h) {mtxs : List Id} {vs : List Arr} {i : ℕ} {ax : ℤ} {out : Arr}
    (ha : ∀ x ∈ mtxs, (h.node x).alive = true) (hl : ∀ x ∈ mtxs, IsLeaf h.graph x)
    (hv : List.Forall₂ (fun x v => Means lib h.graph (.r x) (.ok v)) mtxs vs)
    (hi : normAxis out.shape.length ax = some i) (hc : IsConcat i vs out) :
    ∃ f₀, ∀ f ≥ f₀, ∃ h' y, concatenate f ax mtxs h = (h', .ok y) ∧ Reach lib ⟨False, True⟩ h' ∧
      (∃ f₁, ∀ f ≥ f₁, (read lib f (.r y) h').2 = .ok out) ∧
      ∀ w x, w ∈ mtxs → Means lib h.graph (.r w) (.ok x) → Reports h' y w out.size x.size
        (placement i out.shape (vs.map Arr.shape) (fun a => mtxs[a]? = some w) x.shape) := by
  have hlen := hv.length_eq
  have hnone : ∀ x ∈ mtxs, ¬ SameConcat h.graph ax x := by
    intro x hx hs
    have hs1 := hs.1
    rw [(hl x hx).1] at hs1
    exact chLeaf_ne_concat hs1
  obtain ⟨h2, e2, hr2, hg2, hn2, ha2, hk2⟩ := newObj_state hr (concatO ax mtxs) rfl (by
    intro kw hm
    simp only [concatO, List.mem_append, List.mem_map, List.mem_singleton] at hm
    rcases hm with ⟨p, hp, rfl⟩ | rfl
    · obtain ⟨j, hj, rfl⟩ := List.getElem_of_mem hp
      have hj' : j < mtxs.length := by simpa using hj
      refine ⟨?_, ha _ ?_⟩
      · simp only [concatO, concatNames, List.mem_map, List.mem_range, List.getElem_zipIdx]
        exact ⟨j, hj', by simp⟩
      · rw [List.getElem_zipIdx]; exact List.getElem_mem hj'
    · trivial)
  refine ⟨mtxs.length + 1, fun f hf => ⟨h2, h.next, ?_, hr2, ?_⟩⟩
  · unfold concatenate
    rw [expand_up hf (expand_none hnone)]
    exact e2
  have hgy : h2.graph h.next = (concatO ax mtxs).node := by rw [hg2, if_pos rfl]
  have hy := isA_concatO hgy
  have hcl : (concatNames mtxs.length).length = mtxs.length := by simp [concatNames]
  have hvs : (List.ofFn fun a : Fin (concatNames mtxs.length).length => vs[(a : ℕ)]'(by have := a.2; omega)) = vs :=
    List.ext_getElem (by simp; omega) fun j h1 h2 => by simp
  have hval : ∀ x v, x ∈ mtxs → Means lib h.graph (.r x) (.ok v) → Means lib h2.graph (.r x) (.ok v) := fun x v hx hm => hk2 x v (ha x hx) hm
  obtain ⟨h3, h4⟩ := C28_concatenate_partial (v := fun a => vs[(a : ℕ)]'(by have := a.2; omega)) (out := out) hr2 hy
    (by rw [hgy]; exact (concatO_node ax mtxs).2.2.1)
    (fun a => hval _ _ (List.get_mem ..) ((List.forall₂_iff_get.1 hv).2 a (by have := a.2; omega) (by have := a.2; omega)))
    hi (by rw [hvs]; exact hc)
  refine ⟨h3.value, fun w x hw hx => ?_⟩
  have hl2 : ∀ x ∈ mtxs, IsLeaf h2.graph x := by
    intro x hx
    have e : h2.graph x = h.graph x := by
      rw [hg2, if_neg (Nat.ne_of_lt ((reach_str hr).alive_lt (ha x hx)))]
    unfold IsLeaf; rw [e]; exact hl x hx
  obtain ⟨j, hj, rfl⟩ := List.getElem_of_mem hw
  have := h4 (fun a => hl2 _ (List.get_mem ..)) _ x ⟨⟨j, by omega⟩, rfl⟩ (hval _ _ hw hx)
  rw [hvs] at this
  refine (congrArg (Reports h2 h.next mtxs[j] out.size x.size) ?_).mp this
  congr 1
  funext a
  refine propext ⟨fun ⟨ha, e⟩ => ?_, fun e => ?_⟩
  · rw [List.getElem?_eq_getElem (by omega)]; exact congrArg some e
  · obtain ⟨h', e'⟩ := List.getElem?_eq_some_iff.1 e
    exact ⟨by omega, e'⟩

/-- C28 for `vstack`, of plain `Ch`s. -/
theorem C28_vstack_partial {h : Heap ClassDef Par Arr Jac} (hr : Reach lib ⟨False, True⟩ h) {mtxs : List Id} {vs : List Arr} {out : Arr}
    (ha : ∀ x ∈ mtxs, (h.node x).alive = true) (hl : ∀ x ∈ mtxs, IsLeaf h.graph x)
    (hv : List.Forall₂ (fun x v => Means lib h.graph (.r x) (.ok v)) mtxs vs) (hc : IsConcat 0 (vs.map (atleastArr 2)) out) :
    ∃ f₀, ∀ f ≥ f₀, ∃ h' y, vstack f mtxs h = (h', .ok y) ∧ Reach lib ⟨False, True⟩ h' ∧
      (∃ f₁, ∀ f ≥ f₁, (read lib f (.r y) h').2 = .ok out) ∧
      ∀ w x, w ∈ mtxs → Means lib h.graph (.r w) (.ok x) → Reports h' y w out.size x.size
        (placement 0 out.shape (vs.map fun v => atleastShape 2 v.shape) (fun a => mtxs[a]? = some w) (atleastShape 2 x.shape)) :=
  stack_spec hr (.inr (.inl rfl)) ha hl hv (normAxis_nat hc.shapes.axis) hc

/-- C28 for `dstack`, of plain `Ch`s. -/
theorem C28_dstack_partial {h : Heap ClassDef Par Arr Jac} (hr : Reach lib ⟨False, True⟩ h) {mtxs : List Id} {vs : List Arr} {out : Arr}
    (ha : ∀ x ∈ mtxs, (h.node x).alive = true) (hl : ∀ x ∈ mtxs, IsLeaf h.graph x)
    (hv : List.Forall₂ (fun x v => Means lib h.graph (.r x) (.ok v)) mtxs vs) (hc : IsConcat 2 (vs.map (atleastArr 3)) out) :
    ∃ f₀, ∀ f ≥ f₀, ∃ h' y, dstack f mtxs h = (h', .ok y) ∧ Reach lib ⟨False, True⟩ h' ∧
      (∃ f₁, ∀ f ≥ f₁, (read lib f (.r y) h').2 = .ok out) ∧
      ∀ w x, w ∈ mtxs → Means lib h.graph (.r w) (.ok x) → Reports h' y w out.size x.size
        (placement 2 out.shape (vs.map fun v => atleastShape 3 v.shape) (fun a => mtxs[a]? = some w) (atleastShape 3 x.shape)) :=
  stack_spec hr (.inr (.inr rfl)) ha hl hv (normAxis_nat hc.shapes.axis) hc

/-- C28 for `hstack`, of plain `Ch`s of two or more axes. -/
theorem C28_hstack_partial {h : Heap ClassDef Par Arr Jac} (hr : Reach lib ⟨False, True⟩ h) {mtxs : List Id} {vs : List Arr} {out : Arr}
    (ha : ∀ x ∈ mtxs, (h.node x).alive = true) (hl : ∀ x ∈ mtxs, IsLeaf h.graph x)
    (hv : List.Forall₂ (fun x v => Means lib h.graph (.r x) (.ok v)) mtxs vs) (hc : IsConcat 1 vs out) :
    ∃ f₀, ∀ f ≥ f₀, ∃ h' y, hstack f mtxs h = (h', .ok y) ∧ Reach lib ⟨False, True⟩ h' ∧
      (∃ f₁, ∀ f ≥ f₁, (read lib f (.r y) h').2 = .ok out) ∧
      ∀ w x, w ∈ mtxs → Means lib h.graph (.r w) (.ok x) → Reports h' y w out.size x.size
        (placement 1 out.shape (vs.map Arr.shape) (fun a => mtxs[a]? = some w) x.shape) :=
  concatenate_spec hr ha hl hv (normAxis_nat hc.shapes.axis) hc

/-- What C28 says of the value of `hstack`, of plain `Ch`s: `np.hstack` joins vectors along axis 0 and everything else along axis 1. -/
def C28_hstack_full : Prop :=
  ∀ (h : Heap ClassDef Par Arr Jac), Reach lib ⟨False, True⟩ h → ∀ (mtxs : List Id) (vs : List Arr) (out : Arr),
    (∀ x ∈ mtxs, (h.node x).alive = true) → (∀ x ∈ mtxs, IsLeaf h.graph x) →
    List.Forall₂ (fun x v => Means lib h.graph (.r x) (.ok v)) mtxs vs →
    IsConcat (if ((vs.map Arr.shape).headD []).length = 1 then 0 else 1) vs out →
    ∃ f₀, ∀ f ≥ f₀, ∃ h' y, hstack f mtxs h = (h', .ok y) ∧ ∃ f₁, ∀ f ≥ f₁, (read lib f (.r y) h').2 = .ok out

namespace ADDemo
/-- States with the plain `Ch`s wanted. -/
theorem leaves_state (m : Mode) (vs : List Arr) : ∃ h, Reach lib m h ∧ h.next = vs.length ∧
    ∀ j (hj : j < vs.length), (h.node j).alive = true ∧ h.graph j = (leafO vs[j]).node := by
  induction vs using List.reverseRecOn with
  | nil => exact ⟨_, .init, rfl, fun j hj => absurd hj (by simp)⟩
  | append_singleton vs v ih =>
    obtain ⟨h, hr, hn, hj⟩ := ih
    obtain ⟨h', _, hr', hg, hn', ha, _⟩ := newObj_state hr (leafO v) rfl (by
      intro kw hm
      simp only [leafO, List.mem_singleton] at hm
      subst hm; trivial)
    refine ⟨h', hr', by rw [hn', hn]; simp, fun j hj' => ?_⟩
    rw [List.length_append, List.length_singleton] at hj'
    rcases Nat.lt_or_ge j vs.length with hlt | hge
    · have hne : j ≠ h.next := by rw [hn]; exact Nat.ne_of_lt hlt
      rw [ha, hg, if_neg hne, if_neg hne, List.getElem_append_left hlt]
      exact hj j hlt
    · obtain rfl : j = vs.length := by omega
      rw [ha, hg, if_pos hn.symm, if_pos hn.symm]
      simp

theorem leaves_ready (vs : List Arr) (hvs : ∀ v ∈ vs, v.shape ≠ []) : ∃ h, Reach lib ⟨False, True⟩ h ∧ ∀ j (hj : j < vs.length),
    (h.node j).alive = true ∧ IsLeaf h.graph j ∧ Means lib h.graph (.r j) (.ok vs[j]) := by
  obtain ⟨h, hr, _, hj⟩ := leaves_state ⟨False, True⟩ vs
  refine ⟨h, hr, fun j hj' => ⟨(hj j hj').1, ?_, ?_⟩⟩
  · exact isLeaf_leafO (hj j hj').2
  · exact (leaf_means (hj j hj').2 (hvs _ (List.getElem_mem _))).1
end ADDemo

/-- C28 is false of `hstack`: `hstack` of the vectors `[1, 2]` and `[3]` makes an object whose value cannot be read. -/
theorem C28_hstack_refuted : ¬ C28_hstack_full := by
  intro hf
  obtain ⟨h, hr, hj⟩ := ADDemo.leaves_ready [⟨[2], ![1, 2]⟩, ⟨[1], ![3]⟩] (by simp)
  have h0 := hj 0 (by simp)
  have h1 := hj 1 (by simp)
  have hv : List.Forall₂ (fun x v => Means lib h.graph (.r x) (.ok v)) [0, 1] [⟨[2], ![1, 2]⟩, ⟨[1], ![3]⟩] :=
    .cons h0.2.2 (.cons h1.2.2 .nil)
  have ha : ∀ x ∈ [0, 1], (h.node x).alive = true := by
    intro x hx; rcases (by simpa using hx : x = 0 ∨ x = 1) with rfl | rfl
    · exact h0.1
    · exact h1.1
  have hl : ∀ x ∈ [0, 1], IsLeaf h.graph x := by
    intro x hx; rcases (by simpa using hx : x = 0 ∨ x = 1) with rfl | rfl
    · exact h0.2.1
    · exact h1.2.1
  obtain ⟨out, ho⟩ := concatArr_some (ax := 0) (i := 0) (vs := [⟨[2], ![1, 2]⟩, ⟨[1], ![3]⟩]) (osh := [3]) (by decide) (by decide)
  obtain ⟨i, hi, hc⟩ := concatArr_spec ho
  have h0i : i = 0 := by
    have : (0 : ℤ) = (0 : ℕ) := rfl
    rw [this, normAxis_nat (by have := hc.shapes.axis; omega)] at hi
    injection hi with hi; exact hi.symm
  subst h0i
  obtain ⟨f1, hf1⟩ := hf h hr [0, 1] _ out ha hl hv hc
  obtain ⟨f2, h', hf2⟩ := C29_flattening_invisible hr (ax := 1) ha hv
  obtain ⟨h'', y, e1, f3, hf3⟩ := hf1 (max f1 f2) (le_max_left _ _)
  obtain ⟨e2, hr', hm⟩ := hf2 (max f1 f2) (le_max_right _ _)
  unfold hstack at e1
  rw [e2] at e1
  injection e1 with ea eb
  injection eb with eb
  subst ea; subst eb
  have hnone : concatArr 1 [⟨[2], ![1, 2]⟩, ⟨[1], ![3]⟩] = none := rfl
  rw [hnone] at hm
  obtain ⟨f4, hf4⟩ := read_raises hr' (by simp) hm
  have := hf3 (max f3 f4) (le_max_left _ _)
  rw [hf4 (max f3 f4) (le_max_right _ _)] at this
  cases this

namespace ADDemo
/-- `vstack` of the vector `[1, 2]`, itself again and a 2×2 matrix: the hypotheses of `C28_vstack_partial` are met. -/
example : ∃ h, Reach lib ⟨False, True⟩ h ∧ ∃ out : Arr, ∃ f₀, ∀ f ≥ f₀, ∃ h' y, vstack f [0, 0, 1] h = (h', .ok y) ∧
    Reports h' y 0 out.size 2 (placement 0 out.shape [[1, 2], [1, 2], [2, 2]] (fun a => ([0, 0, 1] : List Id)[a]? = some 0) [1, 2]) := by
  obtain ⟨h, hr, hj⟩ := leaves_ready [⟨[2], ![1, 2]⟩, ⟨[2, 2], ![3, 4, 5, 6]⟩] (by simp)
  have h0 := hj 0 (by simp)
  have h1 := hj 1 (by simp)
  obtain ⟨out, ho⟩ := concatArr_some (ax := 0) (i := 0) (vs := ([⟨[2], ![1, 2]⟩, ⟨[2], ![1, 2]⟩, ⟨[2, 2], ![3, 4, 5, 6]⟩] : List Arr).map (atleastArr 2))
    (osh := [4, 2]) (by decide) (by decide)
  obtain ⟨i, hi, hc⟩ := concatArr_spec ho
  have h0i : i = 0 := by
    have : (0 : ℤ) = (0 : ℕ) := rfl
    rw [this, normAxis_nat (by have := hc.shapes.axis; omega)] at hi
    injection hi with hi; exact hi.symm
  subst h0i
  obtain ⟨f₀, hf⟩ := C28_vstack_partial hr (mtxs := [0, 0, 1])
    (by intro x hx; rcases (by simpa using hx : x = 0 ∨ x = 1) with rfl | rfl; exacts [h0.1, h1.1])
    (by intro x hx; rcases (by simpa using hx : x = 0 ∨ x = 1) with rfl | rfl; exacts [h0.2.1, h1.2.1])
    (.cons h0.2.2 (.cons h0.2.2 (.cons h1.2.2 .nil))) hc
  refine ⟨h, hr, out, f₀, fun f hf' => ?_⟩
  obtain ⟨h', y, e, _, _, hR⟩ := hf f hf'
  exact ⟨h', y, e, hR 0 _ (by simp) h0.2.2⟩

/-- `concatenate([concatenate([a, b]), a])`: the hypotheses of C29 are met with an operand that is a concatenation. -/
example : ∃ h y, Reach lib ⟨False, True⟩ h ∧ SameConcat h.graph 0 y ∧ ∃ f₀, ∃ h', ∃ out : Arr, ∀ f ≥ f₀, concatenate f 0 [y, 0] h = (h', .ok h.next) ∧
    out.shape = [5] ∧ Means lib h'.graph (.r h.next) (.ok out) := by
  obtain ⟨h, hr, hj⟩ := leaves_ready [⟨[2], ![1, 2]⟩, ⟨[1], ![3]⟩] (by simp)
  have h0 := hj 0 (by simp)
  have h1 := hj 1 (by simp)
  have ha : ∀ x ∈ [0, 1], (h.node x).alive = true := by
    intro x hx; rcases (by simpa using hx : x = 0 ∨ x = 1) with rfl | rfl; exacts [h0.1, h1.1]
  obtain ⟨h', e, hr', hg, hn, hal, hkeep⟩ := newObj_state hr (concatO 0 [0, 1]) rfl (by
    intro kw hm
    simp only [concatO, List.mem_append, List.mem_map, List.mem_singleton] at hm
    rcases hm with ⟨p, hp, rfl⟩ | rfl
    · rcases (by simpa using hp : p = (0, 0) ∨ p = (1, 1)) with rfl | rfl
      · exact ⟨by simp [concatO, concatNames], h0.1⟩
      · exact ⟨by simp [concatO, concatNames], h1.1⟩
    · trivial)
  have hgy : h'.graph h.next = (concatO 0 [0, 1]).node := by rw [hg, if_pos rfl]
  obtain ⟨hcls, hdn, hax, _⟩ := concatO_node 0 [0, 1]
  have hl : ∀ x ∈ [0, 1], ¬ SameConcat h.graph 0 x := by
    intro x hx hs
    have hs := hs.1
    rcases (by simpa using hx : x = 0 ∨ x = 1) with rfl | rfl
    · rw [h0.2.1.1] at hs; exact chLeaf_ne_concat hs
    · rw [h1.2.1.1] at hs; exact chLeaf_ne_concat hs
  obtain ⟨f1, h1', hf1⟩ := C29_flattening_invisible hr (ax := 0) ha (.cons h0.2.2 (.cons h1.2.2 .nil))
  obtain ⟨e1, hr1, hm1⟩ := hf1 (max f1 3) (le_max_left _ _)
  unfold concatenate at e1
  rw [expand_up (le_max_right f1 3) (expand_none hl)] at e1
  have : h' = h1' := by have := e.symm.trans e1; injection this
  subst this
  obtain ⟨v, hv⟩ := concatArr_some (ax := 0) (i := 0) (vs := [⟨[2], ![1, 2]⟩, ⟨[1], ![3]⟩]) (osh := [3]) (by decide) (by decide)
  erw [hv] at hm1
  have hvs : v.shape = [3] := by
    have : concatArr 0 [⟨[2], ![1, 2]⟩, ⟨[1], ![3]⟩] = some (Arr.of [3] _) := rfl
    rw [this] at hv
    injection hv with hv
    rw [← hv]; rfl
  have hne : (0 : Id) ≠ h.next := Nat.ne_of_lt ((reach_str hr).alive_lt h0.1)
  obtain ⟨f2, h2, hf2⟩ := C29_flattening_invisible hr' (ax := 0) (mtxs := [h.next, 0]) (by
    intro x hx
    rcases (by simpa using hx : x = h.next ∨ x = 0) with rfl | rfl
    · rw [hal, if_pos rfl]
    · rw [hal, if_neg hne]; exact h0.1) (.cons hm1 (.cons (hkeep _ _ h0.1 h0.2.2) .nil))
  obtain ⟨out, ho⟩ := concatArr_some (ax := 0) (i := 0) (vs := [v, ⟨[2], ![1, 2]⟩]) (osh := [5])
    (by rw [List.map_cons, hvs]; decide) (by rw [List.map_cons, hvs]; decide)
  have hos : out.shape = [5] := by
    unfold concatArr at ho
    simp only [List.map_cons, hvs] at ho
    have h1 : normAxis (([[3], [2]] : List (List ℕ)).headD []).length 0 = some 0 := by decide
    have h2 : concatShape 0 [[3], [2]] = some [5] := by decide
    simp only [List.map_nil, h1, h2] at ho
    injection ho with ho
    rw [← ho]; rfl
  refine ⟨h', h.next, hr', ⟨by rw [hgy, hcls, hdn], by rw [hgy]; exact hax⟩, f2, h2, out, fun f hf => ?_⟩
  obtain ⟨a1, _, a3⟩ := hf2 f hf
  erw [ho] at a3
  exact ⟨a1, hos, a3⟩
end ADDemo
end Chumpy
