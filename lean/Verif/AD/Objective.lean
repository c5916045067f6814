import Verif.Properties.Concat
import Verif.Properties.Reshape
/-!
# Objectives given as a list (optimization_internal.py:124-145)
-/
namespace Chumpy
open scoped BigOperators Topology

/-! ## The model -/

open Classical in
/-- `while isinstance(a, Reshape): a = a.a` (reordering.py:182-184); the loop need not end on a cyclic graph, hence the bound. -/
noncomputable def ravelBase (g : Graph ClassDef Par) : ℕ → Id → Except Err Id
  | 0, _ => .error .fuel
  | f + 1, a =>
    if (g a).cls = chReshape then
      match (g a).dterms nmA with
      | none => .error .attr
      | some c => ravelBase g f c
    else .ok a

/-- `Reshape(a=b, newshape=(-1,))` (reordering.py:185 as called by `Ch.ravel`, ch.py:195-196). -/
noncomputable def ravelO (b : Id) : ObjSpec ClassDef Par := ⟨chReshape, [nmA], [.term nmP (.ints [-1]), .link nmA b]⟩

/-- `o.ravel()`. -/
noncomputable def ravelObj (f : ℕ) (a : Id) : M ClassDef Par Arr Jac Id := fun h =>
  match ravelBase h.graph f a with
  | .error e => (h, .error e)
  | .ok b => newObj lib (ravelO b).cls (ravelO b).dnames false false (ravelO b).kws h

/-- `[f.ravel() for f in obj]` (optimization_internal.py:138, 141). -/
noncomputable def ravelAll (f : ℕ) : List Id → M ClassDef Par Arr Jac (List Id)
  | [] => M.pure []
  | a :: as => M.bind (ravelObj f a) fun y => M.bind (ravelAll f as) fun ys => M.pure (y :: ys)

/-- The objective made of a list of objectives, or of the values of a dict in the dict's order (optimization_internal.py:137-141). -/
noncomputable def mergeObjective (f : ℕ) (objs : List Id) : M ClassDef Par Arr Jac Id := M.bind (ravelAll f objs) (concatenate f 0)

/-- `setup_objective` up to the making of the `ChInputsStacked` (optimization_internal.py:132-141): the free variables are
checked, then the objectives are merged.  Simplified: what follows (packing the free variables) is the subject of C51 and C52. -/
noncomputable def setupObjective (f : ℕ) (objs frees : List Id) : M ClassDef Par Arr Jac Id :=
  if frees.dedup.length ≠ frees.length then (fun h => (h, .error (.user 2))) else mergeObjective f objs

/-! ## Making objects -/

/-- Making an object changes nothing else: neither values nor derivatives. -/
theorem newObj_all {h : Heap ClassDef Par Arr Jac} (hr : Reach lib ⟨False, True⟩ h) (o : ObjSpec ClassDef Par)
    (hk : ∀ kw ∈ o.kws, kw.Plain h o.dnames) :
    ∃ h', newObj lib o.cls o.dnames false false o.kws h = (h', .ok h.next) ∧ Reach lib ⟨False, True⟩ h' ∧
      (∀ j, h'.graph j = if j = h.next then o.node else h.graph j) ∧
      h'.next = h.next + 1 ∧ (∀ j, (h'.node j).alive = if j = h.next then true else (h.node j).alive) ∧
      (∀ j v, (h.node j).alive = true → Means lib h.graph (.r j) (.ok v) → Means lib h'.graph (.r j) (.ok v)) ∧
      ∀ j w d, (h.node j).alive = true → (h.node w).alive = true → MeansDr lib h.graph j w (.ok d) → MeansDr lib h'.graph j w (.ok d) := by
  have hs := reach_str hr
  obtain ⟨e, _⟩ := newObj_eq (s := lib) hs o hk
  obtain ⟨h1, h2, h3, h4⟩ := newObj_built (s := lib) hs o hk
  have hr' : Reach lib ⟨False, True⟩ (step lib (.new o.cls o.dnames false false o.kws) h).1 :=
    Reach.step _ hr ⟨fun hf => False.elim hf, fun _ => ⟨rfl, rfl⟩⟩
  have es : (step lib (.new o.cls o.dnames false false o.kws) h).1 = (newObj lib o.cls o.dnames false false o.kws h).1 := by
    dsimp only [step, M.map']
  have hoff : SameOff h.graph (step lib (.new o.cls o.dnames false false o.kws) h).1.graph h.next := fun j hj => by rw [h4, if_neg hj]
  refine ⟨(step lib (.new o.cls o.dnames false false o.kws) h).1, ?_, hr', h4, h2, h3, ?_, ?_⟩
  · rw [es, e]
  · intro j v ha ⟨_, f, hf⟩
    refine ⟨by simp, f, ?_⟩
    rw [(evalReq_off lib hoff f j (not_anc_next hs ha)).1]; exact hf
  · intro j w d ha hw ⟨_, f, hf⟩
    refine ⟨by simp, f, ?_⟩
    rw [evalDr_off lib hoff (wrtOff_of_not_anc lib hoff (not_anc_next hs hw)) f j (not_anc_next hs ha)]; exact hf

/-! ## The loop of `reshape` -/

theorem ravelBase_mono {g : Graph ClassDef Par} : ∀ {f f' : ℕ} {a b : Id}, f ≤ f' → ravelBase g f a = .ok b → ravelBase g f' a = .ok b
  | 0, _, _, _, _, h => by cases h
  | f + 1, 0, _, _, hf, _ => by omega
  | f + 1, f' + 1, a, b, hf, h => by
    unfold ravelBase at h ⊢
    split at h
    · next hc =>
      rw [if_pos hc]
      cases hd : (g a).dterms nmA with
      | none => rw [hd] at h; cases h
      | some c => rw [hd] at h; exact ravelBase_mono (by omega) h
    · next hc => rw [if_neg hc]; exact h

/-- An object with a value has an object under its reshapes, and the loop finds it. -/
theorem ravelBase_ends {g : Graph ClassDef Par} : ∀ {F : ℕ} {a : Id} {v : Arr}, evalReq lib g F (.r a) = .ok v →
    ∃ f b, ravelBase g f a = .ok b ∧ ReshapeArg g a b
  | 0, _, _, h => by cases h
  | F + 1, a, v, h => by
    by_cases hc : (g a).cls = chReshape
    · have h' : evalProg g (evalReq lib g F) a chReshape.r = .ok v := by
        have : evalProg g (evalReq lib g F) a (lib.computeR (g a).cls) = .ok v := h
        rwa [hc] at this
      simp only [chReshape, evalProg] at h'
      cases hd : (g a).dterms nmA with
      | none => rw [hd] at h'; cases h'
      | some c =>
        rw [hd] at h'
        cases hu : evalReq lib g F (.r c) with
        | error e => simp only [hu] at h'; cases h'
        | ok u =>
          obtain ⟨f, b, h1, h2⟩ := ravelBase_ends hu
          refine ⟨f + 1, b, ?_, .step hc hd h2⟩
          unfold ravelBase
          rw [if_pos hc, hd]
          exact h1
    · refine ⟨1, a, ?_, .done hc⟩
      unfold ravelBase
      rw [if_neg hc]

theorem ReshapeArg.unique {g : Graph ClassDef Par} {a b b' : Id} (h : ReshapeArg g a b) (h' : ReshapeArg g a b') : b = b' := by
  induction h generalizing b' with
  | done hc =>
    cases h' with
    | done => rfl
    | step hc' => exact absurd hc' hc
  | step hc hd _ ih =>
    cases h' with
    | done hc' => exact absurd hc hc'
    | step _ hd' h' => rw [hd] at hd'; cases hd'; exact ih h'

theorem ReshapeArg.alive {h : Heap ClassDef Par Arr Jac} (hs : Str h) {a b : Id} (hab : ReshapeArg h.graph a b) (ha : (h.node a).alive = true) :
    (h.node b).alive = true := by
  induction hab with
  | done _ => exact ha
  | step _ hd _ ih => exact ih (hs.child_alive hd)

/-- New objects do not disturb the loop. -/
theorem ReshapeArg.keep {h h' : Heap ClassDef Par Arr Jac} (hs : Str h) (hg : ∀ j, (h.node j).alive = true → h'.graph j = h.graph j) {a b : Id}
    (hab : ReshapeArg h.graph a b) (ha : (h.node a).alive = true) : ReshapeArg h'.graph a b := by
  induction hab with
  | done hc => exact .done (by rw [hg _ ha]; exact hc)
  | step hc hd _ ih => exact .step (by rw [hg _ ha]; exact hc) (by rw [hg _ ha]; exact hd) (ih (hs.child_alive hd))

theorem ravelBase_keep {h h' : Heap ClassDef Par Arr Jac} (hs : Str h) (hg : ∀ j, (h.node j).alive = true → h'.graph j = h.graph j) :
    ∀ {f : ℕ} {a : Id}, (h.node a).alive = true → ravelBase h'.graph f a = ravelBase h.graph f a
  | 0, _, _ => rfl
  | f + 1, a, ha => by
    unfold ravelBase
    rw [hg a ha]
    split
    · cases hd : (h.graph a).dterms nmA with
      | none => rfl
      | some c => exact ravelBase_keep hs hg (hs.child_alive hd)
    · rfl

theorem ravelObj_mono {f f' : ℕ} (hf : f ≤ f') {a y : Id} {h h' : Heap ClassDef Par Arr Jac} (e : ravelObj f a h = (h', .ok y)) :
    ravelObj f' a h = (h', .ok y) := by
  unfold ravelObj at e ⊢
  cases hb : ravelBase h.graph f a with
  | error e' => rw [hb] at e; cases e
  | ok b => rw [hb] at e; rw [ravelBase_mono hf hb]; exact e

theorem ravelAll_mono {f f' : ℕ} (hf : f ≤ f') : ∀ {objs ys : List Id} {h h' : Heap ClassDef Par Arr Jac}, ravelAll f objs h = (h', .ok ys) →
    ravelAll f' objs h = (h', .ok ys)
  | [], _, _, _, e => e
  | a :: as, ys, h, h', e => by
    simp only [ravelAll, M.bind] at e ⊢
    rcases h1 : ravelObj f a h with ⟨k, r⟩
    rw [h1] at e
    cases r with
    | error e' => cases e
    | ok y =>
      rw [ravelObj_mono hf h1]
      dsimp only at e ⊢
      rcases h2 : ravelAll f as k with ⟨k', r'⟩
      rw [h2] at e
      cases r' with
      | error e' => cases e
      | ok ys' => rw [ravelAll_mono hf h2]; exact e

/-- Making the flattened objectives. -/
theorem ravelAll_state : ∀ (objs : List Id) {h : Heap ClassDef Par Arr Jac} {f : ℕ} {bs : List Id}, Reach lib ⟨False, True⟩ h →
    (∀ x ∈ objs, (h.node x).alive = true) → List.Forall₂ (fun a b => ravelBase h.graph f a = .ok b ∧ ReshapeArg h.graph a b) objs bs →
    ∃ h', ravelAll f objs h = (h', .ok ((List.range objs.length).map (h.next + ·))) ∧ Reach lib ⟨False, True⟩ h' ∧ h'.next = h.next + objs.length ∧
      (∀ j (hj : j < bs.length), h'.graph (h.next + j) = (ravelO bs[j]).node) ∧ (∀ j, j < h.next → h'.graph j = h.graph j) ∧
      (∀ j, (h.node j).alive = true → (h'.node j).alive = true) ∧ (∀ j < objs.length, (h'.node (h.next + j)).alive = true) ∧
      (∀ j v, (h.node j).alive = true → Means lib h.graph (.r j) (.ok v) → Means lib h'.graph (.r j) (.ok v)) ∧
      ∀ j w d, (h.node j).alive = true → (h.node w).alive = true → MeansDr lib h.graph j w (.ok d) → MeansDr lib h'.graph j w (.ok d)
  | [], h, f, bs, hr, _, hb => by
    cases hb
    exact ⟨h, rfl, hr, rfl, by simp, fun _ _ => rfl, fun _ h => h, by simp, fun _ _ _ h => h, fun _ _ _ _ _ h => h⟩
  | x :: ms, h, f, bs, hr, ha, hb => by
    cases hb with
    | @cons _ b _ bs hxb hbs =>
    have hs := reach_str hr
    obtain ⟨h1, e1, hr1, hg1, hn1, ha1, hk1, hd1⟩ := newObj_all hr (ravelO b) (by
      intro kw hm
      simp only [ravelO, List.mem_cons, List.not_mem_nil, or_false] at hm
      rcases hm with rfl | rfl
      · trivial
      · exact ⟨by simp [ravelO], hxb.2.alive hs (ha x (by simp))⟩)
    have hal1 : ∀ j, (h.node j).alive = true → (h1.node j).alive = true := fun j hj => by
      rw [ha1]; split
      · rfl
      · exact hj
    have hsame : ∀ j, (h.node j).alive = true → h1.graph j = h.graph j := fun j hj => by
      rw [hg1, if_neg (Nat.ne_of_lt (hs.alive_lt hj))]
    have hbs' : List.Forall₂ (fun a b => ravelBase h1.graph f a = .ok b ∧ ReshapeArg h1.graph a b) ms bs := by
      rw [List.forall₂_iff_get] at hbs ⊢
      refine ⟨hbs.1, fun j h1' h2' => ?_⟩
      obtain ⟨p, q⟩ := hbs.2 j h1' h2'
      have hal := ha (ms.get ⟨j, h1'⟩) (by simp)
      exact ⟨by rw [ravelBase_keep hs hsame hal]; exact p, q.keep hs hsame hal⟩
    obtain ⟨h2, e2, hr2, hn2, hg2, hg2', ha2, ha2', hk2, hd2⟩ := ravelAll_state ms hr1 (fun j hj => hal1 j (ha j (by simp [hj]))) hbs'
    refine ⟨h2, ?_, hr2, by rw [hn2, hn1, List.length_cons]; omega, ?_, ?_, fun j hj => ha2 j (hal1 j hj), ?_,
      fun j v hj hv => hk2 j v (hal1 j hj) (hk1 j v hj hv), fun j w d hj hw hv => hd2 j w d (hal1 j hj) (hal1 w hw) (hd1 j w d hj hw hv)⟩
    · have el : (List.range (x :: ms).length).map (h.next + ·) = h.next :: (List.range ms.length).map (h1.next + ·) := by
        rw [List.length_cons, List.range_succ_eq_map, List.map_cons, List.map_map, Nat.add_zero]
        congr 1
        refine List.map_congr_left fun j _ => ?_
        show h.next + (j + 1) = h1.next + j
        rw [hn1, Nat.add_right_comm, Nat.add_assoc]
      simp only [ravelAll, M.bind, ravelObj]
      rw [hxb.1]
      dsimp only
      rw [e1]
      dsimp only [M.bind]
      rw [e2, el]
      rfl
    · intro j hj
      cases j with
      | zero =>
        rw [Nat.add_zero, hg2' _ (by rw [hn1]; exact Nat.lt_succ_self _), hg1, if_pos rfl]; rfl
      | succ j =>
        have := hg2 j (by simpa using hj)
        rw [hn1] at this
        rw [show h.next + (j + 1) = h.next + 1 + j by rw [Nat.add_right_comm, Nat.add_assoc], this]; rfl
    · intro j hj
      rw [hg2' j (by rw [hn1]; exact Nat.lt_succ_of_lt hj), hg1, if_neg (Nat.ne_of_lt hj)]
    · intro j hj
      cases j with
      | zero => exact ha2 _ (by rw [ha1, Nat.add_zero, if_pos rfl])
      | succ j =>
        have := ha2' j (by simpa using hj)
        rw [hn1] at this
        rwa [show h.next + (j + 1) = h.next + 1 + j by rw [Nat.add_right_comm, Nat.add_assoc]]

/-! ## The derivative of a concatenation of any objects -/

/-- Not a number. -/
def Jac.NotNum : Jac → Prop
  | .num _ => False
  | _ => True

theorem Jac.add_notNum {d e : Jac} {m n : ℕ} {A B : Ent} (hd : Jac.Rep d m n A) (he : Jac.Rep e m n B) (h1 : d.NotNum) (h2 : e.NotNum) :
    ∃ x, Jac.add d e = .ok x ∧ x.NotNum := by
  cases d with
  | num a => exact h1.elim
  | dense m1 n1 e1 =>
    obtain ⟨rfl, rfl, _⟩ := hd
    cases e with
    | num a => exact h2.elim
    | dense m2 n2 e2 =>
      obtain ⟨rfl, rfl, _⟩ := he
      refine ⟨?_, ?_, ?_⟩
      rotate_left
      · simp only [Jac.add, bdim, if_true]; exact rfl
      · trivial
    | sparse m2 n2 e2 =>
      obtain ⟨rfl, rfl, _⟩ := he
      refine ⟨?_, ?_, ?_⟩
      rotate_left
      · simp only [Jac.add]; rw [if_pos (by simp)]
      · trivial
  | sparse m1 n1 e1 =>
    obtain ⟨rfl, rfl, _⟩ := hd
    cases e with
    | num a => exact h2.elim
    | dense m2 n2 e2 =>
      obtain ⟨rfl, rfl, _⟩ := he
      refine ⟨?_, ?_, ?_⟩
      rotate_left
      · simp only [Jac.add]; rw [if_pos (by simp)]
      · trivial
    | sparse m2 n2 e2 =>
      obtain ⟨rfl, rfl, _⟩ := he
      refine ⟨?_, ?_, ?_⟩
      rotate_left
      · simp only [Jac.add]; rw [if_pos (by simp)]
      · trivial

theorem sumD_notNum {m n : ℕ} : ∀ {ds : List Jac}, (∀ d ∈ ds, d.NotNum ∧ ∃ E, Jac.Rep d m n E) → ∃ o, sumD lib ds = .ok o := by
  have key : ∀ (ds : List Jac) (d0 : Jac) (E : Ent), d0.NotNum → Jac.Rep d0 m n E → (∀ d ∈ ds, d.NotNum ∧ ∃ E, Jac.Rep d m n E) →
      ∃ x, ds.foldlM lib.add d0 = .ok x := by
    intro ds
    induction ds with
    | nil => intro d0 E _ _ _; exact ⟨_, rfl⟩
    | cons d ds ih =>
      intro d0 E h0 hE hd
      obtain ⟨h1, E1, hE1⟩ := hd d (by simp)
      obtain ⟨x, hx, hm⟩ := Jac.add_notNum hE hE1 h0 h1
      obtain ⟨z, hz⟩ := ih x _ hm (Jac.add_rep hE hE1 hx) (fun d h => hd d (by simp [h]))
      refine ⟨z, ?_⟩
      rw [List.foldlM_cons, show lib.add d0 d = .ok x from hx]
      exact hz
  intro ds hd
  cases ds with
  | nil => exact ⟨_, rfl⟩
  | cons d ds =>
    obtain ⟨h1, E1, hE1⟩ := hd d (by simp)
    obtain ⟨x, hx⟩ := key ds d E1 h1 hE1 (fun d h => hd d (by simp [h]))
    exact ⟨some x, by simp only [sumD]; rw [hx]; rfl⟩

theorem Jac.superdot_sparse {m n p : ℕ} {e : Ent} {d : Jac} {A B : Ent} (he : Jac.Rep (.sparse m n e) m n A) (hd : Jac.Rep d n p B) :
    ∃ x, Jac.superdot (.sparse m n e) d = .ok x ∧ Jac.Rep x m p (Ent.mul n A B) ∧ x.NotNum := by
  obtain ⟨x, hx, hr⟩ := Jac.superdot_rep he hd
  refine ⟨x, hx, hr, ?_⟩
  unfold Jac.superdot at hx
  rw [show (Jac.sparse m n e).unwrap = Jac.sparse m n e from rfl] at hx
  cases hu : d.unwrap with
  | num c => rw [hu] at hx; cases hx; trivial
  | dense m1 n1 e1 =>
    rw [hu] at hx
    simp only [Jac.matdot] at hx
    split at hx
    · cases hx; trivial
    · cases hx
  | sparse m1 n1 e1 =>
    rw [hu] at hx
    simp only [Jac.matdot] at hx
    split at hx
    · cases hx; trivial
    · cases hx

section
variable {g : Graph ClassDef Par} {y w : Id} {ns : List Name} {kids : Fin ns.length → Id} {v : Fin ns.length → Arr} {ax : ℤ} {i n : ℕ} {out : Arr}
  {Q : Fin ns.length → Ent}

/-- The derivative of a concatenation of different objects, none of them the one asked about. -/
theorem DrRep.concat (hy : IsA g y (chConcat ns) ns kids) (hp : (g y).terms nmP = some (.int ax)) (hinj : Function.Injective kids)
    (hk : ∀ a, Means lib g (.r (kids a)) (.ok (v a))) (hi : normAxis out.shape.length ax = some i) (hc : IsConcat i (List.ofFn v) out)
    (hyw : y ≠ w) (hkw : ∀ a, kids a ≠ w) (hyk : ∀ a, y ≠ kids a) (hw : lib.isPermute (g w).cls = false)
    (hQ : ∀ a, DrRep g (kids a) w (v a).size n (Q a)) :
    Means lib g (.r y) (.ok out) ∧ DrRep g y w out.size n
      (∑ a, Ent.mul (v a).size (placeE i out.shape (v a).shape (startOf i ((List.ofFn v).map Arr.shape) a)) (Q a)) := by
  have hE := exact_concat hy.nodup hp hi hc
  have hout : Means lib g (.r y) (.ok out) := means_of_isA hy hk hE.val
  refine ⟨hout, ?_⟩
  have hn : (g y).namesOf w = [] := by
    unfold GNode.namesOf
    rw [List.filter_eq_nil_iff, hy.dnames]
    intro k hk'
    obtain ⟨a, rfl⟩ := List.get_of_mem hk'
    rw [hy.kid a]
    simpa using hkw a
  have hns : ∀ a, (g y).namesOf (kids a) = [ns.get a] := by
    intro a
    have hmem : ∀ b, ns.get b ∈ (g y).namesOf (kids a) ↔ b = a := by
      intro b
      unfold GNode.namesOf
      rw [List.mem_filter, hy.dnames]
      simp only [List.get_mem, true_and, decide_eq_true_eq]
      rw [hy.kid b]
      exact ⟨fun e => hinj (Option.some.inj e), fun e => by rw [e]⟩
    have hsub : ((g y).namesOf (kids a)).Sublist ns := by unfold GNode.namesOf; rw [hy.dnames]; exact List.filter_sublist
    have hnd := hy.nodup.sublist hsub
    refine List.perm_singleton.1 ((List.perm_ext_iff_of_nodup hnd (List.nodup_singleton _)).2 fun n => ?_)
    constructor
    · intro hmn
      obtain ⟨b, rfl⟩ := List.get_of_mem (hsub.subset hmn)
      rw [(hmem b).1 hmn]; simp
    · intro hmn
      rw [List.mem_singleton] at hmn
      rw [hmn]; exact (hmem a).2 rfl
  let P : Fin ns.length → Ent := fun a => placeE i out.shape (v a).shape (startOf i ((List.ofFn v).map Arr.shape) a)
  have hterms : ∀ (as : List (Fin ns.length)) (acc : List Jac) (A : Ent), (∀ d ∈ acc, d.NotNum ∧ ∃ E, Jac.Rep d out.size n E) →
      SumRep num acc out.size n A →
      ∃ ds, TermsIs lib g y w (as.map ns.get) acc ds ∧ (∀ d ∈ ds, d.NotNum ∧ ∃ E, Jac.Rep d out.size n E) ∧
        SumRep num ds out.size n (A + (as.map fun a => Ent.mul (v a).size (P a) (Q a)).sum) := by
    intro as
    induction as with
    | nil => intro acc A h1 h2; exact ⟨acc, .nil .., h1, by simpa using h2⟩
    | cons a as ih =>
      intro acc A h1 h2
      obtain ⟨o, ho, hoQ⟩ := hQ a
      rw [List.map_cons, List.map_cons, List.sum_cons, ← add_assoc]
      cases o with
      | none =>
        obtain ⟨ds, hds, hsp, hrep⟩ := ih acc (A + Ent.mul (v a).size (P a) (Q a)) h1 (by
          refine h2.congr fun r _ c hc => ?_
          show _ = A r c + ∑ k ∈ Finset.range (v a).size, P a r k * Q a k c
          rw [Finset.sum_eq_zero (fun k hk => ?_), add_zero]
          have : Q a k c = 0 := hoQ k (Finset.mem_range.1 hk) c hc
          rw [this, mul_zero])
        exact ⟨ds, .none (hy.kid a) (hkw a) ho hds, hsp, hrep⟩
      | some d2 =>
        obtain ⟨e, he1, he2⟩ := concat_dr hy.nodup hp hi hc [ns.get a] (v a) (by simp)
          (List.singleton_sublist.2 (List.get_mem ..)) (fun b hb => by
            rw [List.mem_singleton] at hb
            rw [(List.nodup_iff_injective_get.1 hy.nodup) hb])
        have hs : SlicedIs lib g y (kids a) (some (.sparse out.size (v a).size e)) :=
          SlicedIs.some (compIs_isA hy hk hout (hyk a) (by rw [hns a]; exact he1))
        have hsum : (∑ b with ns.get b ∈ [ns.get a], P b) = P a := by
          have : (Finset.univ.filter fun b => ns.get b ∈ [ns.get a]) = {a} := by
            ext b
            simp only [Finset.mem_filter, Finset.mem_univ, true_and, Finset.mem_singleton, List.mem_singleton]
            exact ⟨fun e => (List.nodup_iff_injective_get.1 hy.nodup) e, fun e => by rw [e]⟩
          rw [this, Finset.sum_singleton]
        have hR : Jac.Rep (Jac.sparse out.size (v a).size e) out.size (v a).size (P a) := by
          refine ⟨rfl, rfl, fun r hr' j hj => ?_⟩
          have := he2 r hr' j hj
          rw [this]
          exact congrFun (congrFun hsum r) j
        obtain ⟨x, hx, hxr, hxm⟩ := Jac.superdot_sparse hR hoQ
        obtain ⟨ds, hds, hsp, hrep⟩ := ih (acc ++ [x]) (A + Ent.mul (v a).size (P a) (Q a)) (by
          intro d' hd'
          rcases List.mem_append.1 hd' with h' | h'
          · exact h1 d' h'
          · rw [List.mem_singleton] at h'; rw [h']; exact ⟨hxm, _, hxr⟩) (h2.append hxr)
        exact ⟨ds, .some (hy.kid a) (hkw a) ho hs hx hds, hsp, hrep⟩
  obtain ⟨ds, hds, hsp, hrep⟩ := hterms (List.finRange ns.length) [] 0 (by simp) (SumRep.nil _ _)
  rw [show (List.finRange ns.length).map ns.get = ns from List.ext_getElem (by simp) fun j _ _ => by simp] at hds
  obtain ⟨o, ho⟩ := sumD_notNum hsp
  have hro := sumD_rep hrep ho
  have hdr := drIs (SlicedIs.none (compIs_none lib_localDr hyw hn) hw) (by rw [hy.dnames]; exact hds) ho
  rw [zero_add, ← Fin.sum_univ_def] at hro
  refine ⟨_, hdr, ?_⟩
  cases o with
  | none => exact hro
  | some d' => exact Jac.outForm_rep _ _ (Jac.finish_rep hro)
end
end Chumpy
