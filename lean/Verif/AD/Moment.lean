import Verif.AD.Operators
import Verif.AD.Straight
import Verif.Properties.Reduce
/-!
# Central moments (extras.py:58-74)
-/
namespace Chumpy
open scoped BigOperators Topology

/-! ## The model -/

/-- `a.mean(axis=z)` (ch.py:574-575, ch_ops.py:341). -/
noncomputable def meanO (z : ℤ) (a : Id) : ObjSpec ClassDef Par := ⟨chMean, [nmA], [.term nmP (.int z), .link nmA a]⟩

/-- `Reshape(a=b, newshape=sh)` (reordering.py:185). -/
noncomputable def reshapeO (sh : List ℕ) (b : Id) : ObjSpec ClassDef Par :=
  ⟨chReshape, [nmA], [.term nmP (.ints (sh.map fun (k : ℕ) => (k : ℤ))), .link nmA b]⟩

/-- The constructor call that makes the object `o`. -/
noncomputable def makeObj (o : ObjSpec ClassDef Par) : M ClassDef Par Arr Jac Id := newObj lib o.cls o.dnames false false o.kws

/-- `a.reshape(sh)` for a shape without -1 (ch.py:192-193, reordering.py:181-185). -/
noncomputable def reshapeObj (f : ℕ) (sh : List ℕ) (a : Id) : M ClassDef Par Arr Jac Id := fun h =>
  match ravelBase h.graph f a with
  | .error e => (h, .error e)
  | .ok b => makeObj (reshapeO sh b) h

/-- `expand_dims(a, axis)` of an object (reordering.py:345-349). -/
noncomputable def expandDims (f : ℕ) (z : ℤ) (a : Id) : M ClassDef Par Arr Jac Id :=
  M.bind (read lib f (.r a)) fun v =>
    match expandShape v.shape z with
    | none => fun h => (h, .error (.user 3))
    | some o => reshapeObj f o a

/-- `moment(a, moment=k, axis=z)` of an object for a natural number `k` (extras.py:58-74).  The result is an object or, for the first moment
of a vector, a number. -/
noncomputable def moment (f k : ℕ) (z : ℤ) (a : Id) : M ClassDef Par Arr Jac Operand :=
  if k = 1 then
    M.bind (read lib f (.r a)) fun v =>
      match normAxis v.shape.length z with
      | none => fun h => (h, .error (.user 3))
      | some i =>
        if v.shape.eraseIdx i = [] then M.pure (.val ⟨[], fun _ => 0⟩)
        else M.bind (makeObj (leafO (Arr.of (v.shape.eraseIdx i) fun _ => 0))) fun y => M.pure (.obj y)
  else
    M.bind (makeObj (meanO z a)) fun m =>
    M.bind (expandDims f z m) fun mn =>
    M.bind (binop true false .sub (.obj a) (.obj mn)) fun d =>
    M.bind (makeBin chPow (.obj d) (.val ⟨[], fun _ => k⟩)) fun s =>
    M.bind (makeObj (meanO z s)) fun y => M.pure (.obj y)

/-! ## Broadcasting against an array with one axis shortened to length 1 -/

theorem bidxR_append : ∀ (s o : List ℕ) (m n k : ℕ), s.length = o.length → k < o.prod * n →
    bidxR (s ++ [m]) (o ++ [n]) k = bidxR s o (k % o.prod) + s.prod * (if m = 1 then 0 else k / o.prod)
  | [], [], m, n, k, _, hk => by
    simp only [List.prod_nil, one_mul] at hk
    simp [bidxR, Nat.mod_eq_of_lt hk]
  | [], _ :: _, _, _, _, hl, _ => by simp at hl
  | _ :: _, [], _, _, _, hl, _ => by simp at hl
  | a :: s, b :: o, m, n, k, hl, hk => by
    simp only [List.prod_cons] at hk
    have hk' : k / b < o.prod * n := Nat.div_lt_of_lt_mul (by rw [← mul_assoc]; exact hk)
    simp only [List.cons_append, bidxR, List.prod_cons]
    rw [bidxR_append s o m n (k / b) (by simpa using hl) hk', Nat.mod_mul_right_mod, Nat.mod_mul_right_div_self, Nat.div_div_eq_div_mul]
    ring

theorem bidx_cons {s o : List ℕ} {m n k : ℕ} (hl : s.length = o.length) (hk : k < n * o.prod) :
    bidx (m :: s) (n :: o) k = bidx s o (k % o.prod) + s.prod * (if m = 1 then 0 else k / o.prod) := by
  unfold bidx
  rw [List.reverse_cons, List.reverse_cons, bidxR_append _ _ _ _ _ (by simpa using hl) (by rw [prod_reverse, mul_comm]; exact hk), prod_reverse,
    prod_reverse]

theorem prod_set_one : ∀ {sh : List ℕ} {i : ℕ}, i < sh.length → (sh.set i 1).prod = (sh.eraseIdx i).prod
  | n :: sh, 0, _ => by simp
  | n :: sh, i + 1, hi => by
    rw [List.set_cons_succ, List.eraseIdx_cons_succ, List.prod_cons, List.prod_cons, prod_set_one (by simpa using hi)]

theorem bidx_set_one : ∀ {sh c : List ℕ} {i : ℕ}, i < sh.length → InB sh c →
    bidx (sh.set i 1) sh (ravel sh c) = ravel (sh.eraseIdx i) (c.eraseIdx i)
  | n :: sh, [], _, _, hc => by simp [InB] at hc
  | n :: sh, x :: c, i, hi, hc => by
    have hx : x < n ∧ InB sh c := by cases hc; exact ⟨by assumption, by assumption⟩
    have hlt : ravel sh c < sh.prod := ravel_lt hx.2
    have hk : ravel (n :: sh) (x :: c) < n * sh.prod := by have := ravel_lt hc; rwa [List.prod_cons] at this
    have e1 : ravel (n :: sh) (x :: c) % sh.prod = ravel sh c := by
      rw [ravel, Nat.mul_comm, Nat.mul_add_mod, Nat.mod_eq_of_lt hlt]
    have e2 : ravel (n :: sh) (x :: c) / sh.prod = x := by
      rw [ravel, Nat.mul_comm, Nat.mul_add_div (Nat.zero_lt_of_lt hlt), Nat.div_eq_of_lt hlt, Nat.add_zero]
    cases i with
    | zero =>
      rw [List.set_cons_zero, bidx_cons rfl hk, e1, bidx_self hlt, if_pos rfl]
      rfl
    | succ i =>
      have hi' : i < sh.length := by simpa using hi
      rw [List.set_cons_succ, bidx_cons (by simp) hk, e1, e2, bidx_set_one hi' hx.2, prod_set_one hi', List.eraseIdx_cons_succ, List.eraseIdx_cons_succ, ravel]
      split
      · next h1 => subst h1; have : x = 0 := by omega
                   subst this; simp
      · ring

theorem bshape_set_one (sh : List ℕ) (i : ℕ) : bshape sh (sh.set i 1) = some sh := by
  rw [bshape_spec]
  refine ⟨by simp, fun j hj => ?_⟩
  by_cases h : axisR (sh.set i 1) j = 1
  · exact Or.inr (Or.inr ⟨h, rfl⟩)
  · left
    refine ⟨?_, rfl⟩
    unfold axisR at h ⊢
    rw [List.getD_eq_getElem _ _ (by simpa using hj), List.getElem_reverse] at h ⊢
    rw [List.getD_eq_getElem _ _ (by simpa using hj), List.getElem_reverse]
    rw [List.getElem_set] at h ⊢
    by_cases hi : i = sh.length - 1 - j
    · simp [hi] at h
    · simp [hi]

theorem bshape_one {sh : List ℕ} (h : sh ≠ []) : bshape sh [1] = some sh := by
  rw [bshape_spec]
  have hp := List.length_pos_of_ne_nil h
  refine ⟨by simp; omega, fun j hj => Or.inr (Or.inr ⟨?_, rfl⟩)⟩
  unfold axisR
  rcases j with _ | j <;> simp

/-! ## Making and reading objects -/

section
variable {h h' h'' : Heap ClassDef Par Arr Jac}

theorem AllKept.trans (a : AllKept h h') (b : AllKept h' h'') : AllKept h h'' :=
  ⟨fun j hj => b.alive j (a.alive j hj), fun j hj => (b.same j (a.alive j hj)).trans (a.same j hj),
    fun j v hj hv => b.value j v (a.alive j hj) (a.value j v hj hv),
    fun j w d hj hw hd => b.deriv j w d (a.alive j hj) (a.alive w hw) (a.deriv j w d hj hw hd)⟩

theorem AllKept.of_eq (hg : h'.graph = h.graph) (ha : ∀ j, (h'.node j).alive = (h.node j).alive) : AllKept h h' :=
  ⟨fun j hj => (ha j).trans hj, fun j _ => by rw [hg], fun j v _ hv => by rw [hg]; exact hv, fun j w d _ _ hd => by rw [hg]; exact hd⟩

theorem IsA.keep (k : AllKept h h') {i : Id} (hi : (h.node i).alive = true) {c : ClassDef} {ns : List Name} {kids : Fin ns.length → Id}
    (a : IsA h.graph i c ns kids) : IsA h'.graph i c ns kids := by
  have e := k.same i hi
  exact ⟨by rw [e]; exact a.cls, by rw [e]; exact a.dnames, a.nodup, fun j => by rw [e]; exact a.kid j⟩

theorem IsLeaf.keep (k : AllKept h h') {i : Id} (hi : (h.node i).alive = true) (a : IsLeaf h.graph i) : IsLeaf h'.graph i := by
  have e := k.same i hi
  exact ⟨by rw [e]; exact a.1, by rw [e]; exact a.2.1, by rw [e]; exact a.2.2⟩

/-- One new object. -/
structure MadeObj (h h' : Heap ClassDef Par Arr Jac) (o : ObjSpec ClassDef Par) (i : Id) : Prop where
  reach : Reach lib ⟨False, True⟩ h'
  kept : AllKept h h'
  dead : (h.node i).alive = false
  alive : (h'.node i).alive = true
  node : h'.graph i = o.node

theorem makeObj_made (hr : Reach lib ⟨False, True⟩ h) (o : ObjSpec ClassDef Par) (hk : ∀ kw ∈ o.kws, kw.Plain h o.dnames) :
    ∃ h' i, makeObj o h = (h', .ok i) ∧ MadeObj h h' o i := by
  have hs := reach_str hr
  obtain ⟨h', e, hr', hg, _, ha, hv1, hd1⟩ := newObj_all hr o hk
  refine ⟨h', h.next, e, hr', ⟨?_, ?_, hv1, hd1⟩, hs.unborn _ (Nat.le_refl _), by rw [ha, if_pos rfl], by rw [hg, if_pos rfl]⟩
  · intro j hj; rw [ha]; split
    · rfl
    · exact hj
  · intro j hj
    rw [hg, if_neg (fun e => absurd (hs.alive_lt hj) (by subst e; exact Nat.lt_irrefl _))]

theorem plain_un {p : Par} {k : Name} {a : Id} (ha : (h.node a).alive = true) :
    ∀ kw ∈ [KW.term k p, .link nmA a], kw.Plain h [nmA] := by
  intro kw hm
  simp only [List.mem_cons, List.not_mem_nil, or_false] at hm
  rcases hm with rfl | rfl
  · trivial
  · exact ⟨by simp, ha⟩

theorem isA_meanO {g : Graph ClassDef Par} {y a : Id} {z : ℤ} (hg : g y = (meanO z a).node) :
    IsA g y chMean [nmA] (fun _ => a) ∧ (g y).terms nmP = some (.int z) := by
  refine ⟨⟨by rw [hg]; rfl, by rw [hg]; rfl, by simp, fun j => ?_⟩, by rw [hg]; rfl⟩
  have : j = (0 : Fin 1) := Subsingleton.elim (α := Fin 1) _ _
  subst this; rw [hg]; rfl

theorem isA_reshapeO {g : Graph ClassDef Par} {y b : Id} {sh : List ℕ} (hg : g y = (reshapeO sh b).node) :
    IsA g y chReshape [nmA] (fun _ => b) ∧ (g y).terms nmP = some (.ints (sh.map fun (k : ℕ) => (k : ℤ))) := by
  refine ⟨⟨by rw [hg]; rfl, by rw [hg]; rfl, by simp, fun j => ?_⟩, by rw [hg]; rfl⟩
  have : j = (0 : Fin 1) := Subsingleton.elim (α := Fin 1) _ _
  subst this; rw [hg]; rfl

/-- Reading a value changes nothing. -/
theorem read_kept (hr : Reach lib ⟨False, True⟩ h) {a : Id} {v : Arr} (ha : (h.node a).alive = true) (hv : Means lib h.graph (.r a) (.ok v)) :
    ∃ f₀, ∀ f ≥ f₀, ∃ h', read lib f (.r a) h = (h', .ok v) ∧ Reach lib ⟨False, True⟩ h' ∧ AllKept h h' ∧ h'.graph = h.graph := by
  obtain ⟨f₀, hf₀⟩ := read_of_means hr hv
  refine ⟨f₀, fun f hf => ⟨(read lib f (.r a) h).1, by rw [← hf₀ f hf], ?_⟩⟩
  have e : (step lib (.readR f a) h).1 = (read lib f (.r a) h).1 := by
    simp only [step, ifAlive, ha, if_true, M.map']
  have hr' : Reach lib ⟨False, True⟩ (step lib (.readR f a) h).1 := Reach.step _ hr trivial
  have hre : ∀ op ∈ ([.readR f a] : List (Op ClassDef Par Jac)), op.IsRead := by
    intro op ho; rw [List.mem_singleton] at ho; subst ho; constructor
  obtain ⟨h1, _, h3, _⟩ := C09_reads_change_no_link (s := lib) [.readR f a] hre h
  have e2 : Chumpy.run lib [.readR f a] h = (step lib (.readR f a) h).1 := rfl
  rw [e2, e] at h1
  rw [e2] at h3; rw [e] at h3
  rw [e] at hr'
  exact ⟨hr', AllKept.of_eq h1 h3, h1⟩
end
end Chumpy
