import Verif.Properties.DoglegHeap
/-!
# `minimize` with the dogleg method, from the call on

`setup_objective` makes the stacked objective in the state the user's history has left; then the loop of `Machine` runs on the object graph.
-/
namespace Chumpy
open scoped BigOperators Topology
open Dog

/-- The array `np.concatenate(...)` makes of the entries. -/
noncomputable def listArr (xs : List ℝ) : Arr := Arr.of [xs.length] fun k => xs.getD k 0

/-- The keywords of `ChInputsStacked(obj=obj, free_variables=free_variables, x=x, …)` (optimization_internal.py:142) that are differentiable terms.
`Ch.set` goes through them in the order of a Python set of strings (ch.py:472-475), which is not specified: `flip` stands for it.
Simplified: the free variables and `make_dense` are handed to the methods instead of being stored. -/
noncomputable def stackedKws (flip : Bool) (o : Id) (xv : Arr) : List (KW Par) :=
  if flip then [.wrap nmX (.arr xv), .link nmObj o] else [.link nmObj o, .wrap nmX (.arr xv)]

/-- `setup_objective` (optimization_internal.py:124-142) for one objective `o`: the check for a free variable given twice, packing, and the
stacked objective. -/
noncomputable def stackedFor (f : ℕ) (flip : Bool) (o : Id) (fvs : List Id) : M ClassDef Par Arr Jac Id :=
  if fvs.dedup.length ≠ fvs.length then M.throw (.user 2)
  else M.bind (pack f fvs) fun xs => newObj lib chStacked [nmX, nmObj] false false (stackedKws flip o (listArr xs))

/-- `minimize_dogleg(obj, free_variables, …)` in exact arithmetic (optimization_internal.py:358-455), called in the state `h`, after `k` turns of
its loops: the stacked objective, and where the loop is. -/
noncomputable def minimizeDogleg (n m f : ℕ) (flip disp md ms : Bool) (o : Id) (fvs : List Id) (solve : (RVec n →L[ℝ] RVec n) → RVec n → RVec n)
    (opt : DogOpts ℝ) (h : Heap ClassDef Par Arr Jac) (k : ℕ) :
    Except Err (Id × PC × DogState ℝ (RVec n) (RVec m) (RVec n →L[ℝ] RVec m) (RVec n →L[ℝ] RVec n) (Heap ClassDef Par Arr Jac)) :=
  match stackedFor f flip o fvs h with
  | (_, .error e) => .error e
  | (h', .ok y) =>
    match runM (realOps solve (fun _ => 0) (fun _ => 0) (fun _ w => w) (fun _ => 0)) opt (heapActs n m f disp md ms y fvs) h' k with
    | .error e => .error e
    | .ok x => .ok (y, x)

section
variable {C T V D : Type} {s : Sig C T V D}

theorem setDterm_state {h : Heap C T V D} (hs : Str h) {i c : Id} {k : Name} {itr : Option Nat} (hi : (h.node i).alive = true)
    (hc : (h.node c).alive = true) (hk : k ∈ (h.graph i).dnames) (ht : ∀ t, itr = some t → t ≤ h.giter ∨ t = 9999) :
    ∃ h', setDterm s i k c itr h = (h', .ok ()) ∧ Str h' ∧ h'.next = h.next ∧ h'.giter = h.giter ∧ (∀ j, (h'.node j).alive = (h.node j).alive) ∧
      h'.graph = setLink h.graph i k c ∧ (itr = none → (h'.node i).itr = none) ∧
      ((∀ j m, (setLink h.graph i k c j).dterms m ≠ some i) → ∀ j, j ≠ i → (h'.node j).itr = (h.node j).itr) ∧
      (itr = none → ∀ j, (h'.node j).itr = none ∨ (h'.node j).itr = (h.node j).itr) := by
  obtain ⟨ok, h2, w, _, hg⟩ := setDterm_writing (s := s) h hs i k c itr hc
  have e : setattr s i itr (.link k c) h = setDterm s i k c itr h := by
    simp only [setattr]; rw [if_pos ⟨hk, hc⟩]
  obtain ⟨_, b⟩ := setattr_built (s := s) hs hi (kw := .link k c) ⟨hk, hc⟩ ht
  rw [e] at b
  obtain ⟨S, hp⟩ := w.post
  refine ⟨_, Prod.ext rfl ok, b.str, b.next, b.giter, b.alive, hg, ?_, ?_, ?_⟩
  · rintro rfl
    rcases hp.start with h3 | h3
    · rw [(w.same4 i).2.2.2.1]; exact (hp.wiped i h3).2.2
    · cases h3.1
  · intro hno j hj
    have hS : j ∉ S := by
      intro hm
      have ha := up_anc w.links (hp.sound j hm).1
      rw [hg] at ha
      have key : ∀ j, Anc (setLink h.graph i k c) i j → j = i := by
        intro j ha
        induction ha with
        | refl => rfl
        | step m hm _ ih => subst ih; exact absurd hm (hno _ m)
      exact hj (key j ha)
    rw [(w.same4 j).2.2.2.1, (hp.kept j hS).2.2, w.itr2]
  · rintro rfl j
    exact w.itr_old j

theorem newLeaf_state {h : Heap C T V D} (hs : Str h) (v : T) :
    ∃ h', newLeaf s v h = (h', .ok h.next) ∧ Str h' ∧ h'.next = h.next + 1 ∧ h'.giter = h.giter ∧
      (∀ j, (h'.node j).alive = if j = h.next then true else (h.node j).alive) ∧
      h'.graph h.next = ⟨s.base, fun m => if m = s.xname then some v else none, [], fun _ => none, false, false⟩ ∧
      (∀ j, j ≠ h.next → h'.graph j = h.graph j) ∧ ∀ j, (h'.node j).itr = none ∨ (h'.node j).itr = (h.node j).itr := by
  have hs1 := alloc_str hs s.base [] false false
  obtain ⟨_, w1, _, g1⟩ := setTerm_writing (s := s) (alloc s.base [] false false h).1 hs1 h.next s.xname v none
  have hn1 := alloc_node (C := C) (T := T) (V := V) (D := D) s.base [] false false h
  have e1 : (newLeaf s v h).1 = (setTerm s h.next s.xname v none (alloc s.base [] false false h).1).1 := rfl
  obtain ⟨n, e, _⟩ := newLeaf_post (s := s) (fr := ⟨False, False⟩) hs v
  refine ⟨(newLeaf s v h).1, Prod.ext rfl e, n.str, n.next, n.giter, ?_, ?_, fun j hj => n.off j hj, ?_⟩
  · intro j
    rw [e1, w1.alive4, hn1]
    split <;> rfl
  · rw [e1, g1]
    dsimp only
    rw [if_pos rfl, Heap.graph_apply, hn1, if_pos rfl]
    rfl
  · intro j
    rw [e1]
    rcases w1.itr_old j with h4 | h4
    · exact Or.inl h4
    · rw [h4, hn1]
      split
      · exact Or.inl rfl
      · exact Or.inr rfl
end

/-- The stacked objective right after its construction. -/
structure NewStacked (h h' : Heap ClassDef Par Arr Jac) (o : Id) (xv : Arr) : Prop where
  giter : h'.giter = h.giter
  alive : ∀ j, (h'.node j).alive = if j = h.next + 1 then true else if j = h.next then true else (h.node j).alive
  graphX : h'.graph (h.next + 1) = ⟨chLeaf, fun m => if m = nmX then some (.arr xv) else none, [], fun _ => none, false, false⟩
  graphY : h'.graph h.next = ⟨chStacked, fun _ => none, [nmX, nmObj],
    fun k => if k = nmX then some (h.next + 1) else if k = nmObj then some o else none, false, false⟩
  other : ∀ j, j ≠ h.next → j ≠ h.next + 1 → h'.graph j = h.graph j
  itr : ∀ j, (h'.node j).itr = none ∨ (h'.node j).itr = (h.node j).itr

theorem newStacked {h : Heap ClassDef Par Arr Jac} (hs : Str h) {o : Id} (ho : (h.node o).alive = true) (flip : Bool) (xv : Arr) :
    ∃ h', newObj lib chStacked [nmX, nmObj] false false (stackedKws flip o xv) h = (h', .ok h.next) ∧ NewStacked h h' o xv := by
  have hon : o < h.next := hs.alive_lt ho
  have hfr : ∀ j m, (h.graph j).dterms m ≠ some h.next := by
    intro j m e
    have := hs.child_alive e
    rw [hs.unborn _ (Nat.le_refl _)] at this; cases this
  have hxo : nmX ≠ nmObj := by decide
  have hyx : h.next ≠ h.next + 1 := Nat.ne_of_lt (Nat.lt_succ_self _)
  have hox : o ≠ h.next + 1 := Nat.ne_of_lt (Nat.lt_succ_of_lt hon)
  have hoy : o ≠ h.next := Nat.ne_of_lt hon
  have hs1 := alloc_str hs chStacked [nmX, nmObj] false false
  have ha := alloc_node (C := ClassDef) (T := Par) (V := Arr) (D := Jac) chStacked [nmX, nmObj] false false h
  have n1 : (alloc chStacked [nmX, nmObj] false false h).1.next = h.next + 1 := rfl
  have t1 : (alloc chStacked [nmX, nmObj] false false h).1.giter = h.giter := rfl
  have hold : (stackedKws flip o xv).all (·.Old h) = true := by
    unfold stackedKws
    cases flip <;> simp [KW.Old, ho]
  have hb : newObj lib chStacked [nmX, nmObj] false false (stackedKws flip o xv) h =
      orCollect h.next (setAll lib h.next (stackedKws flip o xv)) (alloc chStacked [nmX, nmObj] false false h).1 := by
    unfold newObj
    rw [if_pos hold]; rfl
  generalize hh1 : (alloc (C := ClassDef) (T := Par) (V := Arr) (D := Jac) chStacked [nmX, nmObj] false false h).1 = h1 at hs1 ha n1 t1 hb
  have g1 : ∀ j, h1.graph j = if j = h.next then ⟨chStacked, fun _ => none, [nmX, nmObj], fun _ => none, false, false⟩ else h.graph j := by
    intro j
    rw [Heap.graph_apply, ha]
    split <;> rfl
  have a1 : ∀ j, (h1.node j).alive = if j = h.next then true else (h.node j).alive := by
    intro j; rw [ha]; split <;> rfl
  have i1 : ∀ j, (h1.node j).itr = none ∨ (h1.node j).itr = (h.node j).itr := by
    intro j; rw [ha]; split
    · exact Or.inl rfl
    · exact Or.inr rfl
  have hy1 : (h1.node h.next).alive = true := by rw [a1, if_pos rfl]
  have ho1 : (h1.node o).alive = true := by rw [a1]; split; rfl; exact ho
  cases flip with
  | false =>
    obtain ⟨h2, e2, s2, n2, t2, a2, g2, _, i2, _⟩ := setDterm_state (s := lib) hs1 (k := nmObj) (itr := some 9999) hy1 ho1
      (by rw [g1, if_pos rfl]; simp) (by intro t h; cases h; simp)
    have i2 := i2 (by
      intro j m
      unfold setLink
      split
      · dsimp only
        split
        · intro e; injection e with e; exact hoy e
        · rw [g1, if_pos rfl]; simp
      · next hj => rw [g1, if_neg hj]; exact hfr j m)
    obtain ⟨h3, e3, s3, n3, t3, a3, gN3, gO3, i3⟩ := newLeaf_state (s := lib) s2 (Par.arr xv)
    have hn2 : h2.next = h.next + 1 := by rw [n2, n1]
    rw [hn2] at e3 n3 a3 gN3 gO3
    have hy2 : h2.graph h.next = ⟨chStacked, fun _ => none, [nmX, nmObj], fun k => if k = nmObj then some o else none, false, false⟩ := by
      rw [g2]; unfold setLink; rw [if_pos rfl, g1, if_pos rfl]
    have hy3 := gO3 h.next hyx
    obtain ⟨h4, e4, s4, n4, t4, a4, g4, y4, _, i4⟩ := setDterm_state (s := lib) s3 (i := h.next) (c := h.next + 1) (k := nmX) (itr := none)
      (by rw [a3, if_neg hyx, a2]; exact hy1) (by rw [a3, if_pos rfl]) (by rw [hy3, hy2]; simp) (by intro t h; cases h)
    have e : setAll lib h.next (stackedKws false o xv) h1 = (h4, .ok ()) := by
      show M.bind (setattr lib h.next (some 9999) (.link nmObj o)) (fun _ => setattr lib h.next none (.wrap nmX (.arr xv))) h1 = _
      have k1 : setattr lib h.next (some 9999) (.link nmObj o) h1 = (h2, .ok ()) := by
        simp only [setattr]
        rw [if_pos ⟨by have := g1 h.next; rw [if_pos rfl] at this; exact (congrArg GNode.dnames this) ▸ by simp, ho1⟩]; exact e2
      have k2 : setattr lib h.next none (.wrap nmX (.arr xv)) h2 = (h4, .ok ()) := by
        simp only [setattr]
        rw [if_pos (show nmX ∈ (h2.node h.next).dnames by show nmX ∈ (h2.graph h.next).dnames; rw [hy2]; simp)]
        rw [wrap_eq s2, hn2, e3]; exact e4
      simp only [M.bind, k1, k2]
    refine ⟨h4, by rw [hb]; unfold orCollect; rw [e], ⟨by rw [t4, t3, t2, t1], ?_, ?_, ?_, ?_, ?_⟩⟩
    · intro j; rw [a4, a3, a2, a1]
    · rw [g4]; unfold setLink; rw [if_neg hyx.symm, gN3]
    · rw [g4]; unfold setLink; rw [if_pos rfl, hy3, hy2]
    · intro j hj hj'
      rw [g4]; unfold setLink; rw [if_neg hj, gO3 j hj', g2]; unfold setLink; rw [if_neg hj, g1, if_neg hj]
    · intro j
      by_cases hj : j = h.next
      · subst hj; exact Or.inl (y4 rfl)
      rcases i4 rfl j with k | k
      · exact Or.inl k
      · rw [k]
        rcases i3 j with k | k
        · exact Or.inl k
        · rw [k, i2 j hj]; exact i1 j
  | true =>
    obtain ⟨h2, e2, s2, n2, t2, a2, gN2, gO2, i2⟩ := newLeaf_state (s := lib) hs1 (Par.arr xv)
    rw [n1] at e2 n2 a2 gN2 gO2
    have hy2 := gO2 h.next hyx
    rw [g1, if_pos rfl] at hy2
    obtain ⟨h3, e3, s3, n3, t3, a3, g3, _, i3, _⟩ := setDterm_state (s := lib) s2 (i := h.next) (c := h.next + 1) (k := nmX) (itr := some 9999)
      (by rw [a2, if_neg hyx]; exact hy1) (by rw [a2, if_pos rfl]) (by rw [hy2]; simp) (by intro t h; cases h; simp)
    have i3 := i3 (by
      intro j m
      unfold setLink
      split
      · dsimp only
        split
        · intro e; injection e with e; exact hyx e.symm
        · rw [hy2]; simp
      · next hj =>
        by_cases hj' : j = h.next + 1
        · rw [hj', gN2]; simp
        · rw [gO2 j hj', g1, if_neg hj]; exact hfr j m)
    have hy3 : h3.graph h.next = ⟨chStacked, fun _ => none, [nmX, nmObj], fun k => if k = nmX then some (h.next + 1) else none, false, false⟩ := by
      rw [g3]; unfold setLink; rw [if_pos rfl, hy2]
    have ho3 : (h3.node o).alive = true := by rw [a3, a2, if_neg hox]; exact ho1
    obtain ⟨h4, e4, s4, n4, t4, a4, g4, y4, _, i4⟩ := setDterm_state (s := lib) s3 (i := h.next) (c := o) (k := nmObj) (itr := none)
      (by rw [a3, a2, if_neg hyx]; exact hy1) ho3 (by rw [hy3]; simp) (by intro t h; cases h)
    have e : setAll lib h.next (stackedKws true o xv) h1 = (h4, .ok ()) := by
      show M.bind (setattr lib h.next (some 9999) (.wrap nmX (.arr xv))) (fun _ => setattr lib h.next none (.link nmObj o)) h1 = _
      have k1 : setattr lib h.next (some 9999) (.wrap nmX (.arr xv)) h1 = (h3, .ok ()) := by
        simp only [setattr]
        rw [if_pos (show nmX ∈ (h1.node h.next).dnames by show nmX ∈ (h1.graph h.next).dnames; rw [g1, if_pos rfl]; simp)]
        rw [wrap_eq hs1, n1, e2]; exact e3
      have k2 : setattr lib h.next none (.link nmObj o) h3 = (h4, .ok ()) := by
        simp only [setattr]
        rw [if_pos (show nmObj ∈ (h3.node h.next).dnames ∧ _ from ⟨by show nmObj ∈ (h3.graph h.next).dnames; rw [hy3]; simp, ho3⟩)]; exact e4
      simp only [M.bind, k1, k2]
    refine ⟨h4, by rw [hb]; unfold orCollect; rw [e], ⟨by rw [t4, t3, t2, t1], ?_, ?_, ?_, ?_, ?_⟩⟩
    · intro j; rw [a4, a3, a2, a1]
    · rw [g4]; unfold setLink; rw [if_neg hyx.symm, g3]; unfold setLink; rw [if_neg hyx.symm, gN2]
    · rw [g4]; unfold setLink; rw [if_pos rfl, hy3]
      dsimp only
      congr 1
      funext k
      by_cases h1 : k = nmObj
      · subst h1; rw [if_pos rfl, if_neg (Ne.symm hxo), if_pos rfl]
      · rw [if_neg h1, if_neg h1]
    · intro j hj hj'
      rw [g4]; unfold setLink; rw [if_neg hj, g3]; unfold setLink; rw [if_neg hj, gO2 j hj', g1, if_neg hj]
    · intro j
      by_cases hj : j = h.next
      · subst hj; exact Or.inl (y4 rfl)
      rcases i4 rfl j with k | k
      · exact Or.inl k
      · rw [k, i3 j hj]
        rcases i2 j with k | k
        · exact Or.inl k
        · rw [k]; exact i1 j

end Chumpy
