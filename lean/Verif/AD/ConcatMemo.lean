import Verif.AD.Concat
/-!
# What a `Concatenate` keeps

`Concatenate` (reordering.py:357-420) keeps three things besides the caches every `Ch` has: the list of its operands (`_our_terms`), the
array of positions (`_everything`) and the matrices already built (`dr_cached`).  `Concat.lean` computes everything anew; here is the object
with what it keeps.  Operands are objects with a current value (`val`); how they come by it is the subject of C01.
-/
namespace Chumpy
open scoped BigOperators Classical

/-- The object: its operands `ops` (the attributes `m0`, `m1`, …), `axis`, the values of the objects around it, and what it keeps. -/
structure CSt where
  ops : List Id
  ax : ℤ
  val : Id → Arr
  /-- `_cache['r']` -/
  rc : Option Arr := none
  /-- `_our_terms` -/
  terms : Option (List Id) := none
  /-- `_everything` -/
  every : Option IArr := none
  /-- `dr_cached`: a key may be present with the value `None` -/
  table : Id → Option (Option Jac) := fun _ => none

/-- What is done to it. -/
inductive CEv
  /-- `obj.mk = x`, or `obj.replace(old, x)` with `old` the operand `k` -/
  | assign (k : ℕ) (x : Id)
  /-- `obj.axis = a` -/
  | axis (a : ℤ)
  /-- the object `x` gets the value `v` -/
  | write (x : Id) (v : Arr)
  /-- `obj.r` -/
  | readR
  /-- `obj.compute_dr_wrt(w)`, when the object has `n` parents -/
  | readDr (w : Id) (n : ℕ)

/-- Answers; `none` is an exception. -/
inductive CAns
  | done
  | value (v : Option Arr)
  | matrix (d : Option (Option Jac))

namespace CSt

/-- `our_terms` (reordering.py:363-367). -/
def getTerms (s : CSt) : List Id × CSt :=
  match s.terms with
  | some l => (l, s)
  | none => (s.ops, { s with terms := some s.ops })

/-- `r` (ch.py:593-600) over `compute_r` (reordering.py:375-376). -/
noncomputable def getR (s : CSt) : Option Arr × CSt :=
  match s.rc with
  | some v => (some v, s)
  | none =>
    match concatArr s.ax (s.getTerms.1.map s.val) with
    | some v => (some v, { s.getTerms.2 with rc := some v })
    | none => (none, s.getTerms.2)

/-- `everything` (reordering.py:378-383). -/
noncomputable def getEvery (s : CSt) : Option IArr × CSt :=
  match s.every with
  | some E => (some E, s)
  | none =>
    match s.getR with
    | (none, s') => (none, s')
    | (some v, s') =>
      match normAxis v.shape.length s.ax with
      | none => (none, s')
      | some i => (some (concatEverything v.shape i), { s' with every := some (concatEverything v.shape i) })

/-- The names of the operands. -/
def names (l : List Id) : List Name := (List.range l.length).map nmM

/-- The names of the operands that are `w`. -/
def namesOf (l : List Id) (w : Id) : List Name := (((names l).zip l).filter fun p => p.2 = w).map Prod.fst

/-- `compute_dr_wrt` (reordering.py:385-420). -/
noncomputable def getDr (s : CSt) (w : Id) (n : ℕ) : Option (Option Jac) × CSt :=
  match s.table w with
  | some (some d) => (some (some d), s)
  | _ =>
    if w ∉ s.getTerms.1 then (some none, s.getTerms.2) else
    match s.getTerms.2.getEvery with
    | (none, s') => (none, s')
    | (some E, s') =>
      match s'.getR with
      | (none, s') => (none, s')
      | (some v, s') =>
        match normAxis v.shape.length s.ax with
        | none => (none, s')
        | some i =>
          match concatMat E v.size i (namesOf s.getTerms.1 w) ((names s.getTerms.1).zip (s.getTerms.1.map s.val)) with
          | none => (none, s')
          | some d => (some (some d), { s' with table := Function.update s'.table w (some (if n = 1 then none else some d)) })

/-- One event.  Assigning an operand clears the cached value (ch.py:398-405), and so does a write to an object that is an operand at that
time, through the back-links; assigning `axis`, which is not declared, clears nothing. -/
noncomputable def step (s : CSt) : CEv → CAns × CSt
  | .assign k x => (.done, { s with ops := s.ops.set k x, rc := none })
  | .axis a => (.done, { s with ax := a })
  | .write x v => (.done, { s with val := Function.update s.val x v, rc := if x ∈ s.ops then none else s.rc })
  | .readR => (.value s.getR.1, s.getR.2)
  | .readDr w n => (.matrix (s.getDr w n).1, (s.getDr w n).2)

/-- A concatenation newly made of the same operands. -/
def renew (s : CSt) : CSt := { ops := s.ops, ax := s.ax, val := s.val }

/-- Every answer of a history, beside what a concatenation newly made of the operands at that time answers. -/
noncomputable def run : CSt → List CEv → List (CAns × CAns)
  | _, [] => []
  | s, e :: es => ((s.step e).1, (s.renew.step e).1) :: run (s.step e).2 es

/-! ## A new concatenation -/

theorem renew_R (s : CSt) : s.renew.getR.1 = concatArr s.ax (s.ops.map s.val) := by
  unfold getR renew getTerms
  dsimp only
  cases concatArr s.ax (s.ops.map s.val) <;> rfl

theorem names_length (l : List Id) : (names l).length = l.length := by simp [names]

/-- The matrix a new concatenation builds. -/
noncomputable def freshDr (s : CSt) (w : Id) : Option (Option Jac) :=
  if w ∉ s.ops then some none else
  match concatArr s.ax (s.ops.map s.val) with
  | none => none
  | some v =>
    match normAxis v.shape.length s.ax with
    | none => none
    | some i => (concatMat (concatEverything v.shape i) v.size i (namesOf s.ops w) ((names s.ops).zip (s.ops.map s.val))).map some

/-! ## Only shapes matter to the matrix -/

theorem concatArr_shape {ax : ℤ} {us vs : List Arr} (h : us.map Arr.shape = vs.map Arr.shape) :
    (concatArr ax us).map Arr.shape = (concatArr ax vs).map Arr.shape := by
  unfold concatArr
  rw [h]
  cases normAxis ((vs.map Arr.shape).headD []).length ax with
  | none => rfl
  | some i =>
    dsimp only
    cases concatShape i (vs.map Arr.shape) <;> rfl

theorem concatMat_shape {E : IArr} {osize i : ℕ} {S : List Name} : ∀ {ns : List Name} {us vs : List Arr}, us.map Arr.shape = vs.map Arr.shape →
    concatMat E osize i S (ns.zip us) = concatMat E osize i S (ns.zip vs) := by
  have h1 : ∀ {ns : List Name} {us vs : List Arr} (o : ℕ), us.map Arr.shape = vs.map Arr.shape →
      concatIS E i S (ns.zip us) o = concatIS E i S (ns.zip vs) o := by
    intro ns
    induction ns with
    | nil => intros; rfl
    | cons n ns ih =>
      intro us vs o h
      cases us with
      | nil => cases vs with
        | nil => rfl
        | cons v vs => cases h
      | cons u us => cases vs with
        | nil => cases h
        | cons v vs =>
          simp only [List.map_cons, List.cons.injEq] at h
          simp only [List.zip_cons_cons, concatIS]
          rw [h.1, ih _ h.2]
  have h2 : ∀ {ns : List Name} {us vs : List Arr} (o : ℕ), us.map Arr.shape = vs.map Arr.shape →
      concatJS S (ns.zip us) o = concatJS S (ns.zip vs) o := by
    intro ns
    induction ns with
    | nil => intros; rfl
    | cons n ns ih =>
      intro us vs o h
      cases us with
      | nil => cases vs with
        | nil => rfl
        | cons v vs => cases h
      | cons u us => cases vs with
        | nil => cases h
        | cons v vs =>
          simp only [List.map_cons, List.cons.injEq] at h
          simp only [List.zip_cons_cons, concatJS]
          rw [ih _ h.2]
  have h3 : ∀ {ns : List Name} {us vs : List Arr}, us.map Arr.shape = vs.map Arr.shape →
      concatWrtSize S (ns.zip us) = concatWrtSize S (ns.zip vs) := by
    intro ns
    induction ns with
    | nil => intros; rfl
    | cons n ns ih =>
      intro us vs h
      cases us with
      | nil => cases vs with
        | nil => rfl
        | cons v vs => cases h
      | cons u us => cases vs with
        | nil => cases h
        | cons v vs =>
          simp only [List.map_cons, List.cons.injEq] at h
          have := ih h.2
          unfold concatWrtSize at this ⊢
          simp only [List.zip_cons_cons, List.find?_cons]
          by_cases hn : n ∈ S
          · simp [hn, Arr.size, h.1]
          · simpa [hn] using this
  intro ns us vs h
  unfold concatMat
  rw [h1 0 h, h3 h, h2 _ h]

/-- The matrix depends on the operands, the axis and the shapes only. -/
theorem freshDr_shape {s t : CSt} (ho : s.ops = t.ops) (ha : s.ax = t.ax) (hv : ∀ x ∈ s.ops, (s.val x).shape = (t.val x).shape) (w : Id) :
    s.freshDr w = t.freshDr w := by
  have hm : (s.ops.map s.val).map Arr.shape = (s.ops.map t.val).map Arr.shape := by
    rw [List.map_map, List.map_map]; exact List.map_congr_left hv
  unfold freshDr
  rw [← ho, ← ha]
  have := concatArr_shape (ax := s.ax) hm
  by_cases hw : w ∉ s.ops
  · rw [if_pos hw, if_pos hw]
  · rw [if_neg hw, if_neg hw]
    cases h1 : concatArr s.ax (s.ops.map s.val) with
    | none =>
      rw [h1] at this
      cases h2 : concatArr s.ax (s.ops.map t.val) with
      | none => rfl
      | some v => rw [h2] at this; cases this
    | some v =>
      rw [h1] at this
      cases h2 : concatArr s.ax (s.ops.map t.val) with
      | none => rw [h2] at this; cases this
      | some u =>
        rw [h2] at this
        have hs : v.shape = u.shape := by simpa using this
        have hz : v.size = u.size := by unfold Arr.size; rw [hs]
        dsimp only
        rw [hs, hz]
        cases normAxis u.shape.length s.ax with
        | none => rfl
        | some i =>
          dsimp only
          rw [concatMat_shape hm]

/-! ## What is kept is right -/

/-- What is kept is what would be computed now. -/
structure Ok (s : CSt) : Prop where
  rc : ∀ v, s.rc = some v → concatArr s.ax (s.ops.map s.val) = some v
  terms : ∀ l, s.terms = some l → l = s.ops
  every : ∀ E, s.every = some E → ∃ v i, concatArr s.ax (s.ops.map s.val) = some v ∧ normAxis v.shape.length s.ax = some i ∧
    E = concatEverything v.shape i
  table : ∀ w d, s.table w = some (some d) → s.freshDr w = some (some d)

/-- Nothing is kept. -/
structure Blank (s : CSt) : Prop where
  rc : s.rc = none
  terms : s.terms = none
  every : s.every = none
  table : s.table = fun _ => none

theorem Blank.ok {s : CSt} (h : s.Blank) : s.Ok where
  rc v e := by rw [h.rc] at e; cases e
  terms l e := by rw [h.terms] at e; cases e
  every E e := by rw [h.every] at e; cases e
  table w d e := by rw [h.table] at e; cases e

/-- Two states of one object between which nothing was assigned. -/
def Same (s t : CSt) : Prop := s.ops = t.ops ∧ s.ax = t.ax ∧ s.val = t.val

theorem Same.trans {s t u : CSt} (h : s.Same t) (h' : t.Same u) : s.Same u :=
  ⟨h.1.trans h'.1, h.2.1.trans h'.2.1, h.2.2.trans h'.2.2⟩

theorem getTerms_ok {s : CSt} (h : s.Ok) : s.getTerms.1 = s.ops ∧ s.Same s.getTerms.2 ∧ s.getTerms.2.Ok := by
  unfold getTerms
  cases ht : s.terms with
  | some l => exact ⟨h.terms l ht, ⟨rfl, rfl, rfl⟩, h⟩
  | none => exact ⟨rfl, ⟨rfl, rfl, rfl⟩, ⟨h.rc, fun l e => by injection e with e; exact e.symm, h.every, h.table⟩⟩

theorem getR_ok {s : CSt} (h : s.Ok) : s.getR.1 = concatArr s.ax (s.ops.map s.val) ∧ s.Same s.getR.2 ∧ s.getR.2.Ok := by
  unfold getR
  cases hr : s.rc with
  | some v => exact ⟨(h.rc v hr).symm, ⟨rfl, rfl, rfl⟩, h⟩
  | none =>
    obtain ⟨h1, h2, h3⟩ := getTerms_ok h
    dsimp only
    rw [h1]
    cases hc : concatArr s.ax (s.ops.map s.val) with
    | none => exact ⟨rfl, h2, h3⟩
    | some v =>
      refine ⟨rfl, h2, ⟨fun u e => ?_, h3.terms, h3.every, h3.table⟩⟩
      injection e with e
      subst e
      dsimp only
      rw [← h2.1, ← h2.2.1, ← h2.2.2]; exact hc

theorem getEvery_ok {s : CSt} (h : s.Ok) : s.Same s.getEvery.2 ∧ s.getEvery.2.Ok ∧
    s.getEvery.1 = (concatArr s.ax (s.ops.map s.val)).bind fun v => (normAxis v.shape.length s.ax).map fun i => concatEverything v.shape i := by
  unfold getEvery
  cases he : s.every with
  | some E =>
    obtain ⟨v, i, h1, h2, rfl⟩ := h.every E he
    exact ⟨⟨rfl, rfl, rfl⟩, h, by rw [h1, Option.bind_some, h2]; rfl⟩
  | none =>
    obtain ⟨h1, h2, h3⟩ := getR_ok h
    dsimp only
    rcases hg : s.getR with ⟨o, s'⟩
    rw [hg] at h1 h2 h3
    dsimp only at h1 h2 h3
    rw [← h1]
    cases o with
    | none => exact ⟨h2, h3, rfl⟩
    | some v =>
      dsimp only [Option.bind_some]
      cases hn : normAxis v.shape.length s.ax with
      | none => exact ⟨h2, h3, rfl⟩
      | some i =>
        refine ⟨h2, ⟨h3.rc, h3.terms, fun E e => ?_, h3.table⟩, rfl⟩
        injection e with e
        refine ⟨v, i, ?_, ?_, e.symm⟩
        · dsimp only; rw [← h2.1, ← h2.2.1, ← h2.2.2]; exact h1.symm
        · dsimp only; rw [← h2.2.1]; exact hn

theorem Same.freshDr {s t : CSt} (h : s.Same t) (w : Id) : t.freshDr w = s.freshDr w := by
  unfold CSt.freshDr; rw [h.1, h.2.1, h.2.2]

theorem getDr_ok {s : CSt} (h : s.Ok) (w : Id) (n : ℕ) : (s.getDr w n).1 = s.freshDr w ∧ s.Same (s.getDr w n).2 ∧ (s.getDr w n).2.Ok := by
  unfold getDr
  split
  · next d hd => exact ⟨(h.table w d hd).symm, ⟨rfl, rfl, rfl⟩, h⟩
  · obtain ⟨t1, t2, t3⟩ := getTerms_ok h
    rw [t1]
    unfold CSt.freshDr
    by_cases hw : w ∉ s.ops
    · rw [if_pos hw, if_pos hw]; exact ⟨rfl, t2, t3⟩
    rw [if_neg hw, if_neg hw]
    obtain ⟨e1, e2, e3⟩ := getEvery_ok t3
    rcases hg : s.getTerms.2.getEvery with ⟨oE, s1⟩
    rw [hg] at e1 e2 e3
    dsimp only at e1 e2 e3
    rw [← t2.1, ← t2.2.1, ← t2.2.2] at e3
    have s1s := t2.trans e1
    cases hc : concatArr s.ax (s.ops.map s.val) with
    | none =>
      rw [hc] at e3
      subst e3
      exact ⟨rfl, s1s, e2⟩
    | some v =>
      rw [hc, Option.bind_some] at e3
      cases hn : normAxis v.shape.length s.ax with
      | none =>
        rw [hn] at e3
        subst e3
        dsimp only
        rw [hn]
        exact ⟨rfl, s1s, e2⟩
      | some i =>
        rw [hn] at e3
        subst e3
        obtain ⟨r1, r2, r3⟩ := getR_ok e2
        rcases hr : s1.getR with ⟨o, s2⟩
        rw [hr] at r1 r2 r3
        dsimp only at r1 r2 r3
        rw [← s1s.1, ← s1s.2.1, ← s1s.2.2, hc] at r1
        subst r1
        have s2s := s1s.trans r2
        dsimp only [Option.map_some]
        rw [hr]
        dsimp only
        rw [hn]
        dsimp only
        cases hm : concatMat (concatEverything v.shape i) v.size i (namesOf s.ops w) ((names s.ops).zip (s.ops.map s.val)) with
        | none => exact ⟨rfl, s2s, r3⟩
        | some d =>
          refine ⟨rfl, s2s, ⟨r3.rc, r3.terms, r3.every, fun w' d' e => ?_⟩⟩
          have hf : ∀ w, CSt.freshDr { s2 with table := Function.update s2.table w (some (if n = 1 then none else some d)) } w' = s2.freshDr w' := fun _ => rfl
          rw [hf]
          dsimp only at e
          by_cases hww : w' = w
          · subst hww
            rw [Function.update_self] at e
            split at e
            · cases e
            · injection e with e; injection e with e; subst e
              rw [s2s.freshDr]
              unfold CSt.freshDr
              rw [if_neg hw, hc]
              dsimp only
              rw [hn]
              dsimp only
              rw [hm]; rfl
          · rw [Function.update_of_ne hww] at e
            exact r3.table w' d' e

theorem renew_Dr (s : CSt) (w : Id) (n : ℕ) : (s.renew.getDr w n).1 = s.freshDr w :=
  (getDr_ok (Blank.ok ⟨rfl, rfl, rfl, rfl⟩ : s.renew.Ok) w n).1
end CSt
end Chumpy
