import Verif.AD.Memo
/-!
# C26: the matrices that classes keep are those of the current shape and parameters
-/
namespace Chumpy
open scoped BigOperators Classical

/-- A class that keeps its matrices in a table: what it looks at, its key, and what it computes when there is nothing
under the key. -/
structure Keeper where
  I : Type
  K : Type
  key : I → Option K
  fresh : I → Option Jac

/-- Whatever the history of parameters, values and shapes of one object, every answer is what would be computed anew. -/
def Keeper.AlwaysFresh (c : Keeper) : Prop := ∀ history : List c.I, memoRun c.key c.fresh emptyTable history = history.map c.fresh

/-- A reordering class. -/
noncomputable abbrev reorderKeeper (ρ : Option Par → Option Par → Arr → Option Layout) (key : RIn → Option RKey) : Keeper :=
  ⟨RIn, RKey, key, reorderFresh ρ⟩
/-- `sum` and `mean`. -/
noncomputable abbrev reduceKeeper (w : ℕ → ℝ) : Keeper := ⟨SIn, List ℤ, reduceKey, reduceFresh w⟩

/-- The classes with such a table, but `Repeat` and `Roll`. -/
noncomputable def keepers' : List Keeper :=
  [reorderKeeper sortρ sortKey, reorderKeeper tileρ tileKey, reorderKeeper diagρ diagKey, reorderKeeper diagflatρ diagflatKey,
   reorderKeeper transposeρ transposeKey, reorderKeeper rollaxisρ rollaxisKey, reorderKeeper swapaxesρ swapaxesKey,
   reorderKeeper rot90ρ rot90Key, reduceKeeper fun _ => 1, reduceKeeper fun n => 1 / n]
/-- The classes with such a table. -/
noncomputable def keepers : List Keeper := keepers' ++ [reorderKeeper repeatρ repeatKey, reorderKeeper rollρ rollKey]

/-! ## What is computed anew is what the class answers in the model without tables -/

/-- `reorderFresh` is what `compute_dr_wrt` of the class answers. -/
theorem reorderFresh_spec (ρ : Option Par → Option Par → Arr → Option Layout) (p q : Option Par) (v : Arr) (m : Jac) :
    reorderFresh ρ (p, q, v) = some m ↔
      ∃ out, Returns lib (chReorder ρ) (tm2 p q) (env1 v) out ∧ ReturnsDr lib (chReorder ρ) (tm2 p q) (env1 v) out [nmA] (some m) := by
  have hP : tm2 p q nmP = p := rfl
  have hQ : tm2 p q nmQ = q := rfl
  have hA : env1 v nmA = some v := rfl
  constructor
  · intro h
    unfold reorderFresh at h
    dsimp only at h
    split at h
    · cases h
    · next L' h1 =>
      split at h
      · cases h
      · next L h2 =>
        injection h with h
        refine ⟨(L'.apply v).atleast1, ⟨0, ?_⟩, ⟨0, ?_⟩⟩
        · simp [lib, chReorder, runBody, hA, hP, hQ, h1]
        · show runBody _ _ _ _ ((chReorder ρ).dr false [nmA]) = _
          simp [chReorder, runBody, hA, hP, hQ, h2, ← h]
  · rintro ⟨out, ⟨f, hr⟩, ⟨f', hd⟩⟩
    unfold reorderFresh
    dsimp only
    change runBody _ _ _ _ (chReorder ρ).r = _ at hr
    change runBody _ _ _ _ ((chReorder ρ).dr false [nmA]) = _ at hd
    cases h1 : ρ p q v with
    | none => simp [chReorder, runBody, hA, hP, hQ, h1] at hr
    | some L' =>
      cases h2 : ρ p q (arange v.shape) with
      | none => simp [chReorder, runBody, hA, hP, hQ, h2] at hd
      | some L =>
        simp [chReorder, runBody, hA, hP, hQ, h1] at hr
        simp [chReorder, runBody, hA, hP, hQ, h2] at hd
        dsimp only
        rw [hr, hd]

/-! ## Keys -/

/-- A reordering whose key has the shape and all that matters of the parameters. -/
theorem keySound_reorder {ρ : Option Par → Option Par → Arr → Option Layout} {key : RIn → Option RKey}
    (hk : ∀ i j k, key i = some k → key j = some k → i.2.2.shape = j.2.2.shape)
    (hρ : ∀ i j k, key i = some k → key j = some k → ∀ u v : Arr, u.shape = v.shape → ρ i.1 i.2.1 u = ρ j.1 j.2.1 v) :
    KeySound key (reorderFresh ρ) := by
  intro i j k hi hj
  have hs := hk i j k hi hj
  have h1 := hρ i j k hi hj i.2.2 j.2.2 hs
  have h2 := hρ i j k hi hj (arange i.2.2.shape) (arange j.2.2.shape) hs
  unfold reorderFresh
  rw [← h1, ← h2]
  cases ρ i.1 i.2.1 i.2.2 with
  | none => rfl
  | some L' =>
    cases ρ i.1 i.2.1 (arange i.2.2.shape) with
    | none => rfl
    | some L =>
      dsimp only
      rw [Arr.atleast1_size, Arr.atleast1_size]
      show some (Jac.sparse L'.shape.prod i.2.2.shape.prod _) = some (Jac.sparse L'.shape.prod j.2.2.shape.prod _)
      rw [hs]

theorem tileρ_shape (p q q' : Option Par) {u v : Arr} (h : u.shape = v.shape) : tileρ p q u = tileρ p q' v := by
  unfold tileρ; rw [h]
theorem diagρ_shape (p q q' : Option Par) {u v : Arr} (h : u.shape = v.shape) : diagρ p q u = diagρ p q' v := by
  unfold diagρ; rw [h]
theorem diagflatρ_shape (p q q' : Option Par) {u v : Arr} (h : u.shape = v.shape) : diagflatρ p q u = diagflatρ p q' v := by
  unfold diagflatρ Arr.size; rw [h]
theorem rot90ρ_shape (p q q' : Option Par) {u v : Arr} (h : u.shape = v.shape) : rot90ρ p q u = rot90ρ p q' v := by
  unfold rot90ρ; rw [h]
theorem swapaxesρ_shape (p q : Option Par) {u v : Arr} (h : u.shape = v.shape) : swapaxesρ p q u = swapaxesρ p q v := by
  unfold swapaxesρ; rw [h]
theorem transposeρ_shape {p p' : Option Par} (q q' : Option Par) (hp : orNone p = orNone p') {u v : Arr} (h : u.shape = v.shape) :
    transposeρ p q u = transposeρ p' q' v := by
  unfold transposeρ; rw [h]
  rcases p with _ | (_ | _ | _ | _ | _ | _ | _) <;> rcases p' with _ | (_ | _ | _ | _ | _ | _ | _) <;> simp_all [orNone]
theorem rollaxisρ_none (p : Option Par) (v : Arr) : rollaxisρ p none v = rollaxisρ p (some (.int 0)) v := by
  rcases p with _ | (_ | _ | a | _ | _ | _ | _) <;> try rfl
  show ((normAxis v.shape.length a).bind fun i => transposeL v.shape (rollAxes v.shape.length i 0)) =
    (normAxis v.shape.length a).bind fun i =>
      (if (0 : ℤ) = v.shape.length then some v.shape.length else normAxis v.shape.length 0).bind fun j =>
        transposeL v.shape (rollAxes v.shape.length i j)
  cases h : normAxis v.shape.length a with
  | none => rfl
  | some i =>
    have hi := normAxis_lt h
    have h0 : (0 : ℤ) ≠ v.shape.length := by omega
    have h1 : normAxis v.shape.length 0 = some 0 := by
      unfold normAxis; rw [if_pos ⟨le_refl _, by omega⟩]; rfl
    rw [if_neg h0, h1]; rfl
theorem rollaxisρ_shape (p : Option Par) {q q' : Option Par} (hq : q.getD (.int 0) = q'.getD (.int 0)) {u v : Arr} (h : u.shape = v.shape) :
    rollaxisρ p q u = rollaxisρ p q' v := by
  have e : ∀ q : Option Par, rollaxisρ p q u = rollaxisρ p (some (q.getD (.int 0))) u := by
    rintro (_ | q)
    · exact rollaxisρ_none p u
    · rfl
  rw [e q, hq, ← e q']
  unfold rollaxisρ; rw [h]


theorem keySound_tile : KeySound tileKey (reorderFresh tileρ) := by
  refine keySound_reorder (fun i j k hi hj => ?_) fun i j k hi hj u v h => ?_ <;>
    (have := hi.trans hj.symm; unfold tileKey at this; simp only [Option.some.injEq, Prod.mk.injEq] at this)
  · exact this.1
  · rw [this.2.1]; exact tileρ_shape _ _ _ h
theorem keySound_diag : KeySound diagKey (reorderFresh diagρ) := by
  refine keySound_reorder (fun i j k hi hj => ?_) fun i j k hi hj u v h => ?_ <;>
    (have := hi.trans hj.symm; unfold diagKey at this; simp only [Option.some.injEq, Prod.mk.injEq] at this)
  · exact this.1
  · rw [this.2.1]; exact diagρ_shape _ _ _ h
theorem keySound_diagflat : KeySound diagflatKey (reorderFresh diagflatρ) := by
  refine keySound_reorder (fun i j k hi hj => ?_) fun i j k hi hj u v h => ?_ <;>
    (have := hi.trans hj.symm; unfold diagflatKey at this; simp only [Option.some.injEq, Prod.mk.injEq] at this)
  · exact this.1
  · rw [this.2.1]; exact diagflatρ_shape _ _ _ h
theorem keySound_rot90 : KeySound rot90Key (reorderFresh rot90ρ) := by
  refine keySound_reorder (fun i j k hi hj => ?_) fun i j k hi hj u v h => ?_ <;>
    (have := hi.trans hj.symm; unfold rot90Key at this; simp only [Option.some.injEq, Prod.mk.injEq] at this)
  · exact this.1
  · rw [this.2.1]; exact rot90ρ_shape _ _ _ h
theorem keySound_swapaxes : KeySound swapaxesKey (reorderFresh swapaxesρ) := by
  refine keySound_reorder (fun i j k hi hj => ?_) fun i j k hi hj u v h => ?_ <;>
    (have := hi.trans hj.symm; unfold swapaxesKey at this; simp only [Option.some.injEq, Prod.mk.injEq] at this)
  · exact this.1
  · rw [this.2.1, this.2.2]; exact swapaxesρ_shape _ _ h
theorem keySound_transpose : KeySound transposeKey (reorderFresh transposeρ) := by
  refine keySound_reorder (fun i j k hi hj => ?_) fun i j k hi hj u v h => ?_ <;>
    (have := hi.trans hj.symm; unfold transposeKey at this; simp only [Option.some.injEq, Prod.mk.injEq] at this)
  · exact this.1
  · exact transposeρ_shape _ _ this.2.1 h
theorem keySound_rollaxis : KeySound rollaxisKey (reorderFresh rollaxisρ) := by
  refine keySound_reorder (fun i j k hi hj => ?_) fun i j k hi hj u v h => ?_ <;>
    (have := hi.trans hj.symm; unfold rollaxisKey at this; simp only [Option.some.injEq, Prod.mk.injEq] at this)
  · exact this.1
  · rw [this.2.1]; exact rollaxisρ_shape _ this.2.2 h
theorem keySound_sort : KeySound sortKey (reorderFresh sortρ) := fun _ _ _ hi => by cases hi

theorem reduceKey_inj {i j : SIn} (h : reduceKey i = reduceKey j) : i.2.shape = j.2.shape ∧ i.1 = j.1 := by
  unfold reduceKey at h
  injection h with h
  have := List.append_inj' h rfl
  refine ⟨?_, by simpa using this.2⟩
  exact (List.map_injective_iff.2 Int.ofNat_injective) this.1

theorem keySound_reduce (w : ℕ → ℝ) : KeySound reduceKey (reduceFresh w) := by
  intro i j k hi hj
  obtain ⟨hs, ha⟩ := reduceKey_inj (hi.trans hj.symm)
  unfold reduceFresh reduceOut
  rw [hs, ha]
  cases normAxis j.2.shape.length j.1 with
  | none => rfl
  | some d =>
    show reduceMat w j.1 i.2 _ = reduceMat w j.1 j.2 _
    unfold reduceMat
    simp only [Arr.size, hs]
    rfl

/-- `reduceFresh` is what `compute_dr_wrt` of `sum` answers when there is an axis. -/
theorem reduceFresh_spec (w : ℕ → ℝ) (flat : Arr → Jac) (c : ClassDef) (hr : c.r = reduceBody w)
    (hd : c.dr false [nmA] = reduceDr w flat) (a : ℤ) (v : Arr) (m : Jac) :
    reduceFresh w (a, v) = some m ↔
      ∃ out, Returns lib c (tm2 (some (.int a)) none) (env1 v) out ∧
        ReturnsDr lib c (tm2 (some (.int a)) none) (env1 v) out [nmA] (some m) := by
  have hP : tm2 (some (.int a)) none nmP = some (.int a) := rfl
  have hA : env1 v nmA = some v := rfl
  have e : ∀ f, runBody (tm2 (some (.int a)) none) (env1 v) (runProp lib c (tm2 (some (.int a)) none) (env1 v) (.error .fuel) f) (.error .fuel)
      (lib.computeR c) = match reduceOut w (a, v) with | some out => .ok out | none => .error (.user 1) := by
    intro f
    show runBody _ _ _ _ c.r = _
    rw [hr]
    unfold reduceOut
    cases h : normAxis v.shape.length a <;> simp [reduceBody, runBody, hA, hP, h]
  have e' : ∀ f out, runBody (tm2 (some (.int a)) none) (env1 v) (runProp lib c (tm2 (some (.int a)) none) (env1 v) (.ok out) f) (.ok out)
      (lib.computeDr c false [nmA]) = match reduceMat w a v out with | some m => .ok (some m) | none => .error (.user 1) := by
    intro f out
    show runBody _ _ _ _ (c.dr false [nmA]) = _
    rw [hd]
    cases h : reduceMat w a v out <;> simp [reduceDr, runBody, hA, hP, h, retOr]
  constructor
  · intro h
    unfold reduceFresh at h
    obtain ⟨out, h1, h2⟩ := Option.bind_eq_some_iff.1 h
    refine ⟨out, ⟨0, ?_⟩, ⟨0, ?_⟩⟩
    · rw [e, h1]
    · rw [e', h2]
  · rintro ⟨out, ⟨f, h1⟩, ⟨f', h2⟩⟩
    rw [e] at h1
    rw [e'] at h2
    unfold reduceFresh
    cases h : reduceOut w (a, v) with
    | none => rw [h] at h1; cases h1
    | some o =>
      rw [h] at h1; injection h1 with h1; subst h1
      show reduceMat w a v o = some m
      cases h' : reduceMat w a v o with
      | none => rw [h'] at h2; cases h2
      | some m' => rw [h'] at h2; injection h2

theorem sumFresh_spec (a : ℤ) (v : Arr) (m : Jac) : reduceFresh (fun _ => 1) (a, v) = some m ↔
    ∃ out, Returns lib chSum (tm2 (some (.int a)) none) (env1 v) out ∧
      ReturnsDr lib chSum (tm2 (some (.int a)) none) (env1 v) out [nmA] (some m) :=
  reduceFresh_spec _ _ chSum rfl rfl a v m
theorem meanFresh_spec (a : ℤ) (v : Arr) (m : Jac) : reduceFresh (fun n => 1 / n) (a, v) = some m ↔
    ∃ out, Returns lib chMean (tm2 (some (.int a)) none) (env1 v) out ∧
      ReturnsDr lib chMean (tm2 (some (.int a)) none) (env1 v) out [nmA] (some m) :=
  reduceFresh_spec _ _ chMean rfl rfl a v m

/-! ## The claim -/

/-- The claim about the classes that keep a table each. -/
def C26_full : Prop := ∀ c ∈ keepers, c.AlwaysFresh

/-- The claim holds of every such class but `Repeat` and `Roll`: whatever the history of parameters, values and shapes. -/
theorem C26_memo_tables_partial : ∀ c ∈ keepers', c.AlwaysFresh := by
  intro c hc
  simp only [keepers', List.mem_cons, List.not_mem_nil, or_false] at hc
  rcases hc with rfl | rfl | rfl | rfl | rfl | rfl | rfl | rfl | rfl | rfl
  · exact memoRun_eq keySound_sort
  · exact memoRun_eq keySound_tile
  · exact memoRun_eq keySound_diag
  · exact memoRun_eq keySound_diagflat
  · exact memoRun_eq keySound_transpose
  · exact memoRun_eq keySound_rollaxis
  · exact memoRun_eq keySound_swapaxes
  · exact memoRun_eq keySound_rot90
  · exact memoRun_eq (keySound_reduce _)
  · exact memoRun_eq (keySound_reduce _)

theorem repeatρ_shape (p q : Option Par) {u v : Arr} (h : u.shape = v.shape) : repeatρ p q u = repeatρ p q v := by
  unfold repeatρ Arr.size; rw [h]
theorem rollρ_shape (p q : Option Par) {u v : Arr} (h : u.shape = v.shape) : rollρ p q u = rollρ p q v := by
  unfold rollρ Arr.size; rw [h]

/-- `Repeat` and `Roll`: as long as the operand keeps its shape. -/
theorem C26_roll_repeat_partial (sh : List ℕ) (history : List RIn) (hsh : ∀ i ∈ history, i.2.2.shape = sh) :
    memoRun rollKey (reorderFresh rollρ) emptyTable history = history.map (reorderFresh rollρ) ∧
    memoRun repeatKey (reorderFresh repeatρ) emptyTable history = history.map (reorderFresh repeatρ) := by
  constructor
  · refine memoRun_eq_on (P := fun i => i.2.2.shape = sh) (fun i j k hi hj h h' => ?_) _ emptyTable_ok hsh
    refine keySound_reorder (ρ := rollρ) (key := fun i => (rollKey i).map fun k => (some i.2.2.shape, k.2))
      (fun a b c ha hb => ?_) (fun a b c ha hb u v huv => ?_) i j (some sh, k.2) ?_ ?_
    · have := ha.trans hb.symm
      simp [rollKey] at this
      exact this.1
    · have := ha.trans hb.symm
      simp [rollKey] at this
      rw [this.2.1, this.2.2]; exact rollρ_shape _ _ huv
    · dsimp only; rw [h, show i.2.2.shape = sh from hi]; rfl
    · dsimp only; rw [h', show j.2.2.shape = sh from hj]; rfl
  · refine memoRun_eq_on (P := fun i => i.2.2.shape = sh) (fun i j k hi hj h h' => ?_) _ emptyTable_ok hsh
    refine keySound_reorder (ρ := repeatρ) (key := fun i => (repeatKey i).map fun k => (some i.2.2.shape, k.2))
      (fun a b c ha hb => ?_) (fun a b c ha hb u v huv => ?_) i j (some sh, k.2) ?_ ?_
    · have := ha.trans hb.symm
      simp [repeatKey] at this
      exact this.1
    · have := ha.trans hb.symm
      simp [repeatKey] at this
      rw [this.2.1, this.2.2]; exact repeatρ_shape _ _ huv
    · dsimp only; rw [h, show i.2.2.shape = sh from hi]; rfl
    · dsimp only; rw [h', show j.2.2.shape = sh from hj]; rfl

/-- `roll(x, 1)` of a vector of 2 numbers, then of 3. -/
noncomputable def rolls : List RIn :=
  [(some (.int 1), some .none, Arr.of [2] fun _ => 0), (some (.int 1), some .none, Arr.of [3] fun _ => 0)]

/-- `roll(x, 1)` asked for its Jacobian when `x` had 2 entries answers that 2 by 2 matrix when `x` has 3. -/
theorem C26_roll_refuted : ∃ E E', memoRun rollKey (reorderFresh rollρ) emptyTable rolls = [some (.sparse 2 2 E), some (.sparse 2 2 E)] ∧
    rolls.map (reorderFresh rollρ) = [some (.sparse 2 2 E), some (.sparse 3 3 E')] := by
  refine ⟨_, _, memoRun_two (k := (none, some (.int 1), some .none)) rfl rfl rfl, rfl⟩

/-- `repeat(x, 2)` of a vector of 2 numbers, then of 3. -/
noncomputable def repeats : List RIn :=
  [(some (.nat 2), some .none, Arr.of [2] fun _ => 0), (some (.nat 2), some .none, Arr.of [3] fun _ => 0)]

theorem C26_repeat_refuted : ∃ E E', memoRun repeatKey (reorderFresh repeatρ) emptyTable repeats = [some (.sparse 4 2 E), some (.sparse 4 2 E)] ∧
    repeats.map (reorderFresh repeatρ) = [some (.sparse 4 2 E), some (.sparse 6 3 E')] := by
  refine ⟨_, _, memoRun_two (k := (none, some (.nat 2), some .none)) rfl rfl rfl, rfl⟩

theorem C26_full_refuted : ¬ C26_full := by
  intro h
  have := h (reorderKeeper rollρ rollKey) (by simp [keepers]) rolls
  obtain ⟨E, E', h1, h2⟩ := C26_roll_refuted
  rw [show (reorderKeeper rollρ rollKey).key = rollKey from rfl] at this
  have h3 := h1.symm.trans (this.trans h2)
  simp at h3

/-! ## Broadcasting -/

/-- Every answer of `_broadcast_matrix`, whatever was asked before by any object, is the matrix for the shapes, the operand and the
entries it was asked about. -/
theorem C26_broadcast_tables (history : List BIn) :
    broadcastRun ⟨emptyTable, emptyTable⟩ history =
      history.map fun i => broadcastMatrix i.1 i.2.1 i.2.2.1 i.2.2.2.1 i.2.2.2.2 := by
  have key : ∀ (is : List BIn) (t : BTables),
      TableOk (fun _ => True) (fun j : BIn => some j.1) (fun j => some ⟨j.1.prod, j.1.prod, id⟩) t.same →
      TableOk (fun _ => True) (fun j : BIn => some (j.1, j.2.1, j.2.2.1)) (fun j => bcastPattern j.1 j.2.1 j.2.2.1) t.diff →
      broadcastRun t is = is.map fun i => broadcastMatrix i.1 i.2.1 i.2.2.1 i.2.2.2.1 i.2.2.2.2 := by
    intro is
    induction is with
    | nil => intros; rfl
    | cons i is ih =>
      intro t h1 h2
      have s1 := memoStep_ok (P := fun _ => True) (fun a b k _ _ ha hb => by
        have := ha.trans hb.symm; injection this with this; rw [this]) h1 i trivial
      have s2 := memoStep_ok (P := fun _ => True) (fun a b k _ _ ha hb => by
        have := ha.trans hb.symm; simp only [Option.some.injEq, Prod.mk.injEq] at this; rw [this.1, this.2.1, this.2.2]) h2 i trivial
      have st : (broadcastStep t i).1 = broadcastMatrix i.1 i.2.1 i.2.2.1 i.2.2.2.1 i.2.2.2.2 ∧
          broadcastRun (broadcastStep t i).2 is = is.map fun i => broadcastMatrix i.1 i.2.1 i.2.2.1 i.2.2.2.1 i.2.2.2.2 := by
        unfold broadcastStep
        by_cases e : i.1 = i.2.1
        · rw [if_pos e]
          generalize memoStep (fun j : BIn => some j.1) (fun j => some (⟨j.1.prod, j.1.prod, id⟩ : Pattern)) t.same i = z at s1
          obtain ⟨a, t'⟩ := z
          obtain ⟨s1, s1'⟩ := s1
          dsimp only at s1; subst s1
          refine ⟨?_, ih _ s1' h2⟩
          unfold broadcastMatrix Pattern.fill
          rw [if_pos e]
          dsimp only
          split <;> rfl
        · rw [if_neg e]
          generalize memoStep (fun j : BIn => some (j.1, j.2.1, j.2.2.1)) (fun j => bcastPattern j.1 j.2.1 j.2.2.1) t.diff i = z at s2
          obtain ⟨a, t'⟩ := z
          obtain ⟨s2, s2'⟩ := s2
          dsimp only at s2; subst s2
          unfold broadcastMatrix
          rw [if_neg e]
          cases hb : bshape i.1 i.2.1 with
          | none =>
            have : bcastPattern i.1 i.2.1 i.2.2.1 = none := by unfold bcastPattern; rw [hb]; rfl
            rw [this]
            exact ⟨rfl, ih _ h1 s2'⟩
          | some o =>
            have : bcastPattern i.1 i.2.1 i.2.2.1 = some ⟨o.prod, if i.2.2.1 then i.1.prod else i.2.1.prod, bcastJS i.1 i.2.1 o i.2.2.1⟩ := by
              unfold bcastPattern; rw [hb]; rfl
            rw [this]
            refine ⟨?_, ih _ h1 s2'⟩
            exact apply_ite some _ _ _
      show (broadcastStep t i).1 :: broadcastRun (broadcastStep t i).2 is = _ :: _
      rw [st.1, st.2]
  exact key history _ emptyTable_ok emptyTable_ok

/-! ## Select -/

/-- The calls of `compute_dr_wrt` in a history, answered anew. -/
noncomputable def selAnew : List SelEv → List (Option Jac)
  | [] => []
  | .changed _ _ :: es => selAnew es
  | .dr i :: es => selFresh i :: selAnew es

/-- Every Jacobian a `Select` answers with is that of the current indices and the current size of the array, if changes are reported to
`on_changed` as C05 says. -/
theorem C26_select (i₀ : List ℕ × ℕ) (history : List SelEv) (hl : SelLegal i₀ history) : selRun none history = selAnew history := by
  have key : ∀ (es : List SelEv) (i : List ℕ × ℕ) (st : Option (ℕ × Jac)), SelLegal i es →
      (∀ n m, st = some (n, m) → n = i.2 ∧ selFresh i = some m) → selRun st es = selAnew es := by
    intro es
    induction es with
    | nil => intros; rfl
    | cons e es ih =>
      intro i st hl hst
      cases e with
      | changed b j =>
        show (selStep st _).1.toList ++ selRun (selStep st _).2 es = selAnew es
        unfold selStep
        rcases st with _ | ⟨n, m⟩
        · exact ih j none hl.2 (fun _ _ h => by cases h)
        · dsimp only
          split
          · exact ih j none hl.2 (fun _ _ h => by cases h)
          · next h =>
            push Not at h
            have hj : j = i := by
              refine Prod.ext ?_ (h.2.trans (hst n m rfl).1)
              by_contra hne
              exact h.1 (hl.1 hne)
            subst hj
            exact ih j _ hl.2 hst
      | dr j =>
        obtain ⟨rfl, hl⟩ := hl
        show (selStep st _).1.toList ++ selRun (selStep st _).2 es = selFresh j :: selAnew es
        unfold selStep
        rcases st with _ | ⟨n, m⟩
        · cases hf : selFresh j with
          | none => dsimp only; rw [hf]; dsimp only; rw [ih j none hl (fun _ _ h => by cases h)]; rfl
          | some m =>
            dsimp only
            rw [hf]
            dsimp only
            rw [ih j (some (j.2, m)) hl (fun n' m' h => by cases h; exact ⟨rfl, hf⟩)]; rfl
        · dsimp only
          rw [ih j _ hl hst, (hst n m rfl).2]; rfl
  exact key history i₀ none hl (fun _ _ h => by cases h)

/-- `selFresh` is what `compute_dr_wrt` of `Select` answers. -/
theorem selFresh_spec (tm : Name → Option Par) (idxs : List ℕ) (hp : tm nmP = some (.nats idxs)) (v out : Arr) (m : Jac) :
    selFresh (idxs, v.size) = some m ↔ ReturnsDr lib chSelect tm (env1 v) out [nmA] (some m) := by
  have hA : env1 v nmA = some v := rfl
  have e : ∀ f, runBody tm (env1 v) (runProp lib chSelect tm (env1 v) (.ok out) f) (.ok out) (lib.computeDr chSelect false [nmA]) =
      match selFresh (idxs, v.size) with | some m => .ok (some m) | none => .error (.user 1) := by
    intro f
    show runBody _ _ _ _ (chSelect.dr false [nmA]) = _
    unfold selFresh
    by_cases h : ∀ j ∈ idxs, j < v.size
    · rw [if_pos h]; simp only [chSelect, List.mem_singleton, if_true, runBody, hA, hp, if_pos h]
    · rw [if_neg h]; simp only [chSelect, List.mem_singleton, if_true, runBody, hA, hp, if_neg h]
  constructor
  · intro h; exact ⟨0, by rw [e, h]⟩
  · rintro ⟨f, h⟩
    rw [e] at h
    cases h' : selFresh (idxs, v.size) with
    | none => rw [h'] at h; cases h
    | some m' => rw [h'] at h; injection h

/-- A history with an assignment to `idxs`, then a smaller array, then a change that alters nothing. -/
noncomputable def selHistory : List SelEv :=
  [.changed true ([0, 2], 3), .dr ([0, 2], 3), .changed true ([1], 3), .dr ([1], 3), .changed false ([1], 2), .dr ([1], 2),
   .changed false ([1], 2), .dr ([1], 2)]
example : SelLegal ([], 0) selHistory := by simp [selHistory, SelLegal]
example : selAnew selHistory = [selFresh ([0, 2], 3), selFresh ([1], 3), selFresh ([1], 2), selFresh ([1], 2)] := rfl
example : selFresh ([1], 3) ≠ selFresh ([1], 2) := by simp [selFresh]

/-! ## cross -/

/-- The positions and the tiled identity `cross` uses are those for the current number of rows and columns.  (A 0 by 0 array
would find nothing stored.) -/
theorem C26_cross (history : List (ℕ × ℕ)) (h0 : ∀ i ∈ history, i ≠ (0, 0)) :
    crossRun crossIdx ((0, 0), none) history = history.map fun i => some (crossIdx i) := by
  have key : ∀ (is : List (ℕ × ℕ)) (st : (ℕ × ℕ) × Option _), (∀ i ∈ is, i ≠ (0, 0)) → (st = ((0, 0), none) ∨ st.2 = some (crossIdx st.1)) →
      crossRun crossIdx st is = is.map fun i => some (crossIdx i) := by
    intro is
    induction is with
    | nil => intros; rfl
    | cons i is ih =>
      intro st h hst
      show (crossStep crossIdx st i).1 :: crossRun crossIdx (crossStep crossIdx st i).2 is = _ :: _
      unfold crossStep
      by_cases e : i = st.1
      · rw [if_neg (not_not.2 e)]
        have : st.2 = some (crossIdx st.1) := by
          rcases hst with rfl | hst
          · exact absurd e (h i (by simp))
          · exact hst
        dsimp only
        rw [this, ih st (fun j hj => h j (by simp [hj])) hst, e]
      · rw [if_pos e]
        dsimp only
        rw [ih _ (fun j hj => h j (by simp [hj])) (Or.inr rfl)]
  exact key history _ h0 (Or.inl rfl)

/-- They are the positions in the model of `cross`. -/
theorem crossIdx_three (h : ℕ) : (crossIdx (h, 3)).1 = (fun k => k / 3) ∧ (crossIdx (h, 3)).2.1 = fun k => 3 * (k / 9) + k % 3 := ⟨rfl, rfl⟩

/-! ## Histories -/

/-- `transpose` of a 2 by 3 array, of the array with its shape changed, and back: three different answers are right, and the first
and the last are found in the table. -/
example : ∃ E E' : Ent, memoRun transposeKey (reorderFresh transposeρ) emptyTable
    [(none, none, Arr.of [2, 3] fun _ => 0), (none, none, Arr.of [3, 3] fun _ => 0), (some .none, none, Arr.of [2, 3] fun _ => 1)] =
      [some (.sparse 6 6 E), some (.sparse 9 9 E'), some (.sparse 6 6 E)] := by
  rw [memoRun_eq keySound_transpose]
  exact ⟨_, _, rfl⟩

end Chumpy
