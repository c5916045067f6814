import Verif.AD.ConcatMemo
/-!
# C30: re-pointing an operand of a concatenation
-/
namespace Chumpy
open scoped BigOperators Classical

/-- C30: whatever is read and assigned, in whatever order, every answer of a concatenation is that of a concatenation newly made of the
operands it has at that time.  (`axis` is left alone.) -/
def C30_full : Prop :=
  ∀ (s : CSt), s.Blank → ∀ es : List CEv, (∀ e ∈ es, ∀ a, e ≠ .axis a) → ∀ p ∈ s.run es, p.1 = p.2

namespace CSt
theorem step_read_right {s : CSt} (h : s.Ok) {e : CEv} (he : e = .readR ∨ ∃ w n, e = .readDr w n) :
    (s.step e).1 = (s.renew.step e).1 ∧ s.Same (s.step e).2 ∧ (s.step e).2.Ok := by
  rcases he with rfl | ⟨w, n, rfl⟩
  · obtain ⟨h1, h2, h3⟩ := getR_ok h
    refine ⟨?_, h2, h3⟩
    show CAns.value s.getR.1 = CAns.value s.renew.getR.1
    rw [h1, renew_R]
  · obtain ⟨h1, h2, h3⟩ := getDr_ok h w n
    refine ⟨?_, h2, h3⟩
    show CAns.matrix (s.getDr w n).1 = CAns.matrix (s.renew.getDr w n).1
    rw [h1, renew_Dr]

/-- A write that keeps the shapes of the operands. -/
def KeepsShape (s : CSt) (x : Id) (v : Arr) : Prop := x ∈ s.ops → v.shape = (s.val x).shape

theorem write_ok {s : CSt} (h : s.Ok) {x : Id} {v : Arr} (hk : s.KeepsShape x v) : (s.step (.write x v)).2.Ok := by
  have hsh : ∀ y ∈ s.ops, (Function.update s.val x v y).shape = (s.val y).shape := by
    intro y hy
    by_cases e : y = x
    · subst e; rw [Function.update_self]; exact hk hy
    · rw [Function.update_of_ne e]
  have hm : (s.ops.map s.val).map Arr.shape = (s.ops.map (Function.update s.val x v)).map Arr.shape := by
    rw [List.map_map, List.map_map]; exact List.map_congr_left fun y hy => (hsh y hy).symm
  refine ⟨fun u e => ?_, h.terms, fun E e => ?_, fun w d e => ?_⟩
  · show concatArr s.ax (s.ops.map (Function.update s.val x v)) = some u
    change (if x ∈ s.ops then none else s.rc) = some u at e
    split at e
    · cases e
    · next hx =>
      rw [← h.rc u e]
      congr 1
      refine List.map_congr_left fun y hy => ?_
      rw [Function.update_of_ne]
      rintro rfl; exact hx hy
  · obtain ⟨v', i, h1, h2, h3⟩ := h.every E e
    have := concatArr_shape (ax := s.ax) hm
    rw [h1] at this
    show ∃ v'' i, concatArr s.ax (s.ops.map (Function.update s.val x v)) = some v'' ∧ _
    cases h4 : concatArr s.ax (s.ops.map (Function.update s.val x v)) with
    | none => rw [h4] at this; cases this
    | some u =>
      rw [h4] at this
      have hs : v'.shape = u.shape := by simpa using this
      exact ⟨u, i, rfl, by rw [← hs]; exact h2, by rw [← hs]; exact h3⟩
  · rw [← h.table w d e]
    exact freshDr_shape (s := (s.step (.write x v)).2) (t := s) rfl rfl hsh w

/-- The histories for which C30 holds: operands are assigned only before anything is read, and after that the operands keep their shapes. -/
inductive Tame : Bool → CSt → List CEv → Prop
  | nil (b : Bool) (s : CSt) : Tame b s []
  /-- before the first read anything goes -/
  | before {s : CSt} {e : CEv} {es : List CEv} : e ≠ .readR → (∀ w n, e ≠ .readDr w n) → Tame false (s.step e).2 es → Tame false s (e :: es)
  | read {b : Bool} {s : CSt} {e : CEv} {es : List CEv} : (e = .readR ∨ ∃ w n, e = .readDr w n) → Tame true (s.step e).2 es → Tame b s (e :: es)
  | write {b : Bool} {s : CSt} {x : Id} {v : Arr} {es : List CEv} : s.KeepsShape x v → Tame true (s.step (.write x v)).2 es →
      Tame b s (.write x v :: es)
end CSt

/-- C30 for histories in which operands (and `axis`) are assigned only before the first read and keep their shapes after it.  Missing:
all other histories, for which it is false (`C30_full_refuted`, `C30_shapes_refuted`). -/
theorem C30_repointing_seen_partial (s : CSt) (hs : s.Blank) (es : List CEv) (ht : CSt.Tame false s es) : ∀ p ∈ s.run es, p.1 = p.2 := by
  have key : ∀ {b : Bool} {s : CSt} {es : List CEv}, CSt.Tame b s es → s.Ok → (b = false → s.Blank) → ∀ p ∈ s.run es, p.1 = p.2 := by
    intro b s es ht
    induction ht with
    | nil b s => intro _ _ p hp; cases hp
    | @before s e es h1 h2 _ ih =>
      intro _ hb p hp
      have hb := hb rfl
      rcases List.mem_cons.1 hp with rfl | hp
      · cases e with
        | readR => exact absurd rfl h1
        | readDr w n => exact absurd rfl (h2 w n)
        | _ => rfl
      · have hb' : (s.step e).2.Blank := by
          cases e with
          | readR => exact absurd rfl h1
          | readDr w n => exact absurd rfl (h2 w n)
          | assign k x => exact ⟨rfl, hb.terms, hb.every, hb.table⟩
          | axis a => exact ⟨hb.rc, hb.terms, hb.every, hb.table⟩
          | write x v => exact ⟨by simp [CSt.step, hb.rc], hb.terms, hb.every, hb.table⟩
        exact ih hb'.ok (fun _ => hb') p hp
    | @read b s e es he _ ih =>
      intro hok _ p hp
      obtain ⟨h1, _, h3⟩ := CSt.step_read_right hok he
      rcases List.mem_cons.1 hp with rfl | hp
      · exact h1
      · exact ih h3 (fun h => by cases h) p hp
    | @write b s x v es hk _ ih =>
      intro hok _ p hp
      rcases List.mem_cons.1 hp with rfl | hp
      · rfl
      · exact ih (CSt.write_ok hok hk) (fun h => by cases h) p hp
  exact key ht hs.ok fun _ => hs

/-- What was asked of a history. -/
def CEv.isValue : CEv → Prop
  | .readR => True
  | _ => False

/-- An operand is assigned. -/
def CEv.repoints : CEv → Prop
  | .assign _ _ => True
  | .axis _ => True
  | _ => False

namespace CSt
/-- Nothing kept is wrong about the value. -/
structure ROk (s : CSt) : Prop where
  rc : ∀ v, s.rc = some v → concatArr s.ax (s.ops.map s.val) = some v
  terms : ∀ l, s.terms = some l → l = s.ops

theorem getTerms_rok {s : CSt} (h : s.ROk) : s.getTerms.1 = s.ops ∧ s.Same s.getTerms.2 ∧ s.getTerms.2.ROk := by
  unfold getTerms
  cases ht : s.terms with
  | some l => exact ⟨h.terms l ht, ⟨rfl, rfl, rfl⟩, h⟩
  | none => exact ⟨rfl, ⟨rfl, rfl, rfl⟩, ⟨h.rc, fun l e => by injection e with e; exact e.symm⟩⟩

theorem getR_rok {s : CSt} (h : s.ROk) : s.getR.1 = concatArr s.ax (s.ops.map s.val) ∧ s.Same s.getR.2 ∧ s.getR.2.ROk := by
  unfold getR
  cases hr : s.rc with
  | some v => exact ⟨(h.rc v hr).symm, ⟨rfl, rfl, rfl⟩, h⟩
  | none =>
    obtain ⟨h1, h2, h3⟩ := getTerms_rok h
    dsimp only
    rw [h1]
    cases hc : concatArr s.ax (s.ops.map s.val) with
    | none => exact ⟨rfl, h2, h3⟩
    | some v =>
      refine ⟨rfl, h2, ⟨fun u e => ?_, h3.terms⟩⟩
      injection e with e
      subst e
      dsimp only
      rw [← h2.1, ← h2.2.1, ← h2.2.2]; exact hc

theorem getEvery_rok {s : CSt} (h : s.ROk) : s.getEvery.2.ROk := by
  unfold getEvery
  cases he : s.every with
  | some E => exact h
  | none =>
    obtain ⟨_, _, h3⟩ := getR_rok h
    dsimp only
    rcases hg : s.getR with ⟨o, s'⟩
    rw [hg] at h3
    cases o with
    | none => exact h3
    | some v =>
      dsimp only
      cases normAxis v.shape.length s.ax with
      | none => exact h3
      | some i => exact ⟨h3.rc, h3.terms⟩

theorem getDr_rok {s : CSt} (h : s.ROk) (w : Id) (n : ℕ) : (s.getDr w n).2.ROk := by
  unfold getDr
  split
  · exact h
  · obtain ⟨_, _, t3⟩ := getTerms_rok h
    split
    · exact t3
    · have e2 := getEvery_rok t3
      rcases hg : s.getTerms.2.getEvery with ⟨oE, s1⟩
      rw [hg] at e2
      dsimp only at e2
      cases oE with
      | none => exact e2
      | some E =>
        obtain ⟨_, _, r3⟩ := getR_rok e2
        dsimp only
        rcases hr : s1.getR with ⟨o, s2⟩
        rw [hr] at r3
        dsimp only at r3
        cases o with
        | none => exact r3
        | some v =>
          dsimp only
          cases normAxis v.shape.length s.ax with
          | none => exact r3
          | some i =>
            dsimp only
            split
            · exact r3
            · exact ⟨r3.rc, r3.terms⟩
end CSt

/-- The values alone: whatever is written to the operands, of whatever shapes, and whatever is read in whatever order, as long as no operand
is re-pointed. -/
theorem C30_values_partial (s : CSt) (hs : s.Blank) (es : List CEv) (ht : ∀ e ∈ es, ¬ e.repoints) :
    ∀ k (hk : k < es.length), es[k].isValue → ∃ p, (s.run es)[k]? = some p ∧ p.1 = p.2 := by
  have key : ∀ (es : List CEv) (s : CSt), s.ROk → (∀ e ∈ es, ¬ e.repoints) → ∀ k (hk : k < es.length), es[k].isValue →
      ∃ p, (s.run es)[k]? = some p ∧ p.1 = p.2 := by
    intro es
    induction es with
    | nil => intro s _ _ k hk; cases hk
    | cons e es ih =>
      intro s hs ht k hk hv
      have hstep : (s.step e).2.ROk := by
        cases e with
        | assign k x => exact absurd trivial (ht (.assign k x) (by simp))
        | axis a => exact absurd trivial (ht (.axis a) (by simp))
        | readR => exact (CSt.getR_rok hs).2.2
        | readDr w n => exact CSt.getDr_rok hs w n
        | write x v =>
          refine ⟨fun u e => ?_, hs.terms⟩
          show concatArr s.ax (s.ops.map (Function.update s.val x v)) = some u
          change (if x ∈ s.ops then none else s.rc) = some u at e
          split at e
          · cases e
          · next hx =>
            rw [← hs.rc u e]
            congr 1
            refine List.map_congr_left fun y hy => ?_
            rw [Function.update_of_ne]
            rintro rfl; exact hx hy
      cases k with
      | zero =>
        refine ⟨_, rfl, ?_⟩
        cases e with
        | readR =>
          show CAns.value s.getR.1 = CAns.value s.renew.getR.1
          rw [(CSt.getR_rok hs).1, CSt.renew_R]
        | _ => exact absurd hv (fun h => h)
      | succ k => exact ih _ hstep (fun e he => ht e (by simp [he])) k (by simpa using hk) (by simpa using hv)
  exact key es s ⟨hs.ok.rc, hs.ok.terms⟩ ht

namespace ADDemo
/-- `concatenate([a, b])` of `a = [1]`, `b = [2]`, with `c = [3]` and `d = [4, 5]` at hand. -/
noncomputable def cat : CSt where
  ops := [0, 1]
  ax := 0
  val := fun
    | 0 => ⟨[1], fun _ => 1⟩
    | 1 => ⟨[1], fun _ => 2⟩
    | 2 => ⟨[1], fun _ => 3⟩
    | _ => ⟨[2], ![4, 5]⟩

theorem cat_blank : cat.Blank := ⟨rfl, rfl, rfl, rfl⟩

theorem cat_value (x y : Arr) (hx : x.shape = [1]) (hy : y.shape = [1]) : ∃ v, concatArr 0 [x, y] = some v ∧ v.at [0] = x.at [0] ∧ v.shape = [2] := by
  have h : ∃ v, concatArr 0 [x, y] = some v ∧ v.shape = [2] := by
    unfold concatArr
    simp only [List.map_cons, List.map_nil, hx, hy]
    have h1 : normAxis (([[1], [1]] : List (List ℕ)).headD []).length 0 = some 0 := by decide
    have h2 : concatShape 0 [[1], [1]] = some [2] := by decide
    simp only [h1, h2]
    exact ⟨_, rfl, rfl⟩
  obtain ⟨v, hv, hsh⟩ := h
  obtain ⟨i, hi, hc⟩ := concatArr_spec hv
  rw [hsh] at hi
  have hi0 : i = 0 := by
    have : normAxis ([2] : List ℕ).length 0 = some 0 := by decide
    rw [this] at hi; injection hi with hi; exact hi.symm
  subst hi0
  have := hc.entry 0 (by simp) [0] (by rw [List.getElem_cons_zero, hx]; exact .cons (by decide) .nil)
  refine ⟨v, hv, ?_, hsh⟩
  rw [List.getElem_cons_zero] at this
  exact this

/-- Assigning `m0` before the first read, reading the value and a matrix, and writing to an operand: the hypotheses of
`C30_repointing_seen_partial` are met. -/
example : CSt.Tame false cat [.assign 0 2, .readDr 2 0, .write 2 ⟨[1], fun _ => 7⟩, .readR, .readDr 2 0] := by
  refine .before (by simp) (by simp) (.read (.inr ⟨_, _, rfl⟩) (.write (fun _ => ?_) (.read (.inl rfl) (.read (.inr ⟨_, _, rfl⟩) (.nil ..)))))
  have h := (CSt.getDr_ok (s := (cat.step (.assign 0 2)).2) (CSt.Blank.ok ⟨rfl, rfl, rfl, rfl⟩) 2 0).2.1.2.2
  show [1] = (((cat.step (.assign 0 2)).2.getDr 2 0).2.val 2).shape
  rw [← h]; rfl
end ADDemo

theorem CSt.getR_eq {s : CSt} (hr : s.rc = none) {v : Arr} (hv : concatArr s.ax (s.getTerms.1.map s.val) = some v) :
    s.getR = (some v, { s.getTerms.2 with rc := some v }) := by
  unfold CSt.getR; rw [hr]; dsimp only; rw [hv]

/-- C30 is false as stated: read `concatenate([a, b])`, then assign `m0`: the next read still answers with `a`. -/
theorem C30_full_refuted : ¬ C30_full := by
  intro hf
  have := hf ADDemo.cat ADDemo.cat_blank [.readR, .assign 0 2, .readR] (by simp) _ (List.mem_of_getElem? (show _ = some _ from rfl : (_ : List _)[2]? = some _))
  obtain ⟨v1, h1, e1, _⟩ := ADDemo.cat_value ⟨[1], fun _ => 1⟩ ⟨[1], fun _ => 2⟩ rfl rfl
  obtain ⟨v2, h2, e2, _⟩ := ADDemo.cat_value ⟨[1], fun _ => 3⟩ ⟨[1], fun _ => 2⟩ rfl rfl
  have hs1 : (ADDemo.cat.step .readR).2 = { ADDemo.cat with rc := some v1, terms := some [0, 1] } := by
    show ADDemo.cat.getR.2 = _
    rw [CSt.getR_eq rfl h1]; rfl
  dsimp only at this
  rw [hs1] at this
  have hL : (CSt.step { ADDemo.cat with ops := [2, 1], rc := none, terms := some [0, 1] } .readR).1 = .value (some v1) := by
    show CAns.value (CSt.getR _).1 = _
    rw [CSt.getR_eq rfl h1]
  have hR : (CSt.step (CSt.renew { ADDemo.cat with ops := [2, 1], rc := none, terms := some [0, 1] }) .readR).1 = .value (some v2) := by
    show CAns.value (CSt.getR _).1 = _
    rw [CSt.renew_R]
    exact congrArg CAns.value h2
  have h3 := hL.symm.trans (this.trans hR)
  injection h3 with h3
  injection h3 with h3
  rw [h3, e2] at e1
  have a1 : Arr.at ⟨[1], fun _ => 3⟩ [0] = 3 := by simp [Arr.at, Arr.vec, ravel]
  have a2 : Arr.at ⟨[1], fun _ => 1⟩ [0] = 1 := by simp [Arr.at, Arr.vec, ravel]
  rw [a1, a2] at e1
  norm_num at e1

/-- C30 for histories that re-point nothing: still every answer is that of a new concatenation. -/
def C30_shapes : Prop :=
  ∀ (s : CSt), s.Blank → ∀ es : List CEv, (∀ e ∈ es, ¬ e.repoints) → ∀ p ∈ s.run es, p.1 = p.2

/-- That is false too: the matrices kept are those for the first shapes.  `concatenate([a])` of `a = [1]` is asked about `a`, `a.x` is
assigned an array of another shape, and it is asked again: the answer is the 1×1 matrix, the right one is 2×2. -/
theorem C30_shapes_refuted : ¬ C30_shapes := by
  intro hf
  obtain ⟨s, hb, hops, hax, hval⟩ : ∃ s : CSt, s.Blank ∧ s.ops = [0] ∧ s.ax = 0 ∧ (s.val 0).shape = [1] :=
    ⟨{ ops := [0], ax := 0, val := fun _ => ⟨[1], fun _ => 1⟩ }, ⟨rfl, rfl, rfl, rfl⟩, rfl, rfl, rfl⟩
  obtain ⟨s', hops', hax', hval'⟩ : ∃ s' : CSt, s'.ops = s.ops ∧ s'.ax = s.ax ∧ s'.val = Function.update s.val 0 ⟨[2], fun _ => 1⟩ :=
    ⟨{ ops := s.ops, ax := s.ax, val := Function.update s.val 0 ⟨[2], fun _ => 1⟩ }, rfl, rfl, rfl⟩
  have h := hf s hb [.readDr 0 0, .write 0 ⟨[2], fun _ => 1⟩, .readDr 0 0] (by
    intro e he hr
    simp only [List.mem_cons, List.not_mem_nil, or_false] at he
    rcases he with rfl | rfl | rfl <;> exact hr) _ (List.mem_of_getElem? (show _ = some _ from rfl : (_ : List _)[2]? = some _))
  dsimp only at h
  -- the matrix of a concatenation of one vector
  have mat : ∀ t : CSt, t.ops = [0] → t.ax = 0 → ∀ n, (t.val 0).shape = [n] → ∃ e, t.freshDr 0 = some (some (.sparse n n e)) := by
    intro t ho ha n hn
    obtain ⟨v, hv, hvs⟩ : ∃ v, concatArr 0 [t.val 0] = some v ∧ v.shape = [n] := by
      unfold concatArr
      have h1 : normAxis (([[n]] : List (List ℕ)).headD []).length 0 = some 0 := rfl
      have h2 : concatShape 0 [[n]] = some [n] := by simp [concatShape]
      simp only [List.map_cons, List.map_nil, hn, h1, h2]
      exact ⟨_, rfl, rfl⟩
    obtain ⟨i, hi, hc⟩ := concatArr_spec hv
    have hi0 : i = 0 := by
      rw [hvs] at hi
      have : normAxis ([n] : List ℕ).length 0 = some 0 := rfl
      rw [this] at hi; injection hi with hi; exact hi.symm
    subst hi0
    have hsz : v.size = n ∧ (t.val 0).size = n := by unfold Arr.size; rw [hvs, hn]; simp
    obtain ⟨e, he, _⟩ := concat_mat (ns := [nmM 0]) (v := fun _ => t.val 0) (out := v) (i := 0) hc [nmM 0] (t.val 0) (by simp) (List.Sublist.refl _)
      (fun _ _ => rfl)
    refine ⟨e, ?_⟩
    unfold CSt.freshDr
    rw [ho, ha, if_neg (by simp)]
    simp only [List.map_cons, List.map_nil]
    rw [hv]
    dsimp only
    rw [hi]
    dsimp only
    rw [hsz.1, hsz.2] at he
    rw [hsz.1]
    have e1 : CSt.namesOf [0] 0 = [nmM 0] := by simp [CSt.namesOf, CSt.names]
    have e2 : (CSt.names [0]).zip [t.val 0] = [nmM 0].zip (List.ofFn fun _ : Fin 1 => t.val 0) := by simp [CSt.names]
    rw [e1, e2]
    erw [he]
    rfl
  obtain ⟨d1, hd1⟩ := mat s hops hax 1 hval
  obtain ⟨d2, hd2⟩ := mat s' (hops'.trans hops) (hax'.trans hax) 2 (by rw [hval', Function.update_self])
  have hsame := (CSt.getDr_ok hb.ok 0 0).2.1
  -- the matrix is kept
  have htab : (s.getDr 0 0).2.table 0 = some (some (.sparse 1 1 d1)) := by
    have h1 := (CSt.getDr_ok hb.ok 0 0).1
    rw [hd1] at h1
    unfold CSt.getDr at h1 ⊢
    split at h1
    · next hd => rw [hb.table] at hd; cases hd
    · split at h1
      · cases h1
      · next hw =>
        rw [if_neg hw]
        split at h1
        · cases h1
        · next E s1 hE =>
          split at h1
          · cases h1
          · next v s2 hR =>
            split at h1
            · cases h1
            · next i hi =>
              split at h1
              · cases h1
              · next d hd =>
                injection h1 with h1
                injection h1 with h1
                dsimp only
                rw [Function.update_self, if_neg (by simp), h1]
  have hL : (CSt.step (CSt.step (s.step (.readDr 0 0)).2 (.write 0 ⟨[2], fun _ => 1⟩)).2 (.readDr 0 0)).1 = .matrix (some (some (.sparse 1 1 d1))) := by
    show CAns.matrix (CSt.getDr _ 0 0).1 = _
    refine congrArg CAns.matrix ?_
    have ht : (CSt.step (s.step (.readDr 0 0)).2 (.write 0 ⟨[2], fun _ => 1⟩)).2.table 0 = some (some (.sparse 1 1 d1)) := htab
    unfold CSt.getDr
    split
    · next d hd => rw [ht] at hd; injection hd with hd; rw [← hd]
    · next hd => exact absurd ht (hd _)
  have hR : (CSt.step (CSt.step (s.step (.readDr 0 0)).2 (.write 0 ⟨[2], fun _ => 1⟩)).2.renew (.readDr 0 0)).1 = .matrix (some (some (.sparse 2 2 d2))) := by
    show CAns.matrix (CSt.getDr _ 0 0).1 = _
    rw [CSt.renew_Dr, ← hd2]
    refine congrArg CAns.matrix ?_
    have hs' : CSt.Same s' (CSt.step (s.step (.readDr 0 0)).2 (.write 0 ⟨[2], fun _ => 1⟩)).2 := by
      refine ⟨hops'.trans hsame.1, hax'.trans hsame.2.1, hval'.trans ?_⟩
      show Function.update s.val 0 _ = Function.update (s.getDr 0 0).2.val 0 _
      rw [← hsame.2.2]
    exact hs'.freshDr 0
  have h3 := hL.symm.trans (h.trans hR)
  injection h3 with h3
  injection h3 with h3
  injection h3 with h3
  injection h3 with h3
  cases h3
end Chumpy
