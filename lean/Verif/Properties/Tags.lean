import Verif.Core.SameObs
import Verif.Properties.Fresh
/-!
# Tagged writes and keyword assignment: C07, C08
-/
namespace Chumpy
variable {C T V D : Type} {s : Sig C T V D} {m : Mode}

/-- Two states are observably equal: same objects and attributes, and every read of a value or a property
gives the same outcome in both (as far as the recursion limits suffice). -/
def ObsEq (s : Sig C T V D) (h h' : Heap C T V D) : Prop :=
  h'.graph = h.graph ∧ (∀ j, (h'.node j).alive = (h.node j).alive) ∧
  ∀ f f' q, (read s f q h).2 ≠ .error .fuel → (read s f' q h').2 ≠ .error .fuel → (read s f q h).2 = (read s f' q h').2

/-- The same for derivatives, with respect to objects that are not slices. -/
def ObsEqDr (s : Sig C T V D) (h h' : Heap C T V D) : Prop :=
  ∀ f f' i w, s.isPermute (h.graph w).cls = false → (drWrt s f i w h).2 ≠ .error .fuel →
    (drWrt s f' i w h').2 ≠ .error .fuel → (drWrt s f i w h).2 = (drWrt s f' i w h').2

theorem obsEq_of_reach (hp : s.PropsOk) {h h' : Heap C T V D} (hr : Reach s ⟨False, False⟩ h)
    (hr' : Reach s ⟨False, False⟩ h') (x : SameObs h h') : ObsEq s h h' := by
  refine ⟨x.graph, x.alive, fun f f' q h1 h2 => ?_⟩
  have a := (read_sim (P := True) f q h (reach_inv hp (fun h => False.elim h) hr).coh rfl).2.2 trivial
  have b := (read_sim (P := True) f' q h' (reach_inv hp (fun h => False.elim h) hr').coh rfl).2.2 trivial
  rw [x.graph] at b
  obtain ⟨n, e⟩ := a.2 h1
  obtain ⟨n', e'⟩ := b.2 h2
  have e1 : evalReq s h.graph n q = (read s f q h).2 := e
  have e2 : evalReq s h.graph n' q = (read s f' q h').2 := e'
  have e3 : evalReq s h.graph (max n n') q = evalReq s h.graph n q :=
    evalReq_mono s h.graph (Nat.le_max_left n n') q (by rw [e1]; exact h1)
  have e4 : evalReq s h.graph (max n n') q = evalReq s h.graph n' q :=
    evalReq_mono s h.graph (Nat.le_max_right n n') q (by rw [e2]; exact h2)
  rw [← e1, ← e2, ← e3, ← e4]

theorem Reach.weaken {m m' : Mode} (h1 : m'.frozen → m.frozen) (h2 : m'.plain → m.plain) {h : Heap C T V D}
    (hr : Reach s m h) : Reach s m' h := by
  induction hr with
  | init => exact .init
  | step op _ hl ih =>
    refine .step op ih ?_
    cases op <;> simp only [Legal] at hl ⊢
    · exact ⟨fun h => hl.1 (h1 h), fun h => hl.2 (h2 h)⟩
    · exact ⟨fun h => hl.1 (h1 h), hl.2⟩
    · exact ⟨fun h => hl.1 (h1 h), hl.2⟩
    · exact fun h => hl (h1 h)

theorem Legal.weaken {m m' : Mode} (h1 : m'.frozen → m.frozen) (h2 : m'.plain → m.plain) {h : Heap C T V D} {op : Op C T D}
    (hl : Legal s m h op) : Legal s m' h op := by
  cases op <;> simp only [Legal] at hl ⊢
  · exact ⟨fun h => hl.1 (h1 h), fun h => hl.2 (h2 h)⟩
  · exact ⟨fun h => hl.1 (h1 h), hl.2⟩
  · exact ⟨fun h => hl.1 (h1 h), hl.2⟩
  · exact fun h => hl (h1 h)

theorem eachSet_reach {P : Prop} (i : Id) (kws : List (KW T)) : ∀ {h : Heap C T V D}, Reach s ⟨False, P⟩ h →
    Reach s ⟨False, P⟩ (eachSet s i kws h).1 := by
  induction kws with
  | nil => intro h hr; exact hr
  | cons kw kws ih =>
    intro h hr
    have hr1 : Reach s ⟨False, P⟩ (setObj s i [kw] h).1 := .step (.set i [kw]) hr ⟨fun h => False.elim h, Or.inl (by simp)⟩
    rw [eachSet, M.bind]
    rcases hx : setObj s i [kw] h with ⟨h1, r⟩
    rw [hx] at hr1
    cases r with
    | error e => exact hr1
    | ok u => exact ih hr1

theorem eachWrite_reach {P : Prop} (ws : List (Id × KW T)) : ∀ {h : Heap C T V D}, Reach s ⟨False, P⟩ h →
    Reach s ⟨False, P⟩ (eachWrite s ws h).1 := by
  induction ws with
  | nil => intro h hr; exact hr
  | cons w ws ih =>
    intro h hr
    have hr1 : Reach s ⟨False, P⟩ (setObj s w.1 [w.2] h).1 := .step (.set w.1 [w.2]) hr ⟨fun h => False.elim h, Or.inl (by simp)⟩
    rw [eachWrite, M.bind]
    rcases hx : setObj s w.1 [w.2] h with ⟨h1, r⟩
    rw [hx] at hr1
    cases r with
    | error e => exact hr1
    | ok u => exact ih hr1

theorem reach_str {h : Heap C T V D} (hr : Reach s m h) : Str h := by
  induction hr with
  | init => exact str_empty
  | step op _ _ ih => exact step_str ih op

theorem obsEqDr_of_reach (hp : s.PropsOk) (ho : s.PlainForm) {h h' : Heap C T V D} (hr : Reach s ⟨False, True⟩ h)
    (hr' : Reach s ⟨False, True⟩ h') (x : SameObs h h') : ObsEqDr s h h' := by
  intro f f' i w hw h1 h2
  have a := C02_derivative_never_stale_partial hp ho hr f i w hw
  have b := C02_derivative_never_stale_partial hp ho hr' f' i w (by rw [x.graph]; exact hw)
  have key : ∀ {h : Heap C T V D} {f}, DrFresh s h f i w (drWrt s f i w h).2 → (drWrt s f i w h).2 ≠ .error .fuel →
      MeansDr s h.graph i w (drWrt s f i w h).2 := by
    intro h f a h1
    cases hx : (drWrt s f i w h).2 with
    | ok d => rw [hx] at a; exact a.1 d rfl
    | error e => rw [hx] at a h1; exact a.2.1 e rfl (fun he => h1 (by rw [he]))
  obtain ⟨n, e1⟩ := (key a h1).2
  obtain ⟨n', e2⟩ := (key b h2).2
  rw [x.graph] at e2
  have e3 : evalDr s h.graph (max n n') i w = evalDr s h.graph n i w :=
    evalDr_mono s h.graph (Nat.le_max_left n n') i w (by rw [e1]; exact h1)
  have e4 : evalDr s h.graph (max n n') i w = evalDr s h.graph n' i w :=
    evalDr_mono s h.graph (Nat.le_max_right n n') i w (by rw [e2]; exact h2)
  rw [← e1, ← e2, ← e3, ← e4]

/-! ## C07 -/

/-- C07.  In every reachable state, after a batch of writes carrying one fresh tag (`batch` takes the next
value of the global counter; `hl` only asks that this value is not the 9999 that a failed `set()` left behind),
* each read returns the from-scratch value on the new graph, and
* the state is observably the same as after the same writes done one by one without tags, values and derivatives,
  and stays so through every later history that is legal from both. -/
theorem C07_batch_coherent (hp : s.PropsOk) {h : Heap C T V D} (hr : Reach s ⟨False, False⟩ h) (ws : List (Id × KW T))
    (hl : h.giter + 1 ≠ 9999 ∨ ∀ n, (h.node n).itr ≠ some 9999) (ha : ∀ w ∈ ws, (h.node w.1).alive = true) :
    let h1 := (step s (.batch ws) h).1
    (∀ f q, ReadFresh s h1 f q (read s f q h1).2) ∧
    ∀ later, LegalRun s ⟨False, False⟩ h1 later → LegalRun s ⟨False, False⟩ (eachWrite s ws h).1 later →
      ObsEq s (run s later h1) (run s later (eachWrite s ws h).1) := by
  intro h1
  have hr1 : Reach s ⟨False, False⟩ h1 := .step _ hr ⟨fun h => False.elim h, hl⟩
  refine ⟨fun f q => readFresh_of_agree ((read_sim (P := True) f q h1 (reach_inv hp (fun h => False.elim h) hr1).coh rfl).2.2 trivial),
    fun later l1 l2 => ?_⟩
  refine obsEq_of_reach hp (reach_run later hr1 l1) (reach_run later (eachWrite_reach ws hr) l2)
    (run_sameObs later (reach_str hr1) (reach_str (eachWrite_reach ws hr)) ?_)
  have hs := reach_str hr
  have hs' : Str { h with giter := h.giter + 1 } := ⟨hs.links, hs.dead, hs.unborn, hs.dn, hs.keys, fun n t ht => by
      rcases hs.tags n t ht with h | h
      · left; show t ≤ _ + 1; omega
      · exact Or.inr h⟩
  have := (eachWrite_batch (s := s) (h.giter + 1) ws hs' hs (h := { h with giter := h.giter + 1 }) (h' := h)
    ⟨rfl, rfl, fun _ => rfl⟩ ha (Or.inl (Nat.le_refl _))).1
  have e : h1 = (batchLoop s (h.giter + 1) ws { h with giter := h.giter + 1 }).1 := by
    show (step s (.batch ws) h).1 = _
    simp only [step, M.map', batch]
    rw [if_pos (List.all_eq_true.2 (fun w hw => by simpa using ha w hw))]
  rw [e]; exact this

/-- C07 for derivatives. -/
theorem C07_batch_coherent_derivatives (hp : s.PropsOk) (ho : s.PlainForm) {h : Heap C T V D} (hr : Reach s ⟨False, True⟩ h)
    (ws : List (Id × KW T)) (hl : h.giter + 1 ≠ 9999 ∨ ∀ n, (h.node n).itr ≠ some 9999) (f : Nat) (i w : Id) :
    let h1 := (step s (.batch ws) h).1
    s.isPermute (h1.graph w).cls = false → DrFresh s h1 f i w (drWrt s f i w h1).2 :=
  fun hw => C02_derivative_never_stale_partial hp ho (.step (.batch ws) hr ⟨fun h => False.elim h, hl⟩) f i w hw

namespace Demo
/-- Two leaves with a common dependent written in one batch; the second write skips the dependents. -/
abbrev tg1 := [leaf [3], leaf [4], bin .mul 0 1, bin .add 2 0, .readR 9 3]
example : (step sig (.batch [(0, .term x [5]), (1, .term x [6])]) (hist tg1)).2 = .ok .unit ∧
    (read sig 9 (.r 3) (hist tg1)).2 = .ok [15] ∧
    (read sig 9 (.r 3) (step sig (.batch [(0, .term x [5]), (1, .term x [6])]) (hist tg1)).1).2 = .ok [35] := by
  decide +kernel
example : Reach sig ⟨False, False⟩ (hist tg1) :=
  reach_run tg1 .init ⟨⟨fun h => False.elim h, fun h => False.elim h⟩, ⟨fun h => False.elim h, fun h => False.elim h⟩,
    ⟨fun h => False.elim h, fun h => False.elim h⟩, ⟨fun h => False.elim h, fun h => False.elim h⟩, trivial, trivial⟩
end Demo

/-- "with no evaluation in between" is needed: a second group of writes with the same tag after a read leaves the
reader stale. -/
theorem C07_tag_reuse_refuted : ¬ ∀ (ops : List (Op Demo.Cls Demo.Arr Demo.Jac)) (t : Nat) (w1 w2 : Id × KW Demo.Arr) (f : Nat) (i : Id),
    let h := (batchLoop Demo.sig t [w2] (step Demo.sig (.readR f i) (batchLoop Demo.sig t [w1] (Demo.hist ops)).1).1).1
    ReadFresh Demo.sig h f (.r i) (read Demo.sig f (.r i) h).2 := by
  intro hall
  have h1 := (hall Demo.tg1 5 (0, .term Demo.x [5]) (1, .term Demo.x [6]) 9 3).2.2
  have h2 : evalReq Demo.sig (batchLoop Demo.sig 5 [((1 : Id), .term Demo.x [6])] (step Demo.sig (.readR 9 3)
      (batchLoop Demo.sig 5 [((0 : Id), .term Demo.x [5])] (Demo.hist Demo.tg1)).1).1).1.graph 9 (.r 3) = .ok [35] := by decide +kernel
  have h3 : (read Demo.sig 9 (.r 3) (batchLoop Demo.sig 5 [((1 : Id), .term Demo.x [6])] (step Demo.sig (.readR 9 3)
      (batchLoop Demo.sig 5 [((0 : Id), .term Demo.x [5])] (Demo.hist Demo.tg1)).1).1).1).2 = .ok [25] := by decide +kernel
  rw [h2, h3] at h1
  have := h1 (by simp)
  injection this with this
  revert this; decide

/-! ## C08 -/

/-- Operations with at most one keyword, and no batch. -/
def Op.Single : Op C T D → Prop
  | .new _ _ _ _ kws => kws.length ≤ 1
  | .set _ kws => kws.length ≤ 1
  | .batch _ => False
  | _ => True

theorem setattr_untagged {h : Heap C T V D} (hs : Str h) (hn : ∀ n, (h.node n).itr = none) (i : Id) (kw : KW T) :
    ∀ n, ((setattr s i none kw h).1.node n).itr = none := by
  have key : ∀ {h h2 h4 : Heap C T V D} {i n}, Writing s h h2 h4 i n none → (∀ n, (h.node n).itr = none) → ∀ n, (h4.node n).itr = none := by
    intro h h2 h4 i n w hn j
    obtain ⟨S, hp⟩ := w.post
    rw [(w.same4 j).2.2.2.1]
    by_cases hj : j ∈ S
    · exact (hp.wiped j hj).2.2
    · rw [(hp.kept j hj).2.2, w.itr2]; exact hn j
  cases kw with
  | term n t => obtain ⟨h2, w, _⟩ := setTerm_writing (s := s) h hs i n t none; exact key w hn
  | bad n => exact hn
  | link k c =>
    simp only [setattr]
    split
    · rename_i hc
      obtain ⟨_, h2, w, _⟩ := setDterm_writing (s := s) h hs i k c none hc.2
      exact key w hn
    · exact hn
  | wrap k x =>
    simp only [setattr]
    split
    · obtain ⟨n, _⟩ := newLeaf_post (s := s) (fr := ⟨False, False⟩) hs x
      rw [wrap_eq hs]
      obtain ⟨_, h2, w, _⟩ := setDterm_writing (s := s) (newLeaf s x h).1 n.str i k h.next none n.born
      refine key w (fun j => ?_)
      by_cases hj : j = h.next
      · rw [hj]; exact n.itrN
      · rw [n.itr j hj]; exact hn j
    · exact hn

/-- Such operations never leave a tag behind. -/
theorem untagged_step {h : Heap C T V D} (hs : Str h) (op : Op C T D) (ho : op.Single) (hn : ∀ n, (h.node n).itr = none) :
    ∀ n, ((step s op h).1.node n).itr = none := by
  have hone : ∀ {h : Heap C T V D} (i : Id) (kws : List (KW T)), kws.length ≤ 1 → Str h → (∀ n, (h.node n).itr = none) →
      ∀ n, ((setAll s i kws h).1.node n).itr = none := by
    intro h i kws hk hs hn
    match kws, hk with
    | [], _ => exact hn
    | [kw], _ => exact setattr_untagged hs hn i kw
  cases op with
  | new cls dnames md ms kws =>
    simp only [step, M.map', newObj]
    split
    · have hb : M.bind (alloc cls dnames md ms) (fun i => orCollect i (setAll s i kws)) h =
        orCollect h.next (setAll s h.next kws) (alloc cls dnames md ms h).1 := rfl
      rw [hb, orCollect]
      have n0 := alloc_post (s := s) (fr := ⟨False, False⟩) hs cls dnames md ms
      have := hone h.next kws ho n0.str (fun j => by
        by_cases hj : j = h.next
        · rw [hj]; exact n0.itrN
        · rw [n0.itr j hj]; exact hn j)
      rcases hx : setAll s h.next kws (alloc cls dnames md ms h).1 with ⟨h1, r⟩
      rw [hx] at this
      cases r with
      | ok u => exact this
      | error e =>
        intro n
        show ((collect h.next h1).node n).itr = none
        rw [collect_node]; split
        · rfl
        · exact this n
    · exact hn
  | set i kws =>
    simp only [step, M.map', setObj]
    split
    · exact hone i kws ho hs hn
    · exact hn
  | batch ws => exact False.elim ho
  | clear i =>
    simp only [step, ifAlive]
    split
    · obtain ⟨S, hp⟩ := clearCache_spec s h i none (fun n hn => hs.par0 n hn)
      intro j
      by_cases hj : j ∈ S
      · exact (hp.wiped j hj).2.2
      · exact (hp.kept j hj).2.2.trans (hn j)
    · exact hn
  | readR f i => intro n; rw [(step_read_frame (s := s) (h := h) (.r f i)).itr]; exact hn n
  | readProp f i p => intro n; rw [(step_read_frame (s := s) (h := h) (.prop f i p)).itr]; exact hn n
  | readDr f i w => intro n; rw [(step_read_frame (s := s) (h := h) (.dr f i w)).itr]; exact hn n
  | readLop td f i w L => intro n; rw [(step_read_frame (s := s) (h := h) (.lop td f i w L)).itr]; exact hn n
  | readLmult ne f i w L => intro n; rw [(step_read_frame (s := s) (h := h) (.lmult ne f i w L)).itr]; exact hn n
  | gc i =>
    simp only [step]
    split
    · intro n
      show ((collect i h).node n).itr = none
      rw [collect_node]; split
      · rfl
      · exact hn n
    · exact hn
  | clone i ls =>
    simp only [step, M.map']
    by_cases hg : CloneGuard h i ls
    · by_cases hnd : (ls.map (·.2)).Nodup
      · have b := (clone_ok (s := s) (fr := ⟨False, False⟩) hs hg hnd).2
        refine b.itr (fun m => ?_)
        rw [cloneBase_node]; split
        · show (if s.isBase (h.node i).cls && ((h.node i).terms s.xname).isSome then none else (h.node i).itr) = none
          split
          · rfl
          · exact hn i
        · exact hn m
      · have a := clone_spec (s := s) hs hg
        rw [if_neg hnd] at a
        rw [a]
        intro n
        dsimp only
        rw [collect_node]; split
        · rfl
        · dsimp only; rw [alloc_node]; split
          · rfl
          · exact hn n
    · rw [clone, if_neg (fun h => hg (cloneOk_iff.1 h))]; exact hn
  | addDterm i k kw =>
    simp only [step, ifAlive]
    split
    · simp only [M.map', addDterm]
      obtain ⟨ns, h1, _, h3⟩ := addDterm_mid (h := h) i k
      rw [h3]
      refine setattr_untagged (dnames_str hs i ns h1) (fun n => ?_) i kw
      rw [modify_node]; split
      · exact hn i
      · exact hn n
    · exact hn

theorem untagged_history (ops : List (Op C T D)) (ho : ∀ op ∈ ops, op.Single) : ∀ n, ((run s ops (Heap.empty s)).node n).itr = none := by
  have : ∀ {h : Heap C T V D}, Str h → (∀ n, (h.node n).itr = none) → ∀ n, ((run s ops h).node n).itr = none := by
    induction ops with
    | nil => intro h _ hn; exact hn
    | cons op ops ih =>
      intro h hs hn
      exact ih (fun o h => ho o (by simp [h])) (step_str hs op) (untagged_step hs op (ho op (by simp)) hn)
  exact this str_empty (fun _ => rfl)

/-- C08 in full: `i.set(**kws)` against the separate assignments, in every state any history leads to. -/
def C08_full (s : Sig C T V D) : Prop :=
  ∀ (ops : List (Op C T D)) (i : Id) (kws : List (KW T)),
    let h := run s ops (Heap.empty s)
    (h.node i).alive = true → ObsEq s (setObj s i kws h).1 (eachSet s i kws h).1

/-- C08.  `i.set(**kws)` raises exactly if and where the separate assignments do, and the two states are
observably equal, now and after every later history legal from both (values, properties; derivatives below).
Missing: `hl` excludes a `set()` that raises while some object still carries the tag of an earlier one
that raised (refuted below). -/
theorem C08_set_is_each_assignment_partial (hp : s.PropsOk) {h : Heap C T V D} (hr : Reach s ⟨False, False⟩ h) (i : Id)
    (kws : List (KW T)) (hi : (h.node i).alive = true)
    (hl : kws.length ≤ 1 ∨ (step s (.set i kws) h).2.isOk = true ∨ ∀ n, (h.node n).itr ≠ some 9999) :
    (setObj s i kws h).2 = (eachSet s i kws h).2 ∧
    ∀ later, LegalRun s ⟨False, False⟩ (setObj s i kws h).1 later → LegalRun s ⟨False, False⟩ (eachSet s i kws h).1 later →
      ObsEq s (run s later (setObj s i kws h).1) (run s later (eachSet s i kws h).1) := by
  have hs := reach_str hr
  have hr1 : Reach s ⟨False, False⟩ (setObj s i kws h).1 := .step (.set i kws) hr ⟨fun h => False.elim h, hl⟩
  have hr2 := eachSet_reach i kws hr
  have e : setObj s i kws h = setAll s i kws h := by simp [setObj, hi]
  obtain ⟨a, b⟩ := eachSet_setAll (s := s) i kws hs hs (SameObs.refl h) hi
  rw [← e] at a b
  exact ⟨b, fun later l1 l2 => obsEq_of_reach hp (reach_run later hr1 l1) (reach_run later hr2 l2)
    (run_sameObs later (reach_str hr1) (reach_str hr2) a)⟩

/-- C08 for derivatives. -/
theorem C08_set_is_each_assignment_dr_partial (hp : s.PropsOk) (ho : s.PlainForm) {h : Heap C T V D}
    (hr : Reach s ⟨False, True⟩ h) (i : Id) (kws : List (KW T)) (hi : (h.node i).alive = true)
    (hl : kws.length ≤ 1 ∨ (step s (.set i kws) h).2.isOk = true ∨ ∀ n, (h.node n).itr ≠ some 9999) (later : List (Op C T D))
    (l1 : LegalRun s ⟨False, True⟩ (setObj s i kws h).1 later) (l2 : LegalRun s ⟨False, True⟩ (eachSet s i kws h).1 later) :
    ObsEqDr s (run s later (setObj s i kws h).1) (run s later (eachSet s i kws h).1) := by
  have hs := reach_str hr
  have hr1 : Reach s ⟨False, True⟩ (setObj s i kws h).1 := .step (.set i kws) hr ⟨fun h => False.elim h, hl⟩
  have hr2 := eachSet_reach i kws hr
  have e : setObj s i kws h = setAll s i kws h := by simp [setObj, hi]
  obtain ⟨a, _⟩ := eachSet_setAll (s := s) i kws hs hs (SameObs.refl h) hi
  rw [← e] at a
  exact obsEqDr_of_reach hp ho (reach_run later hr1 l1) (reach_run later hr2 l2)
    (run_sameObs later (reach_str hr1) (reach_str hr2) a)

namespace Demo
/-- `set` with two keywords, and one that raises at its second keyword: both are legal here. -/
example : (step sig (.set 2 [.link a 1, .wrap b [7]]) (hist tg1)).2 = .ok .unit ∧
    (read sig 9 (.r 3) (step sig (.set 2 [.link a 1, .wrap b [7]]) (hist tg1)).1).2 = .ok [31] ∧
    (step sig (.set 2 [.link a 1, .bad b]) (hist tg1)).2 = .error (.user 0) ∧
    (read sig 9 (.r 3) (step sig (.set 2 [.link a 1, .bad b]) (hist tg1)).1).2 = .ok [19] := by decide +kernel
/-- A state without any tag, in which a `set()` raises at its second keyword. -/
abbrev tg2 : List (Op Cls Arr Jac) := [leaf [3], leaf [4], .new .mul [a, b] false false [], .set 2 [.link a 0], .set 2 [.link b 1], .readR 9 2]
example : (∀ n, ((hist tg2).node n).itr ≠ some 9999) ∧ (step sig (.set 2 [.link a 1, .bad b]) (hist tg2)).2 = .error (.user 0) ∧
    (read sig 9 (.r 2) (hist tg2)).2 = .ok [12] ∧
    (read sig 9 (.r 2) (step sig (.set 2 [.link a 1, .bad b]) (hist tg2)).1).2 = .ok [16] :=
  ⟨(fun n hn => by
    rw [untagged_history (s := sig) tg2 (by simp [tg2, Op.Single]) n] at hn; cases hn), by decide +kernel⟩
end Demo

/-- The full claim is false: with an earlier `set()` that raised, a second one that raises differs from its
separate assignments. -/
theorem C08_full_refuted : ¬ C08_full Demo.sig := by
  intro hall
  obtain ⟨_, _, h3⟩ := hall (Demo.ex2.take 8) 2 [.link Demo.a 4, .bad Demo.b] (by decide +kernel)
  have := h3 9 9 (.r 2)
  revert this; decide +kernel

end Chumpy
