import Verif.Core.Pending
import Verif.Core.SameOn
import Verif.Demo
/-!
# Reads are fresh: C01, C02, C06, C09, C10, C13

Specification: `Means` / `MeansDr` (Verif/Core/Spec.lean), an evaluator that has no cache at all.
Histories: lists of `Op` run by `run` / `step` (Verif/Core/Step.lean); exceptions are part of them.
`Reach s m h`: `h` is reached by a history satisfying `Legal s m` at every step, which only excludes
* a second `set()` with several keywords that raises part way through while some object still carries
  the tag 9999 left by an earlier one, and a 9999th tagged batch in such a state (both refuted below);
* `m.frozen`: assignments to slices (only needed for derivatives with respect to slices);
* `m.plain`: objects made with `make_dense`/`make_sparse` (only needed for derivatives).
-/
namespace Chumpy
variable {C T V D : Type}

/-- A history legal at every step. -/
def LegalRun (s : Sig C T V D) (m : Mode) : Heap C T V D → List (Op C T D) → Prop
  | _, [] => True
  | h, op :: ops => Legal s m h op ∧ LegalRun s m (step s op h).1 ops

theorem reach_run {s : Sig C T V D} {m : Mode} (ops : List (Op C T D)) : ∀ {h}, Reach s m h → LegalRun s m h ops →
    Reach s m (run s ops h) := by
  induction ops with
  | nil => intro h hr _; exact hr
  | cons op ops ih => intro h hr hl; exact ih (.step op hr hl.1) hl.2

/-- Agreement of a read with the specification: it returns what the cache-free evaluation means, also
for exceptions, and it does not exceed the recursion limit if that evaluation does not. -/
def ReadFresh (s : Sig C T V D) (h : Heap C T V D) (f : Nat) (q : Req) (out : Except Err V) : Prop :=
  (∀ v, out = .ok v → Means s h.graph q (.ok v)) ∧
  (∀ e, out = .error e → e ≠ .fuel → Means s h.graph q (.error e)) ∧
  (evalReq s h.graph f q ≠ .error .fuel → out = evalReq s h.graph f q)

def DrFresh (s : Sig C T V D) (h : Heap C T V D) (f : Nat) (i w : Id) (out : Except Err (Option D)) : Prop :=
  (∀ d, out = .ok d → MeansDr s h.graph i w (.ok d)) ∧
  (∀ e, out = .error e → e ≠ .fuel → MeansDr s h.graph i w (.error e)) ∧
  (evalDr s h.graph f i w ≠ .error .fuel → out = evalDr s h.graph f i w)

theorem readFresh_of_agree {s : Sig C T V D} {h : Heap C T V D} {f : Nat} {q : Req} {out : Except Err V}
    (ha : Agree out (fun f => evalReq s h.graph f q) f) : ReadFresh s h f q out := by
  refine ⟨fun v hv => ⟨by simp, ha.2 (by rw [hv]; simp) |>.imp fun _ h => h.trans hv⟩, fun e he hne => ⟨?_, ?_⟩, ha.1⟩
  · intro h; injection h with h; exact hne h
  · obtain ⟨f', hf'⟩ := ha.2 (by rw [he]; intro h; injection h with h; exact hne h)
    exact ⟨f', hf'.trans he⟩

theorem drFresh_of_agree {s : Sig C T V D} {h : Heap C T V D} {f : Nat} {i w : Id} {out : Except Err (Option D)}
    (ha : Agree out (fun f => evalDr s h.graph f i w) f) : DrFresh s h f i w out := by
  refine ⟨fun v hv => ⟨by simp, ha.2 (by rw [hv]; simp) |>.imp fun _ h => h.trans hv⟩, fun e he hne => ⟨?_, ?_⟩, ha.1⟩
  · intro h; injection h with h; exact hne h
  · obtain ⟨f', hf'⟩ := ha.2 (by rw [he]; intro h; injection h with h; exact hne h)
    exact ⟨f', hf'.trans he⟩

variable {s : Sig C T V D} {m : Mode}

/-! ## C01 -/

/-- C01 in full: for every history whatsoever. -/
def C01_full (s : Sig C T V D) : Prop :=
  ∀ (ops : List (Op C T D)) (f : Nat) (i : Id),
    ReadFresh s (run s ops (Heap.empty s)) f (.r i) (read s f (.r i) (run s ops (Heap.empty s))).2

/-- C01.  After every history of constructions, assignments, keyword assignments, tagged batches,
`clear_cache`, reads, collections and `add_dterm` – with any of them raising – `obj.r` returns what an
evaluation from scratch on the current graph returns.  Missing for the full claim: the `Legal` condition
on repeated failing `set()`s (`C01_full` is refuted below). -/
theorem C01_value_never_stale_partial (hp : s.PropsOk) {h : Heap C T V D} (hr : Reach s ⟨False, False⟩ h)
    (f : Nat) (i : Id) : ReadFresh s h f (.r i) (read s f (.r i) h).2 :=
  readFresh_of_agree ((read_sim (P := True) f (.r i) h (reach_inv hp (fun h => False.elim h) hr).coh rfl).2.2 trivial)

/-- The same for histories as lists in which every `set()` of several keywords returns normally and
there are fewer than 9998 tagged batches: no other condition. -/
def TameRun (s : Sig C T V D) : Heap C T V D → List (Op C T D) → Prop
  | _, [] => True
  | h, op :: ops =>
    (match op with
      | .set i kws => kws.length ≤ 1 ∨ (step s (.set i kws) h).2.isOk = true
      | .batch _ => h.giter < 9998
      | _ => True) ∧ TameRun s (step s op h).1 ops

theorem TameRun.legal (ops : List (Op C T D)) : ∀ {h : Heap C T V D}, TameRun s h ops →
    LegalRun s ⟨False, False⟩ h ops := by
  induction ops with
  | nil => intro h _; trivial
  | cons op ops ih =>
    intro h ⟨h1, h2⟩
    refine ⟨?_, ih h2⟩
    cases op with
    | new => exact ⟨fun h => h.elim, fun h => h.elim⟩
    | set i kws => exact ⟨fun h => h.elim, h1.imp id Or.inl⟩
    | batch ws => exact ⟨fun h => h.elim, Or.inl (by dsimp only at h1; omega)⟩
    | addDterm => exact fun h => h.elim
    | _ => trivial

theorem C01_tame_histories_partial (hp : s.PropsOk) (ops : List (Op C T D)) (ht : TameRun s (Heap.empty s) ops)
    (f : Nat) (i : Id) : ReadFresh s (run s ops (Heap.empty s)) f (.r i) (read s f (.r i) (run s ops (Heap.empty s))).2 :=
  C01_value_never_stale_partial hp (reach_run ops .init ht.legal) f i

namespace Demo
/-- y = a + b, read, reassign a: the tame history of the example. -/
def ex1 : List (Op Cls Arr Jac) := [leaf [3], leaf [4], bin .add 0 1, .readR 9 2, .set 0 [.term x [10]], .gc 1]
example : TameRun sig (Heap.empty sig) ex1 := by
  refine ⟨trivial, trivial, trivial, trivial, Or.inl (by decide), trivial, trivial⟩
example : (read sig 9 (.r 2) (hist ex1)).2 = .ok [14] := by decide +kernel

/-- Two `set()`s that raise after their first keyword: the second leaves the reader stale.  `y = a + b`
with a=[3], b=[4]: first failing set puts a2=[10] under `a`; y is read (12 + ...); second failing set
puts [20] under `a`; y.r still returns the value for [10]. -/
def ex2 : List (Op Cls Arr Jac) := [leaf [3], leaf [4], bin .add 0 1, leaf [10], leaf [20], .readR 9 2,
  .set 2 [.link a 3, .bad b], .readR 9 2, .set 2 [.link a 4, .bad b]]
example : (read sig 9 (.r 2) (hist ex2)).2 = .ok [14] := by decide +kernel
example : evalReq sig (hist ex2).graph 9 (.r 2) = .ok [24] := by decide +kernel
end Demo

/-- The full claim is false of the code: after two failing `set()`s a read is stale. -/
theorem C01_full_refuted : ¬ C01_full Demo.sig := by
  intro h
  have h1 := (h Demo.ex2 9 2).2.2
  have h2 : evalReq Demo.sig (run Demo.sig Demo.ex2 (Heap.empty Demo.sig)).graph 9 (.r 2) = .ok [24] := by decide +kernel
  have h3 : (read Demo.sig 9 (.r 2) (run Demo.sig Demo.ex2 (Heap.empty Demo.sig))).2 = .ok [14] := by decide +kernel
  rw [h2, h3] at h1
  have := h1 (by simp)
  injection this with this
  revert this; decide

/-! ## C02 -/

/-- C02 in full. -/
def C02_full (s : Sig C T V D) : Prop :=
  ∀ (ops : List (Op C T D)) (f : Nat) (i w : Id), s.isPermute ((run s ops (Heap.empty s)).graph w).cls = false →
    DrFresh s (run s ops (Heap.empty s)) f i w (drWrt s f i w (run s ops (Heap.empty s))).2

/-- `make_dense`/`make_sparse` not requested: the stored form is the returned form. -/
def Sig.PlainForm (s : Sig C T V D) : Prop := ∀ d, s.outForm false false d = d

theorem drFresh_reach (hp : s.PropsOk) (ho : s.PlainForm) {m : Mode} (hm : m.plain) (hloc : m.frozen → s.LocalDr)
    {h : Heap C T V D} (hr : Reach s m h)
    (f : Nat) (i w : Id) (hw : m.frozen ∨ s.isPermute (h.graph w).cls = false) :
    DrFresh s h f i w (drWrt s f i w h).2 := by
  have hi := reach_inv hp hloc hr
  refine drFresh_of_agree ((drWrt_sim f i w h hi.coh rfl).2.2 ⟨⟨ho, fun j => ?_⟩, hm, hw⟩)
  exact hi.flags hm j

/-- C02.  After every (legal) history in which no object was made with `make_dense`/`make_sparse`,
`y.dr_wrt(w)` is what the uncached chain rule gives on the current graph, for every `w` that is not a slice.
Missing: `make_dense`/`make_sparse` objects (refuted below), repeated failing `set()`s (as C01). -/
theorem C02_derivative_never_stale_partial (hp : s.PropsOk) (ho : s.PlainForm) {h : Heap C T V D}
    (hr : Reach s ⟨False, True⟩ h) (f : Nat) (i w : Id) (hw : s.isPermute (h.graph w).cls = false) :
    DrFresh s h f i w (drWrt s f i w h).2 :=
  drFresh_reach hp ho trivial (fun h => False.elim h) hr f i w (Or.inr hw)

/-- C02 also for slices `w`, if no slice is assigned to after its construction (needed, see
`C02_slice_refuted`). -/
theorem C02_derivative_wrt_slices_partial (hp : s.PropsOk) (hl : s.LocalDr) (ho : s.PlainForm) {h : Heap C T V D}
    (hr : Reach s ⟨True, True⟩ h) (f : Nat) (i w : Id) : DrFresh s h f i w (drWrt s f i w h).2 :=
  drFresh_reach hp ho trivial (fun _ => hl) hr f i w (Or.inl trivial)

namespace Demo
theorem plainForm : sig.PlainForm := fun d => by simp [sig]

/-- y = a*b is read wrt a (value, cached), b is reassigned. -/
def ex3 : List (Op Cls Arr Jac) := [leaf [3], leaf [4], bin .mul 0 1, .readDr 9 2 0, .set 1 [.term x [7]]]
theorem ex3_reach : Reach sig ⟨False, True⟩ (hist ex3) := by
  refine reach_run ex3 .init ⟨⟨fun h => h.elim, fun _ => ⟨rfl, rfl⟩⟩, ⟨fun h => h.elim, fun _ => ⟨rfl, rfl⟩⟩,
    ⟨fun h => h.elim, fun _ => ⟨rfl, rfl⟩⟩, trivial, ⟨fun h => h.elim, Or.inl (by decide)⟩, trivial⟩
example : ((hist (ex3.take 4)).node 2).drs 0 = some (some ([[4]], true)) := by decide +kernel
example : (drWrt sig 9 2 0 (hist ex3)).2 = .ok (some ([[7]], true)) := by decide +kernel

/-- The same object made with `make_dense`: the first read is dense, the second sparse. -/
def ex4 : List (Op Cls Arr Jac) := [leaf [3], leaf [4],
  .new .mul [a, b] true false [.link a 0, .link b 1], .readDr 9 2 0]
/-- dr_wrt a slice of `a`; then the slice's positions are reassigned. `y = a[0] + a[0]` with `y` wrt the
slice cached. -/
def ex5 : List (Op Cls Arr Jac) := [leaf [3, 5], leaf [1, 1], bin .mul 0 1, sel 0 [0], .readDr 9 2 3,
  .set 3 [.term idxs [1]]]
example : (drWrt sig 9 2 3 (hist ex5)).2 = .ok (some ([[1], [0]], true)) := by decide +kernel
example : evalDr sig (hist ex5).graph 9 2 3 = .ok (some ([[0], [1]], true)) := by decide +kernel
end Demo

/-- Full C02 fails: the second read of a `make_dense` object is not converted. -/
theorem C02_full_refuted : ¬ C02_full Demo.sig := by
  intro h
  have h1 := (h Demo.ex4 9 2 0 (by decide +kernel)).2.2
  have h2 : evalDr Demo.sig (run Demo.sig Demo.ex4 (Heap.empty Demo.sig)).graph 9 2 0 = .ok (some ([[4]], false)) := by decide +kernel
  have h3 : (drWrt Demo.sig 9 2 0 (run Demo.sig Demo.ex4 (Heap.empty Demo.sig))).2 = .ok (some ([[4]], true)) := by decide +kernel
  rw [h2, h3] at h1
  have := h1 (by simp)
  injection this with this
  revert this; decide

/-- With respect to a slice whose positions were reassigned, the cached derivative is stale, so the
restriction of C02 to non-slices (or untouched slices) is needed. -/
theorem C02_slice_refuted : ¬ ∀ (ops : List (Op Demo.Cls Demo.Arr Demo.Jac)) (f : Nat) (i w : Id),
    DrFresh Demo.sig (Demo.hist ops) f i w (drWrt Demo.sig f i w (Demo.hist ops)).2 := by
  intro h
  have h1 := (h Demo.ex5 9 2 3).2.2
  have h2 : evalDr Demo.sig (Demo.hist Demo.ex5).graph 9 2 3 = .ok (some ([[0], [1]], true)) := by decide +kernel
  have h3 : (drWrt Demo.sig 9 2 3 (Demo.hist Demo.ex5)).2 = .ok (some ([[1], [0]], true)) := by decide +kernel
  rw [h2, h3] at h1
  have := h1 (by simp)
  injection this with this
  revert this; decide

/-! ## C06 -/

/-- C06, freshness: a `@depends_on` property read returns what its function returns if run now (on
values computed from scratch).  Missing: the repeated failing `set()`s, as in C01 (properties themselves
are invalidated even then; what can be stale is a `.r` they read). -/
theorem C06_property_never_stale_partial (hp : s.PropsOk) {h : Heap C T V D} (hr : Reach s ⟨False, False⟩ h)
    (f : Nat) (i : Id) (p : Name) : ReadFresh s h f (.prop i p) (read s f (.prop i p) h).2 :=
  readFresh_of_agree ((read_sim (P := True) f (.prop i p) h (reach_inv hp (fun h => False.elim h) hr).coh rfl).2.2 trivial)

/-! ## C09 -/

theorem run_reads_frame (reads : List (Op C T D)) (hre : ∀ op ∈ reads, op.IsRead) : ∀ h : Heap C T V D,
    RFrame h (run s reads h) := by
  induction reads with
  | nil => intro h; exact RFrame.refl h
  | cons op ops ih =>
    intro h
    exact rframe_rel.trans (step_read_frame (hre op (by simp))) (ih (fun o ho => hre o (by simp [ho])) _)

theorem legal_reads (reads : List (Op C T D)) (hre : ∀ op ∈ reads, op.IsRead) : ∀ h : Heap C T V D,
    LegalRun s m h reads := by
  induction reads with
  | nil => intro h; trivial
  | cons op ops ih =>
    intro h
    refine ⟨?_, ih (fun o ho => hre o (by simp [ho])) _⟩
    cases hre op (by simp) <;> trivial

/-- C09, part 1: reads, in any number and order, and raising or not, change nothing an object refers to:
graph, links, liveness, counters. Holds in every state. -/
theorem C09_reads_change_no_link (reads : List (Op C T D)) (hre : ∀ op ∈ reads, op.IsRead) (h : Heap C T V D) :
    (run s reads h).graph = h.graph ∧ (∀ i, ((run s reads h).node i).parents = (h.node i).parents) ∧
    (∀ i, ((run s reads h).node i).alive = (h.node i).alive) ∧ (run s reads h).next = h.next :=
  let r := run_reads_frame reads hre h
  ⟨r.graph, r.parents, r.alive, r.next⟩

/-- C09, part 2: a later value read gives the same outcome with and without the interposed reads, whenever
both stay within the recursion limit. -/
theorem C09_reads_do_not_disturb_values_partial (hp : s.PropsOk) {h : Heap C T V D} (hr : Reach s ⟨False, False⟩ h)
    (reads : List (Op C T D)) (hre : ∀ op ∈ reads, op.IsRead) (f f' : Nat) (q : Req)
    (h1 : (read s f q h).2 ≠ .error .fuel) (h2 : (read s f' q (run s reads h)).2 ≠ .error .fuel) :
    (read s f' q (run s reads h)).2 = (read s f q h).2 := by
  have a1 := (read_sim (P := True) f q h (reach_inv hp (fun h => False.elim h) hr).coh rfl).2.2 trivial
  have hr' := reach_run reads hr (legal_reads reads hre h)
  have a2 := (read_sim (P := True) f' q _ (reach_inv hp (fun h => False.elim h) hr').coh rfl).2.2 trivial
  obtain ⟨n1, e1⟩ := a1.2 h1
  obtain ⟨n2, e2⟩ := a2.2 h2
  rw [(run_reads_frame reads hre h).graph] at e2
  exact (Means.unique ⟨h1, n1, e1⟩ ⟨h2, n2, e2⟩).symm

/-- C09, part 3: likewise for derivatives. -/
theorem C09_reads_do_not_disturb_derivatives_partial (hp : s.PropsOk) (ho : s.PlainForm) {h : Heap C T V D}
    (hr : Reach s ⟨False, True⟩ h) (reads : List (Op C T D)) (hre : ∀ op ∈ reads, op.IsRead) (f f' : Nat) (i w : Id)
    (hw : s.isPermute (h.graph w).cls = false)
    (h1 : (drWrt s f i w h).2 ≠ .error .fuel) (h2 : (drWrt s f' i w (run s reads h)).2 ≠ .error .fuel) :
    (drWrt s f' i w (run s reads h)).2 = (drWrt s f i w h).2 := by
  have hi := reach_inv hp (fun h => False.elim h) hr
  have a1 := (drWrt_sim f i w h hi.coh rfl).2.2 ⟨⟨ho, fun j => hi.flags trivial j⟩, trivial, Or.inr hw⟩
  have hr' := reach_run reads hr (legal_reads reads hre h)
  have hi' := reach_inv hp (fun h => False.elim h) hr'
  have hg := (run_reads_frame (s := s) reads hre h).graph
  have a2 := (drWrt_sim f' i w _ hi'.coh rfl).2.2 ⟨⟨ho, fun j => hi'.flags trivial j⟩, trivial, Or.inr (by rw [hg]; exact hw)⟩
  obtain ⟨n1, e1⟩ := a1.2 h1
  obtain ⟨n2, e2⟩ := a2.2 h2
  rw [hg] at e2
  exact (MeansDr.unique ⟨h1, n1, e1⟩ ⟨h2, n2, e2⟩).symm

/-- A read never makes a later read exceed a recursion limit that sufficed from scratch. -/
theorem C09_limit_partial (hp : s.PropsOk) {h : Heap C T V D} (hr : Reach s ⟨False, False⟩ h)
    (reads : List (Op C T D)) (hre : ∀ op ∈ reads, op.IsRead) (f : Nat) (q : Req)
    (h1 : evalReq s h.graph f q ≠ .error .fuel) : (read s f q (run s reads h)).2 = evalReq s h.graph f q := by
  have hr' := reach_run reads hr (legal_reads reads hre h)
  have a2 := (read_sim (P := True) f q _ (reach_inv hp (fun h => False.elim h) hr').coh rfl).2.2 trivial
  have hg := (run_reads_frame (s := s) reads hre h).graph
  rw [hg] at a2
  exact a2.1 h1

namespace Demo
/-- The hypotheses are met: y = root(a) raises, is read twice, and its derivative too. -/
example : (∀ op ∈ [Op.readR 9 1, .readDr 9 1 0, .readLop id 9 1 0 ([], true), .readR 9 1], Op.IsRead (C := Cls) (T := Arr) (D := Jac) op) := by
  intro op h; simp only [List.mem_cons, List.not_mem_nil, or_false] at h
  rcases h with rfl | rfl | rfl | rfl <;> constructor
end Demo

/-! ## C10 -/

/-- C10, part 1: the exception the body raises is the one the caller sees (`user` codes are the
class's own): if evaluation from scratch raises `e`, so does the read, and vice versa. -/
theorem C10_exception_reaches_caller_partial (hp : s.PropsOk) {h : Heap C T V D} (hr : Reach s ⟨False, False⟩ h)
    (f : Nat) (i : Id) (e : Err) (he : evalReq s h.graph f (.r i) = .error e) (hne : e ≠ .fuel) :
    (read s f (.r i) h).2 = .error e := by
  rw [(C01_value_never_stale_partial hp hr f i).2.2 (by rw [he]; intro h; injection h with h; exact hne h), he]

/-- C10, part 2: nothing is spoilt by it.  After a read that raised, and any further legal history, every read is
again fresh. -/
theorem C10_usable_after_exception_partial (hp : s.PropsOk) {h : Heap C T V D} (hr : Reach s ⟨False, False⟩ h)
    (op : Op C T D) (ho : op.IsRead) (later : List (Op C T D))
    (hl : LegalRun s ⟨False, False⟩ (step s op h).1 later) (f : Nat) (i : Id) :
    ReadFresh s (run s later (step s op h).1) f (.r i) (read s f (.r i) (run s later (step s op h).1)).2 :=
  C01_value_never_stale_partial hp (reach_run later (.step op hr (by cases ho <;> trivial)) hl) f i

namespace Demo
/-- Concrete: root of a negative entry raises through an addition; after repair the value is right. -/
def ex6 : List (Op Cls Arr Jac) := [leaf [-3], .new .root [a] false false [.link a 0], bin .add 1 1, .readR 9 2,
  .set 0 [.term x [5]]]
example : (step sig (.readR 9 2) (hist (ex6.take 3))).2 = .error (.user 1) := by decide +kernel
example : (read sig 9 (.r 2) (hist ex6)).2 = .ok [10] := by decide +kernel
end Demo

/-! ## C13 -/

/-- C13 for values, with no condition on the history: at whatever point of whatever history an object
nothing refers to is collected, a value or property read of any other object then gives the very outcome it would
have given without the collection (same value or same exception, same recursion limit). -/
theorem C13_values_unobservable (ops : List (Op C T D)) (d : Id) (f : Nat) (i : Id) (hi : i ≠ d) :
    (read s f (.r i) (step s (.gc d) (run s ops (Heap.empty s))).1).2 =
      (read s f (.r i) (run s ops (Heap.empty s))).2 ∧
    ∀ p, (read s f (.prop i p) (step s (.gc d) (run s ops (Heap.empty s))).1).2 =
      (read s f (.prop i p) (run s ops (Heap.empty s))).2 := by
  have hs : Str (run s ops (Heap.empty s)) := run_str ops
  generalize run s ops (Heap.empty s) = h at hs
  by_cases hd : (h.node d).parents = []
  · have hst : (step s (.gc d) h).1 = collect d h := by simp only [step]; rw [if_pos hd]
    rw [hst]
    have hA : SameOn (fun j => j ≠ d) h (collect d h) := by
      constructor
      · intro j hj
        rw [collect_node, if_neg hj]; exact ⟨rfl, rfl, rfl⟩
      · intro j hj k c hk hc
        subst hc
        obtain ⟨ns, hm, _⟩ := (hs.links.exact j k c).1 hk
        have : h.par c = [] := hd
        rw [this] at hm; simp at hm
    exact ⟨(read_sameOn f (.r i) hi hA).1.symm, fun p => (read_sameOn f (.prop i p) hi hA).1.symm⟩
  · have hst : (step s (.gc d) h).1 = h := by simp only [step]; rw [if_neg hd]
    rw [hst]; exact ⟨rfl, fun _ => rfl⟩

/-- C13 for derivatives, in histories without `make_dense`/`make_sparse` (needed: `C13_full_refuted`). -/
theorem C13_derivatives_unobservable_partial (hp : s.PropsOk) (ho : s.PlainForm) {h : Heap C T V D}
    (hr : Reach s ⟨False, True⟩ h) (d : Id) (f f' : Nat) (i w : Id) (hi : i ≠ d) (hwd : w ≠ d)
    (hw : s.isPermute (h.graph w).cls = false)
    (h1 : (drWrt s f i w h).2 ≠ .error .fuel)
    (h2 : (drWrt s f' i w (step s (.gc d) h).1).2 ≠ .error .fuel) :
    (drWrt s f' i w (step s (.gc d) h).1).2 = (drWrt s f i w h).2 := by
  have hI := reach_inv hp (fun h => False.elim h) hr
  have hr' : Reach s ⟨False, True⟩ (step s (.gc d) h).1 := .step _ hr trivial
  have hI' := reach_inv hp (fun h => False.elim h) hr'
  have a1 := (drWrt_sim f i w h hI.coh rfl).2.2 ⟨⟨ho, fun j => hI.flags trivial j⟩, trivial, Or.inr hw⟩
  by_cases hd : (h.node d).parents = []
  · have hst : (step s (.gc d) h).1 = collect d h := by simp only [step]; rw [if_pos hd]
    rw [hst] at h2 hI' ⊢
    have hoff : SameOff h.graph (collect d h).graph d := by
      intro j hj; rw [Heap.graph_apply, collect_node, if_neg hj]; rfl
    have a2 := (drWrt_sim f' i w _ hI'.coh rfl).2.2
      ⟨⟨ho, fun j => hI'.flags trivial j⟩, trivial, Or.inr (by rw [hoff w hwd]; exact hw)⟩
    obtain ⟨n1, e1⟩ := a1.2 h1
    obtain ⟨n2, e2⟩ := a2.2 h2
    have hanc : ∀ j, j ≠ d → ¬ Anc h.graph d j := fun j hj ha => hj (hI.str.anc_of_no_parents hd ha)
    have := evalDr_off s hoff (wrtOff_of_not_anc s hoff (hanc w hwd)) n2 i (hanc i hi)
    replace e2 := this.symm.trans e2
    exact (MeansDr.unique ⟨h1, n1, e1⟩ ⟨h2, n2, e2⟩).symm
  · have hst : (step s (.gc d) h).1 = h := by simp only [step]; rw [if_neg hd]
    rw [hst] at h2 ⊢
    have a2 := (drWrt_sim f' i w h hI.coh rfl).2.2 ⟨⟨ho, fun j => hI.flags trivial j⟩, trivial, Or.inr hw⟩
    obtain ⟨n1, e1⟩ := a1.2 h1
    obtain ⟨n2, e2⟩ := a2.2 h2
    exact (MeansDr.unique ⟨h1, n1, e1⟩ ⟨h2, n2, e2⟩).symm

namespace Demo
/-- z = a*b made with `make_dense`, used by two sums; one of them (4) can be collected. -/
def ex7 : List (Op Cls Arr Jac) := [leaf [3], leaf [4], .new .mul [a, b] true false [.link a 0, .link b 1],
  bin .add 2 1, bin .add 2 1]
example : ((hist ex7).node 4).parents = [] := by decide +kernel
example : ((hist ex7).node 2).parents ≠ [] := by decide +kernel
end Demo

/-- For derivatives of `make_dense` objects collection is observable: with two users the unconverted
Jacobian is cached and returned by the second read; after one user is collected it is not cached. -/
theorem C13_full_refuted : ¬ ∀ (ops later : List (Op Demo.Cls Demo.Arr Demo.Jac)) (d : Id) (f : Nat) (i w : Id),
    i ≠ d → w ≠ d → ((Demo.hist ops).node d).parents = [] →
    (drWrt Demo.sig f i w (run Demo.sig later (step Demo.sig (.gc d) (Demo.hist ops)).1)).2 =
      (drWrt Demo.sig f i w (run Demo.sig later (Demo.hist ops))).2 := by
  intro h
  have := h Demo.ex7 [.readDr 9 2 0] 4 9 2 0 (by decide) (by decide) (by decide +kernel)
  revert this
  decide +kernel

end Chumpy
