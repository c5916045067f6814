import Verif.Core.Pending
import Verif.Demo
/-!
# Links, invalidation and notification: C03, C04, C05, C06 (second half), C57

`(h.node c).parents` is the dictionary `c._parents`: a list of pairs (dependent, set of names).
`(h.graph p).dterms k = some c`: attribute `k` of `p` is the object `c` (a differentiable link).
`Anc g i j`: `j` is `i`, or refers to `i` directly or indirectly (inductive, in Verif/Core/Indep.lean).
-/
namespace Chumpy
variable {C T V D : Type} {s : Sig C T V D}

/-! ## C03 -/

/-- C03.  After every history (exceptions and failing `set()`s included) `p` is registered with `c` under
exactly the names through which `p` refers to `c`; the registrations of `c` form a dictionary with distinct
keys and nonempty duplicate-free sets of names, and only existing objects are registered. -/
theorem C03_back_links_exact (ops : List (Op C T D)) :
    let h := run s ops (Heap.empty s)
    (∀ p c k, (h.graph p).dterms k = some c ↔ ∃ ns, (p, ns) ∈ (h.node c).parents ∧ k ∈ ns) ∧
    (∀ c, ((h.node c).parents.map Prod.fst).Nodup) ∧
    (∀ c p ns, (p, ns) ∈ (h.node c).parents → ns ≠ [] ∧ ns.Nodup ∧ (h.node p).alive = true ∧ (h.node c).alive = true) := by
  intro h
  have hs : Str h := run_str ops
  refine ⟨fun p c k => hs.links.exact p k c, fun c => (hs.links.ok c).keys, fun c p ns hm => ?_⟩
  obtain ⟨h1, h2⟩ := (hs.links.ok c).names p ns hm
  refine ⟨h1, h2, ?_, ?_⟩
  · cases hp : (h.node p).alive with
    | true => rfl
    | false =>
      obtain ⟨k, hk⟩ := List.exists_mem_of_ne_nil ns h1
      have := (hs.links.exact p k c).2 ⟨ns, hm, hk⟩
      have h3 : (h.graph p).dterms k = none := (hs.dead p hp).2.1 k
      rw [this] at h3; cases h3
  · cases hc : (h.node c).alive with
    | true => rfl
    | false => rw [(hs.dead c hc).1] at hm; cases hm

namespace Demo
/-- The same object under two names, then one of them re-assigned, then a collection. -/
abbrev lk1 := [leaf [1], leaf [2], bin .add 0 0, .set 2 [.link b 1], bin .mul 0 2, .gc 3]
example : ((hist lk1).node 0).parents = [(2, [a])] ∧ ((hist lk1).node 1).parents = [(2, [b])] ∧
    ((hist (lk1.take 3)).node 0).parents = [(2, [a, b])] := by decide +kernel
end Demo

/-! ## C04 -/

/-- `y` is `x` or is registered, directly or indirectly, as a dependent of `x`. -/
inductive Dependent (h : Heap C T V D) (x : Id) : Id → Prop
  | self : Dependent h x x
  | up {y z : Id} : Dependent h x y → z ∈ (h.node y).parents.map Prod.fst → Dependent h x z

theorem up_dependent {h : Heap C T V D} {x y : Id} : Up h none x y ↔ Dependent h x y := by
  constructor
  · intro hu
    induction hu with
    | refl => exact .self
    | step _ _ hr ih => obtain ⟨ns, hns⟩ := hr; exact .up ih (List.mem_map.2 ⟨_, hns, rfl⟩)
  · intro hd
    induction hd with
    | self => exact .refl
    | up _ hm ih =>
      obtain ⟨⟨q, ns⟩, hm', rfl⟩ := List.mem_map.1 hm
      exact .step ih (not_tagged_none _ _) ⟨ns, hm'⟩

/-- C04.  For arbitrary registrations (cyclic ones included; `hfin`: there are finitely many objects),
`x.clear_cache()` ends (`.2.2`), clears value and derivatives of exactly the dependents of `x`, leaves the
value, derivatives, links and registrations of all others alone, and returns 1 + the number of registrations
of the cleared objects. -/
theorem C04_clear_cache (h : Heap C T V D) (hfin : ∀ n, h.next ≤ n → (h.node n).parents = []) (x : Id) :
    let h' := (clearCacheFull s x none h).1
    (clearCacheFull s x none h).2.2 = true ∧
    (∀ y, Dependent h x y → (h'.node y).cacheR = none ∧ ∀ w, (h'.node y).drs w = none) ∧
    (∀ y, ¬ Dependent h x y → (h'.node y).cacheR = (h.node y).cacheR ∧ (h'.node y).drs = (h.node y).drs) ∧
    (∀ y, h'.graph y = h.graph y ∧ (h'.node y).parents = (h.node y).parents ∧ (h'.node y).alive = (h.node y).alive) ∧
    (∃ S : List Id, S.Nodup ∧ (∀ y, y ∈ S ↔ Dependent h x y) ∧
      (clearCacheFull s x none h).2.1 = 1 + (S.map fun y => (h.node y).parents.length).sum) := by
  obtain ⟨S, hp, hc, hd⟩ := clearCacheFull_spec s h x none hfin
  have hm : ∀ y, y ∈ S ↔ Dependent h x y := fun y => by
    rw [hp.mem_iff y, up_dependent]; exact ⟨fun h => h.1, fun h => ⟨h, not_tagged_none _ _⟩⟩
  refine ⟨hd, fun y hy => ?_, fun y hy => ?_, fun y => ⟨hp.gnode y, hp.parents y, hp.alive y⟩, S, hp.nodup, hm, hc⟩
  · obtain ⟨a, b, _⟩ := hp.wiped y ((hm y).2 hy)
    exact ⟨a, fun w => by rw [b]⟩
  · obtain ⟨a, b, _⟩ := hp.kept y (fun h => hy ((hm y).1 h))
    exact ⟨a, b⟩

/-- In states the user can reach, "registered as dependent" is "refers to". -/
theorem C04_dependents_are_referrers (ops : List (Op C T D)) (x y : Id) :
    Dependent (run s ops (Heap.empty s)) x y ↔ Anc (run s ops (Heap.empty s)).graph x y := by
  rw [← up_dependent]; exact (run_str ops).links.up_iff

/-- `C04_clear_cache` applies to every reachable state, so `x.clear_cache()` does there what it should. -/
theorem C04_reachable (ops : List (Op C T D)) (x : Id) (hx : ((run s ops (Heap.empty s)).node x).alive = true) (y : Id) :
    let h := run s ops (Heap.empty s)
    let h' := (step s (.clear x) h).1
    (Anc h.graph x y → (h'.node y).cacheR = none ∧ ∀ w, (h'.node y).drs w = none) ∧
    (¬ Anc h.graph x y → (h'.node y).cacheR = (h.node y).cacheR ∧ (h'.node y).drs = (h.node y).drs) := by
  intro h h'
  have e : h' = (clearCacheFull s x none h).1 := by
    show (step s (.clear x) h).1 = _
    simp only [step, ifAlive]; rw [if_pos hx]; rfl
  obtain ⟨_, h2, h3, _⟩ := C04_clear_cache (s := s) h (fun n hn => (run_str ops).par0 n hn) x
  rw [e]
  refine ⟨fun ha => h2 y ((C04_dependents_are_referrers ops x y).2 ha), fun ha => h3 y (fun hd => ha ((C04_dependents_are_referrers ops x y).1 hd))⟩

namespace Demo
/-- A diamond `y = (l*l) + (l*l)` via two objects, all values and some derivatives cached. -/
abbrev lk2 := [leaf [3], bin .mul 0 0, bin .mul 0 0, bin .add 1 2, leaf [7], .readR 9 3, .readDr 9 3 0, .readR 9 4]
example : ((hist lk2).node 3).cacheR = some [18] ∧ ((hist lk2).node 3).drs 0 ≠ none ∧
    (clearCacheFull sig 0 none (hist lk2)).2 = (5, true) ∧
    ((clearCacheFull sig 0 none (hist lk2)).1.node 3).cacheR = none ∧
    ((clearCacheFull sig 0 none (hist lk2)).1.node 4).cacheR = some [7] := by decide +kernel
/-- A cyclic graph: `a` of object 1 is object 2 and conversely.  The loop still ends. -/
abbrev lk3 := [leaf [3], bin .add 0 0, bin .add 1 0, .set 1 [.link b 2]]
example : ((hist lk3).graph 1).dterms b = some 2 ∧ ((hist lk3).graph 2).dterms a = some 1 ∧
    (clearCacheFull sig 0 none (hist lk3)).2 = (5, true) := by decide +kernel
end Demo

/-! ## C05 -/

/-- Name `k` of `j` is one through which the assignment of `i.n` reaches `j` (in graph `g`). -/
def ReachedName (g : Graph C T) (i : Id) (n : Name) (j : Id) (k : Name) : Prop :=
  (j = i ∧ k = n) ∨ ∃ c, (g j).dterms k = some c ∧ Anc g i c

/-- The event list reports name `k` to `j.on_changed`. -/
def Notified (l : List Event) (j : Id) (k : Name) : Prop := ∃ ns, .changed j ns ∈ l ∧ k ∈ ns

/-- C05, part 1.  After a successful single assignment `i.n = value` in any reachable state, in every later
history that does not collect `j`: each name through which the change reaches `j` is reported to
`j.on_changed` before any body of `j` (`compute_r`, `compute_dr_wrt`) runs. -/
theorem C05_notified_before_computing (ops : List (Op C T D)) (i : Id) (kw : KW T) (later : List (Op C T D)) (j : Id) (k : Name) :
    let h := run s ops (Heap.empty s)
    let h' := (step s (.set i [kw]) h).1
    (step s (.set i [kw]) h).2 = .ok .unit → (h.node j).alive = true → ReachedName h'.graph i kw.name j k → .gc j ∉ later →
    ∃ l, (run s later h').log = h'.log ++ l ∧
      ∀ l1 e l2, l = l1 ++ e :: l2 → e.Computes j → Notified l1 j k := by
  intro h h' hok hj ht hg
  have hs : Str h := run_str ops
  have hs' : Str h' := step_str hs _
  have hi : (h.node i).alive = true := by
    cases hi : (h.node i).alive with
    | true => rfl
    | false => simp [step, M.map', setObj, hi, Except.map] at hok
  have he : h' = (setattr s i none kw h).1 := by
    show (step s (.set i [kw]) h).1 = _
    simp [step, M.map', setObj, hi, setAll]
  have hok' : (setattr s i none kw h).2 = .ok () := by
    simp only [step, M.map', setObj, hi, setAll, if_true] at hok
    cases hr : (setattr s i none kw h).2 with
    | ok u => rfl
    | error e => rw [hr] at hok; cases hok
  have a := setattr_assigned hs i kw hok'
  have kp := setattr_keeps (s := s) hs i kw none
  rw [← he] at a kp
  obtain ⟨l, h1, _, h3⟩ := run_delivers (s := s) later j hg hs' (kp.alive j hj)
  exact ⟨l, h1, fun l1 e l2 hl hc => h3 l1 e l2 hl hc k ((a.dirty j hj k).2 (Or.inr ht))⟩

/-- C05, part 2.  "at its next evaluation": reading `j.r` or `j.dr_wrt(w)` (already cached or not) first of
all reports everything pending. -/
theorem C05_reported_at_next_read (h : Heap C T V D) (f : Nat) (j : Id) (hd : (h.node j).dirty ≠ []) :
    (∃ l, (read s (f + 1) (.r j) h).1.log = h.log ++ .changed j (h.node j).dirty :: l) ∧
    (∀ w, ∃ l, (drWrt s (f + 1) j w h).1.log = h.log ++ .changed j (h.node j).dirty :: l) := by
  have hc : callOnChanged j h = ({ h.modify j (fun n => { n with dirty := [] }) with
          log := h.log ++ [.changed j (h.node j).dirty] }, .ok ()) := by
    unfold callOnChanged
    rw [if_neg]; simpa using hd
  have hfr : ∀ {h' : Heap C T V D}, RFrame { h.modify j (fun n => { n with dirty := [] }) with
          log := h.log ++ [.changed j (h.node j).dirty] } h' →
      ∃ l, h'.log = h.log ++ .changed j (h.node j).dirty :: l := by
    intro h' hf
    obtain ⟨l, hl, _⟩ := hf.log
    exact ⟨l, by rw [hl]; simp⟩
  have hemp : ∀ h1 : Heap C T V D, (h1.node j).dirty = [] → callOnChanged j h1 = (h1, .ok ()) := by
    intro h1 h2; unfold callOnChanged; rw [if_pos]; simp [h2]
  constructor
  · have := read_pres (s := s) rframe_rel (f + 1) (.r j)
      { h.modify j (fun n => { n with dirty := [] }) with log := h.log ++ [.changed j (h.node j).dirty] }
    have e : read s (f + 1) (.r j) h = read s (f + 1) (.r j)
      { h.modify j (fun n => { n with dirty := [] }) with log := h.log ++ [.changed j (h.node j).dirty] } := by
      rw [read, M.bind, hc, M.bind, hemp _ (by simp [Heap.modify])]
    rw [e]; exact hfr this
  · intro w
    have := drWrt_pres (s := s) rframe_rel (f + 1) j w
      { h.modify j (fun n => { n with dirty := [] }) with log := h.log ++ [.changed j (h.node j).dirty] }
    have e : drWrt s (f + 1) j w h = drWrt s (f + 1) j w
      { h.modify j (fun n => { n with dirty := [] }) with log := h.log ++ [.changed j (h.node j).dirty] } := by
      rw [drWrt, M.bind, hc, M.bind, hemp _ (by simp [Heap.modify])]
    rw [e]; exact hfr this

/-- C05, part 3.  Nothing else is reported: the assignment adds no other pending name (in particular nothing to
an object that does not depend on `i`), the assignment itself calls no `on_changed`, and reads report
only what is pending. -/
theorem C05_nothing_else_reported (ops : List (Op C T D)) (i : Id) (kw : KW T) (j : Id) :
    let h := run s ops (Heap.empty s)
    let h' := (step s (.set i [kw]) h).1
    (step s (.set i [kw]) h).2 = .ok .unit → (h.node j).alive = true →
    h'.log = h.log ∧
    (∀ k ∈ (h'.node j).dirty, k ∈ (h.node j).dirty ∨ ReachedName h'.graph i kw.name j k) ∧
    (¬ Anc h'.graph i j → ∀ k, k ∈ (h'.node j).dirty ↔ k ∈ (h.node j).dirty) ∧
    (∀ op : Op C T D, op.IsRead → ∃ l, (step s op h').1.log = h'.log ++ l ∧
      ∀ ns, .changed j ns ∈ l → ns = (h'.node j).dirty ∧ ns ≠ []) := by
  intro h h' hok hj
  have hs : Str h := run_str ops
  have hi : (h.node i).alive = true := by
    cases hi : (h.node i).alive with
    | true => rfl
    | false => simp [step, M.map', setObj, hi, Except.map] at hok
  have he : h' = (setattr s i none kw h).1 := by
    show (step s (.set i [kw]) h).1 = _
    simp [step, M.map', setObj, hi, setAll]
  have hok' : (setattr s i none kw h).2 = .ok () := by
    simp only [step, M.map', setObj, hi, setAll, if_true] at hok
    cases hr : (setattr s i none kw h).2 with
    | ok u => rfl
    | error e => rw [hr] at hok; cases hok
  have a := setattr_assigned hs i kw hok'
  have kp := setattr_keeps (s := s) hs i kw none
  rw [← he] at a kp
  refine ⟨kp.log, fun k hk => (a.dirty j hj k).1 hk, fun hn k => ?_, fun op ho => ?_⟩
  · rw [a.dirty j hj k]
    refine ⟨fun hk => hk.elim id ?_, Or.inl⟩
    rintro (⟨rfl, _⟩ | ⟨c, hc, ha⟩)
    · exact absurd .refl hn
    · exact absurd (.step k hc ha) hn
  · obtain ⟨l, h1, h2⟩ := (step_read_frame (s := s) (h := h') ho).log
    exact ⟨l, h1, h2.changed j⟩

namespace Demo
/-- The leaf 0 is below 2 through `a` (directly) and through `b` (via 1), everything cached, then assigned: at the
next read of 2 both names are reported, before its body; the unrelated object 4 hears nothing. -/
abbrev lk4 := [leaf [3], bin .mul 0 0, bin .add 0 1, leaf [5], bin .add 3 3, .readR 9 2, .readR 9 4]
example : (step sig (.set 0 [.term x [4]]) (hist lk4)).2 = .ok .unit ∧
    (hist (lk4 ++ [.set 0 [.term x [4]], .readR 9 2, .readR 9 4])).log =
      (hist lk4).log ++ [.changed 2 [a, b], .ranR 2, .changed 0 [x], .ranR 0, .changed 1 [a, b], .ranR 1] := by
  decide +kernel
end Demo

/-! ## C06, second half, and C57 -/

/-- An operation that is a read, or a successful single assignment not reaching any declared name of property
`p` of object `i`. -/
def Harmless (s : Sig C T V D) (h : Heap C T V D) (i : Id) (p : Name) (op : Op C T D) : Prop :=
  op.IsRead ∨ ∃ j kw, op = .set j [kw] ∧ (step s op h).2 = .ok .unit ∧
    ∀ d, s.propDecl (h.graph i).cls p = some d → ∀ k ∈ d.1, ¬ ReachedName (step s op h).1.graph j kw.name i k

/-- Every operation of a history is harmless where it happens. -/
def HarmlessRun (s : Sig C T V D) (i : Id) (p : Name) : Heap C T V D → List (Op C T D) → Prop
  | _, [] => True
  | h, op :: ops => Harmless s h i p op ∧ HarmlessRun s i p (step s op h).1 ops

theorem not_rerun (i : Id) (p : Name) (later : List (Op C T D)) : ∀ {h : Heap C T V D}, Str h → (h.node i).alive = true →
    (h.node i).props p ≠ none → HarmlessRun s i p h later →
    ∃ l, (run s later h).log = h.log ++ l ∧ .ranProp i p ∉ l := by
  induction later with
  | nil => intro h _ _ _ _; exact ⟨[], by simp [run], by simp⟩
  | cons op ops ih =>
    intro h hs hi hp ⟨h1, h2⟩
    rcases h1 with hr | ⟨j, kw, rfl, hok, hn⟩
    · have fr := step_read_frame (s := s) (h := h) hr
      obtain ⟨la, ea, oa⟩ := fr.log
      obtain ⟨lb, eb, hb⟩ := ih (step_str hs op) (by rw [fr.alive]; exact hi) (fr.keepP i p hp) h2
      refine ⟨la ++ lb, ?_, ?_⟩
      · show (run s ops (step s op h).1).log = _
        rw [eb, ea, List.append_assoc]
      · rw [List.mem_append]; rintro (h | h)
        · exact oa.onceP i p hp h
        · exact hb h
    · have hj : (h.node j).alive = true := by
        cases hj : (h.node j).alive with
        | true => rfl
        | false => simp [step, M.map', setObj, hj, Except.map] at hok
      have he : (step s (.set j [kw]) h).1 = (setattr s j none kw h).1 := by
        simp [step, M.map', setObj, hj, setAll]
      have hok' : (setattr s j none kw h).2 = .ok () := by
        simp only [step, M.map', setObj, hj, setAll, if_true] at hok
        cases hr : (setattr s j none kw h).2 with
        | ok u => rfl
        | error e => rw [hr] at hok; cases hok
      have a := setattr_assigned hs j kw hok'
      have kp := setattr_keeps (s := s) hs j kw none
      rw [← he] at a kp
      have hm := a.miss i hi p (by rintro ⟨d, hd, k, hk, ht⟩; exact hn d hd k hk ht)
      obtain ⟨lb, eb, hb⟩ := ih (step_str hs _) (kp.alive i hi) (by rw [hm]; exact hp) h2
      refine ⟨lb, ?_, hb⟩
      show (run s ops (step s (.set j [kw]) h).1).log = _
      rw [eb, kp.log]

/-- C06, second half: once `i.p` has been computed, its function is not run again by any later reads
and assignments as long as no assignment reaches one of its declared names. -/
theorem C06_recomputed_only_after_change (ops : List (Op C T D)) (i : Id) (p : Name) (later : List (Op C T D)) :
    let h := run s ops (Heap.empty s)
    (h.node i).alive = true → (h.node i).props p ≠ none → HarmlessRun s i p h later →
    ∃ l, (run s later h).log = h.log ++ l ∧ .ranProp i p ∉ l :=
  fun hi hp hl => not_rerun i p later (run_str ops) hi hp hl

/-- A successful read leaves the property computed. -/
theorem C06_computed_after_read (f : Nat) (h : Heap C T V D) (i : Id) (p : Name) (v : V)
    (hr : (read s f (.prop i p) h).2 = .ok v) : ((read s f (.prop i p) h).1.node i).props p ≠ none := by
  cases f with
  | zero => cases hr
  | succ f =>
    rw [read] at hr ⊢
    dsimp only at hr ⊢
    cases hd : s.propDecl (h.node i).cls p with
    | none => rw [hd] at hr; cases hr
    | some d =>
      rw [hd] at hr
      dsimp only at hr ⊢
      cases hc : (h.node i).props p with
      | some v' => rw [hc] at hr; dsimp only; rw [hc]; simp
      | none =>
        rw [hc] at hr; dsimp only at hr ⊢
        simp only [M.bind, emit] at hr ⊢
        rcases hx : runProg (read s f) i d.2 { h with log := h.log ++ [.ranProp i p] } with ⟨h1, r⟩
        rw [hx] at hr
        cases r with
        | error e => cases hr
        | ok v' => simp [storeProp, Heap.modify]

/-- C57.  A value is computed at most once between changes: after a read of `i.r` that returned, no sequence of
further reads of any objects runs `i.compute_r` again. -/
theorem C57_computed_once (f : Nat) (h : Heap C T V D) (i : Id) (v : V) (hr : (read s f (.r i) h).2 = .ok v)
    (reads : List (Op C T D)) (hre : ∀ op ∈ reads, op.IsRead) :
    ∃ l, (run s reads (read s f (.r i) h).1).log = (read s f (.r i) h).1.log ++ l ∧ .ranR i ∉ l := by
  have hc : ((read s f (.r i) h).1.node i).cacheR.isSome = true := by
    cases f with
    | zero => cases hr
    | succ f =>
      rw [read] at hr ⊢
      rw [M.bind] at hr ⊢
      rcases hx : callOnChanged i h with ⟨h1, r⟩
      rw [hx] at hr
      cases r with
      | error e => cases hr
      | ok u =>
        dsimp only at hr ⊢
        cases hc : (h1.node i).cacheR with
        | some v' => dsimp only; rw [hc]; rfl
        | none =>
          rw [hc] at hr; dsimp only at hr ⊢
          simp only [M.bind, emit] at hr ⊢
          rcases hx : runProg (read s f) i (s.computeR (h1.node i).cls) { h1 with log := h1.log ++ [.ranR i] } with ⟨h2, r⟩
          rw [hx] at hr
          cases r with
          | error e => cases hr
          | ok v' => simp [storeR, Heap.modify]
  generalize (read s f (.r i) h).1 = h0 at hc
  induction reads generalizing h0 with
  | nil => exact ⟨[], by simp [run], by simp⟩
  | cons op ops ih =>
    have fr := step_read_frame (s := s) (h := h0) (hre op (by simp))
    obtain ⟨la, ea, oa⟩ := fr.log
    obtain ⟨lb, eb, hb⟩ := ih (fun o ho => hre o (by simp [ho])) _ (fr.keepR i hc)
    refine ⟨la ++ lb, ?_, ?_⟩
    · show (run s ops (step s op h0).1).log = _
      rw [eb, ea, List.append_assoc]
    · rw [List.mem_append]; rintro (h | h)
      · exact oa.onceR i hc h
      · exact hb h

/-- C57, continued: an assignment to an object `i` does not depend on keeps `i`'s value; one to an object it
depends on (itself included) makes the next read recompute it. -/
theorem C57_invalidated_exactly (ops : List (Op C T D)) (j : Id) (kw : KW T) (i : Id) :
    let h := run s ops (Heap.empty s)
    let h' := (step s (.set j [kw]) h).1
    (step s (.set j [kw]) h).2 = .ok .unit → (h.node i).alive = true →
    (¬ Anc h'.graph j i → (h'.node i).cacheR = (h.node i).cacheR) ∧
    (Anc h'.graph j i → ∀ f, .ranR i ∈ (read s (f + 1) (.r i) h').1.log.drop h'.log.length) := by
  intro h h' hok hi
  have hs : Str h := run_str ops
  have hj : (h.node j).alive = true := by
    cases hj : (h.node j).alive with
    | true => rfl
    | false => simp [step, M.map', setObj, hj, Except.map] at hok
  have he : h' = (setattr s j none kw h).1 := by
    show (step s (.set j [kw]) h).1 = _
    simp [step, M.map', setObj, hj, setAll]
  have hok' : (setattr s j none kw h).2 = .ok () := by
    simp only [step, M.map', setObj, hj, setAll, if_true] at hok
    cases hr : (setattr s j none kw h).2 with
    | ok u => rfl
    | error e => rw [hr] at hok; cases hok
  have a := setattr_assigned hs j kw hok'
  rw [← he] at a
  refine ⟨fun hn => (a.kept i hi hn).1, fun ha f => ?_⟩
  have hc := (a.cleared i hi ha).1
  rw [read, M.bind]
  have hcc : ∃ h1 l1, callOnChanged i h' = (h1, .ok ()) ∧ (h1.node i).cacheR = none ∧ h1.log = h'.log ++ l1 := by
    unfold callOnChanged
    split
    · exact ⟨h', [], rfl, hc, by simp⟩
    · exact ⟨_, _, rfl, by simp [Heap.modify, hc], rfl⟩
  obtain ⟨h1, l1, e1, e2, e3⟩ := hcc
  rw [e1]; dsimp only; rw [e2]; dsimp only
  rw [M.bind]
  show .ranR i ∈ List.drop _ (M.bind (runProg (read s f) i (s.computeR (h1.node i).cls)) (storeR i)
    { h1 with log := h1.log ++ [.ranR i] }).1.log
  have hp : RFrame { h1 with log := h1.log ++ [.ranR i] } (runProg (read s f) i (s.computeR (h1.node i).cls)
    { h1 with log := h1.log ++ [.ranR i] }).1 := runProg_pres rframe_rel (fun q => read_pres rframe_rel f q) i _ _
  obtain ⟨l2, e4, _⟩ := hp.log
  rw [M.bind]
  rcases hx : runProg (read s f) i (s.computeR (h1.node i).cls) { h1 with log := h1.log ++ [.ranR i] } with ⟨h2, r⟩
  rw [hx] at e4
  dsimp only at e4
  cases r with
  | error e => dsimp only; rw [e4, e3]; simp
  | ok v => show .ranR i ∈ List.drop _ h2.log; rw [e4, e3]; simp

namespace Demo
/-- Property `p` of `twice` (declared on `a`), computed; assigning below `b` does not re-run it, below `a`
does. -/
abbrev lk5 := [leaf [3], leaf [4], bin .twice 0 1, .readR 9 2]
example : ((hist lk5).node 2).props p = some [6] ∧
    (.ranProp 2 p ∉ (hist (lk5 ++ [.set 1 [.term x [9]], .readR 9 2])).log.drop (hist lk5).log.length) ∧
    (.ranProp 2 p ∈ (hist (lk5 ++ [.set 0 [.term x [9]], .readR 9 2])).log.drop (hist lk5).log.length) := by
  decide +kernel
example : HarmlessRun sig 2 p (hist lk5) [.set 1 [.term x [9]], .readR 9 2] := by
  refine ⟨Or.inr ⟨1, _, rfl, by decide +kernel, ?_⟩, Or.inl (.r _ _), trivial⟩
  intro d hd k hk
  have : d.1 = [a] := by
    have h2 : ((hist lk5).graph 2).cls = .twice := by decide +kernel
    rw [h2] at hd
    simp [sig] at hd; rw [← hd]
  rw [this, List.mem_singleton] at hk
  subst hk
  rintro (⟨h, _⟩ | ⟨c, hc, ha⟩)
  · cases h
  · have h0 : ((step sig (.set 1 [.term x [9]]) (hist lk5)).1.graph 2).dterms a = some 0 := by decide +kernel
    rw [h0] at hc; cases hc
    cases ha with
    | step q hq _ =>
      have h1 := (step_str (s := sig) (run_str lk5) (.set 1 [.term x [9]])).dn _ _ _ hq
      have h2 : ((step sig (.set 1 [.term x [9]]) (hist lk5)).1.node 0).dnames = [] := by decide +kernel
      rw [h2] at h1; cases h1
end Demo

end Chumpy
