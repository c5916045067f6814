import Verif.Core.Tags
import Verif.Properties.Tags
import Verif.Properties.DoglegCall
/-!
# Histories in which no `set` of several keywords raises

`C01_full_refuted` shows that one kind of history must be excluded: `set(**kwargs)` with several keywords that raises.  Here nothing else is:
no bound on the number of tagged batches, no condition on tags.
-/
namespace Chumpy
section
variable {C T V D : Type} {s : Sig C T V D}

/-- The history makes no object with `make_dense` or `make_sparse`. -/
def PlainNews : List (Op C T D) → Prop
  | [] => True
  | .new _ _ md ms _ :: ops => (md = false ∧ ms = false) ∧ PlainNews ops
  | _ :: ops => PlainNews ops

theorem NoFailingSets.run (ops : List (Op C T D)) {m : Mode} (hm : ¬ m.frozen) : ∀ {h : Heap C T V D}, (m.plain → PlainNews ops) → Reach s m h →
    TagsLe h → NoFailingSets s h ops → Reach s m (run s ops h) ∧ TagsLe (run s ops h) := by
  induction ops with
  | nil => intro h _ hr ht _; exact ⟨hr, ht⟩
  | cons op ops ih =>
    intro h hp hr ht hn
    have hl : Legal s m h op := by
      cases op with
      | new cls dnames md ms kws => exact ⟨fun h => absurd h hm, fun h => (hp h).1⟩
      | set i kws => exact ⟨fun h => absurd h hm, hn.1.imp id Or.inl⟩
      | batch ws =>
        refine ⟨fun h => absurd h hm, ?_⟩
        by_cases hg : h.giter + 1 = 9999
        · refine Or.inr fun n e => ?_
          have := ht n 9999 e
          omega
        · exact Or.inl hg
      | addDterm => exact fun h => absurd h hm
      | _ => trivial
    refine ih (fun hpl => ?_) (.step op hr hl) (ht.step (reach_str hr) hn.1) hn.2
    have := hp hpl
    cases op with
    | new => exact this.2
    | _ => exact this

theorem tagsLe_empty : TagsLe (Heap.empty s) := fun n t e => by cases e

/-- C07.  Whatever the history, without a failing `set` of several keywords: the counter is never behind a tag, so that a batch of writes, which
takes the next value of the counter, never takes an object for one it has already cleared. -/
theorem C07_counter_ahead_of_tags (ops : List (Op C T D)) (hn : NoFailingSets s (Heap.empty s) ops) (n : Id) (t : Nat)
    (ht : ((run s ops (Heap.empty s)).node n).itr = some t) : t < (run s ops (Heap.empty s)).giter + 1 :=
  Nat.lt_succ_of_le ((NoFailingSets.run (m := ⟨False, False⟩) ops id (fun h => h.elim) .init tagsLe_empty hn).2 n t ht)

/-- C01 with the one condition that is needed: after any history in which no `set` of several keywords raises, `obj.r` returns what an evaluation from
scratch on the current graph returns.  Missing for the full claim: histories with such a `set` (`C01_full` is refuted in Fresh.lean). -/
theorem C01_without_failing_sets_partial (hp : s.PropsOk) (ops : List (Op C T D)) (hn : NoFailingSets s (Heap.empty s) ops) (f : Nat) (i : Id) :
    ReadFresh s (run s ops (Heap.empty s)) f (.r i) (read s f (.r i) (run s ops (Heap.empty s))).2 :=
  C01_value_never_stale_partial hp (NoFailingSets.run (m := ⟨False, False⟩) ops id (fun h => h.elim) .init tagsLe_empty hn).1 f i

/-- C02 likewise, for plain objects and `w` not a slice. -/
theorem C02_without_failing_sets_partial (hp : s.PropsOk) (ho : s.PlainForm) (ops : List (Op C T D)) (hn : NoFailingSets s (Heap.empty s) ops)
    (hpl : PlainNews ops) (f : Nat) (i w : Id) (hw : s.isPermute ((run s ops (Heap.empty s)).graph w).cls = false) :
    DrFresh s (run s ops (Heap.empty s)) f i w (drWrt s f i w (run s ops (Heap.empty s))).2 :=
  C02_derivative_never_stale_partial hp ho (NoFailingSets.run (m := ⟨False, True⟩) ops id (fun _ => hpl) .init tagsLe_empty hn).1 f i w hw

end

namespace Demo
/-- A `set` of two keywords, a batch and a copy; nothing raises, and the batch leaves a tag. -/
abbrev nf1 : List (Op Cls Arr Jac) := [leaf [3], leaf [4], bin .add 0 1, .readR 9 2, .set 2 [.wrap a [5], .wrap b [6]], .readR 9 2,
  .batch [(3, .term x [7]), (4, .term x [8])], .readR 9 2]
example : NoFailingSets sig (Heap.empty sig) nf1 := by
  refine ⟨trivial, trivial, trivial, trivial, Or.inr ?_, trivial, trivial, trivial, trivial⟩
  decide +kernel
example : PlainNews nf1 := ⟨⟨rfl, rfl⟩, ⟨rfl, rfl⟩, ⟨rfl, rfl⟩, trivial⟩
example : ((hist nf1).node 2).itr = some 1 ∧ (hist nf1).giter = 1 ∧ (read sig 9 (.r 2) (hist nf1)).2 = .ok [15] := by decide +kernel

/-- The condition is needed: after a `set` that raises, a tag is ahead of the counter. -/
example : ∃ n, ((hist [leaf [3], leaf [4], bin .add 0 1, .set 2 [.wrap a [5], .bad b]]).node n).itr = some 9999 := ⟨2, by decide +kernel⟩
end Demo

section
variable {n m f fm : ℕ} {o : Id} {vs : List Free} {F : RVec n → RVec m} {F' : RVec n → RVec n →L[ℝ] RVec m}
open Dog

/-- C86, from the first statement of the user's program on.  After any history of the user's, in which no `set` of several keywords raises and nothing is made
with `make_dense` or `make_sparse`, `minimize` with the dogleg method on an existing objective and existing free variables, none given twice, ends, and leaves
the free variables at a vector at which the sum of squares of the objective is at most what it was before. -/
theorem C86_program_ends (ops : List (Op ClassDef Par Jac)) (hn : NoFailingSets lib (Heap.empty lib) ops) (hpl : PlainNews ops)
    (ho : ((run lib ops (Heap.empty lib)).node o).alive = true)
    (hfree : ∀ u ∈ vs, u.Ok (run lib ops (Heap.empty lib)).graph ∧ ((run lib ops (Heap.empty lib)).node u.l).alive = true)
    (hd : (vs.map Free.fv).Nodup) (hv : FreeOk n f fm (run lib ops (Heap.empty lib)).next vs)
    (hF : IsFunction f o vs F F' (run lib ops (Heap.empty lib)).graph) (flip disp md ms : Bool)
    (solve : (RVec n →L[ℝ] RVec n) → RVec n → RVec n) (opt : DogOpts ℝ) (he1 : 0 < opt.e1) (he2 : 0 ≤ opt.e2) :
    ∃ (v v' : RVec n) (k : ℕ) (s : DogState ℝ (RVec n) (RVec m) (RVec n →L[ℝ] RVec m) (RVec n →L[ℝ] RVec n) (Heap ClassDef Par Arr Jac)),
      Packed (run lib ops (Heap.empty lib)).graph vs (vecArr [n] v) ∧
      minimizeDogleg n m fm flip disp md ms o (vs.map Free.fv) solve opt (run lib ops (Heap.empty lib)) k =
        .ok ((run lib ops (Heap.empty lib)).next, .halt, s) ∧
      Packed s.world.graph vs (vecArr [n] v') ∧ ‖F v'‖ ^ 2 ≤ ‖F v‖ ^ 2 ∧
      Untouched (run lib ops (Heap.empty lib)) s.world (run lib ops (Heap.empty lib)).next vs := by
  obtain ⟨hr, ht⟩ := NoFailingSets.run (s := lib) (m := ⟨False, True⟩) ops id (fun _ => hpl) .init tagsLe_empty hn
  refine C86_minimize_ends ⟨optReach_of_reach hr, ?_, ho, hfree, hd⟩ hv hF flip disp md ms solve opt he1 he2
  by_cases hg : 9999 ≤ (run lib ops (Heap.empty lib)).giter
  · exact Or.inl hg
  · refine Or.inr fun j e => ?_
    have := ht j 9999 e
    omega
end

namespace ADDemo
open Dog
/-- The program `a = Ch([1, 2]); y = SumOfSquares(a)`. -/
noncomputable abbrev bowlProgram : List (Op ClassDef Par Jac) :=
  [.new chLeaf [] false false (leafO ⟨[2], ![1, 2]⟩).kws, .new chSumSq [nmA] false false (unO chSumSq 0).kws]

/-- … and then `minimize(y, [a])`. -/
example (flip : Bool) (solve : (RVec 2 →L[ℝ] RVec 2) → RVec 2 → RVec 2) (opt : DogOpts ℝ) (he1 : 0 < opt.e1) (he2 : 0 ≤ opt.e2) :
    NoFailingSets lib (Heap.empty lib) bowlProgram ∧ PlainNews bowlProgram ∧
    ∃ k s, minimizeDogleg 2 1 10 flip true true false 1 [0] solve opt (run lib bowlProgram (Heap.empty lib)) k = .ok (2, .halt, s) := by
  have hn : NoFailingSets lib (Heap.empty lib) bowlProgram := ⟨trivial, trivial, trivial⟩
  have hp : PlainNews bowlProgram := ⟨⟨rfl, rfl⟩, ⟨rfl, rfl⟩, trivial⟩
  refine ⟨hn, hp, ?_⟩
  have s0 : Str (Heap.empty lib) := reach_str (m := ⟨False, True⟩) .init
  obtain ⟨s1, n1, a1, g1⟩ := newObj_built (s := lib) s0 (leafO ⟨[2], ![1, 2]⟩) (by
    intro kw hkw
    obtain rfl : kw = .term nmX (.arr ⟨[2], ![1, 2]⟩) := by simpa [leafO] using hkw
    trivial)
  obtain ⟨s2, n2, a2, g2⟩ := newObj_built (s := lib) s1 (unO chSumSq 0) (by
    intro kw hkw
    obtain rfl : kw = .link nmA 0 := by simpa [unO] using hkw
    refine ⟨by simp [unO], ?_⟩
    rw [a1]; rfl)
  have er : run lib bowlProgram (Heap.empty lib) =
    (step lib (.new (unO chSumSq 0).cls (unO chSumSq 0).dnames false false (unO chSumSq 0).kws)
      (step lib (.new (leafO ⟨[2], ![1, 2]⟩).cls (leafO ⟨[2], ![1, 2]⟩).dnames false false (leafO ⟨[2], ![1, 2]⟩).kws) (Heap.empty lib)).1).1 := rfl
  rw [← er] at s2 n2 a2 g2
  have z : (Heap.empty lib).next = 0 := rfl
  rw [n1, z] at n2 a2 g2
  rw [z] at a1 g1
  have e0 : (run lib bowlProgram (Heap.empty lib)).graph 0 = (leafO ⟨[2], ![1, 2]⟩).node := by
    rw [g2, if_neg (by decide), g1, if_pos rfl]
  have e1 : (run lib bowlProgram (Heap.empty lib)).graph 1 = (unO chSumSq 0).node := by
    rw [g2, if_pos rfl]
  have l0 : IsLeaf (run lib bowlProgram (Heap.empty lib)).graph 0 := isLeaf_leafO e0
  have t0 : ((run lib bowlProgram (Heap.empty lib)).graph 0).terms nmX = some (.arr ⟨[2], ![1, 2]⟩) := by rw [e0]; rfl
  obtain ⟨_, _, k, s, _, e, _⟩ := C86_program_ends (n := 2) (m := 1) (f := 5) (fm := 10) (o := 1) (vs := [bowlFree]) bowlProgram hn hp
    (by rw [a2, if_pos rfl]) (fun v hv => by
      obtain rfl : v = bowlFree := by simpa using hv
      refine ⟨⟨l0, ⟨_, t0, .leaf⟩, fun i _ j _ e => e⟩, ?_⟩
      show (_ : Bool) = true
      rw [show bowlFree.l = 0 from rfl, a2, if_neg (by decide), a1, if_pos rfl]) (by simp)
    (by rw [n2]; exact ⟨by decide, rfl, by simp, by simp [bowlFree], by decide, by decide, by decide⟩)
    (bowl_function l0 t0 e1) flip true true false solve opt he1 he2
  rw [n2] at e
  exact ⟨k, s, e⟩
end ADDemo
end Chumpy
