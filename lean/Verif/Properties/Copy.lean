import Verif.Core.Copy
import Verif.Properties.Structure
/-! C12: copying. -/
namespace Chumpy
variable {C T V D : Type} {s : Sig C T V D}

/-- `j` is `y` or reachable from it through differentiable links. -/
def Below (g : Graph C T) (y j : Id) : Prop := Relation.ReflTransGen (Uses g) y j

theorem below_closed {h : Heap C T V D} (hs : Str h) (y : Id) : ∀ j, Below h.graph y j → ∀ k c, (h.graph j).dterms k = some c →
    Below h.graph y c := fun j hj k c hc => hj.tail ⟨k, hs.dn j k c hc, hc⟩

theorem below_alive {h : Heap C T V D} (hs : Str h) {y : Id} (hy : (h.node y).alive = true) {j : Id} (hj : Below h.graph y j) :
    (h.node j).alive = true := by
  induction hj with
  | refl => exact hy
  | tail _ hbc _ => obtain ⟨k, _, hk⟩ := hbc; exact hs.child_alive hk

/-- C12, main part.  `x` any object of any reachable state, nothing below it cyclic, and no object below it referring
to one object under two names.  Then `x.copy()` succeeds, and there is a renaming `ρ` of the objects below `x` to fresh
objects with `ρ x` the result, such that: the copies have the same class, terms and (renamed) links; all older objects are as
before; every value and derivative computed from scratch is the same; reads of the copy return the original's
value; and the state is again a reachable one (so C03 applies: the back-links of the copies are exact). -/
theorem C12_copy_is_isomorphic_partial (hpo : s.PropsOk) {h : Heap C T V D} {fr : Mode} (hr : Reach s fr h) {x : Id} (hx : (h.node x).alive = true)
    (hac : Acc (fun c i => Uses h.graph i c) x) (hna : ∀ j, Below h.graph x j → ¬ Aliased h.graph j) :
    ∃ F, ∀ f, F ≤ f → ∃ h' ρ, copy s f x h = (h', .ok (ρ x)) ∧ Reach s fr h' ∧
      (∀ j, Below h.graph x j → h.next ≤ ρ j ∧ (h'.node (ρ j)).alive = true) ∧
      Iso (Below h.graph x) ρ h.graph h'.graph ∧
      (∀ j, j < h.next → h'.graph j = h.graph j ∧ ((h.node j).alive = true → (h'.node j).alive = true)) ∧
      (∀ j, Below h'.graph (ρ x) j → h.next ≤ j ∧ ∃ i, Below h.graph x i ∧ j = ρ i) ∧
      (∀ n j, Below h.graph x j → evalReq s h'.graph n (.r (ρ j)) = evalReq s h.graph n (.r j)) ∧
      (∀ n w, Below h.graph x w → evalDr s h'.graph n (ρ x) (ρ w) = evalDr s h.graph n x w) ∧
      (∀ n v, (read s n (.r (ρ x)) h').2 = .ok v → Means s h.graph (.r x) (.ok v)) := by
  have hs : Str h := reach_str hr
  obtain ⟨F, hF⟩ := copyObj_post hr hac hx
  refine ⟨F, fun f hf => ?_⟩
  have x0 : CopyInv s fr h [] h := ⟨hr, Nat.le_refl _, fun _ _ => ⟨rfl, id⟩, fun _ _ e => (by cases e), fun _ _ _ e => (by cases e),
    fun _ _ e => (by cases e), fun _ _ e => (by cases e), fun _ _ e => (by cases e)⟩
  have a := hF f hf [] h x0
  rcases hc : copyObj s f x [] h with ⟨h', r⟩
  rw [hc] at a
  cases r with
  | error e =>
    obtain ⟨_, ⟨i, hi, j, hj, ha⟩, _⟩ := a
    rw [List.mem_singleton] at hi; subst hi
    exact absurd ha (hna j hj)
  | ok m =>
    obtain ⟨a1, _, a3, _⟩ := a
    dsimp only at a1
    have hm : ∀ j, Below h.graph x j → ∃ b, m.lookup j = some b := by
      intro j hj
      induction hj with
      | refl => exact Option.isSome_iff_exists.1 (a3 x (by simp))
      | tail _ hbc ih =>
        obtain ⟨b, hb⟩ := ih
        obtain ⟨k, _, hk⟩ := hbc
        exact Option.isSome_iff_exists.1 (a1.kids _ b hb k _ hk)
    let ρ : Id → Id := fun j => (m.lookup j).getD 0
    have hρ : ∀ j, Below h.graph x j → m.lookup j = some (ρ j) := fun j hj => by
      obtain ⟨b, hb⟩ := hm j hj
      simp only [ρ, hb, Option.getD_some]
    have hg : ∀ j, Below h.graph x j → h'.graph (ρ j) = { h.graph j with dterms := fun k => ((h.graph j).dterms k).bind (fun c => m.lookup c) } :=
      fun j hj => a1.graph j (ρ j) (hρ j hj)
    have hd : ∀ j, Below h.graph x j → ∀ k, (h'.graph (ρ j)).dterms k = ((h.graph j).dterms k).map ρ := by
      intro j hj k
      rw [hg j hj]
      cases e : (h.graph j).dterms k with
      | none => simp [e]
      | some c =>
        simp only [e, Option.bind_some, Option.map_some]
        exact hρ c (below_closed hs x j hj k c e)
    have iso : Iso (Below h.graph x) ρ h.graph h'.graph :=
      ⟨fun j hj => by rw [hg j hj], fun j hj => by rw [hg j hj], fun j hj => by rw [hg j hj], hd,
        fun j hj => by rw [hg j hj], fun j hj => by rw [hg j hj], below_closed hs x, fun i j hi hj e => by
          have h1 := hρ i hi
          rw [e] at h1
          exact a1.inj i j _ h1 (hρ j hj)⟩
    have hr' : Reach s ⟨False, False⟩ h' := a1.reach.weaken (fun h => False.elim h) (fun h => False.elim h)
    have hev : ∀ n j, Below h.graph x j → evalReq s h'.graph n (.r (ρ j)) = evalReq s h.graph n (.r j) := fun n j hj => (iso.req n j hj).1
    refine ⟨h', ρ, ?_, a1.reach, fun j hj => ?_, iso, a1.old, fun j hj => ?_, hev, fun n w hw => iso.dr n x w .refl hw, fun n v hv => ?_⟩
    · have := hρ x .refl
      simp only [copy, M.bind, hc, this]; rfl
    · obtain ⟨p, _, q, _⟩ := a1.new j (ρ j) (hρ j hj)
      exact ⟨p, q⟩
    · have : ∃ i, Below h.graph x i ∧ j = ρ i := by
        induction hj with
        | refl => exact ⟨x, .refl, rfl⟩
        | tail _ hbc ih =>
          obtain ⟨i, hi, rfl⟩ := ih
          obtain ⟨k, _, hk⟩ := hbc
          rw [hd i hi] at hk
          cases e : (h.graph i).dterms k with
          | none => rw [e] at hk; cases hk
          | some c =>
            rw [e] at hk
            simp only [Option.map_some, Option.some.injEq] at hk
            exact ⟨c, below_closed hs x i hi k c e, hk.symm⟩
      obtain ⟨i, hi, rfl⟩ := this
      exact ⟨(a1.new i (ρ i) (hρ i hi)).1, i, hi, rfl⟩
    · obtain ⟨m1, f', hf'⟩ := (C01_value_never_stale_partial hpo hr' n (ρ x)).1 v hv
      exact ⟨m1, f', by rw [← hev f' x .refl]; exact hf'⟩

/-- C12, the other case: if some object below `x` refers to one object under two names (such as `a * a`), then `x.copy()`
raises `KeyError`.  Nothing existing is changed by the attempt. -/
theorem C12_copy_raises_on_aliasing {h : Heap C T V D} {fr : Mode} (hr : Reach s fr h) {x : Id} (hx : (h.node x).alive = true)
    (hac : Acc (fun c i => Uses h.graph i c) x) {j : Id} (hj : Below h.graph x j) (ha : Aliased h.graph j) :
    ∃ F, ∀ f, F ≤ f → (copy s f x h).2 = .error .key ∧ Reach s fr (copy s f x h).1 ∧
      ∀ i, i < h.next → (copy s f x h).1.graph i = h.graph i := by
  obtain ⟨F, hF⟩ := copyObj_post hr hac hx
  refine ⟨F, fun f hf => ?_⟩
  have x0 : CopyInv s fr h [] h := ⟨hr, Nat.le_refl _, fun _ _ => ⟨rfl, id⟩, fun _ _ e => (by cases e), fun _ _ _ e => (by cases e),
    fun _ _ e => (by cases e), fun _ _ e => (by cases e), fun _ _ e => (by cases e)⟩
  have a := hF f hf [] h x0
  simp only [copy, M.bind]
  rcases hc : copyObj s f x [] h with ⟨h', r⟩
  rw [hc] at a
  cases r with
  | error e =>
    obtain ⟨rfl, _, hreach, hold⟩ := a
    exact ⟨rfl, hreach, fun i hi => (hold i hi).1⟩
  | ok m =>
    obtain ⟨a1, _, a3, _⟩ := a
    exfalso
    have hm : ∃ b, m.lookup j = some b := by
      clear ha
      induction hj with
      | refl => exact Option.isSome_iff_exists.1 (a3 x (by simp))
      | tail _ hbc ih =>
        obtain ⟨b, hb⟩ := ih
        obtain ⟨k, _, hk⟩ := hbc
        exact Option.isSome_iff_exists.1 (a1.kids _ b hb k _ hk)
    obtain ⟨b, hb⟩ := hm
    exact a1.plain j b hb ha

/-- C12, independence: take any object `x` (original or copy) of a reachable state and any later legal history that does
not assign to, or collect, an object below `x`; it may do anything to all the others, such as those below a copy of `x`,
or the original if `x` is the copy.  Then values and derivatives of `x` stay what they were, also as read. -/
theorem C12_later_assignments_not_seen (hpo : s.PropsOk) {h : Heap C T V D} {fr : Mode} (hr : Reach s fr h) {x : Id} (hx : (h.node x).alive = true)
    (later : List (Op C T D)) (hl : LegalRun s fr h later) (hav : ∀ op ∈ later, op.Avoids (Below h.graph x)) :
    (∀ n, evalReq s (run s later h).graph n (.r x) = evalReq s h.graph n (.r x)) ∧
    (∀ n w, Below h.graph x w → evalDr s (run s later h).graph n x w = evalDr s h.graph n x w) ∧
    ∀ n v, (read s n (.r x) (run s later h)).2 = .ok v → Means s h.graph (.r x) (.ok v) := by
  have hs : Str h := reach_str hr
  have hk := run_kept (s := s) later hs (fun j hj => below_alive hs hx hj) hav
  have iso : Iso (Below h.graph x) id h.graph (run s later h).graph := Iso.of_eq (fun j hj => (hk j hj).1) (below_closed hs x)
  refine ⟨fun n => (iso.req n x .refl).1, fun n w hw => iso.dr n x w .refl hw, fun n v hv => ?_⟩
  have hr' : Reach s ⟨False, False⟩ (run s later h) := (reach_run later hr hl).weaken (fun h => False.elim h) (fun h => False.elim h)
  obtain ⟨m1, f', hf'⟩ := (C01_value_never_stale_partial hpo hr' n x).1 v hv
  exact ⟨m1, f', by rw [← (iso.req f' x .refl).1]; exact hf'⟩

namespace Demo
/-- y = (a + b) * a copies; a later assignment to the original's leaf is not seen by the copy. -/
example : (copy sig 9 3 (hist ex16)).2 = .ok 8 := by decide +kernel
example : (read sig 9 (.r 8) (step sig (.set 0 [.term x [50]]) (copy sig 9 3 (hist ex16)).1).1).2 = .ok [21] := by decide +kernel
example : (read sig 9 (.r 3) (step sig (.set 0 [.term x [50]]) (copy sig 9 3 (hist ex16)).1).1).2 = .ok [2700] := by decide +kernel
/-- The hypotheses of the main part hold there. -/
example : Acc (fun c i => Uses (hist ex16).graph i c) 3 ∧ ∀ j, Below (hist ex16).graph 3 j → ¬ Aliased (hist ex16).graph j := by
  refine ⟨acc_of_older (run_str ex16) (by decide +kernel) 3, fun j _ => ?_⟩
  rintro ⟨k, k', c, hne, h1, h2⟩
  have hs : Str (hist ex16) := run_str ex16
  have hj : j < 5 := by
    have : (hist ex16).next = 5 := by decide +kernel
    rw [← this]
    by_contra hn
    have := (hs.dead j (hs.unborn j (Nat.le_of_not_lt hn))).2.1 k
    rw [Heap.graph_apply, this] at h1; cases h1
  have key : ∀ j < 5, ∀ k ∈ ((hist ex16).graph j).dnames, ∀ k' ∈ ((hist ex16).graph j).dnames, k ≠ k' →
      ((hist ex16).graph j).dterms k ≠ ((hist ex16).graph j).dterms k' := by decide +kernel
  exact key j hj k (hs.dn j k c h1) k' (hs.dn j k' c h2) hne (h1.trans h2.symm)

/-- y = a * a. -/
def ex12 : List (Op Cls Arr Jac) := [leaf [3], bin .mul 0 0]
end Demo

/-- The full claim is false of the code: `(a * a).copy()` raises `KeyError`, whatever the recursion limit. -/
theorem C12_full_refuted : (∃ F, ∀ f, F ≤ f → (copy Demo.sig f 1 (Demo.hist Demo.ex12)).2 = .error .key) ∧
    (read Demo.sig 9 (.r 1) (Demo.hist Demo.ex12)).2 = .ok [9] := by
  have hr : Reach Demo.sig ⟨False, False⟩ (Demo.hist Demo.ex12) :=
    reach_run Demo.ex12 .init ⟨⟨fun h => False.elim h, fun h => False.elim h⟩, ⟨fun h => False.elim h, fun h => False.elim h⟩, trivial⟩
  obtain ⟨F, hF⟩ := C12_copy_raises_on_aliasing hr (x := 1) (by decide +kernel)
    (Demo.acc_of_older (run_str Demo.ex12) (by decide +kernel) 1) (j := 1) .refl
    ⟨Demo.a, Demo.b, 0, by decide, by decide +kernel, by decide +kernel⟩
  exact ⟨⟨F, fun f hf => (hF f hf).1⟩, by decide +kernel⟩

end Chumpy
