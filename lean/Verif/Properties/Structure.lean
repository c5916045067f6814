import Verif.Core.Replace
import Verif.Properties.Tags
/-!
# Questions about the shape of the graph, and substitution in it: C16, C17, C11
-/
namespace Chumpy
variable {C T V D : Type} {s : Sig C T V D}

/-! ## C16 -/

/-- C16, the answer: `y.is_dr_wrt(w)` is true exactly when `y` is `w` and a leaf, or `w` is reachable from `y`
through one or more differentiable links; and the call returns on every graph without cycles below `y`.
For every graph in which leaves have no links, every pair, every recursion limit. -/
theorem C16_is_dr_wrt_is_reachability (s : Sig C T V D) (g : Graph C T) (hl : LeafGraph s g) (y w : Id) :
    (∀ f b, isDrWrt s g f y w = some b →
      (b = true ↔ (s.isBase (g y).cls = true ∧ y = w) ∨ Relation.TransGen (Uses g) y w)) ∧
    (Acc (fun c i => Uses g i c) y → ∃ f b, isDrWrt s g f y w = some b) :=
  ⟨fun f _ h => isDrWrt_spec s hl f h, fun h => isDrWrt_total s g w h⟩

/-- The bodies of all classes but `Ch` return `None` for `wrt is self` (they compare `wrt` only with their
terms), and all return `None` for an unrelated `wrt`. -/
structure Sig.DrByTerms (s : Sig C T V D) : Prop where
  other : s.LocalDr
  self : ∀ c, s.isBase c = false → s.computeDr c true [] = .ret none

theorem evalTerms_none {g : Graph C T} {f : Nat} {i w : Id} {ev : Id → Except Err (Option D)}
    (hev : ∀ p, Uses g i p → p ≠ w → ev p = .ok none ∨ ev p = .error .fuel) : ∀ ks : List Name,
    (∀ k ∈ ks, k ∈ (g i).dnames) → ∀ acc, evalTerms s g f i w ev ks acc = .ok acc ∨
      evalTerms s g f i w ev ks acc = .error .fuel := by
  intro ks
  induction ks with
  | nil => intro _ acc; exact Or.inl rfl
  | cons k ks ih =>
    intro hk acc
    have ih' := ih (fun x hx => hk x (by simp [hx])) acc
    simp only [evalTerms]
    cases hd : (g i).dterms k with
    | none => exact ih'
    | some p =>
      dsimp only
      split
      · exact ih'
      · rename_i hpw
        rcases hev p ⟨k, hk k (by simp), hd⟩ hpw with h | h
        · rw [h]; exact ih'
        · rw [h]; exact Or.inr rfl

theorem evalSliced_none (hd : s.DrByTerms) {g : Graph C T} {i w : Id} (hw : s.isPermute (g w).cls = false)
    (hi : ¬ Uses g i w) (hb : ¬ (s.isBase (g i).cls = true ∧ i = w)) (f : Nat) :
    evalSliced s g (f + 1) i w = .ok none := by
  have hn : (g i).namesOf w = [] := by
    unfold GNode.namesOf
    rw [List.filter_eq_nil_iff]
    intro k hk hkw
    exact hi ⟨k, hk, by simpa using hkw⟩
  have hc : evalCompDr s g (f + 1) i w = .ok none := by
    unfold evalCompDr
    rw [hn]
    by_cases hiw : i = w
    · have hbi : s.isBase (g i).cls = false := by
        cases h : s.isBase (g i).cls with
        | false => rfl
        | true => exact absurd ⟨h, hiw⟩ hb
      subst hiw
      simp only [beq_self_eq_true]
      rw [hd.self _ hbi]; rfl
    · rw [beq_eq_false_iff_ne.2 hiw, hd.other]; rfl
  unfold evalSliced
  rw [hc]
  simp only [evalSlice, hw]; rfl

theorem evalDr_none (hd : s.DrByTerms) {g : Graph C T} {w : Id} (hw : s.isPermute (g w).cls = false) (f : Nat) :
    ∀ i, ¬ Relation.TransGen (Uses g) i w → ¬ (s.isBase (g i).cls = true ∧ i = w) →
      evalDr s g f i w = .ok none ∨ evalDr s g f i w = .error .fuel := by
  induction f with
  | zero => intro i _ _; exact Or.inr rfl
  | succ f ih =>
    intro i hi hb
    rw [evalDr]
    cases f with
    | zero =>
      simp only [evalSliced]
      have hn : (g i).namesOf w = [] := by
        unfold GNode.namesOf
        rw [List.filter_eq_nil_iff]
        intro k hk hkw
        exact hi (.single ⟨k, hk, by simpa using hkw⟩)
      have hc : evalCompDr s g 0 i w = .ok none := by
        unfold evalCompDr
        rw [hn]
        by_cases hiw : i = w
        · have hbi : s.isBase (g i).cls = false := by
            cases h : s.isBase (g i).cls with
            | false => rfl
            | true => exact absurd ⟨h, hiw⟩ hb
          subst hiw
          simp only [beq_self_eq_true]
          rw [hd.self _ hbi]; rfl
        · rw [beq_eq_false_iff_ne.2 hiw, hd.other]; rfl
      rw [hc]
      right; rfl
    | succ f =>
      rw [evalSliced_none hd hw (fun h => hi (.single h)) hb f]
      dsimp only [Option.toList]
      have hev : ∀ p, Uses g i p → p ≠ w → evalDr s g (f + 1) p w = .ok none ∨ evalDr s g (f + 1) p w = .error .fuel :=
        fun p hp hpw => ih p (fun ht => hi (.head hp ht)) (fun h => hpw h.2)
      rcases evalTerms_none (s := s) (f := f + 1) hev (g i).dnames (fun k hk => hk) [] with h | h
      · rw [h]; left; rfl
      · rw [h]; right; rfl

theorem evalTerms_ok {g : Graph C T} {f : Nat} {i w : Id} {ev : Id → Except Err (Option D)}
    (hev : ∀ p, Uses g i p → ev p = .ok none) : ∀ ks : List Name,
    (∀ k ∈ ks, k ∈ (g i).dnames) → ∀ acc, evalTerms s g f i w ev ks acc = .ok acc := by
  intro ks
  induction ks with
  | nil => intro _ acc; rfl
  | cons k ks ih =>
    intro hk acc
    have ih' := ih (fun x hx => hk x (by simp [hx])) acc
    simp only [evalTerms]
    cases hd : (g i).dterms k with
    | none => exact ih'
    | some p =>
      dsimp only
      split
      · exact ih'
      · rw [hev p ⟨k, hk k (by simp), hd⟩]; exact ih'

/-- On a graph without cycles below `i` a sufficient recursion limit exists. -/
theorem evalDr_none_total (hd : s.DrByTerms) {g : Graph C T} {w : Id} (hw : s.isPermute (g w).cls = false) {i : Id}
    (ha : Acc (fun c i => Uses g i c) i) (hi : ¬ Relation.TransGen (Uses g) i w)
    (hb : ¬ (s.isBase (g i).cls = true ∧ i = w)) : ∃ F, ∀ f, F ≤ f → evalDr s g f i w = .ok none := by
  induction ha with
  | intro i _ ih =>
    have : ∀ c ∈ (g i).kids, ∃ F, ∀ f, F ≤ f → evalDr s g f c w = .ok none := fun c hc =>
      ih c (mem_kids.1 hc) (fun ht => hi (.head (mem_kids.1 hc) ht))
        (fun h => hi (.single (h.2 ▸ mem_kids.1 hc)))
    obtain ⟨F, hF⟩ := exists_bound (P := fun c F => ∀ f, F ≤ f → evalDr s g f c w = .ok none)
      (fun x a b hab hv f hf => hv f (Nat.le_trans hab hf)) this
    refine ⟨F + 2, fun f hf => ?_⟩
    obtain ⟨f, rfl⟩ : ∃ n, f = n + 2 := ⟨f - 2, by omega⟩
    rw [evalDr, evalSliced_none hd hw (fun h => hi (.single h)) hb f]
    dsimp only [Option.toList]
    rw [evalTerms_ok (fun p hp => hF p (mem_kids.2 hp) (f + 1) (by omega)) _ (fun k hk => hk)]
    rfl

/-- C16, the consequence: whenever `y.is_dr_wrt(w)` answers `False` and `w` is not a slice, `y.dr_wrt(w)` is `None` – unless the
recursion limit is hit, which does not happen on a graph without cycles below `y` if the limit is high enough.  In every state
reached by a history of assignments, reads, collections, ... (with the side conditions of C02). -/
theorem C16_none_if_not_reachable (hp : s.PropsOk) (ho : s.PlainForm) (hd : s.DrByTerms) {h : Heap C T V D}
    (hr : Reach s ⟨False, True⟩ h) (hl : LeafGraph s h.graph) (y w : Id) (hw : s.isPermute (h.graph w).cls = false)
    (n : Nat) (hn : isDrWrt s h.graph n y w = some false) :
    (∀ f, (drWrt s f y w h).2 = .ok none ∨ (drWrt s f y w h).2 = .error .fuel) ∧
    (Acc (fun c i => Uses h.graph i c) y → ∃ F, ∀ f, F ≤ f → (drWrt s f y w h).2 = .ok none) := by
  have hx := isDrWrt_spec s hl n hn
  simp only [Bool.false_eq_true, false_iff, not_or] at hx
  have hf := fun f => C02_derivative_never_stale_partial hp ho hr f y w hw
  refine ⟨fun f => ?_, fun ha => ?_⟩
  · cases ho : (drWrt s f y w h).2 with
    | ok d =>
      obtain ⟨_, f', hf'⟩ := (hf f).1 d ho
      rcases evalDr_none hd hw f' y hx.2 hx.1 with h | h
      · rw [h] at hf'; injection hf' with e; left; rw [e]
      · rw [h] at hf'; cases hf'
    | error e =>
      by_cases he : e = .fuel
      · right; rw [he]
      · obtain ⟨_, f', hf'⟩ := (hf f).2.1 e ho he
        rcases evalDr_none hd hw f' y hx.2 hx.1 with h | h
        · rw [h] at hf'; cases hf'
        · rw [h] at hf'; injection hf' with e; exact absurd e.symm he
  · obtain ⟨F, hF⟩ := evalDr_none_total hd hw ha hx.2 hx.1
    refine ⟨F, fun f hf' => ?_⟩
    rw [(hf f).2.2 (by rw [hF f hf']; simp), hF f hf']

namespace Demo
theorem drByTerms : sig.DrByTerms := ⟨localDr, fun c => by cases c <;> simp [sig, computeDr]⟩

/-- y = (a + b) * a, and an unrelated leaf. -/
def ex16 : List (Op Cls Arr Jac) := [leaf [3], leaf [4], bin .add 0 1, bin .mul 2 0, leaf [7]]
theorem ex16_reach : Reach sig ⟨False, True⟩ (hist ex16) := by
  refine reach_run ex16 .init ⟨⟨?_, ?_⟩, ⟨?_, ?_⟩, ⟨?_, ?_⟩, ⟨?_, ?_⟩, ⟨?_, ?_⟩, trivial⟩
  all_goals first | exact fun h => False.elim h | exact fun _ => ⟨rfl, rfl⟩
example : isDrWrt sig (hist ex16).graph 9 3 1 = some true := by decide +kernel
example : isDrWrt sig (hist ex16).graph 9 3 4 = some false := by decide +kernel
example : isDrWrt sig (hist ex16).graph 9 3 3 = some false := by decide +kernel
example : (drWrt sig 9 3 4 (hist ex16)).2 = .ok none := by decide +kernel
example : treeIter (hist ex16).graph 9 3 [] = some ([1, 0, 2, 3], [3, 2, 0, 1]) := by decide +kernel
/-- A cycle: y.a = y.  The iterator still ends. -/
example : treeIter (hist (ex16 ++ [.set 2 [.link a 3]])).graph 9 3 [] = some ([0, 1, 2, 3], [3, 2, 1, 0]) := by
  decide +kernel
end Demo

/-! ## C17 -/

/-- C17: on a graph in which finitely many objects (those in `U`) are reachable from `y`, cycles allowed, iterating
with a recursion limit above their number ends, yields `y` first, and yields exactly the objects reachable
from `y` (including `y`), each once. -/
theorem C17_tree_iterator_each_once (g : Graph C T) (y : Id) (U : List Id)
    (hU : ∀ j, Relation.ReflTransGen (Uses g) y j → j ∈ U) (f : Nat) (hf : U.length < f) :
    ∃ visited out, treeIter g f y [] = some (visited, out) ∧
      out.head? = some y ∧ out.Nodup ∧ ∀ j, j ∈ out ↔ Relation.ReflTransGen (Uses g) y j := by
  classical
  obtain ⟨f, rfl⟩ : ∃ n, f = n + 1 := ⟨f - 1, by omega⟩
  let U' := U.filter (fun j => decide (Relation.ReflTransGen (Uses g) y j))
  have hm : ∀ j, j ∈ U' ↔ Relation.ReflTransGen (Uses g) y j := fun j => by
    simp only [U', List.mem_filter, decide_eq_true_eq]
    exact ⟨fun h => h.2, fun h => ⟨hU j h, h⟩⟩
  have hlen : missing U' [] ≤ f := by
    have h1 : missing U' [] = U'.length := by simp [missing]
    have h2 : U'.length ≤ U.length := List.length_filter_le _ _
    omega
  obtain ⟨v, o, e, w, hh⟩ := treeIter_walk (g := g) (U := U')
    (fun j hj c hc => (hm c).2 (((hm j).1 hj).tail hc)) f y ((hm y).2 .refl) [] hlen
  refine ⟨v, o, e, hh (by simp), w.nodup, fun j => ⟨fun hj => ?_, fun hj => ?_⟩⟩
  · obtain ⟨c, hc, hr⟩ := w.reach j hj
    simp only [List.mem_singleton] at hc
    exact hc ▸ hr
  · have hv : ∀ x, x ∈ v ↔ x ∈ o := fun x => by rw [w.eq]; simp
    induction hj with
    | refl => exact (hv y).1 (w.roots y (by simp))
    | tail _ hbc ih => exact (hv _).1 (w.closed _ ih _ hbc)

/-- C17 on the heap: after every history, for every object, a recursion limit above the number of objects ever made suffices. -/
theorem C17_after_every_history (s : Sig C T V D) (ops : List (Op C T D)) (y : Id) (f : Nat) :
    let h := run s ops (Heap.empty s)
    (h.node y).alive = true → h.next < f →
    ∃ visited out, treeIter h.graph f y [] = some (visited, out) ∧
      out.head? = some y ∧ out.Nodup ∧ ∀ j, j ∈ out ↔ Relation.ReflTransGen (Uses h.graph) y j := by
  intro h hy hf
  have hs : Str h := run_str ops
  refine C17_tree_iterator_each_once h.graph y (List.range h.next) (fun j hj => ?_) f (by simpa using hf)
  have : (h.node j).alive = true := by
    induction hj with
    | refl => exact hy
    | tail _ hbc ih => obtain ⟨k, _, hk⟩ := hbc; exact hs.child_alive hk
  exact List.mem_range.2 (hs.alive_lt this)

/-! ## C11 -/

/-- The graph with `new` in place of `old` everywhere (specification). -/
def substAll (g : Graph C T) (old new : Id) : Graph C T := fun j => (g j).subst old new

theorem reach_sets {m : Mode} (hm : ¬ m.frozen) {new : Id} (ops : List (Op C T D)) : ∀ {h : Heap C T V D}, Reach s m h →
    (∀ op ∈ ops, ∃ j k, op = .set j [.link k new]) → Reach s m (run s ops h) := by
  induction ops with
  | nil => intro h hr _; exact hr
  | cons op ops ih =>
    intro h hr ho
    obtain ⟨j, k, rfl⟩ := ho op (by simp)
    refine ih (.step (.set j [.link k new]) hr ⟨fun h => absurd h hm, Or.inl (by simp)⟩) (fun op h => ho op (by simp [h]))

/-- C11.  `y.replace(old, new)`, with `old` not reachable from `new`, on a graph without cycles below `y` and `new`, in any
reachable state: the call returns (given enough recursion depth) in a state `h'` in which
* exactly the objects reachable from `y` without passing through `old` have their links to `old` redirected to `new`,
  and everything else in the graph is unchanged;
* no object reachable from `y` refers to `old`;
* the value of `y`, and its derivatives wrt anything below it, are those of the graph with `new` in place of `old` everywhere, and this is what
  `y.r` returns;
* the state is one reached by ordinary assignments, so that all caching properties hold in it and afterwards. -/
theorem C11_replace_substitutes (hpo : s.PropsOk) {m : Mode} (hm : ¬ m.frozen) {h : Heap C T V D} (hr : Reach s m h) {y old new : Id}
    (hy : (h.node y).alive = true) (hnew : (h.node new).alive = true) (hac : Acc (fun c i => Uses h.graph i c) y)
    (hacn : Acc (fun c i => Uses h.graph i c) new) (hno : ¬ Relation.ReflTransGen (Uses h.graph) new old) :
    ∃ F, ∀ f, F ≤ f → ∃ h', replace s old new f y h = (h', .ok ()) ∧ Reach s m h' ∧
      (∀ j, Relation.ReflTransGen (fun a b => Uses h.graph a b ∧ b ≠ old) y j → h'.graph j = (h.graph j).subst old new) ∧
      (∀ j, ¬ Relation.ReflTransGen (fun a b => Uses h.graph a b ∧ b ≠ old) y j → h'.graph j = h.graph j) ∧
      (∀ j, (h'.node j).alive = (h.node j).alive) ∧
      (∀ j, Relation.ReflTransGen (Uses h'.graph) y j → ¬ Uses h'.graph j old) ∧
      (∀ n, evalReq s h'.graph n (.r y) = evalReq s (substAll h.graph old new) n (.r y)) ∧
      (∀ n w, Relation.ReflTransGen (Uses h'.graph) y w →
        evalDr s h'.graph n y w = evalDr s (substAll h.graph old new) n y w) ∧
      (∀ n v, (read s n (.r y) h').2 = .ok v → Means s (substAll h.graph old new) (.r y) (.ok v)) := by
  have hs : Str h := reach_str hr
  obtain ⟨F, hF⟩ := replace_good (s := s) (g := h.graph) hs.dn hno (acc_rec hno hacn hac)
  refine ⟨F, fun f hf => ?_⟩
  obtain ⟨h', ops, e, pc, hset⟩ := hF f hf h hs (Part.refl old new h.graph) hy hnew
  have hreach : Reach s m h' := by
    rw [pc.run]
    exact reach_sets hm ops hr (fun op ho => by obtain ⟨j, k, e, _⟩ := pc.ops op ho; exact ⟨j, k, e⟩)
  have h1 : ∀ j, Vis old h.graph y j → h'.graph j = (h.graph j).subst old new :=
    fun j hj => part_settled pc.part (hset j hj)
  have h2 : ∀ j, ¬ Vis old h.graph y j → h'.graph j = h.graph j := by
    intro j hj
    have hd : (h'.graph j).dterms = (h.graph j).dterms := funext fun k => by
      rcases pc.frame j k with h | ⟨h, _⟩
      · exact h
      · exact absurd h hj
    have := pc.part.rest j
    rw [← hd] at this
    rw [← this]
  let A : Id → Prop := fun j => Vis old h.graph y j ∨ Relation.ReflTransGen (Uses h.graph) new j
  have hsub : ∀ j, Relation.ReflTransGen (Uses h.graph) new j → (h.graph j).subst old new = h.graph j := by
    intro j hj
    have : (fun k => if (h.graph j).dterms k = some old then some new else (h.graph j).dterms k) = (h.graph j).dterms := by
      funext k
      rw [if_neg]
      intro hk
      exact hno (hj.tail ⟨k, hs.dn j k old hk, hk⟩)
    unfold GNode.subst
    rw [this]
  have hA : ∀ j, A j → h'.graph j = (h.graph j).subst old new := by
    intro j hj
    by_cases hv : Vis old h.graph y j
    · exact h1 j hv
    · rcases hj with hj | hj
      · exact absurd hj hv
      · rw [h2 j hv, hsub j hj]
  have hcl : ∀ j, A j → ∀ k c, ((h.graph j).subst old new).dterms k = some c → A c ∧ c ≠ old := by
    intro j hj k c hc
    simp only [GNode.subst] at hc
    split at hc
    · injection hc with hc
      subst hc
      exact ⟨Or.inr .refl, fun e => hno (e ▸ .refl)⟩
    · rename_i hk
      have hco : c ≠ old := fun e => hk (e ▸ hc)
      refine ⟨?_, hco⟩
      rcases hj with hj | hj
      · exact Or.inl (hj.tail ⟨⟨k, hs.dn j k c hc, hc⟩, hco⟩)
      · exact Or.inr (hj.tail ⟨k, hs.dn j k c hc, hc⟩)
  have hAr : ∀ j, Relation.ReflTransGen (Uses h'.graph) y j → A j := by
    intro j hj
    induction hj with
    | refl => exact Or.inl .refl
    | tail _ hbc ih =>
      obtain ⟨k, _, hk⟩ := hbc
      rw [hA _ ih] at hk
      exact (hcl _ ih k _ hk).1
  have hiso : Iso A id (substAll h.graph old new) h'.graph := Iso.of_eq hA (fun j hj k c hc => (hcl j hj k c hc).1)
  have hval : ∀ n, evalReq s h'.graph n (.r y) = evalReq s (substAll h.graph old new) n (.r y) :=
    fun n => (hiso.req n y (Or.inl .refl)).1
  refine ⟨h', e, hreach, h1, h2, pc.alive, fun j hj ⟨k, _, hk⟩ => ?_, hval,
    fun n w hw => hiso.dr n y w (Or.inl .refl) (hAr w hw), fun n v hv => ?_⟩
  · have := hAr j hj
    rw [hA j this] at hk
    exact (hcl j this k old hk).2 rfl
  · obtain ⟨hne, f', hf'⟩ := (C01_value_never_stale_partial hpo (hreach.weaken (fun h => False.elim h) (fun h => False.elim h)) n y).1 v hv
    exact ⟨hne, f', by rw [← hval]; exact hf'⟩

namespace Demo
/-- y = (a + b) * a with a=[3], b=[4]; a is replaced by c=[7]. -/
example : (read sig 9 (.r 3) (replace sig 0 4 9 3 (hist (ex16 ++ [.readR 9 3]))).1).2 = .ok [77] := by decide +kernel
example : (replace sig 0 4 9 3 (hist (ex16 ++ [.readR 9 3]))).2 = .ok () := by decide +kernel

/-- A state in which every object refers to older ones only has no cycles. -/
theorem acc_of_older {h : Heap Cls Arr Arr Jac} (hs : Str h)
    (hl : ((List.range h.next).all fun i => (h.graph i).kids.all (· < i)) = true) (y : Id) :
    Acc (fun c i => Uses h.graph i c) y := by
  have hlt : ∀ i c, Uses h.graph i c → c < i := by
    intro i c hc
    by_cases hi : i < h.next
    · have := List.all_eq_true.1 hl i (List.mem_range.2 hi)
      simpa using List.all_eq_true.1 this c (mem_kids.2 hc)
    · obtain ⟨k, _, hk⟩ := hc
      have := (hs.dead i (hs.unborn i (Nat.le_of_not_lt hi))).2.1 k
      rw [show (h.graph i).dterms k = (h.node i).dterms k from rfl, this] at hk; cases hk
  induction y using Nat.strongRecOn with
  | _ y ih => exact ⟨y, fun c hc => ih c (hlt y c hc)⟩

/-- C11 applies to this state. -/
example : ∃ F, ∀ f, F ≤ f → ∃ h', replace sig 0 4 f 3 (hist ex16) = (h', .ok ()) ∧
    Means sig (substAll (hist ex16).graph 0 4) (.r 3) (.ok [77]) := by
  have hs : Str (hist ex16) := run_str ex16
  have ha := acc_of_older hs (by decide +kernel)
  obtain ⟨F, hF⟩ := C11_replace_substitutes (s := sig) propsOk (m := ⟨False, True⟩) (fun h => h) ex16_reach (y := 3) (old := 0) (new := 4)
    (by decide +kernel) (by decide +kernel) (ha 3) (ha 4) (by
      intro hr
      rcases Relation.ReflTransGen.cases_head hr with h | ⟨c, ⟨k, hk, _⟩, _⟩
      · cases h
      · have : ((hist ex16).graph 4).dnames = [] := by decide +kernel
        rw [this] at hk; cases hk)
  exact ⟨F, fun f hf => by obtain ⟨h', e, _⟩ := hF f hf; exact ⟨h', e, by simp, 9, by decide +kernel⟩⟩

/-- old=0, new = old + b, y = old * new. -/
def ex11 : List (Op Cls Arr Jac) := [leaf [3], leaf [4], bin .add 0 1, bin .mul 0 2]
end Demo

/-- The condition on `new` is needed: with `new = old + b` and `y = old * new`, `y.replace(old, new)` makes `new` refer
to itself, and `y.r` no longer returns. -/
theorem C11_new_containing_old_refuted :
    let h' := (replace Demo.sig 0 2 9 3 (Demo.hist Demo.ex11)).1
    (replace Demo.sig 0 2 9 3 (Demo.hist Demo.ex11)).2 = .ok () ∧ (h'.graph 2).dterms Demo.a = some 2 ∧
    ∀ f, evalReq Demo.sig h'.graph f (.r 2) = .error .fuel := by
  refine ⟨by decide +kernel, by decide +kernel, fun f => ?_⟩
  have hc : ((replace Demo.sig 0 2 9 3 (Demo.hist Demo.ex11)).1.graph 2).cls = .add := by decide +kernel
  have hd : ((replace Demo.sig 0 2 9 3 (Demo.hist Demo.ex11)).1.graph 2).dterms Demo.a = some 2 := by decide +kernel
  induction f with
  | zero => rfl
  | succ f ih =>
    rw [evalReq, hc]
    show evalProg _ _ 2 (.child Demo.a _) = _
    rw [evalProg, hd]
    dsimp only
    rw [ih]

end Chumpy
