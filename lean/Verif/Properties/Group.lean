import Verif.AD.Group
import Verif.Properties.Lambda
import Verif.Demo
/-!
# C75: `ChGroup`

`G = ChGroup(result, args)` behaves like `result` with the arguments it now has: `G.r` is the value of the result when the arguments of
the group stand in their places (`regroup`), whatever was assigned and read before, and `G.dr_wrt(w)` its derivative.
-/
namespace Chumpy
variable {C T V D : Type} {s : Sig C T V D} {gr : Grp} {st : GSt C T V D}

/-- C75, values.  After every history of assignments to the group's arguments and to other objects, of reads of the group and of other
objects, `G.r` returns what an evaluation of the result from scratch returns, the group's present arguments in their places.  Missing for
the full claim: objects inside of the result that are not below an argument are not assigned to (`LegalG`, see
`C75_value_refuted`). -/
theorem C75_value_partial (hp : s.PropsOk) (hr : GReach s gr st) (f : Nat) :
    ReadIn s (regroup s gr st.heap.graph) f (.r gr.res) (readG s gr f st).2 :=
  readIn_of_agree (readG_spec hp (greach_inv hp hr) f).2

/-- C75, construction: `ChGroup(result, args)` makes a group that has the given arguments, with the handles in their places in the result,
and changes no other object. -/
theorem C75_constructor {gcls hcls : C} {u : V} (hb : s.computeR gcls = .ret u) {h h' : Heap C T V D} (hr : Reach s ⟨False, True⟩ h)
    (hp : s.PropsOk) {res : Id} (hres : (h.node res).alive = true) {args : List (Name × Id)} (ha : ∀ e ∈ args, (h.node e.2).alive = true)
    (hn : (args.map (·.1)).Nodup) (hok : makeGroup s gcls hcls res args h = (h', .ok gr)) :
    GReach s gr ⟨h', none⟩ ∧ gr.res = res ∧ gr.args.map (·.1) = args.map (·.1) ∧
      (∀ e ∈ args, (h'.graph gr.G).dterms e.1 = some e.2) ∧ (∀ e ∈ gr.args, (h'.graph res).dterms e.1 = some e.2) ∧
      (∀ k, k ∉ args.map (·.1) → (h'.graph res).dterms k = (h.graph res).dterms k) ∧
      ∀ j, (h.node j).alive = true → j ≠ res → h'.graph j = h.graph j := by
  obtain ⟨h1, h2, h3, h4, h5⟩ := makeGroup_spec hb hr (reach_inv hp (fun h => False.elim h) hr).str hres ha hn hok
  exact ⟨.made h1 h2 h3, h4, h5⟩

/-- C75, derivatives: if no other argument depends on `w`, `G.dr_wrt(w)` returns what `dr_wrt` of the result returns (`finish`, the choice
of dense or sparse at the end, is made a second time). -/
theorem C75_dr_partial (hp : s.PropsOk) (hpf : s.PlainForm) (hr : GReach s gr st) {w : Id} (hwG : w ≠ gr.G)
    (hw : s.isPermute (st.heap.graph w).cls = false) {d : Option D} (hd : MeansDr s (regroup s gr st.heap.graph) gr.res w (.ok d))
    (hP : ∀ k p, (regroup s gr st.heap.graph gr.G).dterms k = some p → p ≠ w → MeansDr s (regroup s gr st.heap.graph) p w (.ok none)) :
    ∃ f₀, ∀ f ≥ f₀, (drWrtG s gr f w st).2 = .ok (d.map s.finish) :=
  drWrtG_exact hp hpf (greach_inv hp hr) rfl hwG (by rw [regroup_cls]; exact hw) hd hP

/-! ## True derivatives, for the classes of the library -/

section
open scoped BigOperators
variable {st : GSt ClassDef Par Arr Jac}

/-- A derivative computed by the chain rule stands for the true one. -/
theorem rep_of_meansG {g : Graph ClassDef Par} {y w : Id} {vy vw : Arr} {J : Ent} (hc : PassChain g y w) (hyw : y ≠ w)
    (hs : ¬ Straight g w y ∨ vw.size = 1) (hJ : HasJacobian g y w vy vw J) {o : Option Jac} (ho : MeansDr lib g y w (.ok o)) :
    num.RepO o vy.size vw.size J := by
  obtain ⟨vy', M, hM, hR⟩ := jacobian_pass hc hJ.valW hyw ho
  obtain ⟨rfl, _, e⟩ := hM.unique hJ
  refine num.repO_congr e ?_
  rcases hR with hR | ⟨hst, rfl, e', hR⟩
  · exact hR
  · rcases hs with hs | hs
    · exact absurd hst hs
    · have e1 : vy'.size = 1 := by rw [e']; exact hs
      rw [hs] at hR
      rw [e1, hs]
      refine ⟨rfl, rfl, ?_⟩
      intro i hi j hj
      rw [hR i hi j hj]
      have hi : i = 0 := by omega
      have hj : j = 0 := by omega
      subst hi hj; rfl

/-- C75, true derivatives: let no argument other than `w` depend on `w`.  If `G.dr_wrt(w)` returns, it returns the derivative of the value
of the group wrt the entries of `w`. -/
theorem C75_derivative_is_jacobian_partial (hr : GReach lib gr st) {w : Id} (hwG : w ≠ gr.G) {vw : Arr}
    (hv : Means lib (regroup lib gr st.heap.graph) (.r w) (.ok vw)) (hc : PassChain (regroup lib gr st.heap.graph) gr.res w)
    (hyw : gr.res ≠ w) (hs : ¬ Straight (regroup lib gr st.heap.graph) w gr.res ∨ vw.size = 1)
    (hP : ∀ k p, (regroup lib gr st.heap.graph gr.G).dterms k = some p → p ≠ w → ¬ Reaches (regroup lib gr st.heap.graph) p w)
    {f : ℕ} {o : Option Jac} (hd : (drWrtG lib gr f w st).2 = .ok o) :
    ∃ vy M, HasJacobian (regroup lib gr st.heap.graph) gr.res w vy vw M ∧ num.RepO o vy.size vw.size M := by
  have hi := greach_inv lib_propsOk hr
  have key : ∀ k p o, (regroup lib gr st.heap.graph gr.G).dterms k = some p → p ≠ w →
      MeansDr lib (regroup lib gr st.heap.graph) p w (.ok o) → o = none := by
    intro k p o hk hpw ⟨_, f', ho⟩
    exact evalDr_none_of_not_reach lib_localDr hc.wrt hc.decl f' p o (hP k p hk hpw) ho
  obtain ⟨d, hdm⟩ := drWrtG_direct lib_propsOk lib_plainForm hi rfl hwG hc.wrt hd
  obtain ⟨vy, M, hJ, _⟩ := jacobian_pass hc hv hyw hdm
  refine ⟨vy, M, hJ, ?_⟩
  have := drWrtG_rep num lib_propsOk lib_plainForm hi rfl hwG hc.wrt (m := vy.size) (n := vw.size)
      (fun k p d hk hpw h => by cases key k p _ hk hpw h) (fun _ => 0) M 0 0 (fun o h => rep_of_meansG hc hyw hs hJ h)
      (fun k p o hk hpw h => by rw [key k p o hk hpw h]; exact fun _ _ _ _ => rfl)
      (fun k p d o hk hpw h _ => by cases key k p _ hk hpw h) hd
  refine num.repO_congr ?_ this
  have hz : (List.map (fun k => if (regroup lib gr st.heap.graph gr.G).kid k = w then (0 : Ent) else
        Ent.mul 0 ((0 : Id → Ent) ((regroup lib gr st.heap.graph gr.G).kid k)) ((0 : Id → Ent) ((regroup lib gr st.heap.graph gr.G).kid k)))
        ((regroup lib gr st.heap.graph gr.G).dnames.filter fun k => ((regroup lib gr st.heap.graph gr.G).dterms k).isSome)).sum = 0 := by
    refine List.sum_eq_zero ?_
    intro x hx
    obtain ⟨k, _, rfl⟩ := List.mem_map.1 hx
    split
    · rfl
    · funext i j; simp [Ent.mul]
  rw [hz, add_zero]
  exact Ent.EqOn.refl M

/-- … and with enough stack depth it does return, if no class raises and `w` has more than one entry. -/
theorem C75_derivative_returns_partial (hr : GReach lib gr st) {w : Id} (hwG : w ≠ gr.G) {vw : Arr}
    (hv : Means lib (regroup lib gr st.heap.graph) (.r w) (.ok vw)) (hc : PassChain (regroup lib gr st.heap.graph) gr.res w)
    (hyw : gr.res ≠ w) (hs : ¬ Straight (regroup lib gr st.heap.graph) w gr.res) (hsz : vw.size ≠ 1)
    (hP : ∀ k p, (regroup lib gr st.heap.graph gr.G).dterms k = some p → p ≠ w → ¬ Reaches (regroup lib gr st.heap.graph) p w)
    (hin : ∀ k p, (regroup lib gr st.heap.graph gr.G).dterms k = some p → Reaches (regroup lib gr st.heap.graph) gr.res p)
    (hacc : Acc (fun a b => Uses (regroup lib gr st.heap.graph) b a) gr.res)
    (hob : ∀ i, Reaches (regroup lib gr st.heap.graph) gr.res i → i ≠ w →
      (∃ p, HandsOn (regroup lib gr st.heap.graph) i p) ∨ ExactlyFor (regroup lib gr st.heap.graph) w i)
    (hsl : ∀ j, Reaches (regroup lib gr st.heap.graph) gr.res j → (regroup lib gr st.heap.graph j).cls.permute = true →
      ∃ c, (regroup lib gr st.heap.graph j).dterms nmA = some c) :
    ∃ vy M, HasJacobian (regroup lib gr st.heap.graph) gr.res w vy vw M ∧
      ∃ f₀, ∀ f ≥ f₀, ∃ o, (drWrtG lib gr f w st).2 = .ok o ∧ num.RepO o vy.size vw.size M := by
  obtain ⟨o, ho⟩ := dr_returns_pass hacc hc hv hsz hob hsl hyw
  obtain ⟨vy, M, hJ, _⟩ := jacobian_pass hc hv hyw ho
  refine ⟨vy, M, hJ, ?_⟩
  have hacc' : ∀ p, Reaches (regroup lib gr st.heap.graph) gr.res p → Acc (fun a b => Uses (regroup lib gr st.heap.graph) b a) p := by
    intro p hp
    induction hp with
    | refl => exact hacc
    | tail _ hu ih => exact ih.inv hu
  have := drWrtG_exact lib_propsOk lib_plainForm (greach_inv lib_propsOk hr) rfl hwG hc.wrt ho (by
    intro k p hk hpw
    have hrp := hin k p hk
    obtain ⟨o', ho'⟩ := dr_returns_pass (hacc' p hrp) (hc.sub hrp) hv hsz (fun i hi => hob i (hrp.trans hi)) (fun j hj => hsl j (hrp.trans hj)) hpw
    have : o' = none := evalDr_none_of_not_reach lib_localDr hc.wrt hc.decl _ p o' (hP k p hk hpw) ho'.2.choose_spec
    rwa [this] at ho')
  obtain ⟨f₀, hf₀⟩ := this
  refine ⟨f₀, fun f hf => ⟨_, hf₀ f hf, ?_⟩⟩
  have hr := rep_of_meansG hc hyw (Or.inl hs) hJ ho
  cases o with
  | none => exact hr
  | some d => exact num.finish hr

/-- C75, what is returned in general: the derivative of the value of the group, plus, for every argument other than `w`, the part of it that
goes through the argument – which is in the derivative already. -/
theorem C75_counts_arguments_twice (hr : GReach lib gr st) {w : Id} (hwG : w ≠ gr.G) {vy vw : Arr} {J : Ent} {val : Id → Arr} {K P : Id → Ent}
    (hJ : HasJacobian (regroup lib gr st.heap.graph) gr.res w vy vw J)
    (hP : ∀ k p, (regroup lib gr st.heap.graph gr.G).dterms k = some p → p ≠ w → HasJacobian (regroup lib gr st.heap.graph) p w (val p) vw (P p))
    (hK : ∀ k p, (regroup lib gr st.heap.graph gr.G).dterms k = some p → p ≠ w → HasJacobian (regroup lib gr st.heap.graph) gr.res p vy (val p) (K p))
    (hc : PassChain (regroup lib gr st.heap.graph) gr.res w) (hyw : gr.res ≠ w)
    (hs : ¬ Straight (regroup lib gr st.heap.graph) w gr.res ∨ vw.size = 1)
    (harg : ∀ k p, (regroup lib gr st.heap.graph gr.G).dterms k = some p → p ≠ w → PassChain (regroup lib gr st.heap.graph) p w ∧
      (¬ Straight (regroup lib gr st.heap.graph) w p ∨ vw.size = 1) ∧ PassChain (regroup lib gr st.heap.graph) gr.res p ∧ gr.res ≠ p ∧
      (¬ Straight (regroup lib gr st.heap.graph) p gr.res ∨ (val p).size = 1)) {f : ℕ} {o : Option Jac} (hd : (drWrtG lib gr f w st).2 = .ok o) :
    num.RepO o vy.size vw.size (J + (((regroup lib gr st.heap.graph gr.G).dnames.filter fun k =>
        ((regroup lib gr st.heap.graph gr.G).dterms k).isSome).map fun k =>
      if (regroup lib gr st.heap.graph gr.G).kid k = w then 0
      else Ent.mul (val ((regroup lib gr st.heap.graph gr.G).kid k)).size (K ((regroup lib gr st.heap.graph gr.G).kid k))
        (P ((regroup lib gr st.heap.graph gr.G).kid k))).sum) :=
  drWrtG_rep num lib_propsOk lib_plainForm (greach_inv lib_propsOk hr) rfl hwG hc.wrt
    (fun k p _ hk hpw _ => (harg k p hk hpw).2.2.1.wrt) (fun p => (val p).size) J K P (fun _ h => rep_of_meansG hc hyw hs hJ h)
    (fun k p _ hk hpw h => rep_of_meansG (harg k p hk hpw).1 hpw (harg k p hk hpw).2.1 (hP k p hk hpw) h)
    (fun k p _ _ hk hpw _ h => rep_of_meansG (harg k p hk hpw).2.2.1 (harg k p hk hpw).2.2.2.1 (harg k p hk hpw).2.2.2.2 (hK k p hk hpw) h) hd
end

/-! ## The claims in full, and why they do not hold -/

/-- What a program may always do: it has neither the handles, which the group has made, nor refers to the group from elsewhere. -/
def GOp.Proper (gr : Grp) : GOp T → Prop
  | .set i kw => kw.Direct ∧ (∀ k, kw ≠ .link k gr.G) ∧ ∀ e ∈ gr.args, e.2 ≠ i
  | .readR _ i => i ≠ gr.G
  | .readDr _ i w => i ≠ gr.G ∧ w ≠ gr.G
  | .group _ => True
  | .groupDr _ w => w ≠ gr.G

/-- C75 in full, values: the value of the group is that of the result with the present arguments, whatever was assigned to. -/
def C75_value_full : Prop :=
  ∀ (C T V D : Type) (s : Sig C T V D), s.PropsOk → ∀ (gcls hcls : C) (u : V), s.computeR gcls = .ret u →
    ∀ (h h' : Heap C T V D) (res : Id) (args : List (Name × Id)) (gr : Grp), Reach s ⟨False, True⟩ h → (h.node res).alive = true →
    (∀ e ∈ args, (h.node e.2).alive = true) → (args.map (·.1)).Nodup → makeGroup s gcls hcls res args h = (h', .ok gr) →
    ∀ ops : List (GOp T), (∀ op ∈ ops, op.Proper gr) → ∀ f,
      ReadIn s (regroup s gr (runG s gr ops ⟨h', none⟩).heap.graph) f (.r gr.res) (readG s gr f (runG s gr ops ⟨h', none⟩)).2

/-- C75 in full, derivatives: the derivative of the group is that of the result with the present arguments. -/
def C75_dr_full : Prop :=
  ∀ (C T V D : Type) (s : Sig C T V D), s.PropsOk → s.PlainForm → (∀ d, s.finish d = d) → ∀ (gr : Grp) (st : GSt C T V D), GReach s gr st →
    ∀ w, w ≠ gr.G → s.isPermute (st.heap.graph w).cls = false → ∀ f,
      DrIn s (regroup s gr st.heap.graph) f gr.res w (drWrtG s gr f w st).2

namespace GroupDemo
open Demo (x a b eye both)

/-- `leaf`: `Ch`.  `add`: ch_ops.py:546-557.  `handle`: `ChHandle` (ch.py:1224-1233).  `group`: what the heap knows of a `ChGroup`. -/
inductive Cls where
  | leaf | add | handle | group
  deriving DecidableEq

def computeR : Cls → Prog Demo.Arr Demo.Arr Demo.Arr
  | .leaf => .term x fun | some v => .ret v | none => .raise 9
  | .add => .child a fun u => .child b fun v => .ret (List.zipWith (· + ·) u v)
  | .handle => .child x fun u => .ret u
  | .group => .ret []

def computeDr : Cls → Bool → List Name → Prog Demo.Arr Demo.Arr (Option Demo.Jac)
  | .leaf, true, _ => .selfR fun v => .ret (some (eye v.length, true))
  | .leaf, false, _ => .ret none
  | .add, _, ns =>
    if ns.isEmpty then .ret none
    else .child a fun u => .ret (both (ns.contains a) (ns.contains b) (eye u.length) (eye u.length))
  | .handle, _, ns => if ns.isEmpty then .ret none else .child x fun u => .ret (some (eye u.length, true))
  | .group, _, _ => .ret none

def sig : Sig Cls Demo.Arr Demo.Arr Demo.Jac where
  computeR := computeR
  computeDr := computeDr
  propDecl := fun _ _ => none
  isPermute := fun _ => false
  permArg := a
  isBase := fun c => c = .leaf
  base := .leaf
  xname := x
  superdot := fun m n => .ok (Demo.matmul m.1 n.1, m.2 && n.2)
  add := fun m n => .ok (Demo.madd m.1 n.1, m.2 && n.2)
  transp := fun m => (Demo.transp m.1, m.2)
  finish := fun m => m
  todense := fun m => (m.1, false)
  outForm := fun md ms m => (m.1, if md then false else if ms then true else m.2)

theorem propsOk : sig.PropsOk := by intro c q d h; cases h
theorem plainForm : sig.PlainForm := fun _ => rfl

abbrev leaf (v : Demo.Arr) : Op Cls Demo.Arr Demo.Jac := .new .leaf [] false false [.term x v]
abbrev add (i j : Id) : Op Cls Demo.Arr Demo.Jac := .new .add [a, b] false false [.link a i, .link b j]
abbrev hist (ops : List (Op Cls Demo.Arr Demo.Jac)) : Heap Cls Demo.Arr Demo.Arr Demo.Jac := run sig ops (Heap.empty sig)

/-- `x = Ch([1,2]); c = Ch([10,20]); p = x + c; e = Ch([5,6]); result = p + e` -/
abbrev ops : List (Op Cls Demo.Arr Demo.Jac) := [leaf [1, 2], leaf [10, 20], add 0 1, leaf [5, 6], add 2 3]
theorem reach : Reach sig ⟨False, True⟩ (hist ops) := by
  refine Reach.step (add 2 3) (.step (leaf [5, 6]) (.step (add 0 1) (.step (leaf [10, 20]) (.step (leaf [1, 2]) .init ?_) ?_) ?_) ?_) ?_ <;>
    exact ⟨fun h => False.elim h, fun _ => ⟨rfl, rfl⟩⟩

/-- `G = ChGroup(result, {'a': p})` -/
abbrev made : Heap Cls Demo.Arr Demo.Arr Demo.Jac × Except Err Grp := makeGroup sig .group .handle 4 [(a, 2)] (hist ops)
abbrev grp : Grp := ⟨5, 4, [(a, 6)]⟩
theorem made_ok : made.2 = .ok grp := by decide +kernel

theorem made_eq : made = (made.1, .ok grp) := by rw [← made_ok]

theorem alive : ((hist ops).node 4).alive = true ∧ ((hist ops).node 2).alive = true := by decide +kernel

theorem greach : GReach sig grp ⟨made.1, none⟩ :=
  (C75_constructor (gcls := .group) (u := []) rfl reach propsOk alive.1 (by simp [alive.2]) (by simp) made_eq).1

/-- The group is read, then `x` and the argument change; the group follows. -/
abbrev fine : List (GOp Demo.Arr) := [.group 9, .set 0 (.term x [3, 4]), .group 9, .set 5 (.link a 1), .groupDr 9 0]

theorem fine_reach : GReach sig grp (runG sig grp fine ⟨made.1, none⟩) := by
  have h0 : ∀ {i : Id} {kw : KW Demo.Arr} {st}, kw.Direct → (∀ k, kw ≠ .link k 5) → i ≠ 6 → Anc st.heap.graph i 5 →
      LegalG sig grp st (.set i kw) := fun a1 a2 a3 a4 => ⟨a1, a2, by simpa using Ne.symm a3, fun _ => a4⟩
  refine .step (.groupDr 9 0) (.step (.set 5 (.link a 1)) (.step (.group 9) (.step (.set 0 (.term x [3, 4])) (.step (.group 9) greach trivial) ?_) trivial) ?_) ?_
  · refine h0 trivial (by simp) (by decide) (.step (c := 2) a ?_ (.step (c := 0) a ?_ .refl)) <;> decide +kernel
  · exact h0 trivial (by simp) (by decide) .refl
  · show (0 : Id) ≠ 5; decide

example : (readG sig grp 9 ⟨made.1, none⟩).2 = .ok [16, 28] ∧
    (readG sig grp 9 (runG sig grp (fine.take 2) ⟨made.1, none⟩)).2 = .ok [18, 30] ∧
    (readG sig grp 9 (runG sig grp fine ⟨made.1, none⟩)).2 = .ok [15, 26] := by decide +kernel

/-- What `C75_value_partial` says of that program. -/
example : Means sig (regroup sig grp (runG sig grp fine ⟨made.1, none⟩).heap.graph) (.r 4) (.ok [15, 26]) :=
  (C75_value_partial propsOk fine_reach 9).1 _ (by decide +kernel)

/-- What `C75_dr_partial` says of the program before the changes, for the argument. -/
example : ∃ f₀, ∀ f ≥ f₀, (drWrtG sig grp f 2 ⟨made.1, none⟩).2 = .ok (some (eye 2, true)) := by
  refine C75_dr_partial (d := some (eye 2, true)) propsOk plainForm greach (by decide) rfl ⟨by simp, 9, by decide +kernel⟩ ?_
  intro k p hk hp
  have : (regroup sig grp made.1.graph 5).dterms k = if k = a then some 2 else none := by
    have e : (regroup sig grp made.1.graph 5) = made.1.graph 5 := regroup_of_find (by simp)
    rw [e]
    by_cases hk : k = a
    · subst hk; decide +kernel
    · rw [if_neg hk]
      cases hc : (made.1.graph 5).dterms k with
      | none => rfl
      | some c =>
        have h1 := (greach_inv propsOk greach).inv.str.dn 5 k c hc
        have h2 : (made.1.node 5).dnames = [a] := by decide +kernel
        rw [show ((GSt.mk made.1 none).heap.node 5).dnames = [a] from h2] at h1
        exact absurd (List.mem_singleton.1 h1) hk
  rw [show (regroup sig grp (GSt.mk made.1 none).heap.graph grp.G).dterms k = (regroup sig grp made.1.graph 5).dterms k from rfl, this] at hk
  split at hk
  · cases hk; exact absurd rfl hp
  · cases hk

/-- An assignment to something inside of the result that is not below an argument goes unnoticed. -/
abbrev later : List (GOp Demo.Arr) := [.group 9, .set 3 (.term x [30, 40])]
end GroupDemo

open GroupDemo in
/-- C75, values, does not hold for objects inside of the result that are not below an argument: the group keeps its old value. -/
theorem C75_value_refuted : ¬ C75_value_full := by
  intro h
  have := (h _ _ _ _ sig propsOk .group .handle [] rfl (hist ops) made.1 4 [(Demo.a, 2)] grp reach alive.1 (by simp [alive.2]) (by simp) made_eq later
    (by
      intro op hop
      simp only [later, List.mem_cons, List.not_mem_nil, or_false] at hop
      rcases hop with rfl | rfl
      · trivial
      · exact ⟨trivial, by simp, by simp⟩) 9).2.2
  have e1 : (readG sig grp 9 (runG sig grp later ⟨made.1, none⟩)).2 = .ok [16, 28] := by decide +kernel
  have e2 : evalReq sig (regroup sig grp (runG sig grp later ⟨made.1, none⟩).heap.graph) 9 (.r 4) = .ok [41, 62] := by decide +kernel
  rw [e2, e1] at this
  have := this (by simp)
  simp at this

open GroupDemo in
/-- C75, derivatives, does not hold for `w` below an argument: the derivative is twice what it should be. -/
theorem C75_dr_refuted : ¬ C75_dr_full := by
  intro h
  have := (h _ _ _ _ sig propsOk plainForm (fun _ => rfl) grp _ greach 0 (by decide) rfl 9).2.2
  have e1 : (drWrtG sig grp 9 0 ⟨made.1, none⟩).2 = .ok (some ([[2, 0], [0, 2]], true)) := by decide +kernel
  have e2 : evalDr sig (regroup sig grp made.1.graph) 9 4 0 = .ok (some ([[1, 0], [0, 1]], true)) := by decide +kernel
  rw [e1] at this
  have := this (by show evalDr sig (regroup sig grp made.1.graph) 9 4 0 ≠ _; rw [e2]; simp)
  rw [show evalDr sig (regroup sig grp (GSt.mk made.1 none).heap.graph) 9 grp.res 0 = _ from e2] at this
  simp at this

namespace GroupDemo
open ADDemo LambdaDemo

/-- What the heap knows of a `ChGroup` of the library. -/
noncomputable def chGroup : ClassDef where
  r := .ret (vec2 0 0)
  dr := fun _ _ => .ret Option.none
  dr_none := rfl

/-- `x = Ch([1,2]); p = exp(x); result = exp(p); G = ChGroup(result, {'a': p})`; the objects are `x`, `p`, the handle, the result, `G`. -/
noncomputable def expExp : List (ObjSpec ClassDef Par) := [leafO (vec2 1 2), unO chExp 0, handleO 1, unO chExp 2, ⟨chGroup, [nmA], [.link nmA 1]⟩]
abbrev expGrp : Grp := ⟨4, 3, [(nmA, 2)]⟩

theorem expExp_fits : FitsFrom 0 expExp := by
  refine ⟨leafO_fits _ _, unO_fits (by decide), handleO_fits (by decide), unO_fits (by decide), ⟨?_, fun hp => by cases hp⟩, trivial⟩
  intro kw hm
  simp only [List.mem_singleton] at hm
  subst hm; exact ⟨by simp, by show (1 : ℕ) < 0 + 1 + 1 + 1 + 1; decide⟩

theorem expExp_synced : Synced lib expGrp (buildGraph lib expExp) := by
  intro e he
  simp only [List.mem_singleton] at he
  subst he; rfl

theorem expExp_links {j : Id} {k : Name} {c : Id} (hk : (buildGraph lib expExp j).dterms k = some c) :
    (j = 1 ∧ k = nmA ∧ c = 0) ∨ (j = 2 ∧ k = nmX ∧ c = 1) ∨ (j = 3 ∧ k = nmA ∧ c = 2) ∨ (j = 4 ∧ k = nmA ∧ c = 1) := by
  rcases j with _ | _ | _ | _ | _ | j
  · simp [buildGraph, expExp, ObjSpec.node, leafO, GNode.assign] at hk
  · simp [buildGraph, expExp, ObjSpec.node, unO, GNode.assign] at hk
    exact .inl ⟨rfl, hk.1, hk.2.symm⟩
  · simp [buildGraph, expExp, ObjSpec.node, handleO, GNode.assign] at hk
    exact .inr (.inl ⟨rfl, hk.1, hk.2.symm⟩)
  · simp [buildGraph, expExp, ObjSpec.node, unO, GNode.assign] at hk
    exact .inr (.inr (.inl ⟨rfl, hk.1, hk.2.symm⟩))
  · simp [buildGraph, expExp, ObjSpec.node, GNode.assign] at hk
    exact .inr (.inr (.inr ⟨rfl, hk.1, hk.2.symm⟩))
  · simp [buildGraph, expExp] at hk

theorem expExp_reach : ∃ h, GReach lib expGrp ⟨h, none⟩ ∧ regroup lib expGrp h.graph = buildGraph lib expExp := by
  have hok : ∀ (i : Nat) (o : ObjSpec ClassDef Par), expExp[i]? = some o → ∀ kw ∈ o.kws, KW.Earlier i o.dnames kw :=
    fun i o ho => by have := (expExp_fits.get ho).1; rwa [Nat.zero_add] at this
  have hg := build_graph (s := lib) expExp hok
  have ha := (build_alive (s := lib) expExp hok).2
  have hr : Reach lib ⟨False, True⟩ (run lib (buildOps expExp) (Heap.empty lib)) := build_reach _ _ (fun o ho hp => by
    simp only [expExp, List.mem_cons, List.not_mem_nil, or_false] at ho
    rcases ho with rfl | rfl | rfl | rfl | rfl <;> cases hp)
  generalize run lib (buildOps expExp) (Heap.empty lib) = h at hg ha hr
  have al : ∀ j : ℕ, j < 5 → (h.node j).alive = true := fun j hj => by rw [ha]; exact decide_eq_true hj
  refine ⟨h, .made hr ⟨al 4 (by decide), al 3 (by decide), by decide, ?_, ?_, ?_, ?_, by simp⟩ (by rw [hg]; exact expExp_synced), ?_⟩
  · intro j k hk
    rw [hg] at hk
    rcases expExp_links hk with ⟨_, _, e⟩ | ⟨_, _, e⟩ | ⟨_, _, e⟩ | ⟨_, _, e⟩ <;> exact absurd e (by decide)
  · rw [hg]; exact ⟨_, rfl⟩
  · intro e he
    simp only [List.mem_singleton] at he
    subst he
    rw [hg]; exact ⟨1, rfl⟩
  · intro e he
    simp only [List.mem_singleton] at he
    subst he
    rw [hg]; exact ⟨al 2 (by decide), by decide, by simp [buildGraph, expExp, ObjSpec.node, handleO, GNode.assign, lib]⟩
  · rw [hg]; exact regroup_synced expExp_synced

theorem expExp_handle : HandsOn (buildGraph lib expExp) 2 1 := by
  refine ⟨⟨nmX, rfl, rfl, ?_⟩, rfl, rfl⟩
  intro k' q hk hq
  rcases expExp_links hq with ⟨e, _⟩ | ⟨_, e, _⟩ | ⟨e, _⟩ | ⟨e, _⟩
  · exact absurd e (by decide)
  · exact absurd e hk
  · exact absurd e (by decide)
  · exact absurd e (by decide)

/-- The values. -/
theorem expExp_values : Means lib (buildGraph lib expExp) (.r 0) (.ok (vec2 1 2)) ∧ Exactly (buildGraph lib expExp) 0 ∧
    Means lib (buildGraph lib expExp) (.r 1) (.ok (mapVal Real.exp (vec2 1 2))) ∧ Exactly (buildGraph lib expExp) 1 ∧
    Means lib (buildGraph lib expExp) (.r 2) (.ok (mapVal Real.exp (vec2 1 2))) ∧ Exactly (buildGraph lib expExp) 3 := by
  have h0 := leaf_means (g := buildGraph lib expExp) (i := 0) (v := vec2 1 2) rfl (by simp [vec2])
  have h1 := un_means (g := buildGraph lib expExp) (i := 1) (a := 0) (c := chExp) rfl h0.1
    (exact_unary _ (Or.inl ⟨2, [], rfl, by decide⟩) (fun _ _ => Real.hasDerivAt_exp _))
  have h2 := means_pass expExp_handle h1.1
  have h3 := un_means (g := buildGraph lib expExp) (i := 3) (a := 2) (c := chExp) rfl h2
    (exact_unary _ (Or.inl ⟨2, [], rfl, by decide⟩) (fun _ _ => Real.hasDerivAt_exp _))
  exact ⟨h0.1, h0.2, h1.1, h1.2, h2, h3.2⟩

theorem expExp_chain {y w : ℕ} (hy : y ≤ 3) (hw : w ≤ 1) : PassChain (buildGraph lib expExp) y w := by
  have hf := expExp_fits
  obtain ⟨m0, h0, m1, h1, m2, h3⟩ := expExp_values
  have once : ∀ {i : Id}, ∀ k k' p, (buildGraph lib expExp i).dterms k = some p → (buildGraph lib expExp i).dterms k' = some p → k = k' := by
    intro i k k' p hk hk'
    rcases expExp_links hk with ⟨e, a, _⟩ | ⟨e, a, _⟩ | ⟨e, a, _⟩ | ⟨e, a, _⟩ <;>
      rcases expExp_links hk' with ⟨e', a', _⟩ | ⟨e', a', _⟩ | ⟨e', a', _⟩ | ⟨e', a', _⟩ <;> first
        | exact a.trans a'.symm
        | exact absurd (e.symm.trans e') (by decide)
  have slice : ∀ {i : Id} k p, (buildGraph lib expExp i).dterms k = some p → (buildGraph lib expExp p).cls.permute = true →
      ∀ f, evalCompDr lib (buildGraph lib expExp) f i p ≠ .ok none := by
    intro i k p hk hp
    rcases expExp_links hk with ⟨_, _, rfl⟩ | ⟨_, _, rfl⟩ | ⟨_, _, rfl⟩ | ⟨_, _, rfl⟩ <;> cases hp
  refine ⟨fun i _ => hf.acyclic i, ?_, ?_, fun i k c hk => (hf.link hk).1, ?_⟩
  · obtain rfl | rfl : w = 0 ∨ w = 1 := by omega
    · rfl
    · rfl
  · intro i _
    rcases i with _ | _ | _ | _ | _ | i
    · exact List.nodup_nil
    · exact List.nodup_singleton nmA
    · exact List.nodup_singleton nmX
    · exact List.nodup_singleton nmA
    · exact List.nodup_singleton nmA
    · exact List.nodup_nil
  · intro i hi hiw
    have hle : i ≤ y := hf.le hi
    rcases i with _ | _ | _ | _ | i
    · exact .inr ⟨h0.correct w, fun k k' p hk hk' _ _ => once k k' p hk hk', fun k p => slice k p⟩
    · exact .inr ⟨h1.correct w, fun k k' p hk hk' _ _ => once k k' p hk hk', fun k p => slice k p⟩
    · exact .inl ⟨1, _, expExp_handle, m2⟩
    · exact .inr ⟨h3.correct w, fun k k' p hk hk' _ _ => once k k' p hk hk', fun k p => slice k p⟩
    · exact absurd hle (by show ¬ (i + 4 ≤ y); omega)

theorem expExp_not_straight (w : Id) {y : Id} (hy : (buildGraph lib expExp y).cls = chExp) : ¬ Straight (buildGraph lib expExp) w y := by
  have h3 : ∀ p, ¬ HandsOn (buildGraph lib expExp) y p := by
    rintro p ⟨⟨k, hc, _, _⟩, _, _⟩
    exact exp_not_pass k (hy.symm.trans hc)
  intro h
  cases h with
  | here h => exact h3 _ h
  | next h _ => exact h3 _ h

theorem expExp_acc : ∀ i : ℕ, Acc (fun a b => Uses (buildGraph lib expExp) b a) i := by
  intro i
  induction i using Nat.strong_induction_on with
  | _ i ih => exact ⟨_, fun j hj => ih j (expExp_fits.lt hj)⟩

theorem expExp_obj (w : Id) : ∀ i : ℕ, i ≤ 3 → (∃ p, HandsOn (buildGraph lib expExp) i p) ∨ ExactlyFor (buildGraph lib expExp) w i := by
  obtain ⟨m0, h0, m1, h1, m2, h3⟩ := expExp_values
  intro i hi
  rcases i with _ | _ | _ | _ | i
  · exact .inr (h0.for w)
  · exact .inr (h1.for w)
  · exact .inl ⟨1, expExp_handle⟩
  · exact .inr (h3.for w)
  · omega

theorem expExp_noslice (j : Id) : (buildGraph lib expExp j).cls.permute = true → ∃ c, (buildGraph lib expExp j).dterms nmA = some c := by
  intro hp
  exfalso
  rcases j with _ | _ | _ | _ | _ | j <;> cases hp

/-- The hypotheses of `C75_derivative_returns_partial` are met wrt the argument `p`: the derivative of the group wrt `p` is that of `exp(p)`. -/
example : ∃ h, GReach lib expGrp ⟨h, none⟩ ∧ ∃ vy M, HasJacobian (buildGraph lib expExp) 3 1 vy (mapVal Real.exp (vec2 1 2)) M ∧
    ∃ f₀, ∀ f ≥ f₀, ∃ o, (drWrtG lib expGrp f 1 ⟨h, none⟩).2 = .ok o ∧ num.RepO o vy.size 2 M := by
  obtain ⟨h, hr, hg⟩ := expExp_reach
  refine ⟨h, hr, ?_⟩
  rw [← hg]
  have harg : ∀ k p, (buildGraph lib expExp 4).dterms k = some p → p = 1 := by
    intro k p hk
    rcases expExp_links hk with ⟨e, _⟩ | ⟨e, _⟩ | ⟨e, _⟩ | ⟨_, _, e⟩
    · exact absurd e (by decide)
    · exact absurd e (by decide)
    · exact absurd e (by decide)
    · exact e
  refine C75_derivative_returns_partial (gr := expGrp) (st := ⟨h, none⟩) (w := 1) hr (by decide) ?_ ?_ (by decide) ?_
    (by simp [mapVal, vec2, Arr.size, Arr.of]) ?_ ?_ ?_ ?_ ?_ <;> dsimp only <;> rw [hg]
  · exact expExp_values.2.2.1
  · exact expExp_chain (y := 3) (w := 1) (by decide) (by decide)
  · exact expExp_not_straight 1 rfl
  · intro k p hk hp; exact absurd (harg k p hk) hp
  · intro k p hk
    rw [harg k p hk]
    exact .head ⟨nmA, List.mem_singleton.2 rfl, rfl⟩ (.single ⟨nmX, List.mem_singleton.2 rfl, rfl⟩)
  · exact expExp_acc 3
  · intro i hi _; exact expExp_obj 1 i (expExp_fits.le hi)
  · intro j _; exact expExp_noslice j

/-- The hypotheses of `C75_counts_arguments_twice` are met wrt `x`. -/
example : ∃ h, GReach lib expGrp ⟨h, none⟩ ∧ ∃ vy J K P, HasJacobian (buildGraph lib expExp) 3 0 vy (vec2 1 2) J ∧
    HasJacobian (buildGraph lib expExp) 3 1 vy (mapVal Real.exp (vec2 1 2)) K ∧
    HasJacobian (buildGraph lib expExp) 1 0 (mapVal Real.exp (vec2 1 2)) (vec2 1 2) P ∧
    ∀ f o, (drWrtG lib expGrp f 0 ⟨h, none⟩).2 = .ok o → num.RepO o vy.size 2 (J + Ent.mul 2 K P) := by
  obtain ⟨h, hr, hg⟩ := expExp_reach
  refine ⟨h, hr, ?_⟩
  have jac : ∀ {y w : ℕ} {vw : Arr}, y ≤ 3 → w ≤ 1 → y ≠ w → vw.size = 2 → Means lib (buildGraph lib expExp) (.r w) (.ok vw) →
      ∃ vy M, HasJacobian (buildGraph lib expExp) y w vy vw M := by
    intro y w vw hy hw hyw hsz hv
    obtain ⟨o, ho⟩ := dr_returns_pass (expExp_acc y) (expExp_chain hy hw) hv (by omega)
      (fun i hi _ => expExp_obj w i (le_trans (expExp_fits.le hi) hy)) (fun j _ => expExp_noslice j) hyw
    obtain ⟨vy, M, hJ, _⟩ := jacobian_pass (expExp_chain hy hw) hv hyw ho
    exact ⟨vy, M, hJ⟩
  obtain ⟨vy, J, hJ⟩ := jac (y := 3) (w := 0) (by decide) (by decide) (by decide) rfl expExp_values.1
  obtain ⟨vy', K, hK⟩ := jac (y := 3) (w := 1) (by decide) (by decide) (by decide) (by simp [mapVal, vec2, Arr.size, Arr.of]) expExp_values.2.2.1
  obtain ⟨v1, P, hP⟩ := jac (y := 1) (w := 0) (by decide) (by decide) (by decide) rfl expExp_values.1
  have e1 : vy' = vy := by have := hK.valY.unique hJ.valY; cases this; rfl
  have e2 : v1 = mapVal Real.exp (vec2 1 2) := by have := hP.valY.unique expExp_values.2.2.1; cases this; rfl
  subst e1 e2
  refine ⟨vy', J, K, P, hJ, hK, hP, ?_⟩
  intro f o ho
  have harg : ∀ k p, (buildGraph lib expExp 4).dterms k = some p → p = 1 := by
    intro k p hk
    rcases expExp_links hk with ⟨e, _⟩ | ⟨e, _⟩ | ⟨e, _⟩ | ⟨_, _, e⟩
    · exact absurd e (by decide)
    · exact absurd e (by decide)
    · exact absurd e (by decide)
    · exact e
  have := C75_counts_arguments_twice (gr := expGrp) (st := ⟨h, none⟩) (w := 0) (vy := vy') (vw := vec2 1 2) (J := J)
    (val := fun _ => mapVal Real.exp (vec2 1 2)) (K := fun _ => K) (P := fun _ => P) hr (by decide) (by dsimp only; rw [hg]; exact hJ)
    (by dsimp only; rw [hg]; intro k p hk _; rw [harg k p hk]; exact hP)
    (by dsimp only; rw [hg]; intro k p hk _; rw [harg k p hk]; exact hK)
    (by dsimp only; rw [hg]; exact expExp_chain (y := 3) (w := 0) (by decide) (by decide)) (by decide)
    (by dsimp only; rw [hg]; exact .inl (expExp_not_straight 0 rfl))
    (by
      dsimp only; rw [hg]; intro k p hk _
      rw [harg k p hk]
      exact ⟨expExp_chain (y := 1) (w := 0) (by decide) (by decide), .inl (expExp_not_straight 0 rfl),
        expExp_chain (y := 3) (w := 1) (by decide) (by decide), by decide, .inl (expExp_not_straight 1 rfl)⟩) ho
  dsimp only at this
  rw [hg] at this
  refine num.repO_congr ?_ this
  have hsz : (mapVal Real.exp (vec2 1 2)).size = 2 := by simp [mapVal, vec2, Arr.size, Arr.of]
  have hl : ((buildGraph lib expExp 4).dnames.filter fun k => ((buildGraph lib expExp 4).dterms k).isSome) = [nmA] := rfl
  have hk : (buildGraph lib expExp 4).kid nmA = 1 := rfl
  rw [hl, List.map_singleton, List.sum_singleton, hk, if_neg (by decide), hsz]
  exact Ent.EqOn.refl _
end GroupDemo

end Chumpy
