import Verif.AD.Operators
/-!
# C70: Python's operators
-/
namespace Chumpy
open scoped BigOperators Topology

/-! ## Specification -/

/-- What the operator does to two numbers; comparisons give 1 for true and 0 for false. -/
noncomputable def PyOp.fn : PyOp → ℝ → ℝ → ℝ
  | .add => fun x y => x + y
  | .sub => fun x y => x - y
  | .mul => fun x y => x * y
  | .div => fun x y => x / y
  | .pow => fun x y => x ^ y
  | .gt => truth fun x y => x > y
  | .ge => truth fun x y => x ≥ y
  | .lt => truth fun x y => x < y
  | .le => truth fun x y => x ≤ y
  | .ne => truth fun x y => x ≠ y

/-- Where the result is a real number: no division by zero; a positive base or exponents 0, 1, 2, … -/
def PyOp.Defined (u v : Arr) : PyOp → Prop
  | .div => ∀ k < v.size, v.vec k ≠ 0
  | .pow => (∀ k < u.size, 0 < u.vec k) ∨ ∀ k < v.size, ∃ n : ℕ, v.vec k = n
  | _ => True

/-- Where it is differentiable: also, no two entries that are compared are equal. -/
def PyOp.Smooth (u v : Arr) (o : List ℕ) : PyOp → Prop
  | .add | .sub | .mul => True
  | .div => ∀ k < v.size, v.vec k ≠ 0
  | .pow => ∀ k < u.size, 0 < u.vec k
  | .gt | .ge | .lt | .le | .ne => ∀ k < o.prod, ∀ i j, Under u.shape o k i → Under v.shape o k j → u.vec i ≠ v.vec j

/-- The outcome of an operator: a new object with the value `out`, everything else as it was. -/
structure Yields (h h' : Heap ClassDef Par Arr Jac) (i : Id) (out : Arr) : Prop where
  reach : Reach lib ⟨False, True⟩ h'
  fresh : (h.node i).alive = false ∧ (h'.node i).alive = true
  kept : AllKept h h'
  value : ∃ f₀, ∀ f ≥ f₀, (read lib f (.r i) h').2 = .ok out

/-- C70 in full, for binary operators. -/
def C70_full : Prop :=
  ∀ (py3 sub : Bool) (op : PyOp) (l r : Operand) (h : Heap ClassDef Par Arr Jac) (u v : Arr) (o : List ℕ), Reach lib ⟨False, True⟩ h →
    ((∃ i, l = .obj i) ∨ ∃ j, r = .obj j) → l.Is h u → r.Is h v → Broadcasts u.shape v.shape o → op.Defined u v →
    ∃ h' i out, binop py3 sub op l r h = (h', .ok i) ∧ BcastResult op.fn u v out ∧ Yields h h' i out ∧ (op.Smooth u v o → Right h' i out)

/-! ## Proofs -/

theorem Broadcasts.swap {s t o : List ℕ} (h : Broadcasts s t o) : Broadcasts t s o := by
  refine ⟨h.1.trans (max_comm _ _), fun j hj => ?_⟩
  rcases h.2 j hj with ⟨a, b⟩ | ⟨a, b⟩ | ⟨a, b⟩
  · exact Or.inl ⟨a.symm, b.trans a⟩
  · exact Or.inr (Or.inr ⟨a, b⟩)
  · exact Or.inr (Or.inl ⟨a, b⟩)

theorem BcastResult.swap {f g : ℝ → ℝ → ℝ} {u v out : Arr} (hf : ∀ x y, f x y = g y x) (h : BcastResult f u v out) : BcastResult g v u out := by
  refine ⟨h.1.swap, fun k hk => ?_⟩
  obtain ⟨p, q, h1, h2, h3⟩ := h.2 k hk
  exact ⟨q, p, h2, h1, h3.trans (hf _ _)⟩

/-- The body of each class applies the function entry by entry. -/
theorem PyOp.method_r (op : PyOp) : op.method.r = bcastBody op.fn := by
  cases op
  case gt => exact compare_r _
  case ge => exact compare_r _
  case lt => exact compare_r _
  case le => exact compare_r _
  case ne => exact compare_r _
  all_goals rfl

section
variable {h h' : Heap ClassDef Par Arr Jac} {u v : Arr} {o : List ℕ} {l r : Operand} {i a b : Id}

theorem MadeBin.yields {op : PyOp} (m : MadeBin h h' op.method l r u v i a b) (ho : Broadcasts u.shape v.shape o) :
    ∃ out, out.shape = o ∧ BcastResult op.fn u v out ∧ Yields h h' i out := by
  have ho' := (bshape_spec _ _ _).2 ho
  have hm : Means lib h'.graph (.r i) (.ok (bcastVal op.fn u v o)) :=
    means_of_isA m.isA (kids2 m.valL m.valR) (by erw [env_two]; exact returns_bcast op.method_r _ ho')
  exact ⟨_, rfl, bcastVal_result ho', m.reach, m.fresh, m.kept, read_of_means m.reach hm⟩

theorem MadeBin.right_out {op : PyOp} (m : MadeBin h h' op.method l r u v i a b) {out : Arr} (ho : Broadcasts u.shape v.shape o)
    (hout : BcastResult op.fn u v out) (hs : op.Smooth u v o) : Right h' i out := by
  have hsh : out.shape = o := by
    have a := (bshape_spec _ _ _).2 hout.1
    have b := (bshape_spec _ _ _).2 ho
    rw [a] at b; injection b
  have key : ∀ {f : ℝ → ℝ → ℝ}, op.fn = f → (∃ out, BcastResult f u v out ∧ Right h' i out) → Right h' i out := by
    rintro f rfl ⟨out', h1, h2⟩
    rw [hout.unique h1]; exact h2
  have cmp : ∀ {p : ℝ → ℝ → Prop}, op.fn = truth p → Comparison op.method p →
      (∀ k < o.prod, ∀ i j, Under u.shape o k i → Under v.shape o k j → u.vec i ≠ v.vec j) → Right h' i out := by
    intro p hf hc hne
    obtain ⟨out', h1, _, _, h4⟩ := C58_comparisons hc m.reach m.isA m.valL m.valR ho
    rw [hf] at hout
    have e := hout.unique h1
    subst e
    refine h4 fun k hk i j hi hj => ?_
    rw [hsh] at hi hj
    exact hne k (by rw [← hsh]; exact hk) i j hi hj
  cases op with
  | add => exact key rfl (C31_add m.reach m.isA m.valL m.valR ho)
  | sub => exact key rfl (C31_subtract m.reach m.isA m.valL m.valR ho)
  | mul => exact key rfl (C31_multiply m.reach m.isA m.valL m.valR ho)
  | div => exact key rfl (C31_divide m.reach m.isA m.valL m.valR ho hs)
  | pow => exact key rfl (C31_power m.reach m.isA m.valL m.valR ho hs)
  | gt => exact cmp rfl Comparison.greater hs
  | ge => exact cmp rfl Comparison.greaterEqual hs
  | lt => exact cmp rfl Comparison.less hs
  | le => exact cmp rfl Comparison.lessEqual hs
  | ne => exact cmp rfl Comparison.notEqual hs

/-- The comparison that says the same with the sides exchanged. -/
def PyOp.mirror : PyOp → PyOp
  | .gt => .lt
  | .ge => .le
  | .lt => .gt
  | .le => .ge
  | op => op

theorem made_spec (hr : Reach lib ⟨False, True⟩ h) {op : PyOp} (hl : l.Is h u) (hv : r.Is h v) (hob : (∃ i, l = .obj i) ∨ ∃ j, r = .obj j)
    (ho : Broadcasts u.shape v.shape o) :
    ∃ h' i out, makeBin op.method l r h = (h', .ok i) ∧ BcastResult op.fn u v out ∧ Yields h h' i out ∧ (op.Smooth u v o → Right h' i out) := by
  obtain ⟨h', i, a, b, e, m⟩ := makeBin_made hr op.method hl hv hob
  obtain ⟨out, _, h1, h2⟩ := m.yields ho
  exact ⟨h', i, out, e, h1, h2, m.right_out ho h1⟩

theorem mirrored_spec (hr : Reach lib ⟨False, True⟩ h) {op : PyOp} (hc : op.compares = true) (hl : l.Is h u) (hv : r.Is h v)
    (hob : (∃ i, l = .obj i) ∨ ∃ j, r = .obj j) (ho : Broadcasts u.shape v.shape o) :
    ∃ h' i out, makeBin op.mirror.method r l h = (h', .ok i) ∧ BcastResult op.fn u v out ∧ Yields h h' i out ∧ (op.Smooth u v o → Right h' i out) := by
  obtain ⟨h', i, out, e, h1, h2, h3⟩ := made_spec (op := op.mirror) hr hv hl hob.symm ho.swap
  refine ⟨h', i, out, e, h1.swap ?_, h2, fun hs => h3 ?_⟩
  · cases op <;> first | exact absurd hc Bool.false_ne_true | exact fun x y => rfl | (intro x y; simp only [PyOp.mirror, PyOp.fn, truth]; congr 1; simp [eq_comm])
  · cases op <;> first | exact absurd hc Bool.false_ne_true | exact fun k hk i j hi hj => (hs k hk j i hj hi).symm

/-- C70 for binary operators: with an object on at least one side, in every state, the operator yields a new object whose value is the
operator applied entry by entry, the left operand on the left, under numpy's broadcasting rule; derivatives are right where the operator is
differentiable; every object there was keeps its value and its derivatives.  Missing: in Python 3, a number or array divided by an object, see
`C70_full_refuted`. -/
theorem C70_binary_partial {py3 sub : Bool} {op : PyOp} (hr : Reach lib ⟨False, True⟩ h) (hob : (∃ i, l = .obj i) ∨ ∃ j, r = .obj j)
    (hl : l.Is h u) (hv : r.Is h v) (ho : Broadcasts u.shape v.shape o) (_ : op.Defined u v) (hdiv : py3 = true → op = .div → ∃ i, l = .obj i) :
    ∃ h' i out, binop py3 sub op l r h = (h', .ok i) ∧ BcastResult op.fn u v out ∧ Yields h h' i out ∧ (op.Smooth u v o → Right h' i out) := by
  cases l with
  | obj a =>
    cases r with
    | obj b =>
      by_cases hs : (sub && op.compares) = true
      · have hc : op.compares = true := by rw [Bool.and_eq_true] at hs; exact hs.2
        have e : binop py3 sub op (.obj a) (.obj b) h = makeBin op.mirror.method (.obj b) (.obj a) h := by
          show (if _ then _ else _) = _
          rw [if_pos hs]
          unfold viaRight
          cases op <;> first | rfl | exact absurd hc Bool.false_ne_true
        rw [e]; exact mirrored_spec hr hc hl hv hob ho
      · have e : binop py3 sub op (.obj a) (.obj b) h = makeBin op.method (.obj a) (.obj b) h := by
          show (if _ then _ else _) = _
          rw [if_neg hs]
        rw [e]; exact made_spec hr hl hv hob ho
    | val y => exact made_spec hr hl hv hob ho
  | val x =>
    cases r with
    | obj b =>
      by_cases hc : op.compares = true
      · have e : binop py3 sub op (.val x) (.obj b) h = makeBin op.mirror.method (.obj b) (.val x) h := by
          show viaRight _ _ _ _ _ = _
          unfold viaRight
          cases op <;> first | rfl | exact absurd hc Bool.false_ne_true
        rw [e]; exact mirrored_spec hr hc hl hv hob ho
      · have e : binop py3 sub op (.val x) (.obj b) h = makeBin op.method (.val x) (.obj b) h := by
          show viaRight _ _ _ _ _ = _
          unfold viaRight
          cases op
          case div =>
            cases py3 with
            | true => obtain ⟨_, e⟩ := hdiv rfl rfl; cases e
            | false => rfl
          all_goals first | rfl | exact absurd rfl hc
        rw [e]; exact made_spec hr hl hv hob ho
    | val y => rcases hob with ⟨_, e⟩ | ⟨_, e⟩ <;> cases e

/-- C70 in Python 2: nothing is missing. -/
theorem C70_python2 {sub : Bool} {op : PyOp} (hr : Reach lib ⟨False, True⟩ h) (hob : (∃ i, l = .obj i) ∨ ∃ j, r = .obj j)
    (hl : l.Is h u) (hv : r.Is h v) (ho : Broadcasts u.shape v.shape o) (hd : op.Defined u v) :
    ∃ h' i out, binop false sub op l r h = (h', .ok i) ∧ BcastResult op.fn u v out ∧ Yields h h' i out ∧ (op.Smooth u v o → Right h' i out) :=
  C70_binary_partial hr hob hl hv ho hd fun h => by cases h

/-- `x ** n` for natural exponents (a number or an array) and bases of any sign: right derivatives with respect to every object there was. -/
theorem C70_power_natural {py3 sub : Bool} {x : Id} {e : Arr} (hr : Reach lib ⟨False, True⟩ h) (hl : (Operand.obj x).Is h u) (hv : (Operand.val e).Is h v)
    (ho : Broadcasts u.shape v.shape o) (hn : ∀ k < v.size, ∃ n : ℕ, v.vec k = n) :
    ∃ h' i out, binop py3 sub .pow (.obj x) (.val e) h = (h', .ok i) ∧ BcastResult (fun x y => x ^ y) u v out ∧ Yields h h' i out ∧
      ∀ w, (h.node w).alive = true → RightFor h' i w out := by
  obtain ⟨h', i, a, b, e, m⟩ := makeBin_made hr chPow hl hv (Or.inl ⟨_, rfl⟩)
  obtain ⟨out, _, h1, h2⟩ := MadeBin.yields (op := .pow) m ho
  refine ⟨h', i, out, e, h1, h2, fun w hw => ?_⟩
  obtain ⟨out', h3, h4⟩ := C31_power_natural m.reach m.isA m.valL m.valR ho hn (w := w) (by
    intro hc
    have := m.right.2.reaches hc
    subst this
    rw [m.right.1] at hw; cases hw)
  have e := BcastResult.unique (show BcastResult (fun x y => x ^ y) u v out from h1) h3
  rw [e]; exact h4

/-- C70 for `-x` and `abs(x)`, for operands of the shapes of C32 as far as derivatives are concerned. -/
theorem C70_unary {x : Id} {op : PyUn} (hr : Reach lib ⟨False, True⟩ h) (hx : (h.node x).alive = true) (hv : Means lib h.graph (.r x) (.ok v)) :
    ∃ h' i out, unop op x h = (h', .ok i) ∧ Reach lib ⟨False, True⟩ h' ∧ AllKept h h' ∧ (∃ f₀, ∀ f ≥ f₀, (read lib f (.r i) h').2 = .ok out) ∧
      match op with
      | .pos => h' = h ∧ i = x ∧ out = v
      | .neg => MapResult (fun t => -t) v out ∧ (DiagShape v.shape → Right h' i out)
      | .abs => MapResult (fun t => |t|) v out ∧ (DiagShape v.shape → (∀ k < v.size, v.vec k ≠ 0) → Right h' i out) := by
  have hs := reach_str hr
  have key : ∀ {c : ClassDef} {f d : ℝ → ℝ}, c = chUnary f d → ∃ h', newObj lib c [nmA] false false [.link nmA x] h = (h', .ok h.next) ∧
      Reach lib ⟨False, True⟩ h' ∧ AllKept h h' ∧ IsA h'.graph h.next c [nmA] (fun _ => x) ∧ Means lib h'.graph (.r x) (.ok v) ∧
      (∃ f₀, ∀ f' ≥ f₀, (read lib f' (.r h.next) h').2 = .ok (mapVal f v)) := by
    rintro c f d rfl
    obtain ⟨h', e, hr', hg, _, ha, hv1, hd1⟩ := newObj_all hr (unO (chUnary f d) x) (by
      intro kw hm
      simp only [unO, List.mem_cons, List.not_mem_nil, or_false] at hm
      subst hm; exact ⟨by simp [unO], hx⟩)
    have hy : IsA h'.graph h.next (chUnary f d) [nmA] (fun _ => x) := isA_un (by rw [hg, if_pos rfl])
    have hvx := hv1 _ _ hx hv
    refine ⟨h', e, hr', ⟨?_, ?_, hv1, hd1⟩, hy, hvx, read_of_means hr' (means_of_isA hy (fun _ => hvx) (by erw [env_one]; exact returns_unary f d _ v))⟩
    · intro j hj; rw [ha]; split
      · rfl
      · exact hj
    · intro j hj
      rw [hg, if_neg (fun e => absurd (hs.alive_lt hj) (by subst e; exact Nat.lt_irrefl _))]
  cases op with
  | pos => exact ⟨h, x, v, rfl, hr, AllKept.refl h, read_of_means hr hv, rfl, rfl, rfl⟩
  | neg =>
    obtain ⟨d, hc, hd⟩ := Elementwise.negative.deriv
    obtain ⟨h', e, hr', hk, hy, hvx, hval⟩ := key hc
    refine ⟨h', _, _, e, hr', hk, hval, mapVal_result _ v, fun hds => ?_⟩
    rw [hc] at hy
    exact right_unary hr' hy hvx hds fun k _ => hd _ trivial
  | abs =>
    obtain ⟨d, hc, hd⟩ := Elementwise.absolute.deriv
    obtain ⟨h', e, hr', hk, hy, hvx, hval⟩ := key hc
    refine ⟨h', _, _, e, hr', hk, hval, mapVal_result _ v, fun hds hz => ?_⟩
    rw [hc] at hy
    exact right_unary hr' hy hvx hds fun k hk => hd _ (hz k hk)
end

namespace OpDemo
/-- A vector of three entries. -/
noncomputable def three : Arr := ⟨[3], fun k => k.1 + 1⟩

theorem ready : ∃ h, Reach lib ⟨False, True⟩ h ∧ (h.node 0).alive = true ∧ Means lib h.graph (.r 0) (.ok three) := by
  have hok : ∀ (i : Nat) (o : ObjSpec ClassDef Par), [leafO three][i]? = some o → ∀ kw ∈ o.kws, KW.Earlier i o.dnames kw := by
    intro i o hi kw hm
    have hi' : i < [leafO three].length := (List.getElem?_eq_some_iff.1 hi).1
    simp only [List.length_cons, List.length_nil] at hi'
    obtain rfl : i = 0 := by omega
    simp only [List.getElem?_cons_zero, Option.some.injEq] at hi
    subst hi
    simp only [leafO, List.mem_cons, List.not_mem_nil, or_false] at hm
    subst hm; trivial
  refine ⟨_, build_reach (s := lib) ⟨False, True⟩ [leafO three] (by
    intro o ho
    simp only [List.mem_cons, List.not_mem_nil, or_false] at ho
    subst ho; intro _ k hk; cases hk), ?_, ?_⟩
  · rw [(build_alive _ hok).2]; rfl
  · rw [build_graph _ hok]; exact (leaf_means rfl (by simp [three])).1

/-- The hypotheses of C70 are met, e.g. by `2 - x`, `2 ** x` and `2 < x` for a vector `x`. -/
example (op : PyOp) (hop : op = .sub ∨ op = .pow ∨ op = .lt) : ∃ h u v, Reach lib ⟨False, True⟩ h ∧ (Operand.val ⟨[], fun _ => 2⟩).Is h u ∧
    (Operand.obj 0).Is h v ∧ Broadcasts u.shape v.shape [3] ∧ op.Defined u v := by
  obtain ⟨h, hr, ha, hm⟩ := ready
  refine ⟨h, _, _, hr, rfl, ⟨ha, hm⟩, (bshape_spec _ _ _).1 (by rfl), ?_⟩
  rcases hop with rfl | rfl | rfl
  · trivial
  · left
    intro k hk
    have : k = 0 := by
      have : k < [1].prod := hk
      simp at this; exact this
    subst this
    simp [Arr.atleast1, Arr.vec, Arr.of]
  · trivial
end OpDemo

open OpDemo in
/-- C70 in full is false: in Python 3, `2 / x` raises a `TypeError`. -/
theorem C70_full_refuted : ¬ C70_full := by
  intro hfull
  obtain ⟨h, hr, ha, hm⟩ := ready
  obtain ⟨h', i, out, e, _⟩ := hfull true false .div (.val ⟨[], fun _ => 2⟩) (.obj 0) h _ _ [3] hr (Or.inr ⟨0, rfl⟩) rfl ⟨ha, hm⟩
    ((bshape_spec _ _ _).1 (by rfl)) (by
      intro k hk
      have e : three.vec k = k + 1 := dif_pos hk
      rw [e]; positivity)
  have : binop true false .div (.val ⟨[], fun _ => 2⟩) (.obj 0) h = (h, .error (.user 1)) := rfl
  rw [this] at e
  cases e
end Chumpy
