import Verif.AD.Methods
import Verif.Properties.Operators
import Verif.Properties.Reorder
import Verif.Properties.Reduce
import Verif.Properties.Extrema
import Verif.Properties.Products
/-!
# Methods of `Ch` objects (C81)
-/
namespace Chumpy
open scoped BigOperators Topology

/-! ## Specification: the methods of numpy arrays -/

/-- The axes numpy reads off the arguments of `transpose`: one sequence, or several numbers. -/
def argAxes : List Par → Option (List ℤ)
  | [.ints l] => some l
  | [] => none
  | ps => ps.mapM fun | .int z => some z | _ => none

/-- What numpy's method of that name returns for an array `v`; here without `dot`. -/
def Method.Gives (v out : Arr) : Method → Prop
  | .T => AxesMoved (fun t => v.shape.length - 1 - t) v out
  | .transpose [] => AxesMoved (fun t => v.shape.length - 1 - t) v out
  | .transpose args => ∃ axes ax, argAxes args = some axes ∧ axes.mapM (normAxis v.shape.length) = some ax ∧ AxesMoved (fun t => ax.getD t 0) v out
  | .sum none => Number v.total out
  | .sum (some z) => ∃ i, normAxis v.shape.length z = some i ∧ SumAlong i v out
  | .mean none => Number v.average out
  | .mean (some z) => ∃ i, normAxis v.shape.length z = some i ∧ MeanAlong i v out
  | .cumsum none => out.shape = [v.size] ∧ ∀ k < v.size, out.vec k = ∑ j ∈ Finset.range (k + 1), v.vec j
  | .cumsum (some z) => ∃ i, normAxis v.shape.length z = some i ∧ out.shape = v.shape ∧
      ∀ c, InB v.shape c → out.at c = ∑ t ∈ Finset.range (c.getD i 0 + 1), v.at (c.set i t)
  | .min none => ∃ x, BestOf (· ≥ ·) v.size v.vec x ∧ Number x out
  | .min (some z) => ∃ i, normAxis v.shape.length z = some i ∧ BestAlong (· ≥ ·) i v out
  | .max none => ∃ x, BestOf (· ≤ ·) v.size v.vec x ∧ Number x out
  | .max (some z) => ∃ i, normAxis v.shape.length z = some i ∧ BestAlong (· ≤ ·) i v out
  | .floor => MapResult (fun x => (⌊x⌋ : ℝ)) v out
  | .ceil => MapResult (fun x => (⌈x⌉ : ℝ)) v out
  | .dot _ => False

/-- numpy accepts the arguments, for an array `v`. -/
def Method.Fits (v : Arr) : Method → Prop
  | .transpose [] => True
  | .transpose args => ∃ axes ax, argAxes args = some axes ∧ axes.mapM (normAxis v.shape.length) = some ax ∧ ax.Perm (List.range v.shape.length)
  | .sum (some z) | .cumsum (some z) => (normAxis v.shape.length z).isSome = true
  | .mean none | .min none | .max none => 0 < v.size
  | .mean (some z) | .min (some z) | .max (some z) => ∃ i, normAxis v.shape.length z = some i ∧ 0 < v.shape.getD i 0
  | .dot _ => False
  | _ => True

/-- Where the derivative is claimed: extrema attained once, no jumps of `floor` and `ceil`; for the mean of all entries and `cumsum` along an axis
see C33 and C34. -/
def Method.Smooth (v out : Arr) : Method → Prop
  | .mean none => v.shape.headD 0 = v.size
  | .cumsum (some _) => False
  | .min none | .max none => ∀ t < v.size, ∀ t' < v.size, v.vec t = out.vec 0 → v.vec t' = out.vec 0 → t = t'
  | .min (some z) | .max (some z) => ∀ i, normAxis v.shape.length z = some i → UniqueAlong i v out
  | .floor | .ceil => ∀ k < v.size, ¬ ∃ n : ℤ, v.vec k = n
  | _ => True

/-- The object returned has the value numpy's method returns, and the right derivative; nothing else changes. -/
def Method.Works (h : Heap ClassDef Par Arr Jac) (x : Id) (v : Arr) (m : Method) : Prop :=
  ∃ h' i out, callMethod x m h = (h', .ok i) ∧ Reach lib ⟨False, True⟩ h' ∧ AllKept h h' ∧ m.Gives v out ∧
    (∃ f₀, ∀ f ≥ f₀, (read lib f (.r i) h').2 = .ok out) ∧ (m.Smooth v out → Right h' i out)

/-- C81 in full. -/
def C81_full : Prop := ∀ (h : Heap ClassDef Par Arr Jac) (x : Id) (v : Arr) (m : Method), Reach lib ⟨False, True⟩ h → (h.node x).alive = true →
  Means lib h.graph (.r x) (.ok v) → v.shape ≠ [] → m.Fits v → m.Works h x v

section
variable {h : Heap ClassDef Par Arr Jac} {x : Id} {v : Arr}

/-- An object with one operand and at most one parameter. -/
theorem makeSpec_one (hr : Reach lib ⟨False, True⟩ h) (hx : (h.node x).alive = true) (hv : Means lib h.graph (.r x) (.ok v)) (o : ObjSpec ClassDef Par)
    (hd : o.dnames = [nmA]) (hk : o.kws = [.link nmA x] ∨ ∃ p, o.kws = [.link nmA x, .term nmP p]) :
    ∃ h', makeSpec o h = (h', .ok h.next) ∧ Reach lib ⟨False, True⟩ h' ∧ AllKept h h' ∧ IsA h'.graph h.next o.cls [nmA] (fun _ => x) ∧
      Means lib h'.graph (.r x) (.ok v) ∧ (h'.graph h.next).terms nmP = (o.node).terms nmP := by
  have hs := reach_str hr
  obtain ⟨h', e, hr', hg, _, ha, hv1, hd1⟩ := newObj_all hr o (by
    intro kw hm
    rcases hk with hk | ⟨p, hk⟩
    · rw [hk] at hm
      simp only [List.mem_cons, List.not_mem_nil, or_false] at hm
      subst hm; exact ⟨by simp [hd], hx⟩
    · rw [hk] at hm
      simp only [List.mem_cons, List.not_mem_nil, or_false] at hm
      rcases hm with rfl | rfl
      · exact ⟨by simp [hd], hx⟩
      · trivial)
  have hg0 : h'.graph h.next = o.node := by rw [hg, if_pos rfl]
  have hnode : o.node.cls = o.cls ∧ o.node.dnames = [nmA] ∧ o.node.dterms nmA = some x := by
    obtain ⟨c, dn, kws⟩ := o
    dsimp only at hd hk
    subst hd
    rcases hk with rfl | ⟨p, rfl⟩ <;> exact ⟨rfl, rfl, rfl⟩
  refine ⟨h', e, hr', ⟨?_, ?_, hv1, hd1⟩, ⟨by rw [hg0, hnode.1], by rw [hg0, hnode.2.1], by simp, fun j => ?_⟩, hv1 _ _ hx hv, by rw [hg0]⟩
  · intro j hj; rw [ha]; split
    · rfl
    · exact hj
  · intro j hj
    rw [hg, if_neg (fun e => absurd (hs.alive_lt hj) (by subst e; exact Nat.lt_irrefl _))]
  · have : j = (0 : Fin 1) := Subsingleton.elim (α := Fin 1) _ _
    subst this; rw [hg0]; exact hnode.2.2

theorem Right.means {y : Id} {o o' : Arr} (hr : Reach lib ⟨False, True⟩ h) (hR : Right h y o) (hm : Means lib h.graph (.r y) (.ok o')) : o = o' := by
  obtain ⟨f₀, h0⟩ := hR.value
  obtain ⟨f₁, h1⟩ := read_of_means hr hm
  have := (h0 _ (Nat.le_max_left f₀ f₁)).symm.trans (h1 _ (Nat.le_max_right f₀ f₁))
  cases this; rfl

/-- `min()` and `max()` of all entries. -/
theorem extremum_all {f : ℝ → ℝ → ℝ} {le : ℝ → ℝ → Prop} (hf : Extr f) (ho : OrderOf f le) (hr : Reach lib ⟨False, True⟩ h) {y : Id}
    (hy : IsA h.graph y (chAExt f) [nmA] fun _ => x) (hv : Means lib h.graph (.r x) (.ok v)) (hp : (h.graph y).terms nmP = some .none)
    (hN : 0 < v.size) : ∃ out, (∃ b, BestOf le v.size v.vec b ∧ Number b out) ∧ (∃ f₀, ∀ f ≥ f₀, (read lib f (.r y) h).2 = .ok out) ∧
      ((∀ t < v.size, ∀ t' < v.size, v.vec t = out.vec 0 → v.vec t' = out.vec 0 → t = t') → Right h y out) := by
  have hm := means_of_isA hy (v := fun _ => v) (fun _ => hv) (by erw [env_one]; exact returns_aext_flat (f := f) (Or.inr hp) hN)
  obtain ⟨b, hb, ⟨f₀, h0⟩, _, hd⟩ := aext_flat hf ho hr hy hv (Or.inr hp) hN
  obtain ⟨out, hn, h1⟩ := h0 f₀ (Nat.le_refl _)
  have hval : ∃ f₀, ∀ f ≥ f₀, (read lib f (.r y) h).2 = .ok out ∧ Means lib h.graph (.r y) (.ok out) := by
    obtain ⟨f₁, h2⟩ := read_of_means hr hm
    have : Means lib h.graph (.r y) (.ok out) := (C01_value_never_stale_partial lib_propsOk (Reach.weaken (m := ⟨False, True⟩) (m' := ⟨False, False⟩) (fun h => h) (fun _ => trivial) hr) f₀ y).1 out h1
    obtain ⟨f₂, h3⟩ := read_of_means hr this
    exact ⟨f₂, fun f hf => ⟨h3 f hf, this⟩⟩
  obtain ⟨f₂, h2⟩ := hval
  refine ⟨out, ⟨b, hb, hn⟩, ⟨f₂, fun f hf => (h2 f hf).1⟩, fun hu => ?_⟩
  rw [hn.2] at hu
  obtain ⟨out', _, hR⟩ := hd hu
  rw [← hR.means hr (h2 f₂ (Nat.le_refl _)).2]; exact hR

/-- C81: the methods do what numpy's methods of the same names do.  Missing: `x.transpose(i, j, …)` with the axes as separate arguments, see
`C81_separate_axes_raise`. -/
theorem C81_methods_partial {m : Method} (hr : Reach lib ⟨False, True⟩ h) (hx : (h.node x).alive = true) (hv : Means lib h.graph (.r x) (.ok v))
    (hs : v.shape ≠ []) (hm : m.Fits v) (ht : ∀ args, m = .transpose args → args = [] ∨ ∃ axes, args = [.ints axes]) : m.Works h x v := by
  have one := makeSpec_one hr hx hv
  have rev : ∀ {m : Method}, callMethod x m = makeSpec (unO chTranspose x) → (∀ out, AxesMoved (fun t => v.shape.length - 1 - t) v out → m.Gives v out) →
      m.Works h x v := by
    intro m hc hg
    obtain ⟨h', e, hr', hk, hy, hv', hp⟩ := one (unO chTranspose x) rfl (Or.inl rfl)
    obtain ⟨out, h1, h2⟩ := C25_transpose_reversed_partial hr' hy hv' hs (Or.inl (by rw [hp]; rfl))
    exact ⟨h', _, out, by rw [hc]; exact e, hr', hk, hg out h1, h2.value, fun _ => h2⟩
  cases m with
  | T => exact rev rfl fun _ h => h
  | transpose args =>
    rcases ht args rfl with rfl | ⟨axes, rfl⟩
    · exact rev rfl fun _ h => h
    · obtain ⟨axes', ax, h1, h2, h3⟩ := hm
      cases h1
      obtain ⟨h', e, hr', hk, hy, hv', hp⟩ := one (parO chTranspose x (.ints axes)) rfl (Or.inr ⟨_, rfl⟩)
      obtain ⟨out, h4, h5⟩ := C25_transpose_partial hr' hy hv' hs (by rw [hp]; rfl) h2 h3
      exact ⟨h', _, out, e, hr', hk, ⟨axes, ax, rfl, h2, h4⟩, h5.value, fun _ => h5⟩
  | sum axis =>
    obtain ⟨h', e, hr', hk, hy, hv', hp⟩ := one (axisO chSum x axis) rfl (Or.inr ⟨_, rfl⟩)
    cases axis with
    | none =>
      obtain ⟨out, h1, h2⟩ := C33_sum_all hr' hy hv' (Or.inr (by rw [hp]; rfl))
      exact ⟨h', _, out, e, hr', hk, h1, h2.value, fun _ => h2⟩
    | some z =>
      obtain ⟨i, hi⟩ := Option.isSome_iff_exists.1 hm
      obtain ⟨out, h1, h2⟩ := C33_sum_axis hr' hy hv' (by rw [hp]; rfl) hi
      exact ⟨h', _, out, e, hr', hk, ⟨i, hi, h1⟩, h2.value, fun _ => h2⟩
  | mean axis =>
    obtain ⟨h', e, hr', hk, hy, hv', hp⟩ := one (axisO chMean x axis) rfl (Or.inr ⟨_, rfl⟩)
    cases axis with
    | none =>
      obtain ⟨out, h1, h2⟩ := C33_mean_all_value_partial hr' hy hv' (Or.inr (by rw [hp]; rfl)) hm
      refine ⟨h', _, out, e, hr', hk, h1, h2, fun hd => ?_⟩
      obtain ⟨out', _, h4⟩ := C33_mean_all_partial hr' hy hv' (Or.inr (by rw [hp]; rfl)) hd hm
      obtain ⟨f₀, h0⟩ := h2
      obtain ⟨f₁, h5⟩ := h4.value
      have := (h0 _ (Nat.le_max_left f₀ f₁)).symm.trans (h5 _ (Nat.le_max_right f₀ f₁))
      cases this; exact h4
    | some z =>
      obtain ⟨i, hi, hN⟩ := hm
      obtain ⟨out, h1, h2⟩ := C33_mean_axis hr' hy hv' (by rw [hp]; rfl) hi hN
      exact ⟨h', _, out, e, hr', hk, ⟨i, hi, h1⟩, h2.value, fun _ => h2⟩
  | cumsum axis =>
    obtain ⟨h', e, hr', hk, hy, hv', hp⟩ := one (axisO chCumsum x axis) rfl (Or.inr ⟨_, rfl⟩)
    cases axis with
    | none =>
      obtain ⟨out, h1, h2, _⟩ := C34_cumsum hr' hy hv' (Or.inr (by rw [hp]; rfl))
      exact ⟨h', _, out, e, hr', hk, h1, h2.value, fun _ => h2⟩
    | some z =>
      obtain ⟨i, hi⟩ := Option.isSome_iff_exists.1 hm
      obtain ⟨out, h1, h2⟩ := C34_cumsum_axis_value hr' hy hv' (by rw [hp]; rfl) hi
      exact ⟨h', _, out, e, hr', hk, ⟨i, hi, h1⟩, h2, fun h => h.elim⟩
  | min axis =>
    obtain ⟨h', e, hr', hk, hy, hv', hp⟩ := one (axisO chAmin x axis) rfl (Or.inr ⟨_, rfl⟩)
    cases axis with
    | none =>
      obtain ⟨out, h1, h2, h3⟩ := extremum_all extr_min order_min hr' hy hv' (by rw [hp]; rfl) hm
      exact ⟨h', _, out, e, hr', hk, h1, h2, h3⟩
    | some z =>
      obtain ⟨i, hi, hN⟩ := hm
      obtain ⟨out, h1, h2, _, h3⟩ := C37_amin_axis hr' hy hv' (by rw [hp]; rfl) hi hN
      exact ⟨h', _, out, e, hr', hk, ⟨i, hi, h1⟩, h2, fun hu => h3 (hu i hi)⟩
  | max axis =>
    obtain ⟨h', e, hr', hk, hy, hv', hp⟩ := one (axisO chAmax x axis) rfl (Or.inr ⟨_, rfl⟩)
    cases axis with
    | none =>
      obtain ⟨out, h1, h2, h3⟩ := extremum_all extr_max order_max hr' hy hv' (by rw [hp]; rfl) hm
      exact ⟨h', _, out, e, hr', hk, h1, h2, h3⟩
    | some z =>
      obtain ⟨i, hi, hN⟩ := hm
      obtain ⟨out, h1, h2, _, h3⟩ := C37_amax_axis hr' hy hv' (by rw [hp]; rfl) hi hN
      exact ⟨h', _, out, e, hr', hk, ⟨i, hi, h1⟩, h2, fun hu => h3 (hu i hi)⟩
  | floor =>
    obtain ⟨h', e, hr', hk, hy, hv', hp⟩ := one (unO chFloor x) rfl (Or.inl rfl)
    obtain ⟨out, h1, h2, _, h3⟩ := C58_steps .floor hr' hy hv'
    exact ⟨h', _, out, e, hr', hk, h1, h2, h3⟩
  | ceil =>
    obtain ⟨h', e, hr', hk, hy, hv', hp⟩ := one (unO chCeil x) rfl (Or.inl rfl)
    obtain ⟨out, h1, h2, _, h3⟩ := C58_steps .ceil hr' hy hv'
    exact ⟨h', _, out, e, hr', hk, h1, h2, h3⟩
  | dot _ => exact hm.elim

/-- C81 for `x.dot(other)`, `other` an object, an array or a number of matching shape. -/
theorem C81_dot_partial {other : Operand} {w : Arr} {s : List ℕ} {n m : ℕ} (hr : Reach lib ⟨False, True⟩ h) (hx : (Operand.obj x).Is h v)
    (hw : other.Is h w) (hsv : v.shape = s ++ [n]) (hn : 0 < n) (hsw : w.shape = [n] ∨ w.shape = [n, m]) :
    ∃ h' i out, callMethod x (.dot other) h = (h', .ok i) ∧ Reach lib ⟨False, True⟩ h' ∧ AllKept h h' ∧ Right h' i out ∧
      (w.shape = [n] → DotVector s n v w out) ∧ (w.shape = [n, m] → DotMatrix s [] n m v w out) := by
  obtain ⟨h', i, a, b, e, M⟩ := makeBin_made hr chDot hx hw (Or.inl ⟨x, rfl⟩)
  rcases hsw with h1 | h1
  · obtain ⟨out, h2, h3⟩ := C35_dot_vector M.reach M.isA M.valL M.valR hsv h1 hn
    exact ⟨h', i, out, e, M.reach, M.kept, h3, fun _ => h2, fun h => by rw [h1] at h; simp at h⟩
  · obtain ⟨out, h2, h3⟩ := C35_dot_matrix_partial M.reach M.isA M.valL M.valR hsv h1 hn
    exact ⟨h', i, out, e, M.reach, M.kept, h3, fun h => by rw [h1] at h; simp at h, fun _ => h2⟩

/-- `x.transpose(i, j, …)`, which numpy's arrays accept, raises for every object and changes nothing. -/
theorem C81_separate_axes_raise (h : Heap ClassDef Par Arr Jac) (x : Id) (p q : Par) (ps : List Par) :
    callMethod x (.transpose (p :: q :: ps)) h = (h, .error (.user 2)) := rfl
end

open OpDemo in
/-- The hypotheses are met by all methods on a vector of three entries. -/
example : ∃ h, Reach lib ⟨False, True⟩ h ∧ (h.node 0).alive = true ∧ Means lib h.graph (.r 0) (.ok three) ∧ three.shape ≠ [] ∧
    Method.Fits three (.transpose [.ints [-1]]) ∧ Method.Fits three (.sum (some (-1))) ∧ Method.Fits three (.max none) ∧ Method.Fits three (.mean (some 0)) := by
  obtain ⟨h, hr, ha, hm⟩ := ready
  exact ⟨h, hr, ha, hm, by simp [three], ⟨[-1], [0], rfl, rfl, by decide⟩, rfl, by show 0 < three.size; decide, ⟨0, rfl, by decide⟩⟩

/-- A single leaf. -/
theorem leaf_ready (v : Arr) (hv : v.shape ≠ []) : ∃ h, Reach lib ⟨False, True⟩ h ∧ (h.node 0).alive = true ∧ Means lib h.graph (.r 0) (.ok v) := by
  have hok : ∀ (i : Nat) (o : ObjSpec ClassDef Par), [leafO v][i]? = some o → ∀ kw ∈ o.kws, KW.Earlier i o.dnames kw := by
    intro i o hi kw hm
    have hi' : i < [leafO v].length := (List.getElem?_eq_some_iff.1 hi).1
    simp only [List.length_cons, List.length_nil] at hi'
    obtain rfl : i = 0 := by omega
    simp only [List.getElem?_cons_zero, Option.some.injEq] at hi
    subst hi
    simp only [leafO, List.mem_cons, List.not_mem_nil, or_false] at hm
    subst hm; trivial
  refine ⟨_, build_reach (s := lib) ⟨False, True⟩ [leafO v] (by
    intro o ho
    simp only [List.mem_cons, List.not_mem_nil, or_false] at ho
    subst ho; intro _ k hk; cases hk), ?_, ?_⟩
  · rw [(build_alive _ hok).2]; rfl
  · rw [build_graph _ hok]; exact (leaf_means rfl hv).1

/-- C81 in full is false: `x.transpose(1, 0)` raises, for a 1 by 2 matrix. -/
theorem C81_full_refuted : ¬ C81_full := by
  intro hall
  obtain ⟨h, hr, ha, hv⟩ := leaf_ready ⟨[1, 2], fun k => k.1⟩ (by simp)
  obtain ⟨h', i, out, e, _⟩ := hall h 0 _ (.transpose [.int 1, .int 0]) hr ha hv (by simp)
    ⟨[1, 0], [1, 0], rfl, rfl, by decide⟩
  rw [C81_separate_axes_raise] at e
  cases e
end Chumpy
