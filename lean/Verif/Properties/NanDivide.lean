import Verif.AD.XFloat
import Verif.Properties.Arith
/-!
# C56: `NanDivide`
-/
namespace Chumpy
open scoped BigOperators Topology

/-! ## Specification -/

/-- `a / b` is the finite number `q`: an ordinary quotient, or a finite number divided by an infinite one. -/
inductive FiniteQuotient : XF → XF → ℝ → Prop
  | ordinary {x y : ℝ} : y ≠ 0 → FiniteQuotient (.fin x) (.fin y) (x / y)
  | overPosInf {x : ℝ} : FiniteQuotient (.fin x) .pinf 0
  | overNegInf {x : ℝ} : FiniteQuotient (.fin x) .ninf 0

/-- The derivative `- a / b²` of `a / b` by `b` is the finite number `q`. -/
inductive FiniteSlope : XF → XF → ℝ → Prop
  | ordinary {x y : ℝ} : y ≠ 0 → FiniteSlope (.fin x) (.fin y) (-x / y ^ 2)
  | overPosInf {x : ℝ} : FiniteSlope (.fin x) .pinf 0
  | overNegInf {x : ℝ} : FiniteSlope (.fin x) .ninf 0

/-- `z` is the number `q` with `P q`, or 0 if there is none. -/
def ThatOrZero (P : ℝ → Prop) (z : XF) : Prop := (∃ q, P q ∧ z = .fin q) ∨ ((∀ q, ¬ P q) ∧ z = .fin 0)

theorem clean_quotient (a b : XF) : ThatOrZero (FiniteQuotient a b) (XF.div a b).clean := by
  cases a with
  | fin x =>
    cases b with
    | fin y =>
      rw [XF.div_fin]
      by_cases h : y = 0
      · rw [if_pos h]; exact Or.inr ⟨fun q hq => (by cases hq; contradiction), rfl⟩
      · rw [if_neg h]; exact Or.inl ⟨_, .ordinary h, rfl⟩
    | pinf => exact Or.inl ⟨_, .overPosInf, rfl⟩
    | ninf => exact Or.inl ⟨_, .overNegInf, rfl⟩
    | nan => exact Or.inr ⟨fun q hq => (by cases hq), rfl⟩
  | pinf =>
    refine Or.inr ⟨fun q hq => (by cases hq), ?_⟩
    cases b <;> simp only [XF.div] <;> (try split) <;> rfl
  | ninf =>
    refine Or.inr ⟨fun q hq => (by cases hq), ?_⟩
    cases b <;> simp only [XF.div] <;> (try split) <;> rfl
  | nan => exact Or.inr ⟨fun q hq => (by cases hq), rfl⟩

theorem clean_slope (a b : XF) : ThatOrZero (FiniteSlope a b) (XF.div (XF.neg a) (XF.mul b b)).clean := by
  cases a with
  | fin x =>
    cases b with
    | fin y =>
      rw [XF.dr_fin]
      by_cases h : y = 0
      · rw [if_pos h]; exact Or.inr ⟨fun q hq => (by cases hq; contradiction), rfl⟩
      · rw [if_neg h, ← pow_two]; exact Or.inl ⟨_, .ordinary h, rfl⟩
    | pinf => exact Or.inl ⟨_, .overPosInf, rfl⟩
    | ninf => exact Or.inl ⟨_, .overNegInf, rfl⟩
    | nan => exact Or.inr ⟨fun q hq => (by cases hq), rfl⟩
  | pinf =>
    refine Or.inr ⟨fun q hq => (by cases hq), ?_⟩
    cases b <;> simp only [XF.neg, XF.mul, XF.div] <;> (try split) <;> rfl
  | ninf =>
    refine Or.inr ⟨fun q hq => (by cases hq), ?_⟩
    cases b <;> simp only [XF.neg, XF.mul, XF.div] <;> (try split) <;> rfl
  | nan => exact Or.inr ⟨fun q hq => (by cases hq), rfl⟩

/-! ## C56 -/

/-- C56, values, for all inputs including zeros, infinities and NaN: wherever the shapes broadcast, each entry of the
result is the quotient of the entries above it if that is finite, and 0 otherwise. -/
theorem C56_value (u v : XArr) (o : List ℕ) (ho : Broadcasts u.shape v.shape o) :
    ∃ out, nanDivR u v = some out ∧ out.shape = o ∧
      ∀ k < o.prod, ∃ p q, Under u.shape o k p ∧ Under v.shape o k q ∧ ThatOrZero (FiniteQuotient (u.vec p) (v.vec q)) (out.vec k) := by
  have hb := (bshape_spec _ _ _).2 ho
  obtain ⟨h1, h2⟩ := bshape_fits hb
  refine ⟨_, by unfold nanDivR; rw [hb]; rfl, rfl, fun k hk => ?_⟩
  exact ⟨_, _, under_of_fits h1 hk, under_of_fits h2 hk, clean_quotient _ _⟩

/-- C56, derivatives, for all inputs: the entry stored for result entry `k` is the partial derivative of the quotient if
that is finite, and 0 otherwise. -/
theorem C56_derivative (u v : XArr) (o : List ℕ) (ho : Broadcasts u.shape v.shape o) :
    ∀ k < o.prod, ∃ p q, Under u.shape o k p ∧ Under v.shape o k q ∧
      ThatOrZero (FiniteQuotient (.fin 1) (v.vec q)) (nanDivDr u v o true k) ∧
      ThatOrZero (FiniteSlope (u.vec p) (v.vec q)) (nanDivDr u v o false k) := by
  have hb := (bshape_spec _ _ _).2 ho
  obtain ⟨h1, h2⟩ := bshape_fits hb
  intro k hk
  exact ⟨_, _, under_of_fits h1 hk, under_of_fits h2 hk, clean_quotient _ _, clean_slope _ _⟩

/-- The model on extended numbers, restricted to finite ones, is the model `C56_objects` is about. -/
theorem nanDivR_finite (u v : Arr) : (nanDivR ⟨u.shape, fun k => .fin (u.vec k)⟩ ⟨v.shape, fun k => .fin (v.vec k)⟩).map (fun x => (x.shape, x.vec)) =
    (bshape u.shape v.shape).map fun o => (o, fun k => .fin (if v.vec (bidx v.shape o k) = 0 then 0 else u.vec (bidx u.shape o k) / v.vec (bidx v.shape o k))) := by
  unfold nanDivR
  cases bshape u.shape v.shape with
  | none => rfl
  | some o => simp only [Option.map_some, XF.div_fin]

section
variable {h : Heap ClassDef Par Arr Jac} {y a b : Id} {u v : Arr} {o : List ℕ}

/-- The matrix with, in row `k`, the entry `e p q` in the column `p` of the operand entry used for result entry `k`. -/
def RowsOf (s t o : List ℕ) (e : ℕ → ℕ → ℝ) (E : Ent) : Prop :=
  ∀ k < o.prod, ∀ p q, Under s o k p → Under t o k q → E k p = e p q ∧ ∀ j < s.prod, j ≠ p → E k j = 0

theorem rowsOf_selMat {s t o : List ℕ} (hs : Fits s.reverse o.reverse) (ht : Fits t.reverse o.reverse) {e : ℕ → ℕ → ℝ} :
    RowsOf s t o e (selMat (bidx s o) fun k => e (bidx s o k) (bidx t o k)) := by
  intro k hk p q hp hq
  rw [hp.unique (under_of_fits hs hk), hq.unique (under_of_fits ht hk)]
  exact ⟨if_pos rfl, fun j _ hj => if_neg fun h => hj h.symm⟩

/-- C56 for objects, on finite arrays whose denominators may be zero: value, what `dr_wrt` reports (zero if both operands
are the same object), and that it is the derivative where no denominator is zero. -/
theorem C56_objects (hr : Reach lib ⟨False, True⟩ h) (hy : IsA h.graph y chNanDivide [nmA, nmB] ![a, b])
    (hu : Means lib h.graph (.r a) (.ok u)) (hv : Means lib h.graph (.r b) (.ok v)) (ho : Broadcasts u.shape v.shape o) :
    ∃ out, BcastResult (fun x y => if y = 0 then 0 else x / y) u v out ∧
      (∃ f₀, ∀ f ≥ f₀, (read lib f (.r y) h).2 = .ok out) ∧
      (IsLeaf h.graph a → IsLeaf h.graph b → a ≠ b →
        ∃ E F, Reports h y a out.size u.size E ∧ Reports h y b out.size v.size F ∧
          RowsOf u.shape v.shape out.shape (fun _ q => if v.vec q = 0 then 0 else 1 / v.vec q) E ∧
          RowsOf v.shape u.shape out.shape (fun q p => if v.vec q = 0 then 0 else -u.vec p / v.vec q ^ 2) F) ∧
      (IsLeaf h.graph a → a = b → Reports h y a out.size u.size fun _ _ => 0) ∧
      ((∀ k < v.size, v.vec k ≠ 0) → Right h y out) := by
  have hb := (bshape_spec _ _ _).2 ho
  obtain ⟨f1, f2⟩ := bshape_fits hb
  have hm : Means lib h.graph (.r y) (.ok (bcastVal (fun x y => if y = 0 then 0 else x / y) u v o)) :=
    means_of_isA hy (kids2 hu hv) (by erw [env_two]; exact returns_bcast rfl _ hb)
  refine ⟨_, bcastVal_result hb, read_of_means hr hm, fun la lb hab => ⟨_, _, ?_, ?_, rowsOf_selMat f1 f2, rowsOf_selMat f2 f1⟩, fun la hab => ?_, fun hz => ?_⟩
  · obtain ⟨d, h1, h2⟩ := rep_broadcastSetup hb true fun k => if v.vec (bidx v.shape o k) = 0 then 0 else 1 / v.vec (bidx v.shape o k)
    refine reports_of_rep hr hy (kids2 hu hv) hm (leaves2 la lb) (w := a) ⟨(0 : Fin 2), rfl⟩ (d := some d) ?_ (by simp only [if_true] at h2; exact h2)
    rw [namesOf_left hy hab]; erw [env_two]
    refine ⟨0, ?_⟩
    simp only [lib, chNanDivide]
    rw [if_neg (by simp)]
    simp only [runBody, env2, if_true, if_neg (show nmB ≠ nmA by decide), hb]
    simp only [List.mem_singleton, if_true, decide_true]
    rw [h1]; rfl
  · obtain ⟨d, h1, h2⟩ := rep_broadcastSetup hb false fun k => if v.vec (bidx v.shape o k) = 0 then 0 else -u.vec (bidx u.shape o k) / (v.vec (bidx v.shape o k) * v.vec (bidx v.shape o k))
    refine reports_of_rep hr hy (kids2 hu hv) hm (leaves2 la lb) (w := b) ⟨(1 : Fin 2), rfl⟩ (d := some d) ?_ ?_
    · rw [namesOf_right hy hab]; erw [env_two]
      refine ⟨0, ?_⟩
      simp only [lib, chNanDivide]
      rw [if_neg (by simp)]
      simp only [runBody, env2, if_true, if_neg (show nmB ≠ nmA by decide), hb]
      simp only [show (nmA ∈ [nmB]) = False from by simp, if_false, decide_false]
      rw [h1]; rfl
    · simp only [pow_two]
      simp only [Bool.false_eq_true, if_false] at h2; exact h2
  · subst hab
    refine reports_of_rep hr hy (kids2 hu hv) hm (leaves2 la la) (w := a) ⟨(0 : Fin 2), rfl⟩ (d := none) ?_ (fun _ _ _ _ => rfl)
    rw [namesOf_same hy]
    exact ⟨0, by simp [lib, chNanDivide, runBody]⟩
  · have hy' : IsA h.graph y chDiv [nmA, nmB] ![a, b] := by rw [← nanDivide_eq]; exact hy
    have e : bcastVal (fun x y => if y = 0 then 0 else x / y) u v o = bcastVal (· / ·) u v o := by
      unfold bcastVal; congr 1; funext k; dsimp only; split
      · next h => simp [h]
      · rfl
    rw [e]
    exact right_of_exact hr hy' (kids2 hu hv) (exact_div _ hb fun k hk => hz _ (bidx_lt_right hb hk))
end

/-- A case with a zero, an infinity and a NaN among the inputs. -/
example : Broadcasts [3] [3] [3] := (bshape_spec _ _ _).1 (by decide)
example : nanDivR ⟨[3], fun k => if k = 0 then .fin 1 else if k = 1 then .pinf else .nan⟩ ⟨[3], fun _ => .fin 0⟩ ≠ none := by
  simp [nanDivR, show bshape [3] [3] = some [3] from by decide]
end Chumpy
