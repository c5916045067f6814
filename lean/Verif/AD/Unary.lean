import Mathlib.Analysis.SpecialFunctions.Trigonometric.Deriv
import Mathlib.Analysis.SpecialFunctions.Trigonometric.ArctanDeriv
import Mathlib.Analysis.SpecialFunctions.Trigonometric.InverseDeriv
import Mathlib.Analysis.SpecialFunctions.ExpDeriv
import Mathlib.Analysis.SpecialFunctions.Log.Deriv
import Mathlib.Analysis.SpecialFunctions.Sqrt
import Mathlib.Analysis.Calculus.Deriv.Abs
import Verif.AD.Arith
/-!
# Unary elementwise functions, clip, floor/ceil/sign
-/
namespace Chumpy
open scoped BigOperators Topology

/-- `sp.diags([result.ravel()], [0]) if len(result)>1 else np.atleast_2d(result)` (ch_ops.py:228, 305): `result` has the
shape `sh` and the entries `e`.  Arrays with more than two axes are not Jacobian values of this model, so a first axis
of length at most 1 in front of two or more others (where the code returns a 3-d or higher-dimensional array) is modelled as
raising, as is the `TypeError` of `len` on a 0-d array. -/
noncomputable def diagOr (sh : List ℕ) (e : ℕ → ℝ) : Prog Par Arr (Option Jac) :=
  match sh with
  | [] => .raise 1
  | n :: rest =>
    if 1 < n then .ret (some (.sparse sh.prod sh.prod (fun i j => if i = j then e i else 0)))
    else
      match rest with
      | [] => .ret (some (.dense 1 n (fun _ j => e j)))
      | [m] => .ret (some (.dense n m (fun i j => e (i * m + j))))
      | _ => .raise 2

/-- A subclass of `UnaryElemwise` (ch_ops.py:219-228) with `_r` and `_d` given entry by entry. -/
noncomputable def chUnary (f d : ℝ → ℝ) : ClassDef where
  r := .child nmA fun v => .ret (Arr.of v.shape fun k => f (v.vec k))
  dr := fun _ S => if nmA ∈ S then .child nmA fun v => diagOr v.shape fun k => d (v.vec k) else .ret none
  dr_none := rfl

/-- ch_ops.py:235-237. -/
noncomputable def chReciprocal := chUnary (fun x => x⁻¹) (fun x => -(x ^ 2)⁻¹)
/-- ch_ops.py:239-241. -/
noncomputable def chSquare := chUnary (fun x => x ^ 2) (fun x => x * 2)
/-- ch_ops.py:248-250; `nan_to_num` in `my_power` has no effect on positive inputs. -/
noncomputable def chSqrt := chUnary Real.sqrt (fun x => 0.5 * x ^ (-0.5 : ℝ))
/-- ch_ops.py:252-254. -/
noncomputable def chExp := chUnary Real.exp Real.exp
/-- ch_ops.py:256-258. -/
noncomputable def chLog := chUnary Real.log (fun x => x⁻¹)
/-- ch_ops.py:260-262. -/
noncomputable def chSin := chUnary Real.sin Real.cos
/-- ch_ops.py:264-266. -/
noncomputable def chArcsin := chUnary Real.arcsin (fun x => (Real.sqrt (1 - x ^ 2))⁻¹)
/-- ch_ops.py:268-270. -/
noncomputable def chCos := chUnary Real.cos (fun x => -Real.sin x)
/-- ch_ops.py:272-274. -/
noncomputable def chArccos := chUnary Real.arccos (fun x => -(Real.sqrt (1 - x ^ 2))⁻¹)
/-- ch_ops.py:276-278. -/
noncomputable def chTan := chUnary Real.tan (fun x => (Real.cos x ^ 2)⁻¹)
/-- ch_ops.py:280-282. -/
noncomputable def chArctan := chUnary Real.arctan (fun x => (x ^ 2 + 1)⁻¹)
/-- ch_ops.py:284-286. -/
noncomputable def chNegative := chUnary (fun x => -x) (fun _ => -1)
/-- ch_ops.py:288-290. -/
noncomputable def chAbsolute := chUnary (fun x => |x|) (fun x => (if x > 0 then 1 else 0) * 2 - 1)

/-- `floor`, `ceil`, `sign` (ch_ops.py:101-114): no derivative is ever reported. -/
noncomputable def chSimpleton (f : ℝ → ℝ) : ClassDef where
  r := .child nmA fun v => .ret (Arr.of v.shape fun k => f (v.vec k))
  dr := fun _ _ => .ret none
  dr_none := rfl

/-- `np.sign`. -/
noncomputable def npSign (x : ℝ) : ℝ := if 0 < x then 1 else if x < 0 then -1 else 0

noncomputable def chFloor := chSimpleton fun x => (⌊x⌋ : ℝ)
noncomputable def chCeil := chSimpleton fun x => (⌈x⌉ : ℝ)
noncomputable def chSign := chSimpleton npSign

/-- Names of the terms of `clip`. -/
abbrev nmMin : Name := 4
abbrev nmMax : Name := 5

/-- `np.clip` of one entry: `minimum(a_max, maximum(x, a_min))`. -/
noncomputable def clip1 (lo hi x : ℝ) : ℝ := min hi (max x lo)

/-- `clip` (ch_ops.py:292-305) with numbers as bounds. -/
noncomputable def chClip : ClassDef where
  r := .child nmA fun v => .term nmMin fun
    | some (.real lo) => .term nmMax fun
      | some (.real hi) => .ret (Arr.of v.shape fun k => clip1 lo hi (v.vec k))
      | _ => .raise 1
    | _ => .raise 1
  dr := fun _ S => if nmA ∈ S then .selfR fun v => .term nmMin fun
    | some (.real lo) => .term nmMax fun
      | some (.real hi) => diagOr v.shape fun k => if v.vec k ≠ lo ∧ v.vec k ≠ hi then 1 else 0
      | _ => .raise 1
    | _ => .raise 1
    else .ret none
  dr_none := rfl

/-- Shapes for which `diagOr` gives the diagonal matrix: the first axis is longer than 1, or there is just one entry
in at most two axes. -/
def DiagShape (sh : List ℕ) : Prop := (∃ n rest, sh = n :: rest ∧ 1 < n) ∨ sh = [1] ∨ sh = [1, 1]

/-- The diagonal matrix. -/
noncomputable abbrev diagMat (e : ℕ → ℝ) : Ent := selMat id e

theorem diagOr_rep {sh : List ℕ} (h : DiagShape sh) (e : ℕ → ℝ) :
    ∃ d, diagOr sh e = .ret (some d) ∧ Jac.Rep d sh.prod sh.prod (diagMat e) := by
  rcases h with ⟨n, rest, rfl, h⟩ | rfl | rfl
  · refine ⟨.sparse _ _ _, by simp only [diagOr]; rw [if_pos h], by exact ⟨rfl, rfl, fun i _ j _ => by simp [selMat]⟩⟩
  · refine ⟨.dense _ _ _, by simp only [diagOr]; rw [if_neg (by simp)], by exact ⟨by simp, by simp, fun i hi j hj => by simp at hi hj; subst hi hj; simp [selMat]⟩⟩
  · refine ⟨.dense _ _ _, by simp only [diagOr]; rw [if_neg (by simp)], by exact ⟨by simp, by simp, fun i hi j hj => by simp at hi hj; subst hi hj; simp [selMat]⟩⟩

/-- The value of a unary elementwise function. -/
noncomputable def mapVal (f : ℝ → ℝ) (v : Arr) : Arr := Arr.of v.shape fun k => f (v.vec k)

theorem mapVal_put (f : ℝ → ℝ) (v : Arr) (x : Fin v.size → ℝ) :
    mapVal f (v.put x) = (mapVal f v).put (fun k : Fin v.size => f (x k)) := by
  show Arr.mk v.shape _ = Arr.mk v.shape _
  congr 1
  funext k
  exact congrArg f (Arr.vec_put v x k)

/-- A class with one child that maps `f` over the entries is exact at `v` if `f` is differentiable at all entries with
the derivatives `e` and the class returns the diagonal matrix of these. -/
theorem exact_map {c : ClassDef} {tm : Name → Option Par} {f : ℝ → ℝ} (hc : ∀ v, Returns lib c tm (env1 v) (mapVal f v)) {v : Arr}
    (e : ℕ → ℝ) (hf : ∀ k < v.size, HasDerivAt f (e k) (v.vec k))
    (hd : ∃ d, ReturnsDr lib c tm (env1 v) (mapVal f v) [nmA] d ∧ num.RepO d v.size v.size (diagMat e)) :
    Exact c tm [nmA] (fun _ => v) (mapVal f v) (fun _ => diagMat e) := by
  refine exact_one (hc v) (fun x k => f (x k)) ?_ ?_ hd
  · refine Filter.Eventually.of_forall fun x => ?_
    have := hc (v.put x)
    rwa [mapVal_put] at this
  · exact hasFDerivAt_elem₁ (fun _ => f) (σ := id) (fun k hk => hk) _ e (fun k hk => hf k hk)

theorem returns_unary (f d : ℝ → ℝ) (tm : Name → Option Par) (v : Arr) : Returns lib (chUnary f d) tm (env1 v) (mapVal f v) :=
  ⟨0, by simp [lib, chUnary, runBody, env1, mapVal]⟩

theorem exact_unary {f d : ℝ → ℝ} (tm : Name → Option Par) {v : Arr} (hs : DiagShape v.shape)
    (hf : ∀ k < v.size, HasDerivAt f (d (v.vec k)) (v.vec k)) :
    Exact (chUnary f d) tm [nmA] (fun _ => v) (mapVal f v) (fun _ => diagMat fun k => d (v.vec k)) := by
  refine exact_map (returns_unary f d tm) _ hf ?_
  obtain ⟨j, h1, h2⟩ := diagOr_rep hs fun k => d (v.vec k)
  exact ⟨some j, ⟨0, by simp [lib, chUnary, runBody, env1, h1]⟩, h2⟩

theorem exact_simpleton {f : ℝ → ℝ} (tm : Name → Option Par) {v : Arr} (hf : ∀ k < v.size, HasDerivAt f 0 (v.vec k)) :
    Exact (chSimpleton f) tm [nmA] (fun _ => v) (mapVal f v) (fun _ => diagMat fun _ => 0) := by
  refine exact_map (fun v => ⟨0, by simp [lib, chSimpleton, runBody, env1, mapVal]⟩) _ hf ?_
  refine ⟨none, ⟨0, by simp [lib, chSimpleton, runBody]⟩, ?_⟩
  intro i _ j _; simp [selMat]

theorem exact_clip {lo hi : ℝ} (hlh : lo ≤ hi) {tm : Name → Option Par} (h1 : tm nmMin = some (.real lo)) (h2 : tm nmMax = some (.real hi))
    {v : Arr} (hs : DiagShape v.shape) (hn : ∀ k < v.size, v.vec k ≠ lo ∧ v.vec k ≠ hi) :
    Exact chClip tm [nmA] (fun _ => v) (mapVal (clip1 lo hi) v)
      (fun _ => diagMat fun k => if lo < v.vec k ∧ v.vec k < hi then 1 else 0) := by
  refine exact_map (fun v => ⟨0, by simp [lib, chClip, runBody, env1, h1, h2, mapVal]⟩) _ ?_ ?_
  · intro k hk
    obtain ⟨hl, hh⟩ := hn k hk
    rcases lt_or_gt_of_ne hl with a | a
    · rw [if_neg (by intro h; exact absurd h.1 (not_lt.2 a.le))]
      refine (hasDerivAt_const _ lo).congr_of_eventuallyEq ?_
      filter_upwards [gt_mem_nhds a] with x hx
      simp [clip1, max_eq_right (le_of_lt hx), hlh]
    · rcases lt_or_gt_of_ne hh with b | b
      · rw [if_pos ⟨a, b⟩]
        refine (hasDerivAt_id _).congr_of_eventuallyEq ?_
        filter_upwards [lt_mem_nhds a, gt_mem_nhds b] with x hx hx'
        simp [clip1, max_eq_left (le_of_lt hx), min_eq_right (le_of_lt hx')]
      · rw [if_neg (by intro h; exact absurd h.2 (not_lt.2 b.le))]
        refine (hasDerivAt_const _ hi).congr_of_eventuallyEq ?_
        filter_upwards [lt_mem_nhds b] with x hx
        simp [clip1, le_of_lt hx]
  · have hsz : (mapVal (clip1 lo hi) v).shape = v.shape := rfl
    obtain ⟨j, h3, h4⟩ := diagOr_rep hs fun k => if (mapVal (clip1 lo hi) v).vec k ≠ lo ∧ (mapVal (clip1 lo hi) v).vec k ≠ hi then 1 else 0
    refine ⟨some j, ⟨0, by simp only [lib, chClip]; rw [if_pos (by simp)]; simp only [runBody, h1, h2, hsz]; rw [h3]; rfl⟩, ?_⟩
    refine Jac.rep_congr (selMat_congr (fun _ _ => rfl) fun k hk => ?_) h4
    have hv : (mapVal (clip1 lo hi) v).vec k = clip1 lo hi (v.vec k) := Arr.vec_of _ _ hk
    obtain ⟨hl, hh⟩ := hn k hk
    rw [hv]
    congr 1
    unfold clip1
    refine propext ⟨?_, ?_⟩
    · rintro ⟨a, b⟩
      constructor
      · by_contra hc
        rw [max_eq_right (not_lt.1 hc), min_eq_right hlh] at a; exact a rfl
      · by_contra hc
        exact b (min_eq_left ((not_lt.1 hc).trans (le_max_left _ _)))
    · rintro ⟨a, b⟩
      rw [max_eq_left a.le, min_eq_right b.le]
      exact ⟨hl, hh⟩
end Chumpy
