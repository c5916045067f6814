import Verif.AD.Unary
import Verif.AD.Pairwise
import Verif.AD.Api
import Verif.Properties.Arith
/-!
# C32, C38, C39, C58: elementwise functions
-/
namespace Chumpy
open scoped BigOperators Topology

theorem Jac.rep_dims {d : Jac} {m n m' n' : ℕ} {A B : Ent} (h : Jac.Rep d m n A) (h' : Jac.Rep d m' n' B) : m = m' ∧ n = n' := by
  cases d with
  | num c => exact ⟨h.1.trans h'.1.symm, h.2.1.trans h'.2.1.symm⟩
  | dense a b e => exact ⟨h.1.symm.trans h'.1, h.2.1.symm.trans h'.2.1⟩
  | sparse a b e => exact ⟨h.1.symm.trans h'.1, h.2.1.symm.trans h'.2.1⟩

/-- `out` is `f` applied to each entry of `v`. -/
def MapResult (f : ℝ → ℝ) (v out : Arr) : Prop := out.shape = v.shape ∧ ∀ k < v.size, out.vec k = f (v.vec k)

theorem mapVal_result (f : ℝ → ℝ) (v : Arr) : MapResult f v (mapVal f v) := ⟨rfl, fun _ hk => Arr.vec_of _ _ hk⟩

/-! ## C32 -/

/-- The functions of C32: class, mathematical function, open domain of differentiability. -/
inductive Elementwise : ClassDef → (ℝ → ℝ) → (ℝ → Prop) → Prop
  | exp : Elementwise chExp Real.exp fun _ => True
  | log : Elementwise chLog Real.log fun x => 0 < x
  | sin : Elementwise chSin Real.sin fun _ => True
  | cos : Elementwise chCos Real.cos fun _ => True
  | tan : Elementwise chTan Real.tan fun x => Real.cos x ≠ 0
  | arcsin : Elementwise chArcsin Real.arcsin fun x => -1 < x ∧ x < 1
  | arccos : Elementwise chArccos Real.arccos fun x => -1 < x ∧ x < 1
  | arctan : Elementwise chArctan Real.arctan fun _ => True
  | sqrt : Elementwise chSqrt Real.sqrt fun x => 0 < x
  | square : Elementwise chSquare (fun x => x ^ 2) fun _ => True
  | reciprocal : Elementwise chReciprocal (fun x => 1 / x) fun x => x ≠ 0
  | negative : Elementwise chNegative (fun x => -x) fun _ => True
  | absolute : Elementwise chAbsolute (fun x => |x|) fun x => x ≠ 0

/-- Each class is `UnaryElemwise` with the right derivative. -/
theorem Elementwise.deriv {c : ClassDef} {f : ℝ → ℝ} {dom : ℝ → Prop} (h : Elementwise c f dom) :
    ∃ d, c = chUnary f d ∧ ∀ x, dom x → HasDerivAt f (d x) x := by
  cases h with
  | exp => exact ⟨_, rfl, fun x _ => Real.hasDerivAt_exp x⟩
  | log => exact ⟨_, rfl, fun x h => Real.hasDerivAt_log (ne_of_gt h)⟩
  | sin => exact ⟨_, rfl, fun x _ => Real.hasDerivAt_sin x⟩
  | cos => exact ⟨_, rfl, fun x _ => Real.hasDerivAt_cos x⟩
  | tan =>
    refine ⟨_, rfl, fun x h => ?_⟩
    have := Real.hasDerivAt_tan h
    rwa [one_div] at this
  | arcsin =>
    refine ⟨_, rfl, fun x h => ?_⟩
    have := Real.hasDerivAt_arcsin (ne_of_gt h.1) (ne_of_lt h.2)
    rwa [one_div] at this
  | arccos =>
    refine ⟨_, rfl, fun x h => ?_⟩
    have := Real.hasDerivAt_arccos (ne_of_gt h.1) (ne_of_lt h.2)
    rwa [one_div] at this
  | arctan =>
    refine ⟨_, rfl, fun x _ => ?_⟩
    have := Real.hasDerivAt_arctan x
    rwa [one_div, add_comm] at this
  | sqrt =>
    refine ⟨_, rfl, fun x h => ?_⟩
    have := Real.hasDerivAt_sqrt (ne_of_gt h)
    refine this.congr_deriv ?_
    have e : x ^ (-0.5 : ℝ) = (Real.sqrt x)⁻¹ := by
      rw [Real.sqrt_eq_rpow, ← Real.rpow_neg (le_of_lt h)]; norm_num
    rw [e, one_div, mul_inv]; norm_num
  | square =>
    refine ⟨_, rfl, fun x _ => ?_⟩
    have := hasDerivAt_pow 2 x
    refine this.congr_deriv ?_
    simp; ring
  | reciprocal =>
    refine ⟨fun x => -(x ^ 2)⁻¹, ?_, fun x h => ?_⟩
    · simp only [one_div]; rfl
    · simp only [one_div]; exact hasDerivAt_inv h
  | negative => exact ⟨_, rfl, fun x _ => (hasDerivAt_id x).neg⟩
  | absolute =>
    refine ⟨_, rfl, fun x h => ?_⟩
    rcases lt_or_gt_of_ne h with a | a
    · exact (hasDerivAt_abs_neg a).congr_deriv (by rw [if_neg (not_lt.2 a.le)]; norm_num)
    · exact (hasDerivAt_abs_pos a).congr_deriv (by rw [if_pos a]; norm_num)

section
variable {h : Heap ClassDef Par Arr Jac} {y a : Id} {v : Arr}

/-- C32 in full: whatever the shape. -/
def C32_full : Prop :=
  ∀ (c : ClassDef) (f : ℝ → ℝ) (dom : ℝ → Prop), Elementwise c f dom →
    ∀ (h : Heap ClassDef Par Arr Jac) (y a : Id) (v : Arr), Reach lib ⟨False, True⟩ h → IsA h.graph y c [nmA] (fun _ => a) →
      Means lib h.graph (.r a) (.ok v) → (∀ k < v.size, dom (v.vec k)) →
      ∃ out, MapResult f v out ∧ Right h y out

theorem right_unary {f d : ℝ → ℝ} (hr : Reach lib ⟨False, True⟩ h) (hy : IsA h.graph y (chUnary f d) [nmA] fun _ => a)
    (hv : Means lib h.graph (.r a) (.ok v)) (hs : DiagShape v.shape) (hd : ∀ k < v.size, HasDerivAt f (d (v.vec k)) (v.vec k)) :
    Right h y (mapVal f v) := right_of_exact hr hy (fun _ => hv) (exact_unary _ hs hd)

/-- C32: the value is the function applied to each entry, the derivative is right, and asked about a plain `Ch` the
object reports the diagonal matrix of the derivatives.  Missing: shapes other than `DiagShape`, that is, a first axis of
length 1 (or 0) in front of others, see `C32_full_refuted`. -/
theorem C32_elementwise_partial {c : ClassDef} {f : ℝ → ℝ} {dom : ℝ → Prop} (hc : Elementwise c f dom)
    (hr : Reach lib ⟨False, True⟩ h) (hy : IsA h.graph y c [nmA] fun _ => a) (hv : Means lib h.graph (.r a) (.ok v))
    (hs : DiagShape v.shape) (hdom : ∀ k < v.size, dom (v.vec k)) :
    ∃ out, MapResult f v out ∧ Right h y out ∧
      (IsLeaf h.graph a → Reports h y a v.size v.size fun i j => if i = j then deriv f (v.vec i) else 0) := by
  obtain ⟨d, rfl, hd⟩ := hc.deriv
  have hd' : ∀ k < v.size, HasDerivAt f (d (v.vec k)) (v.vec k) := fun k hk => hd _ (hdom k hk)
  refine ⟨_, mapVal_result f v, right_unary hr hy hv hs hd', fun hl => ?_⟩
  obtain ⟨j, h1, h2⟩ := diagOr_rep hs fun k => d (v.vec k)
  refine reports_of_rep hr hy (v := fun _ => v) (out := mapVal f v) (fun _ => hv) ?_ (fun _ => hl) ⟨(0 : Fin 1), rfl⟩ (d := some j) ?_ ?_
  · exact means_of_isA hy (fun _ => hv) (by erw [env_one]; exact returns_unary f d _ v)
  · rw [namesOf_one hy]; erw [env_one]
    exact ⟨0, by simp [lib, chUnary, runBody, env1, h1]⟩
  · refine Jac.rep_congr ?_ h2
    intro i hi j _
    simp only [selMat, id]
    split
    · exact (hd' i hi).deriv.symm
    · rfl
end

namespace ADDemo
/-- `c(a)` for a given array. -/
noncomputable def unary (c : ClassDef) (v : Arr) : List (ObjSpec ClassDef Par) := [leafO v, unO c 0]

theorem unary_ok {c : ClassDef} (hc : c.permute = false) (v : Arr) : WellBuilt lib (unary c v) :=
  OkFrom.wellBuilt ⟨leafO_ok _ _, unO_ok (by decide) hc, trivial⟩ rfl

/-- A state with `c(a)`. -/
theorem unary_reach {c : ClassDef} (hc : c.permute = false) (v : Arr) (hv : v.shape ≠ []) :
    ∃ h, Reach lib ⟨False, True⟩ h ∧ IsA h.graph 1 c [nmA] (fun _ => 0) ∧ Means lib h.graph (.r 0) (.ok v) ∧ IsLeaf h.graph 0 := by
  obtain ⟨h, hr, hg⟩ := (unary_ok hc v).reach ⟨False, True⟩
  exact ⟨h, hr, by rw [hg]; exact isA_un rfl, by rw [hg]; exact (leaf_means rfl hv).1, by rw [hg]; exact isLeaf_leafO rfl⟩

/-- The hypotheses of C32 are met, for example by `arcsin` of a 2×3 array of halves. -/
example : ∃ h, Reach lib ⟨False, True⟩ h ∧ IsA h.graph 1 chArcsin [nmA] (fun _ => 0) ∧
    Means lib h.graph (.r 0) (.ok ⟨[2, 3], fun _ => 1 / 2⟩) ∧ IsLeaf h.graph 0 := unary_reach rfl _ (by simp)
example : DiagShape [2, 3] := Or.inl ⟨2, [3], rfl, by decide⟩
example : ∀ k < 6, -1 < (Arr.vec ⟨[2, 3], fun _ => 1 / 2⟩ k : ℝ) ∧ (Arr.vec ⟨[2, 3], fun _ => 1 / 2⟩ k : ℝ) < 1 := by
  intro k hk
  have : k < [2, 3].prod := hk
  simp only [Arr.vec, this, dif_pos]; norm_num
end ADDemo

open ADDemo in
/-- C32 in full is false: for a 1×2 array the "Jacobian" has one row instead of two. -/
theorem C32_full_refuted : ¬ C32_full := by
  intro hall
  obtain ⟨h, hr, hy, hv, hl⟩ := unary_reach (c := chNegative) rfl ⟨[1, 2], fun _ => 0⟩ (by simp)
  obtain ⟨out, ⟨hs, _⟩, hR⟩ := hall _ _ _ .negative h 1 0 _ hr hy hv (fun _ _ => trivial)
  have hsz : out.size = 2 := by unfold Arr.size; rw [hs]; rfl
  obtain ⟨vw, M, hJ, hrep⟩ := hR.deriv (by
      intro k c hc
      have : k ∈ (h.graph 1).dnames := (reach_str hr).dn 1 k c hc
      rw [hy.dnames, List.mem_singleton] at this
      subst this
      have h0 : (h.graph 1).dterms nmA = some 0 := hy.kid (0 : Fin 1)
      rw [h0] at hc; cases hc; exact hl) nmA 0 (hy.kid (0 : Fin 1))
  have hm := means_of_isA hy (v := fun _ => ⟨[1, 2], fun _ => 0⟩) (fun _ => hv) (by erw [env_one]; exact returns_unary _ _ _ _)
  have hrep' : Reports h 1 0 1 2 (fun _ _ => -1) := by
    refine reports_of_rep hr hy (v := fun _ => ⟨[1, 2], fun _ => 0⟩) (fun _ => hv) hm (fun _ => hl) ⟨(0 : Fin 1), rfl⟩
      (d := some (.dense 1 2 fun _ _ => -1)) ?_ (by exact ⟨rfl, rfl, fun _ _ _ _ => rfl⟩)
    rw [namesOf_one hy]; erw [env_one]
    exact ⟨0, by simp [lib, chNegative, chUnary, runBody, env1, diagOr]⟩
  obtain ⟨f1, h1⟩ := hrep
  obtain ⟨f2, h2⟩ := hrep'
  obtain ⟨o, ho, hE⟩ := h1 _ (Nat.le_max_left f1 f2)
  obtain ⟨o', ho', hE'⟩ := h2 _ (Nat.le_max_right f1 f2)
  rw [ho] at ho'
  cases ho'
  cases o with
  | none => have := hE' 0 (by decide) 0 (by decide); norm_num at this
  | some d =>
    have := (Jac.rep_dims hE hE').1
    omega

/-! ## C39 -/

section
variable {h : Heap ClassDef Par Arr Jac} {y a : Id} {v : Arr} {lo hi : ℝ}

theorem dr_clip {tm : Name → Option Par} (hlh : lo ≤ hi) (h1 : tm nmMin = some (.real lo)) (h2 : tm nmMax = some (.real hi))
    (hs : DiagShape v.shape) :
    ∃ d, ReturnsDr lib chClip tm (env1 v) (mapVal (clip1 lo hi) v) [nmA] (some d) ∧
      Jac.Rep d v.size v.size fun i j => if i = j ∧ lo < v.vec i ∧ v.vec i < hi then 1 else 0 := by
  obtain ⟨j, h3, h4⟩ := diagOr_rep hs fun k => if (mapVal (clip1 lo hi) v).vec k ≠ lo ∧ (mapVal (clip1 lo hi) v).vec k ≠ hi then 1 else 0
  have hsz : (mapVal (clip1 lo hi) v).shape = v.shape := rfl
  refine ⟨j, ⟨0, by simp only [lib, chClip]; rw [if_pos (by simp)]; simp only [runBody, h1, h2, hsz]; rw [h3]; rfl⟩, ?_⟩
  refine Jac.rep_congr (fun i hi' k _ => ?_) h4
  have hv : (mapVal (clip1 lo hi) v).vec i = clip1 lo hi (v.vec i) := Arr.vec_of _ _ hi'
  simp only [selMat, id]
  by_cases e : i = k
  · simp only [e, true_and, if_true]
    rw [← e, hv]
    refine if_congr ?_ rfl rfl
    unfold clip1
    constructor
    · rintro ⟨a, b⟩
      constructor
      · by_contra hc
        rw [max_eq_right (not_lt.1 hc), min_eq_right hlh] at a; exact a rfl
      · by_contra hc
        exact b (min_eq_left ((not_lt.1 hc).trans (le_max_left _ _)))
    · rintro ⟨a, b⟩
      rw [max_eq_left a.le, min_eq_right b.le]
      exact ⟨ne_of_gt a, ne_of_lt b⟩
  · simp [e]

/-- What C39 says of `y = clip(a, lo, hi)`, `a` having the value `v`. -/
def ClipSpec (h : Heap ClassDef Par Arr Jac) (y a : Id) (v : Arr) (lo hi : ℝ) : Prop :=
  ∃ out : Arr, out.shape = v.shape ∧
    (∀ k < v.size, lo ≤ out.vec k ∧ out.vec k ≤ hi ∧ (lo ≤ v.vec k → v.vec k ≤ hi → out.vec k = v.vec k) ∧
      (v.vec k < lo → out.vec k = lo) ∧ (hi < v.vec k → out.vec k = hi)) ∧
    (∃ f₀, ∀ f ≥ f₀, (read lib f (.r y) h).2 = .ok out) ∧
    (IsLeaf h.graph a → Reports h y a v.size v.size fun i j => if i = j ∧ lo < v.vec i ∧ v.vec i < hi then 1 else 0) ∧
    ((∀ k < v.size, v.vec k ≠ lo ∧ v.vec k ≠ hi) → Right h y out)

/-- C39 in full: whatever the shape. -/
def C39_full : Prop :=
  ∀ (h : Heap ClassDef Par Arr Jac) (y a : Id) (v : Arr) (lo hi : ℝ), lo ≤ hi → Reach lib ⟨False, True⟩ h →
    IsA h.graph y chClip [nmA] (fun _ => a) → (h.graph y).terms nmMin = some (.real lo) → (h.graph y).terms nmMax = some (.real hi) →
    Means lib h.graph (.r a) (.ok v) → ClipSpec h y a v lo hi

/-- C39: the value of `clip` is within the bounds (the entry itself, or the bound it is beyond), and the Jacobian reported
is diagonal, 1 strictly inside the bounds and 0 at or outside them; away from the bounds it is the derivative.
Missing: shapes other than `DiagShape`, as in C32. -/
theorem C39_clip_partial (hlh : lo ≤ hi) (hr : Reach lib ⟨False, True⟩ h) (hy : IsA h.graph y chClip [nmA] fun _ => a)
    (h1 : (h.graph y).terms nmMin = some (.real lo)) (h2 : (h.graph y).terms nmMax = some (.real hi))
    (hv : Means lib h.graph (.r a) (.ok v)) (hs : DiagShape v.shape) : ClipSpec h y a v lo hi := by
  have hR : Returns lib chClip (h.graph y).terms (env1 v) (mapVal (clip1 lo hi) v) :=
    ⟨0, by simp [lib, chClip, runBody, env1, h1, h2, mapVal]⟩
  have hm : Means lib h.graph (.r y) (.ok (mapVal (clip1 lo hi) v)) := means_of_isA hy (v := fun _ => v) (fun _ => hv) (by erw [env_one]; exact hR)
  refine ⟨mapVal (clip1 lo hi) v, rfl, fun k hk => ?_, read_of_means hr hm, fun hl => ?_, fun hn => right_of_exact hr hy (fun _ => hv) (exact_clip hlh h1 h2 hs hn)⟩
  · have : (mapVal (clip1 lo hi) v).vec k = clip1 lo hi (v.vec k) := Arr.vec_of _ _ hk
    rw [this]
    unfold clip1
    refine ⟨le_min hlh (le_max_right _ _), min_le_left _ _, fun a b => ?_, fun a => ?_, fun a => ?_⟩
    · rw [max_eq_left a, min_eq_right b]
    · rw [max_eq_right a.le, min_eq_right hlh]
    · exact min_eq_left (a.le.trans (le_max_left _ _))
  · obtain ⟨d, h3, h4⟩ := dr_clip (v := v) hlh h1 h2 hs
    refine reports_of_rep hr hy (v := fun _ => v) (fun _ => hv) hm (fun _ => hl) ⟨(0 : Fin 1), rfl⟩ (d := some d) ?_ h4
    rw [namesOf_one hy]; erw [env_one]
    exact h3
end

namespace ADDemo
/-- `clip(a, lo, hi)` for a given array. -/
noncomputable def clipped (v : Arr) (lo hi : ℝ) : List (ObjSpec ClassDef Par) :=
  [leafO v, ⟨chClip, [nmA], [.term nmMin (.real lo), .term nmMax (.real hi), .link nmA 0]⟩]

theorem clipped_reach (v : Arr) (hv : v.shape ≠ []) (lo hi : ℝ) :
    ∃ h, Reach lib ⟨False, True⟩ h ∧ IsA h.graph 1 chClip [nmA] (fun _ => 0) ∧ (h.graph 1).terms nmMin = some (.real lo) ∧
      (h.graph 1).terms nmMax = some (.real hi) ∧ Means lib h.graph (.r 0) (.ok v) ∧ IsLeaf h.graph 0 := by
  have hok : WellBuilt lib (clipped v lo hi) := by
    refine OkFrom.wellBuilt ⟨leafO_ok _ _, ⟨?_, by simp, rfl⟩, trivial⟩ rfl
    intro kw hm
    simp only [List.mem_cons, List.not_mem_nil, or_false] at hm
    rcases hm with rfl | rfl | rfl
    · trivial
    · trivial
    · exact ⟨by simp, by decide⟩
  obtain ⟨h, hr, hg⟩ := hok.reach ⟨False, True⟩
  refine ⟨h, hr, ?_, by rw [hg]; rfl, by rw [hg]; rfl, by rw [hg]; exact (leaf_means rfl hv).1, by rw [hg]; exact isLeaf_leafO rfl⟩
  rw [hg]
  refine ⟨rfl, rfl, by simp, ?_⟩
  intro j
  have : j = 0 := Fin.eq_zero j
  subst this; rfl

/-- The hypotheses of C39 are met. -/
example : ∃ h, Reach lib ⟨False, True⟩ h ∧ IsA h.graph 1 chClip [nmA] (fun _ => 0) ∧ (h.graph 1).terms nmMin = some (.real 0) ∧
      (h.graph 1).terms nmMax = some (.real 1) ∧ Means lib h.graph (.r 0) (.ok ⟨[2, 2], fun k => k.1⟩) ∧ IsLeaf h.graph 0 :=
  clipped_reach _ (by simp) _ _
end ADDemo

open ADDemo in
theorem C39_full_refuted : ¬ C39_full := by
  intro hall
  obtain ⟨h, hr, hy, h1, h2, hv, hl⟩ := clipped_reach ⟨[1, 2], fun _ => 0⟩ (by simp) (-1) 1
  obtain ⟨out, hs, _, _, hrep, _⟩ := hall h 1 0 _ (-1) 1 (by norm_num) hr hy h1 h2 hv
  have hR : Returns lib chClip (h.graph 1).terms (env1 ⟨[1, 2], fun _ => 0⟩) (mapVal (clip1 (-1) 1) ⟨[1, 2], fun _ => 0⟩) :=
    ⟨0, by simp [lib, chClip, runBody, env1, h1, h2, mapVal]⟩
  have hm := means_of_isA hy (v := fun _ => ⟨[1, 2], fun _ => 0⟩) (fun _ => hv) (by erw [env_one]; exact hR)
  have e0 : ∀ k < 2, (mapVal (clip1 (-1) 1) ⟨[1, 2], fun _ => 0⟩).vec k = 0 := by
    intro k hk
    have : k < [1, 2].prod := hk
    rw [show (mapVal (clip1 (-1) 1) ⟨[1, 2], fun _ => 0⟩).vec k = clip1 (-1) 1 ((⟨[1, 2], fun _ => 0⟩ : Arr).vec k) from Arr.vec_of _ _ hk]
    simp [Arr.vec, clip1]
  have hrep' : Reports h 1 0 1 2 (fun _ _ => 1) := by
    refine reports_of_rep hr hy (v := fun _ => ⟨[1, 2], fun _ => 0⟩) (fun _ => hv) hm (fun _ => hl) ⟨(0 : Fin 1), rfl⟩
      (d := some (.dense 1 2 fun i j => if (mapVal (clip1 (-1) 1) ⟨[1, 2], fun _ => 0⟩).vec (i * 2 + j) ≠ -1 ∧
        (mapVal (clip1 (-1) 1) ⟨[1, 2], fun _ => 0⟩).vec (i * 2 + j) ≠ 1 then 1 else 0)) ?_ (by
        refine ⟨rfl, rfl, fun i hi j hj => ?_⟩
        dsimp only; rw [e0 _ (by omega)]; norm_num)
    rw [namesOf_one hy]; erw [env_one]
    exact ⟨0, by simp only [lib, chClip]; rw [if_pos (by simp)]; simp only [runBody, h1, h2]; rfl⟩
  obtain ⟨f1, h1⟩ := hrep hl
  obtain ⟨f2, h2⟩ := hrep'
  obtain ⟨o, ho, hE⟩ := h1 _ (Nat.le_max_left f1 f2)
  obtain ⟨o', ho', hE'⟩ := h2 _ (Nat.le_max_right f1 f2)
  rw [ho] at ho'
  cases ho'
  cases o with
  | none => have := hE' 0 (by decide) 0 (by decide); norm_num at this
  | some d =>
    have := (Jac.rep_dims hE hE').1
    simp [Arr.size] at this

/-! ## C38 -/

section
variable {h : Heap ClassDef Par Arr Jac} {y a b : Id} {u v : Arr} {o : List ℕ}

open Classical in
/-- The matrix C38 describes: entry `(k, p)` is 1 if position `p` of the operand is the one used for entry `k` of the
result and attains it, and 0 otherwise. -/
noncomputable def attains (u out : Arr) : Ent := fun k p => if Under u.shape out.shape k p ∧ u.vec p = out.vec k then 1 else 0

theorem attains_eq {u out : Arr} (hf : Fits u.shape.reverse out.shape.reverse) {c : ℕ → ℝ}
    (hc : ∀ k < out.size, c k = by classical exact if u.vec (bidx u.shape out.shape k) = out.vec k then 1 else 0) :
    Ent.EqOn out.size u.size (selMat (bidx u.shape out.shape) c) (attains u out) := by
  intro k hk p _
  have hu := under_of_fits hf hk
  unfold selMat attains
  by_cases e : bidx u.shape out.shape k = p
  · subst e
    rw [if_pos rfl, hc k hk]
    congr 1
    exact propext ⟨fun h => ⟨hu, h⟩, fun h => h.2⟩
  · rw [if_neg e, if_neg (fun h => e (hu.unique h.1))]

/-- What C38 says of `y = f(a, b)`. -/
def ExtremumSpec (f : ℝ → ℝ → ℝ) (h : Heap ClassDef Par Arr Jac) (y a b : Id) (u v : Arr) : Prop :=
  ∃ out, BcastResult f u v out ∧ (∃ f₀, ∀ f ≥ f₀, (read lib f (.r y) h).2 = .ok out) ∧
    (IsLeaf h.graph a → IsLeaf h.graph b →
      Reports h y a out.size u.size (attains u out) ∧ Reports h y b out.size v.size (attains v out)) ∧
    ((∀ k < out.size, ∀ p q, Under u.shape out.shape k p → Under v.shape out.shape k q → u.vec p ≠ v.vec q) → Right h y out)

theorem extremum_spec {f : ℝ → ℝ → ℝ} (hf : ∀ a b, f a b = f a (b - f 1 (-1)) ↔ a = f a b) (hsym : ∀ a b, f a b = f b a)
    (hex : ∀ (tm : Name → Option Par) {u v : Arr} {o : List ℕ}, bshape u.shape v.shape = some o →
      (∀ k < o.prod, u.vec (bidx u.shape o k) ≠ v.vec (bidx v.shape o k)) →
      ∃ P, Exact (chExtremum f) tm [nmA, nmB] ![u, v] (bcastVal f u v o) P)
    (hr : Reach lib ⟨False, True⟩ h) (hy : IsA h.graph y (chExtremum f) [nmA, nmB] ![a, b])
    (hu : Means lib h.graph (.r a) (.ok u)) (hv : Means lib h.graph (.r b) (.ok v)) (ho : Broadcasts u.shape v.shape o) :
    ExtremumSpec f h y a b u v := by
  have ho := (bshape_spec _ _ _).2 ho
  obtain ⟨ft1, ft2⟩ := bshape_fits ho
  have hm : Means lib h.graph (.r y) (.ok (bcastVal f u v o)) :=
    means_of_isA hy (kids2 hu hv) (by erw [env_two]; exact returns_bcast rfl _ ho)
  have ev : ∀ k < o.prod, (bcastVal f u v o).vec k = f (u.vec (bidx u.shape o k)) (v.vec (bidx v.shape o k)) :=
    fun k hk => Arr.vec_of _ _ hk
  refine ⟨_, bcastVal_result ho, read_of_means hr hm, fun la lb => ?_, fun hne => ?_⟩
  · have hA : ∀ S : List Name, nmA ∈ S → (h.graph y).namesOf a = S → Reports h y a o.prod u.size (attains u (bcastVal f u v o)) := by
      intro S hS e
      obtain ⟨d, h1, h2⟩ := dr_extremum (f := f) (h.graph y).terms ho (S := S) (Or.inl hS)
      simp only [hS, if_true] at h2
      refine reports_of_rep hr hy (kids2 hu hv) hm (leaves2 la lb) (w := a) ⟨(0 : Fin 2), rfl⟩ (d := some d) ?_ ?_
      · rw [e]; erw [env_two]; exact h1
      · refine Jac.rep_congr (attains_eq (out := bcastVal f u v o) ft1 fun k hk => ?_) h2
        simp only [hf]
        rw [ev k hk]
        congr
    have hB : ∀ S : List Name, nmA ∉ S → nmB ∈ S → (h.graph y).namesOf b = S → Reports h y b o.prod v.size (attains v (bcastVal f u v o)) := by
      intro S hS hS' e
      obtain ⟨d, h1, h2⟩ := dr_extremum (f := f) (h.graph y).terms ho (S := S) (Or.inr hS')
      simp only [hS, if_false] at h2
      refine reports_of_rep hr hy (kids2 hu hv) hm (leaves2 la lb) (w := b) ⟨(1 : Fin 2), rfl⟩ (d := some d) ?_ ?_
      · rw [e]; erw [env_two]; exact h1
      · refine Jac.rep_congr (attains_eq (out := bcastVal f u v o) ft2 fun k hk => ?_) h2
        rw [ev k hk, hsym (u.vec _)]
        simp only [hf]
        congr
    by_cases hab : a = b
    · subst hab
      have := hu.unique hv
      injection this with this
      subst this
      have hA := hA [nmA, nmB] (by simp) (namesOf_same hy)
      exact ⟨hA, hA⟩
    · exact ⟨hA [nmA] (by simp) (namesOf_left hy hab), hB [nmB] (by simp) (by simp) (namesOf_right hy hab)⟩
  · obtain ⟨P, hE⟩ := hex (h.graph y).terms ho (fun k hk => hne k hk _ _ (under_of_fits ft1 hk) (under_of_fits ft2 hk))
    exact right_of_exact hr hy (kids2 hu hv) hE

/-- C38 for `maximum(a, b)`: the value is the broadcast maximum; asked about an operand, the object reports 1 at exactly
the operand's entries that attain the maximum (both operands' where they tie, also when they are the same object); and
where there are no ties this is the derivative. -/
theorem C38_maximum (hr : Reach lib ⟨False, True⟩ h) (hy : IsA h.graph y chMaximum [nmA, nmB] ![a, b])
    (hu : Means lib h.graph (.r a) (.ok u)) (hv : Means lib h.graph (.r b) (.ok v)) (ho : Broadcasts u.shape v.shape o) :
    ExtremumSpec max h y a b u v :=
  extremum_spec (fun a b => by rw [max_sel]; exact ⟨fun h => (max_eq_left h).symm, fun h => h ▸ le_max_right a b⟩) max_comm
    (fun tm _ _ _ h1 h2 => ⟨_, exact_maximum tm h1 h2⟩) hr hy hu hv ho

/-- C38 for `minimum(a, b)`. -/
theorem C38_minimum (hr : Reach lib ⟨False, True⟩ h) (hy : IsA h.graph y chMinimum [nmA, nmB] ![a, b])
    (hu : Means lib h.graph (.r a) (.ok u)) (hv : Means lib h.graph (.r b) (.ok v)) (ho : Broadcasts u.shape v.shape o) :
    ExtremumSpec min h y a b u v :=
  extremum_spec (fun a b => by rw [min_sel]; exact ⟨fun h => (min_eq_left h).symm, fun h => h ▸ min_le_right a b⟩) min_comm
    (fun tm _ _ _ h1 h2 => ⟨_, exact_minimum tm h1 h2⟩) hr hy hu hv ho
end

/-! ## C58 -/

/-- The functions of one argument of C58, with their jumps. -/
inductive StepFunction : ClassDef → (ℝ → ℝ) → (ℝ → Prop) → Prop
  | floor : StepFunction chFloor (fun x => (⌊x⌋ : ℝ)) fun x => ∃ n : ℤ, x = n
  | ceil : StepFunction chCeil (fun x => (⌈x⌉ : ℝ)) fun x => ∃ n : ℤ, x = n
  | sign : StepFunction chSign (fun x => if 0 < x then 1 else if x < 0 then -1 else 0) fun x => x = 0

theorem StepFunction.deriv {c : ClassDef} {f : ℝ → ℝ} {jump : ℝ → Prop} (h : StepFunction c f jump) :
    c = chSimpleton f ∧ ∀ x, ¬ jump x → HasDerivAt f 0 x := by
  cases h with
  | floor =>
    refine ⟨rfl, fun x hx => ?_⟩
    have h1 : (⌊x⌋ : ℝ) < x := lt_of_le_of_ne (Int.floor_le x) fun e => hx ⟨_, e.symm⟩
    refine (hasDerivAt_const x (⌊x⌋ : ℝ)).congr_of_eventuallyEq ?_
    filter_upwards [lt_mem_nhds h1, gt_mem_nhds (Int.lt_floor_add_one x)] with z h2 h3
    congr 1
    exact Int.floor_eq_iff.2 ⟨h2.le, h3⟩
  | ceil =>
    refine ⟨rfl, fun x hx => ?_⟩
    have h1 : x < (⌈x⌉ : ℝ) := lt_of_le_of_ne (Int.le_ceil x) fun e => hx ⟨_, e⟩
    have h0 : (⌈x⌉ : ℝ) - 1 < x := by linarith [Int.ceil_lt_add_one x]
    refine (hasDerivAt_const x (⌈x⌉ : ℝ)).congr_of_eventuallyEq ?_
    filter_upwards [lt_mem_nhds h0, gt_mem_nhds h1] with z h2 h3
    congr 1
    exact Int.ceil_eq_iff.2 ⟨h2, h3.le⟩
  | sign =>
    refine ⟨rfl, fun x hx => ?_⟩
    rcases lt_or_gt_of_ne hx with a | a
    · refine (hasDerivAt_const x (-1 : ℝ)).congr_of_eventuallyEq ?_
      filter_upwards [gt_mem_nhds a] with z hz
      rw [if_neg (not_lt.2 hz.le), if_pos hz]
    · refine (hasDerivAt_const x (1 : ℝ)).congr_of_eventuallyEq ?_
      filter_upwards [lt_mem_nhds a] with z hz
      rw [if_pos hz]

/-- The comparisons. -/
inductive Comparison : ClassDef → (ℝ → ℝ → Prop) → Prop
  | greater : Comparison (chCompare fun x y => x > y) fun x y => x > y
  | greaterEqual : Comparison (chCompare fun x y => x ≥ y) fun x y => x ≥ y
  | less : Comparison (chCompare fun x y => x < y) fun x y => x < y
  | lessEqual : Comparison (chCompare fun x y => x ≤ y) fun x y => x ≤ y
  | equal : Comparison (chCompare fun x y => x = y) fun x y => x = y
  | notEqual : Comparison (chCompare fun x y => x ≠ y) fun x y => x ≠ y

open Classical in
/-- The truth value of a relation as a number. -/
noncomputable def truth (p : ℝ → ℝ → Prop) (x y : ℝ) : ℝ := if p x y then 1 else 0

theorem compare_r (p : ℝ → ℝ → Prop) [DecidableRel p] : (chCompare p).r = bcastBody (truth p) := by
  have : (fun x y => if p x y then (1 : ℝ) else 0) = truth p := by
    funext x y; unfold truth; congr
  rw [← this]; rfl

theorem Comparison.body {c : ClassDef} {p : ℝ → ℝ → Prop} (h : Comparison c p) :
    c.r = bcastBody (truth p) ∧ (∀ b S, c.dr b S = .ret none) ∧
      ∀ x y, x ≠ y → ∀ᶠ z : ℝ × ℝ in 𝓝 (x, y), truth p z.1 z.2 = truth p x y := by
  have near : ∀ x y : ℝ, x < y → ∀ᶠ z : ℝ × ℝ in 𝓝 (x, y), z.1 < z.2 := fun x y h =>
    (isOpen_lt continuous_fst continuous_snd).mem_nhds (show (x, y) ∈ {z : ℝ × ℝ | z.1 < z.2} from h)
  have near' : ∀ x y : ℝ, y < x → ∀ᶠ z : ℝ × ℝ in 𝓝 (x, y), z.2 < z.1 := fun x y h =>
    (isOpen_lt continuous_snd continuous_fst).mem_nhds (show (x, y) ∈ {z : ℝ × ℝ | z.2 < z.1} from h)
  cases h <;> (
    refine ⟨?_, fun _ _ => rfl, ?_⟩
    · exact compare_r _
    · intro x y hxy
      rcases lt_or_gt_of_ne hxy with a | a
      · filter_upwards [near x y a] with z hz
        unfold truth
        congr 1
        simp [a.ne, hz.ne, a, hz, a.le, hz.le, not_lt.2 a.le, not_lt.2 hz.le, not_le.2 a, not_le.2 hz]
      · filter_upwards [near' x y a] with z hz
        unfold truth
        congr 1
        simp [a.ne', hz.ne', a, hz, a.le, hz.le, not_lt.2 a.le, not_lt.2 hz.le, not_le.2 a, not_le.2 hz])

section
variable {h : Heap ClassDef Par Arr Jac} {y a b : Id} {u v : Arr} {o : List ℕ}

/-- C58 for `floor`, `ceil`, `sign`: the value is right, `dr_wrt` reports zero, and away from the jumps that is the
derivative. -/
theorem C58_steps {c : ClassDef} {f : ℝ → ℝ} {jump : ℝ → Prop} (hc : StepFunction c f jump)
    (hr : Reach lib ⟨False, True⟩ h) (hy : IsA h.graph y c [nmA] fun _ => a) (hv : Means lib h.graph (.r a) (.ok v)) :
    ∃ out, MapResult f v out ∧ (∃ f₀, ∀ f ≥ f₀, (read lib f (.r y) h).2 = .ok out) ∧
      (IsLeaf h.graph a → Reports h y a out.size v.size fun _ _ => 0) ∧
      ((∀ k < v.size, ¬ jump (v.vec k)) → Right h y out) := by
  obtain ⟨rfl, hd⟩ := hc.deriv
  have hm : Means lib h.graph (.r y) (.ok (mapVal f v)) := means_of_isA hy (v := fun _ => v) (fun _ => hv) (by
    erw [env_one]; exact ⟨0, by simp [lib, chSimpleton, runBody, env1, mapVal]⟩)
  refine ⟨_, mapVal_result f v, read_of_means hr hm, fun hl => ?_, fun hj => ?_⟩
  · exact reports_of_rep hr hy (v := fun _ => v) (fun _ => hv) hm (fun _ => hl) (w := a) ⟨(0 : Fin 1), rfl⟩ (d := none)
      ⟨0, by simp [lib, chSimpleton, runBody]⟩ (fun _ _ _ _ => rfl)
  · exact right_of_exact hr hy (fun _ => hv) (exact_simpleton _ fun k hk => hd _ (hj k hk))

/-- C58 for the comparisons: the value is the truth value entry by entry under broadcasting, `dr_wrt` reports zero, and
where no two entries compared are equal that is the derivative. -/
theorem C58_comparisons {c : ClassDef} {p : ℝ → ℝ → Prop} (hc : Comparison c p)
    (hr : Reach lib ⟨False, True⟩ h) (hy : IsA h.graph y c [nmA, nmB] ![a, b])
    (hu : Means lib h.graph (.r a) (.ok u)) (hv : Means lib h.graph (.r b) (.ok v)) (ho : Broadcasts u.shape v.shape o) :
    ∃ out, BcastResult (truth p) u v out ∧ (∃ f₀, ∀ f ≥ f₀, (read lib f (.r y) h).2 = .ok out) ∧
      (IsLeaf h.graph a → IsLeaf h.graph b → Reports h y a out.size u.size (fun _ _ => 0) ∧ Reports h y b out.size v.size (fun _ _ => 0)) ∧
      ((∀ k < out.size, ∀ i j, Under u.shape out.shape k i → Under v.shape out.shape k j → u.vec i ≠ v.vec j) → Right h y out) := by
  have ho := (bshape_spec _ _ _).2 ho
  obtain ⟨ft1, ft2⟩ := bshape_fits ho
  obtain ⟨hcr, hcd, hloc⟩ := hc.body
  have hm : Means lib h.graph (.r y) (.ok (bcastVal (truth p) u v o)) :=
    means_of_isA hy (kids2 hu hv) (by erw [env_two]; exact returns_bcast hcr _ ho)
  have hdr : ∀ (env : Name → Option Arr) out S, ReturnsDr lib c (h.graph y).terms env out S none := fun _ _ S =>
    ⟨0, by simp only [lib]; rw [hcd]; rfl⟩
  refine ⟨_, bcastVal_result ho, read_of_means hr hm, fun la lb => ⟨?_, ?_⟩, fun hne => ?_⟩
  · exact reports_of_rep hr hy (kids2 hu hv) hm (leaves2 la lb) (w := a) ⟨(0 : Fin 2), rfl⟩ (d := none) (hdr _ _ _) (fun _ _ _ _ => rfl)
  · exact reports_of_rep hr hy (kids2 hu hv) hm (leaves2 la lb) (w := b) ⟨(1 : Fin 2), rfl⟩ (d := none) (hdr _ _ _) (fun _ _ _ _ => rfl)
  · have hz : ∀ (m n : ℕ) (σ : ℕ → ℕ), num.RepO none m n (selMat σ fun _ => 0) := fun m n σ i _ j _ => by simp [selMat]
    refine right_of_exact hr hy (kids2 hu hv) (exact_bcast hcr _ ho (fun _ => 0) (fun _ => 0) ?_ ⟨none, hdr _ _ _, hz _ _ _⟩ ⟨none, hdr _ _ _, hz _ _ _⟩
      fun _ => ⟨none, hdr _ _ _, fun i _ j _ => by simp [selMat]⟩)
    intro k hk
    have := hloc _ _ (hne k hk _ _ (under_of_fits ft1 hk) (under_of_fits ft2 hk))
    refine ((hasFDerivAt_const (truth p (u.vec (bidx u.shape o k)) (v.vec (bidx v.shape o k))) _).congr_of_eventuallyEq this).congr_fderiv ?_
    simp
end

/-- The hypotheses of C58 are met. -/
example : ∃ h, Reach lib ⟨False, True⟩ h ∧ IsA h.graph 1 chFloor [nmA] (fun _ => 0) ∧
    Means lib h.graph (.r 0) (.ok ⟨[2, 3], fun _ => 1 / 2⟩) ∧ IsLeaf h.graph 0 := ADDemo.unary_reach rfl _ (by simp)
end Chumpy
