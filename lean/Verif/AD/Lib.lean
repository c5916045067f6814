import Verif.AD.Jac
import Verif.AD.Chain
/-!
# Arrays, class definitions and the signature they form

The library's classes are values of `ClassDef`: their `compute_r`, `compute_dr_wrt` and `@depends_on`
properties as bodies over arrays of reals.
-/
namespace Chumpy
open scoped BigOperators Topology

/-- An array: a shape and the entries in C order. -/
@[ext] structure Arr where
  shape : List ℕ
  data : Fin shape.prod → ℝ

namespace Arr
/-- `.size`. -/
abbrev size (v : Arr) : ℕ := v.shape.prod
/-- The `k`-th entry in C order (`.ravel()[k]`), 0 beyond the end. -/
noncomputable def vec (v : Arr) (k : ℕ) : ℝ := if h : k < v.shape.prod then v.data ⟨k, h⟩ else 0
/-- The array of the same shape with other entries. -/
def put (v : Arr) (x : Fin v.size → ℝ) : Arr := ⟨v.shape, x⟩
/-- The array of a shape whose `k`-th entry is `e k`. -/
def of (sh : List ℕ) (e : ℕ → ℝ) : Arr := ⟨sh, fun k => e k⟩

theorem vec_of (sh : List ℕ) (e : ℕ → ℝ) {k : ℕ} (h : k < sh.prod) : (of sh e).vec k = e k := by
  simp [vec, of, h]

theorem vec_put (v : Arr) (x : Fin v.size → ℝ) (k : Fin v.size) : (v.put x).vec k = x k := by
  have : (k : ℕ) < v.shape.prod := k.2
  simp [vec, put, this]

theorem put_vec (v : Arr) : v.put (fun k => v.vec k) = v := by
  ext1
  · rfl
  · refine heq_of_eq (funext fun k => ?_)
    have : (k : ℕ) < v.shape.prod := k.2
    simp [vec, put, this]

theorem of_congr {sh : List ℕ} {e e' : ℕ → ℝ} (h : ∀ k < sh.prod, e k = e' k) : of sh e = of sh e' := by
  unfold of; congr 1; exact funext fun k => h k k.2

theorem of_vec (v : Arr) : of v.shape v.vec = v := put_vec v

theorem ext_vec {u v : Arr} (hs : u.shape = v.shape) (h : ∀ k < u.size, u.vec k = v.vec k) : u = v := by
  rw [← of_vec u, ← of_vec v, hs]
  exact of_congr fun k hk => h k (by unfold size; rw [hs]; exact hk)
end Arr

/-- Values of non-differentiable terms. -/
inductive Par where
  | arr (v : Arr)
  | nat (n : ℕ)
  | int (z : ℤ)
  | nats (l : List ℕ)
  | ints (l : List ℤ)
  | real (x : ℝ)
  | none

/-- A class: `compute_r`, `compute_dr_wrt`, properties, and whether it derives from `Permute` or is `Ch`
itself; `compute_dr_wrt` answers `None` about an object that is neither the object itself nor one of its
terms, and properties read only what they declare. -/
structure ClassDef where
  r : Prog Par Arr Arr
  dr : Bool → List Name → Prog Par Arr (Option Jac)
  prop : Name → Option (List Name × Prog Par Arr Arr) := fun _ => Option.none
  permute : Bool := false
  isBase : Bool := false
  dr_none : dr false [] = .ret Option.none
  prop_ok : ∀ p d, prop p = some d → d.2.Only (fun q => (prop q).map (·.1)) d.1 := by intro p d h; cases h

/-- Attribute names used by several classes. -/
abbrev nmX : Name := 0
abbrev nmA : Name := 1
abbrev nmB : Name := 2

/-- `np.atleast_1d`. -/
noncomputable def Arr.atleast1 (v : Arr) : Arr := Arr.of (if v.shape = [] then [1] else v.shape) v.vec

/-- `Ch` itself (ch.py:271-280): the value is the array given, made at least one-dimensional (ch.py:598); the derivative
wrt itself is the identity. -/
noncomputable def chLeaf : ClassDef where
  r := .term nmX fun
    | some (.arr v) => .ret v.atleast1
    | _ => .raise 1
  dr := fun
    | true, _ => .selfR fun v => .ret (some (.sparse v.size v.size Ent.one))
    | false, _ => .ret Option.none
  isBase := true
  dr_none := rfl

/-- The signature of the library. -/
@[reducible] noncomputable def lib : Sig ClassDef Par Arr Jac where
  computeR := ClassDef.r
  computeDr := ClassDef.dr
  propDecl := ClassDef.prop
  isPermute := ClassDef.permute
  permArg := nmA
  isBase := ClassDef.isBase
  base := chLeaf
  xname := nmX
  superdot := Jac.superdot
  add := Jac.add
  transp := Jac.transp
  finish := Jac.finish
  todense := Jac.todense
  outForm := Jac.outForm

theorem lib_localDr : lib.LocalDr := fun c => c.dr_none
theorem lib_propsOk : lib.PropsOk := fun c p d h => c.prop_ok p d h

/-- What arrays and Jacobian values stand for. -/
@[reducible] noncomputable def num : Num lib where
  size := Arr.size
  vec := Arr.vec
  put := Arr.put
  Rep := Jac.Rep
  size_put := fun _ _ => rfl
  vec_put := Arr.vec_put
  put_self := Arr.put_vec
  put_put := fun _ _ _ => rfl
  rep_congr := fun h hr => Jac.rep_congr h hr
  superdot := by
    intro d e x m n p A B hd he hx
    obtain ⟨x', h1, h2⟩ := Jac.superdot_rep hd he
    rw [show lib.superdot d e = Jac.superdot d e from rfl, h1] at hx
    cases hx; exact h2
  add := fun hd he hx => Jac.add_rep hd he hx
  transp := fun h => Jac.transp_rep h
  finish := fun h => Jac.finish_rep h
  outForm := fun a b h => Jac.outForm_rep a b h

/-! ## Classes with one or two children -/

/-- The only child is `a`. -/
def env1 (v : Arr) : Name → Option Arr := fun k => if k = nmA then some v else Option.none
/-- The children are `a` and `b`. -/
def env2 (u v : Arr) : Name → Option Arr := fun k => if k = nmA then some u else if k = nmB then some v else Option.none

theorem envOf_one (k₀ : Name) (v : Fin [k₀].length → Arr) (u : (a : Fin [k₀].length) → Fin (num.size (v a)) → ℝ) :
    envOf num [k₀] v u = fun k => if k = k₀ then some ((v 0).put (u 0)) else Option.none := by
  funext k
  by_cases h : k = k₀
  · subst h
    have := envOf_get (N := num) (ns := [k]) (by simp) v u 0
    rw [if_pos rfl]; exact this
  · rw [if_neg h]
    exact envOf_not v u (by simpa using h)

theorem envOf_two {k₀ k₁ : Name} (hk : k₀ ≠ k₁) (v : Fin [k₀, k₁].length → Arr)
    (u : (a : Fin [k₀, k₁].length) → Fin (num.size (v a)) → ℝ) :
    envOf num [k₀, k₁] v u =
      fun k => if k = k₀ then some ((v 0).put (u 0)) else if k = k₁ then some ((v 1).put (u 1)) else Option.none := by
  funext k
  by_cases h : k = k₀
  · subst h
    have := envOf_get (N := num) (ns := [k, k₁]) (by simp [hk]) v u 0
    rw [if_pos rfl]; exact this
  · rw [if_neg h]
    by_cases h1 : k = k₁
    · subst h1
      have := envOf_get (N := num) (ns := [k₀, k]) (by simp [hk]) v u 1
      rw [if_pos rfl]; exact this
    · rw [if_neg h1]
      exact envOf_not v u (by simp [h, h1])

theorem ReturnsDr.unique {C T V D : Type} {s : Sig C T V D} {c : C} {tm : Name → Option T} {ρ : Name → Option V} {out : V}
    {ns : List Name} {d d' : Option D} (h : ReturnsDr s c tm ρ out ns d) (h' : ReturnsDr s c tm ρ out ns d') : d = d' := by
  obtain ⟨f, hf⟩ := h
  obtain ⟨f', hf'⟩ := h'
  have h1 := runBody_mono (runProp_le s c tm ρ (.ok out) (Nat.le_max_left f f')) _ _ hf
  have h2 := runBody_mono (runProp_le s c tm ρ (.ok out) (Nat.le_max_right f f')) _ _ hf'
  rw [h1] at h2; cases h2; rfl

/-- The class of an object whose parameters are `tm` and whose children, named `ns`, have the values `v`, is
right at that point:
* its value is `out`, and stays an array of the same shape when the children's entries vary a little, its
  entries being a differentiable function of theirs with partial derivatives `P`;
* asked about an object stored under the names `S`, `compute_dr_wrt` returns (it does not raise) the sum of
  the partials for those names, `None` only if that sum is zero. -/
structure Exact (c : ClassDef) (tm : Name → Option Par) (ns : List Name) (v : Fin ns.length → Arr) (out : Arr)
    (P : Fin ns.length → Ent) : Prop where
  val : Returns lib c tm (envOf num ns v (fun a => num.fn (v a).size (v a))) out
  body : ∃ F : ((a : Fin ns.length) → Fin (v a).size → ℝ) → Fin out.size → ℝ,
    (∀ᶠ u in 𝓝 (fun a => num.fn (v a).size (v a)), Returns lib c tm (envOf num ns v u) (out.put (F u))) ∧
    HasFDerivAt F (∑ a, (Ent.lin out.size (v a).size (P a)).comp (ContinuousLinearMap.proj a))
      (fun a => num.fn (v a).size (v a))
  dr : ∀ (S : List Name) (x : Arr), S ≠ [] → S.Sublist ns → (∀ a, ns.get a ∈ S → v a = x) →
    ∃ d, ReturnsDr lib c tm (envOf num ns v (fun a => num.fn (v a).size (v a))) out S d ∧
      num.RepO d out.size x.size (∑ a with ns.get a ∈ S, P a)

/-- The same, when only the children `A` vary, and `compute_dr_wrt` is asked only about names holding the same object; `I` are
the identities of the children. -/
structure ExactOn (c : ClassDef) (tm : Name → Option Par) (ns : List Name) (v : Fin ns.length → Arr) (out : Arr)
    (A : Fin ns.length → Prop) (I : Fin ns.length → Id) (P : Fin ns.length → Ent) : Prop where
  val : Returns lib c tm (envOf num ns v (fun a => num.fn (v a).size (v a))) out
  body : ∃ F : ((a : Fin ns.length) → Fin (v a).size → ℝ) → Fin out.size → ℝ,
    (∀ᶠ u in 𝓝[Moving A fun a => num.fn (v a).size (v a)] (fun a => num.fn (v a).size (v a)),
      Returns lib c tm (envOf num ns v u) (out.put (F u))) ∧
    HasFDerivWithinAt F (∑ a, (Ent.lin out.size (v a).size (P a)).comp (ContinuousLinearMap.proj a))
      (Moving A fun a => num.fn (v a).size (v a)) (fun a => num.fn (v a).size (v a))
  dr : ∀ (S : List Name) (x : Arr), S ≠ [] → S.Sublist ns → (∀ a, ns.get a ∈ S → v a = x ∧ A a) →
    (∀ a b, ns.get a ∈ S → ns.get b ∈ S → I a = I b) →
    ∃ d, ReturnsDr lib c tm (envOf num ns v (fun a => num.fn (v a).size (v a))) out S d ∧
      num.RepO d out.size x.size (∑ a with ns.get a ∈ S, P a)

theorem Exact.on {c : ClassDef} {tm : Name → Option Par} {ns : List Name} {v : Fin ns.length → Arr} {out : Arr}
    {P : Fin ns.length → Ent} (h : Exact c tm ns v out P) (A : Fin ns.length → Prop)
    (I : Fin ns.length → Id) : ExactOn c tm ns v out A I P where
  val := h.val
  body := by
    obtain ⟨F, h1, h2⟩ := h.body
    exact ⟨F, h1.filter_mono nhdsWithin_le_nhds, h2.hasFDerivWithinAt⟩
  dr := fun S x h1 h2 h3 _ => h.dr S x h1 h2 fun a ha => (h3 a ha).1

theorem ExactOn.trueJacobians {c : ClassDef} {tm : Name → Option Par} {ns : List Name} {v : Fin ns.length → Arr} {out : Arr}
    {A : Fin ns.length → Prop} {I : Fin ns.length → Id} {P : Fin ns.length → Ent} (h : ExactOn c tm ns v out A I P) :
    TrueJacobians num c tm ns v out A I P where
  body := h.body
  dr := by
    intro S x d h1 h2 h3 h4 hd
    obtain ⟨d', hd', hr⟩ := h.dr S x h1 h2 h3 h4
    rw [hd.unique hd']; exact hr

theorem fn_eq (v : Arr) : num.fn v.size v = v.data := by
  funext k
  have : (k : ℕ) < v.shape.prod := k.2
  show v.vec k = _
  simp [Arr.vec, this]

theorem put_fn (v : Arr) : v.put (num.fn v.size v) = v := Arr.put_vec v

theorem exact_one {c : ClassDef} {tm : Name → Option Par} {v out : Arr} {P : Ent}
    (hv : Returns lib c tm (env1 v) out) (F : (Fin v.size → ℝ) → Fin out.size → ℝ)
    (hr : ∀ᶠ u in 𝓝 (num.fn v.size v), Returns lib c tm (env1 (v.put u)) (out.put (F u)))
    (hF : HasFDerivAt F (Ent.lin out.size v.size P) (num.fn v.size v))
    (hd : ∃ d, ReturnsDr lib c tm (env1 v) out [nmA] d ∧ num.RepO d out.size v.size P) :
    Exact c tm [nmA] (fun _ => v) out (fun _ => P) where
  val := by rw [envOf_one, put_fn]; exact hv
  body := by
    refine ⟨fun u => F (u 0), ?_, ?_⟩
    · have hc : Filter.Tendsto (fun u : (a : Fin [nmA].length) → Fin v.size → ℝ => u 0)
          (𝓝 (fun _ => num.fn v.size v)) (𝓝 (num.fn v.size v)) := (continuous_apply 0).continuousAt
      filter_upwards [hc.eventually hr] with u hu
      rw [envOf_one]
      exact hu
    · have h := HasFDerivAt.comp (fun _ : Fin [nmA].length => num.fn v.size v)
        (f := fun u : (a : Fin [nmA].length) → Fin v.size → ℝ => u 0) hF
        (ContinuousLinearMap.proj (R := ℝ) (φ := fun _ : Fin [nmA].length => Fin v.size → ℝ) (0 : Fin [nmA].length)).hasFDerivAt
      refine h.congr_fderiv ?_
      simp
  dr := by
    intro S x h1 h2 h3
    have hS : S = [nmA] := by
      cases h2 with
      | cons _ h => cases h; exact absurd rfl h1
      | cons_cons _ h => cases h; rfl
    subst hS
    have hx : v = x := h3 0 (by simp)
    subst hx
    obtain ⟨d, h4, h5⟩ := hd
    refine ⟨d, ?_, ?_⟩
    · rw [envOf_one, put_fn]; exact h4
    · simpa using h5

/-- A class with two children of which only the first varies. -/
theorem exactOn_left {c : ClassDef} {tm : Name → Option Par} {v w out : Arr} {P : Ent}
    (hv : Returns lib c tm (env2 v w) out) (F : (Fin v.size → ℝ) → Fin out.size → ℝ)
    (hr : ∀ᶠ u in 𝓝 (num.fn v.size v), Returns lib c tm (env2 (v.put u) w) (out.put (F u)))
    (hF : HasFDerivAt F (Ent.lin out.size v.size P) (num.fn v.size v))
    (ha : ∃ d, ReturnsDr lib c tm (env2 v w) out [nmA] d ∧ num.RepO d out.size v.size P)
    {A : Fin [nmA, nmB].length → Prop} (hA : ¬ A (1 : Fin 2)) (I : Fin [nmA, nmB].length → Id) :
    ExactOn c tm [nmA, nmB] ![v, w] out A I ![P, 0] := by
  have henv : envOf num [nmA, nmB] ![v, w] (fun a => num.fn ((![v, w] : Fin 2 → Arr) a).size ((![v, w] : Fin 2 → Arr) a)) = env2 v w := by
    rw [envOf_two (by decide)]
    show (fun k => if k = nmA then some (v.put (num.fn v.size v)) else if k = nmB then some (w.put (num.fn w.size w)) else Option.none) = _
    rw [put_fn, put_fn]; rfl
  refine ⟨by erw [henv]; exact hv, ?_, ?_⟩
  · let pr : ((a : Fin [nmA, nmB].length) → Fin ((![v, w] : Fin 2 → Arr) a).size → ℝ) →L[ℝ] (Fin v.size → ℝ) :=
      ContinuousLinearMap.proj (R := ℝ) (φ := fun a : Fin 2 => Fin ((![v, w] : Fin 2 → Arr) a).size → ℝ) (0 : Fin 2)
    refine ⟨fun u => F (u (0 : Fin 2)), ?_, ?_⟩
    · have hc : Filter.Tendsto pr (𝓝 (fun a => num.fn _ ((![v, w] : Fin 2 → Arr) a))) (𝓝 (num.fn v.size v)) :=
        pr.continuous.continuousAt
      refine Filter.mp_mem self_mem_nhdsWithin ?_
      filter_upwards [Filter.Eventually.filter_mono nhdsWithin_le_nhds (hc.eventually hr)] with u hu hm
      have h1 : u (1 : Fin 2) = num.fn w.size w := hm (1 : Fin 2) hA
      rw [envOf_two (by decide)]
      show Returns lib c tm (fun k => if k = nmA then some (v.put (u (0 : Fin 2))) else
        if k = nmB then some (w.put (u (1 : Fin 2))) else Option.none) _
      have h2 : w.put (u (1 : Fin 2)) = w := by rw [h1]; exact put_fn w
      rw [h2]
      exact hu
    · have h := HasFDerivAt.comp (fun a => num.fn _ ((![v, w] : Fin 2 → Arr) a)) (f := pr) hF pr.hasFDerivAt
      refine (h.congr_fderiv ?_).hasFDerivWithinAt
      erw [Fin.sum_univ_two]
      refine ContinuousLinearMap.ext fun x => funext fun j => ?_
      have hz : ∀ z : Fin w.size → ℝ, Ent.lin out.size w.size (0 : Ent) z j = 0 := fun z => by
        rw [Ent.lin_apply]; simp
      exact ((congrArg (_ + ·) (hz (x (1 : Fin 2)))).trans (add_zero _)).symm
  · intro S x h1 h2 h3 _
    have hS : S = [nmA] := by
      have hb : nmB ∉ S := fun hb => hA (h3 (1 : Fin 2) hb).2
      cases h2 with
      | cons _ h =>
        cases h with
        | cons _ h => cases h; exact absurd rfl h1
        | cons_cons _ h => cases h; exact absurd (by simp) hb
      | cons_cons _ h =>
        cases h with
        | cons _ h => cases h; rfl
        | cons_cons _ h => cases h; exact absurd (by simp) hb
    subst hS
    erw [henv]
    have hx : v = x := (h3 (0 : Fin 2) (by simp)).1
    subst hx
    obtain ⟨d, h4, h5⟩ := ha
    refine ⟨d, h4, ?_⟩
    have : (∑ a : Fin 2 with ([nmA, nmB] : List Name).get a ∈ [nmA], (![P, 0] : Fin 2 → Ent) a) = P := by
      rw [Finset.sum_filter]; exact (Fin.sum_univ_two _).trans (by simp)
    erw [this]; exact h5

theorem exact_two {c : ClassDef} {tm : Name → Option Par} {v w out : Arr} {P Q : Ent}
    (hv : Returns lib c tm (env2 v w) out) (F : (Fin v.size → ℝ) → (Fin w.size → ℝ) → Fin out.size → ℝ)
    (hr : ∀ᶠ p in 𝓝 (num.fn v.size v, num.fn w.size w), Returns lib c tm (env2 (v.put p.1) (w.put p.2)) (out.put (F p.1 p.2)))
    (hF : HasFDerivAt (fun p : (Fin v.size → ℝ) × (Fin w.size → ℝ) => F p.1 p.2)
      ((Ent.lin out.size v.size P).comp (ContinuousLinearMap.fst ℝ _ _) + (Ent.lin out.size w.size Q).comp (ContinuousLinearMap.snd ℝ _ _))
      (num.fn v.size v, num.fn w.size w))
    (ha : ∃ d, ReturnsDr lib c tm (env2 v w) out [nmA] d ∧ num.RepO d out.size v.size P)
    (hb : ∃ d, ReturnsDr lib c tm (env2 v w) out [nmB] d ∧ num.RepO d out.size w.size Q)
    (hab : v = w → ∃ d, ReturnsDr lib c tm (env2 v w) out [nmA, nmB] d ∧ num.RepO d out.size v.size (P + Q)) :
    Exact c tm [nmA, nmB] ![v, w] out ![P, Q] where
  val := by
    have henv : envOf num [nmA, nmB] ![v, w] (fun a => num.fn ((![v, w] : Fin 2 → Arr) a).size ((![v, w] : Fin 2 → Arr) a)) = env2 v w := by
      rw [envOf_two (by decide)]
      show (fun k => if k = nmA then some (v.put (num.fn v.size v)) else if k = nmB then some (w.put (num.fn w.size w)) else Option.none) = _
      rw [put_fn, put_fn]; rfl
    erw [henv]; exact hv
  body := by
    let pr : ((a : Fin [nmA, nmB].length) → Fin ((![v, w] : Fin 2 → Arr) a).size → ℝ) →L[ℝ] (Fin v.size → ℝ) × (Fin w.size → ℝ) :=
      (ContinuousLinearMap.proj (R := ℝ) (φ := fun a : Fin 2 => Fin ((![v, w] : Fin 2 → Arr) a).size → ℝ) (0 : Fin 2)).prod
        (ContinuousLinearMap.proj (R := ℝ) (φ := fun a : Fin 2 => Fin ((![v, w] : Fin 2 → Arr) a).size → ℝ) (1 : Fin 2))
    refine ⟨fun u => F (u 0) (u 1), ?_, ?_⟩
    · have hc : Filter.Tendsto pr (𝓝 (fun a => num.fn _ ((![v, w] : Fin 2 → Arr) a))) (𝓝 (num.fn v.size v, num.fn w.size w)) :=
        pr.continuous.continuousAt
      filter_upwards [hc.eventually hr] with u hu
      rw [envOf_two (by decide)]
      exact hu
    · have h := HasFDerivAt.comp (fun a => num.fn _ ((![v, w] : Fin 2 → Arr) a)) (f := pr) hF pr.hasFDerivAt
      refine h.congr_fderiv ?_
      erw [Fin.sum_univ_two]
      rfl
  dr := by
    intro S x h1 h2 h3
    have hS : S = [nmA] ∨ S = [nmB] ∨ S = [nmA, nmB] := by
      cases h2 with
      | cons _ h =>
        cases h with
        | cons _ h => cases h; exact absurd rfl h1
        | cons_cons _ h => cases h; exact Or.inr (Or.inl rfl)
      | cons_cons _ h =>
        cases h with
        | cons _ h => cases h; exact Or.inl rfl
        | cons_cons _ h => cases h; exact Or.inr (Or.inr rfl)
    have henv : envOf num [nmA, nmB] ![v, w] (fun a => num.fn ((![v, w] : Fin 2 → Arr) a).size ((![v, w] : Fin 2 → Arr) a)) = env2 v w := by
      rw [envOf_two (by decide)]
      show (fun k => if k = nmA then some (v.put (num.fn v.size v)) else if k = nmB then some (w.put (num.fn w.size w)) else Option.none) = _
      rw [put_fn, put_fn]; rfl
    erw [henv]
    rcases hS with rfl | rfl | rfl
    · have hx : v = x := h3 0 (by simp)
      subst hx
      obtain ⟨d, h4, h5⟩ := ha
      refine ⟨d, h4, ?_⟩
      have : (∑ a : Fin 2 with ([nmA, nmB] : List Name).get a ∈ [nmA], (![P, Q] : Fin 2 → Ent) a) = P := by
        rw [Finset.sum_filter]; exact (Fin.sum_univ_two _).trans (by simp)
      erw [this]; exact h5
    · have hx : w = x := h3 1 (by simp)
      subst hx
      obtain ⟨d, h4, h5⟩ := hb
      refine ⟨d, h4, ?_⟩
      have : (∑ a : Fin 2 with ([nmA, nmB] : List Name).get a ∈ [nmB], (![P, Q] : Fin 2 → Ent) a) = Q := by
        rw [Finset.sum_filter]; exact (Fin.sum_univ_two _).trans (by simp)
      erw [this]; exact h5
    · have hx : v = x := h3 0 (by simp)
      have hy : w = x := h3 1 (by simp)
      subst hx
      obtain ⟨d, h4, h5⟩ := hab hy.symm
      refine ⟨d, h4, ?_⟩
      have : (∑ a : Fin 2 with ([nmA, nmB] : List Name).get a ∈ [nmA, nmB], (![P, Q] : Fin 2 → Ent) a) = P + Q := by
        rw [Finset.sum_filter]; exact (Fin.sum_univ_two _).trans (by simp)
      erw [this]; exact h5
end Chumpy
