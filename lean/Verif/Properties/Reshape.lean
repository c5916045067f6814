import Verif.Properties.Indexing
import Verif.AD.Atleast
/-!
# C27: reshape and its relatives
-/
namespace Chumpy
open scoped BigOperators Topology

/-- The same entries in the same (C) order, in another shape. -/
def SameFlat (v out : Arr) : Prop := out.size = v.size ∧ ∀ k < v.size, out.vec k = v.vec k

/-- The shape asked for: `sh` with at most one -1, which stands for whatever makes the number of entries right. -/
def ShapeAsked (n : ℕ) (sh : List ℤ) (o : List ℕ) : Prop :=
  o.length = sh.length ∧ o.prod = n ∧ ∀ t < sh.length, sh.getD t 0 = o.getD t 0 ∨ sh.getD t 0 = -1

/-- The loop of `reshape()` (reordering.py:182-184): from `a` to the first object that is not a `Reshape`. -/
inductive ReshapeArg (g : Graph ClassDef Par) : Id → Id → Prop
  | done {a : Id} : (g a).cls ≠ chReshape → ReshapeArg g a a
  | step {a c b : Id} : (g a).cls = chReshape → (g a).dterms nmA = some c → ReshapeArg g c b → ReshapeArg g a b

/-- `np.squeeze(a, axis).shape` (reordering.py:342): axes of length 1 removed, all or the given one. -/
def squeezeShape (sh : List ℕ) : Option ℤ → Option (List ℕ)
  | none => some (sh.filter fun n => n ≠ 1)
  | some z => (normAxis sh.length z).bind fun i => if sh.getD i 0 = 1 then some (sh.eraseIdx i) else none

/-- `np.expand_dims(a, axis).shape` (reordering.py:348): a new axis at the given place of the result. -/
def expandShape (sh : List ℕ) (z : ℤ) : Option (List ℕ) := (normAxis (sh.length + 1) z).map fun i => sh.insertIdx i 1

theorem fillShape_asked {n : ℕ} {sh : List ℤ} {o : List ℕ} (h : fillShape n sh = some o) : ShapeAsked n sh o := by
  have key : ∀ (m : ℕ), (∀ z ∈ sh, z = -1 ∨ 0 ≤ z) → o = (sh.map fun z => if z = -1 then m else z.toNat) → ShapeAsked n sh o := by
    intro m hz ho
    refine ⟨by rw [ho]; simp, fillShape_prod h, fun t ht => ?_⟩
    rw [ho, List.getD_eq_getElem _ _ ht, List.getD_eq_getElem _ _ (by simpa using ht), List.getElem_map]
    rcases hz _ (List.getElem_mem ht) with e | e
    · right; exact e
    · left; rw [if_neg (by omega)]; omega
  have h' := h
  unfold fillShape at h
  dsimp only at h
  split at h
  · split at h
    · next h1 =>
      refine key 0 (fun z hz => Or.inr (h1.2 z hz)) ?_
      cases h
      refine List.map_congr_left fun z hz => ?_
      have := h1.2 z hz
      rw [if_neg (by omega)]
    · cases h
  · split at h
    · next h1 =>
      refine key _ (fun z hz => ?_) (by cases h; rfl)
      have := h1.2.1 z hz
      omega
    · cases h

/-- Shapes with no -1 are accepted if the number of entries is right. -/
theorem fillShape_nat {n : ℕ} {sh : List ℕ} (h : sh.prod = n) : fillShape n (sh.map fun (k : ℕ) => (k : ℤ)) = some sh := by
  have h1 : (sh.map fun (k : ℕ) => (k : ℤ)).filter (fun z => z = -1) = [] := by
    rw [List.filter_eq_nil_iff]
    intro z hz
    rw [List.mem_map] at hz
    obtain ⟨k, _, rfl⟩ := hz
    simp
  have h2 : (sh.map fun (k : ℕ) => (k : ℤ)).filter (fun z => z ≠ -1) = sh.map fun (k : ℕ) => (k : ℤ) := by
    rw [List.filter_eq_self]
    intro z hz
    rw [List.mem_map] at hz
    obtain ⟨k, _, rfl⟩ := hz
    simp
  have h3 : (sh.map fun (k : ℕ) => (k : ℤ)).map Int.toNat = sh := by
    rw [List.map_map]
    exact (List.map_congr_left fun k _ => by simp).trans (List.map_id _)
  unfold fillShape
  dsimp only
  rw [h1, h2, h3]
  rw [if_pos (show ([] : List ℤ).length = 0 from rfl), if_pos]
  refine ⟨h, fun z hz => ?_⟩
  rw [List.mem_map] at hz
  obtain ⟨k, _, rfl⟩ := hz
  simp

/-- `(-1,)`, the shape `ravel` asks for. -/
theorem fillShape_flat (n : ℕ) : fillShape n [-1] = some [n] := by
  simp [fillShape, Nat.mod_one]

theorem squeezeShape_prod {sh o : List ℕ} {ax : Option ℤ} (h : squeezeShape sh ax = some o) : o.prod = sh.prod := by
  cases ax with
  | none =>
    simp only [squeezeShape, Option.some.injEq] at h
    subst h
    induction sh with
    | nil => rfl
    | cons n sh ih =>
      by_cases hn : n = 1
      · simp [hn] at ih ⊢; exact ih
      · simp [hn] at ih ⊢; rw [ih]; simp
  | some z =>
    simp only [squeezeShape, Option.bind_eq_some_iff] at h
    obtain ⟨i, hi, h⟩ := h
    have hil := normAxis_lt hi
    split at h
    · next h1 =>
      cases h
      rw [List.getD_eq_getElem _ _ hil] at h1
      have := List.Perm.prod_eq (List.getElem_cons_eraseIdx_perm hil)
      rw [List.prod_cons, h1, one_mul] at this
      exact this
    · cases h

theorem expandShape_prod {sh o : List ℕ} {z : ℤ} (h : expandShape sh z = some o) : o.prod = sh.prod := by
  simp only [expandShape, Option.map_eq_some_iff] at h
  obtain ⟨i, hi, rfl⟩ := h
  have := normAxis_lt hi
  rw [List.Perm.prod_eq (List.perm_insertIdx 1 sh (by omega)), List.prod_cons, one_mul]

section
variable {h : Heap ClassDef Par Arr Jac} {y a b : Id} {v : Arr} {sh : List ℤ} {o : List ℕ}

theorem sameFlat_reshape (ho : o.prod = v.size) : SameFlat v (Arr.of o v.vec).atleast1 := by
  refine ⟨by rw [Arr.atleast1_size]; exact ho, fun k hk => ?_⟩
  rw [Arr.atleast1_vec, Arr.vec_of _ _ (by rw [ho]; exact hk)]

/-- C27 for `Reshape` objects: the shape is the one asked for (at least one axis), the flat data are unchanged, the derivative is
right, and asked about a plain `Ch` the object reports the identity.  The missing part of C27 is `atleast_nd`, whose reported derivative
is a number: `C27_full_refuted`. -/
theorem C27_reshape_partial (hr : Reach lib ⟨False, True⟩ h) (hy : IsA h.graph y chReshape [nmA] fun _ => a)
    (hv : Means lib h.graph (.r a) (.ok v)) (hp : (h.graph y).terms nmP = some (.ints sh)) (ho : fillShape v.size sh = some o) :
    ∃ out, ShapeAsked v.size sh o ∧ out.shape = (if o = [] then [1] else o) ∧ SameFlat v out ∧ Right h y out ∧
      (IsLeaf h.graph a → Reports h y a v.size v.size Ent.one) := by
  have hE := exact_reshape (tm := (h.graph y).terms) hp ho
  refine ⟨_, fillShape_asked ho, rfl, sameFlat_reshape (fillShape_prod ho), right_of_exact hr hy (fun _ => hv) hE, fun hl => ?_⟩
  have hm := means_of_isA hy (v := fun _ => v) (fun _ => hv) hE.val
  refine reports_of_rep hr hy (v := fun _ => v) (fun _ => hv) hm (fun _ => hl) ⟨(0 : Fin 1), rfl⟩
    (d := some (.sparse v.size v.size fun i j => if i = j then 1 else 0)) ?_ (by exact ⟨rfl, rfl, fun _ _ _ _ => rfl⟩)
  rw [namesOf_one hy]; erw [env_one]
  exact ⟨0, by simp [lib, chReshape, runBody, env1]⟩

/-- The object a chain of reshapes starts from has the same flat data. -/
theorem reshapeArg_value (hab : ReshapeArg h.graph a b) (hv : Means lib h.graph (.r a) (.ok v)) :
    ∃ u, Means lib h.graph (.r b) (.ok u) ∧ SameFlat u v := by
  induction hab generalizing v with
  | done _ => exact ⟨v, hv, rfl, fun _ _ => rfl⟩
  | @step a c b hcls hc _ ih =>
    obtain ⟨_, f, hf⟩ := hv
    cases f with
    | zero => cases hf
    | succ f =>
      have hf' : evalProg h.graph (evalReq lib h.graph f) a chReshape.r = .ok v := by
        have : evalProg h.graph (evalReq lib h.graph f) a (lib.computeR (h.graph a).cls) = .ok v := hf
        rwa [hcls] at this
      simp only [chReshape, evalProg, hc] at hf'
      cases hu : evalReq lib h.graph f (.r c) with
      | error e => rw [hu] at hf'; cases hf'
      | ok u =>
        rw [hu] at hf'
        obtain ⟨w, hw, h1⟩ := ih ⟨by simp, f, hu⟩
        refine ⟨w, hw, ?_⟩
        have h2 : SameFlat u v := by
          dsimp only at hf'
          split at hf'
          · split at hf'
            · next ho => cases hf'; exact sameFlat_reshape (fillShape_prod ho)
            · cases hf'
          · cases hf'
        exact ⟨h2.1.trans h1.1, fun k hk => (h2.2 k (by rw [h1.1]; exact hk)).trans (h1.2 k hk)⟩

theorem ReshapeArg.not_reshape {g : Graph ClassDef Par} {a b : Id} (h : ReshapeArg g a b) : (g b).cls ≠ chReshape := by
  induction h with
  | done h => exact h
  | step _ _ _ ih => exact ih

/-- C27, chains collapse: `reshape(a, newshape)` makes a `Reshape` object `y` of the object `b` a chain of reshapes ending in `a` starts
from; `b` is no reshape, and the value is the same as if `a` itself had been reshaped. -/
theorem C27_reshape_collapses_partial (hr : Reach lib ⟨False, True⟩ h) (hab : ReshapeArg h.graph a b)
    (hy : IsA h.graph y chReshape [nmA] fun _ => b) (hv : Means lib h.graph (.r a) (.ok v))
    (hp : (h.graph y).terms nmP = some (.ints sh)) (ho : fillShape v.size sh = some o) :
    (h.graph b).cls ≠ chReshape ∧ ∃ out, ShapeAsked v.size sh o ∧ out.shape = (if o = [] then [1] else o) ∧ SameFlat v out ∧ Right h y out := by
  obtain ⟨u, hu, h1⟩ := reshapeArg_value hab hv
  rw [h1.1] at ho
  obtain ⟨out, h2, h3, h4, h5, _⟩ := C27_reshape_partial hr hy hu hp ho
  rw [← h1.1] at h2
  refine ⟨hab.not_reshape, out, h2, h3, ⟨h4.1.trans h1.1.symm, fun k hk => ?_⟩, h5⟩
  rw [h4.2 k (by rw [← h1.1]; exact hk), h1.2 k (by rw [← h1.1]; exact hk)]

/-- C27 for `ravel`: one axis. -/
theorem C27_ravel_partial (hr : Reach lib ⟨False, True⟩ h) (hab : ReshapeArg h.graph a b)
    (hy : IsA h.graph y chReshape [nmA] fun _ => b) (hv : Means lib h.graph (.r a) (.ok v))
    (hp : (h.graph y).terms nmP = some (.ints [-1])) : ∃ out, out.shape = [v.size] ∧ SameFlat v out ∧ Right h y out := by
  obtain ⟨_, out, _, h2, h3, h4⟩ := C27_reshape_collapses_partial hr hab hy hv hp (fillShape_flat v.size)
  exact ⟨out, h2, h3, h4⟩

/-- C27 for `squeeze`: axes of length 1 go. -/
theorem C27_squeeze_partial {ax : Option ℤ} (hr : Reach lib ⟨False, True⟩ h) (hab : ReshapeArg h.graph a b)
    (hy : IsA h.graph y chReshape [nmA] fun _ => b) (hv : Means lib h.graph (.r a) (.ok v)) (hs : squeezeShape v.shape ax = some o)
    (hp : (h.graph y).terms nmP = some (.ints (o.map fun (k : ℕ) => (k : ℤ)))) :
    ∃ out, out.shape = (if o = [] then [1] else o) ∧ SameFlat v out ∧ Right h y out := by
  obtain ⟨_, out, _, h2, h3, h4⟩ := C27_reshape_collapses_partial hr hab hy hv hp (fillShape_nat (n := v.size) (squeezeShape_prod hs))
  exact ⟨out, h2, h3, h4⟩

/-- C27 for `expand_dims`: a new axis of length 1. -/
theorem C27_expand_dims_partial {z : ℤ} (hr : Reach lib ⟨False, True⟩ h) (hab : ReshapeArg h.graph a b)
    (hy : IsA h.graph y chReshape [nmA] fun _ => b) (hv : Means lib h.graph (.r a) (.ok v)) (hs : expandShape v.shape z = some o)
    (hp : (h.graph y).terms nmP = some (.ints (o.map fun (k : ℕ) => (k : ℤ)))) :
    ∃ out, out.shape = o ∧ SameFlat v out ∧ Right h y out := by
  obtain ⟨_, out, _, h2, h3, h4⟩ := C27_reshape_collapses_partial hr hab hy hv hp (fillShape_nat (n := v.size) (expandShape_prod hs))
  refine ⟨out, ?_, h3, h4⟩
  rw [h2, if_neg]
  rintro rfl
  simp only [expandShape, Option.map_eq_some_iff] at hs
  obtain ⟨i, hi, e⟩ := hs
  have h5 := congrArg List.length e
  have h6 := normAxis_lt hi
  rw [List.length_insertIdx, if_pos (by omega)] at h5
  simp at h5

/-- What numpy's documentation says of the shapes `atleast_1d`, `atleast_2d` and `atleast_3d` give: enough axes are left alone; a number
gets axes of length 1; a vector becomes one row, or in three dimensions the middle axis; a matrix gets a third axis. -/
inductive AtleastDoc : ℕ → List ℕ → List ℕ → Prop
  | enough {d : ℕ} {sh : List ℕ} : d ≤ sh.length → AtleastDoc d sh sh
  | number {d : ℕ} : AtleastDoc d [] (List.replicate d 1)
  | row {n : ℕ} : AtleastDoc 2 [n] [1, n]
  | middle {n : ℕ} : AtleastDoc 3 [n] [1, n, 1]
  | matrix {m n : ℕ} : AtleastDoc 3 [m, n] [m, n, 1]

theorem atleastShape_doc {d : ℕ} (hd : d = 1 ∨ d = 2 ∨ d = 3) (sh : List ℕ) : AtleastDoc d sh (atleastShape d sh) := by
  rcases hd with rfl | rfl | rfl
  · rcases sh with _ | ⟨a, t⟩
    · exact .number
    · exact .enough (by simp)
  · rcases sh with _ | ⟨a, _ | ⟨b, t⟩⟩
    · exact .number
    · exact .row
    · exact .enough (by simp)
  · rcases sh with _ | ⟨a, _ | ⟨b, _ | ⟨c, t⟩⟩⟩
    · exact .number
    · exact .middle
    · exact .matrix
    · exact .enough (by simp)

/-- C27 for `atleast_1d`, `atleast_2d`, `atleast_3d`: the value.  The derivative is reported as the number 1. -/
theorem C27_atleast_value_partial {d : ℕ} (hr : Reach lib ⟨False, True⟩ h) (hy : IsA h.graph y chAtleast [nmA] fun _ => a)
    (hv : Means lib h.graph (.r a) (.ok v)) (hd : d = 1 ∨ d = 2 ∨ d = 3) (hp : (h.graph y).terms nmNdims = some (.nat d)) :
    ∃ out, AtleastDoc d v.shape out.shape ∧ d ≤ out.shape.length ∧ SameFlat v out ∧ (∃ f₀, ∀ f ≥ f₀, (read lib f (.r y) h).2 = .ok out) ∧
      (IsLeaf h.graph a → Reports h y a 1 1 fun _ _ => 1) := by
  have hR : Returns lib chAtleast (h.graph y).terms (env1 v) (Arr.of (atleastShape d v.shape) v.vec) :=
    ⟨0, by simp [lib, chAtleast, runBody, env1, hp, hd]⟩
  have hm : Means lib h.graph (.r y) (.ok (Arr.of (atleastShape d v.shape) v.vec)) :=
    means_of_isA hy (v := fun _ => v) (fun _ => hv) (by erw [env_one]; exact hR)
  refine ⟨_, atleastShape_doc hd v.shape, ?_, ⟨?_, fun k hk => ?_⟩, read_of_means hr hm, fun hl => ?_⟩
  · show d ≤ (atleastShape d v.shape).length
    generalize v.shape = sh
    rcases hd with rfl | rfl | rfl <;> rcases sh with _ | ⟨_, _ | ⟨_, _ | ⟨_, _⟩⟩⟩ <;> simp [atleastShape]
  · exact atleastShape_prod d v.shape
  · exact Arr.vec_of _ _ (by rw [atleastShape_prod]; exact hk)
  · obtain ⟨f₀, hf⟩ := drWrt_leaf_kids hr hy (v := fun _ => v) (fun _ => hv) hm (fun _ => hl) ⟨(0 : Fin 1), rfl⟩ (d := some (.num 1)) (by
      rw [namesOf_one hy]
      exact ⟨0, by simp [lib, chAtleast, runBody]⟩)
    exact ⟨f₀, fun f hle => ⟨_, hf f hle, num.outForm _ _ (num.finish (show Jac.Rep (.num 1) 1 1 fun _ _ => 1 from ⟨rfl, rfl, rfl⟩))⟩⟩
end

/-- C27 in full: `Reshape` and `AtleastNd` objects keep the flat data and report the identity. -/
def C27_full : Prop :=
  ∀ (h : Heap ClassDef Par Arr Jac) (y a : Id) (v out : Arr) (c : ClassDef), c = chReshape ∨ c = chAtleast → Reach lib ⟨False, True⟩ h →
    IsA h.graph y c [nmA] (fun _ => a) → IsLeaf h.graph a → Means lib h.graph (.r a) (.ok v) → Means lib h.graph (.r y) (.ok out) →
    SameFlat v out ∧ Reports h y a v.size v.size Ent.one

namespace ADDemo
/-- `atleast_nd(a)` for a given array. -/
noncomputable def atleasted (v : Arr) (d : ℕ) : List (ObjSpec ClassDef Par) :=
  [leafO v, ⟨chAtleast, [nmA], [.term nmNdims (.nat d), .link nmA 0]⟩]

theorem atleasted_reach (v : Arr) (hv : v.shape ≠ []) (d : ℕ) :
    ∃ h, Reach lib ⟨False, True⟩ h ∧ IsA h.graph 1 chAtleast [nmA] (fun _ => 0) ∧ (h.graph 1).terms nmNdims = some (.nat d) ∧
      Means lib h.graph (.r 0) (.ok v) ∧ IsLeaf h.graph 0 := by
  have hok : WellBuilt lib (atleasted v d) := by
    refine OkFrom.wellBuilt ⟨leafO_ok _ _, ⟨?_, by simp, rfl⟩, trivial⟩ rfl
    intro kw hm
    simp only [List.mem_cons, List.not_mem_nil, or_false] at hm
    rcases hm with rfl | rfl
    · trivial
    · exact ⟨by simp, by decide⟩
  obtain ⟨h, hr, hg⟩ := hok.reach ⟨False, True⟩
  refine ⟨h, hr, ?_, by rw [hg]; rfl, by rw [hg]; exact (leaf_means rfl hv).1, by rw [hg]; exact isLeaf_leafO rfl⟩
  rw [hg]
  refine ⟨rfl, rfl, by simp, ?_⟩
  intro j
  have : j = 0 := Fin.eq_zero j
  subst this; rfl

/-- The hypotheses of C27 are met: a 2×6 array reshaped to 3×-1. -/
example : ∃ h, Reach lib ⟨False, True⟩ h ∧ IsA h.graph 1 chReshape [nmA] (fun _ => 0) ∧
      Means lib h.graph (.r 0) (.ok ⟨[2, 6], fun k => k.1⟩) ∧ IsLeaf h.graph 0 ∧
      (h.graph 1).terms nmP = some (.ints [3, -1]) ∧ (h.graph 1).terms nmQ = some .none := reordered_reach _ _ (by simp) _ _
example : fillShape 12 [3, -1] = some [3, 4] := by decide
example : squeezeShape [1, 3, 1] none = some [3] := by decide
example : squeezeShape [1, 3, 1] (some (-1)) = some [1, 3] := by decide
example : expandShape [2, 3] (-1) = some [2, 3, 1] := by decide

/-- Three reshapes in a row: the loop goes from the last to the array. -/
example : ∃ h, Reach lib ⟨False, True⟩ h ∧ ReshapeArg h.graph 2 0 ∧ IsA h.graph 3 chReshape [nmA] fun _ => 0 := by
  have hg := build_graph (s := lib) [leafO ⟨[2, 6], fun k => k.1⟩, ⟨chReshape, [nmA], [.term nmP (.ints [12]), .link nmA 0]⟩,
      ⟨chReshape, [nmA], [.term nmP (.ints [3, 4]), .link nmA 1]⟩, ⟨chReshape, [nmA], [.term nmP (.ints [4, 3]), .link nmA 0]⟩] (by
    intro i o ho kw hkw
    match i, ho with
    | 0, ho => cases ho; simp [leafO] at hkw; subst hkw; trivial
    | 1, ho => cases ho; simp at hkw; rcases hkw with rfl | rfl; exacts [trivial, ⟨by simp, by decide⟩]
    | 2, ho => cases ho; simp at hkw; rcases hkw with rfl | rfl; exacts [trivial, ⟨by simp, by decide⟩]
    | 3, ho => cases ho; simp at hkw; rcases hkw with rfl | rfl; exacts [trivial, ⟨by simp, by decide⟩])
  refine ⟨_, build_reach (s := lib) ⟨False, True⟩ [leafO ⟨[2, 6], fun k => k.1⟩, ⟨chReshape, [nmA], [.term nmP (.ints [12]), .link nmA 0]⟩,
      ⟨chReshape, [nmA], [.term nmP (.ints [3, 4]), .link nmA 1]⟩, ⟨chReshape, [nmA], [.term nmP (.ints [4, 3]), .link nmA 0]⟩] ?_, ?_⟩
  rotate_left
  · rw [hg]
    refine ⟨.step (c := 1) rfl rfl (.step (c := 0) rfl rfl (.done ?_)), rfl, rfl, by simp, ?_⟩
    · intro e
      have : chLeaf.permute = chReshape.permute := congrArg ClassDef.permute e
      cases this
    · intro j
      have : j = 0 := Fin.eq_zero j
      subst this; rfl
  · intro o ho _ k hk
    simp at ho
    rcases ho with rfl | rfl | rfl | rfl
    · cases hk
    all_goals simpa using hk
end ADDemo

open ADDemo in
/-- C27 in full is false: `atleast_2d` of a vector with 2 entries reports the number 1. -/
theorem C27_full_refuted : ¬ C27_full := by
  intro hall
  obtain ⟨h, hr, hy, hp, hv, hl⟩ := atleasted_reach ⟨[2], fun _ => 0⟩ (by simp) 2
  obtain ⟨out, _, _, _, hread, hd⟩ := C27_atleast_value_partial hr hy hv (Or.inr (Or.inl rfl)) hp
  have hR : Returns lib chAtleast (h.graph 1).terms (env1 ⟨[2], fun _ => 0⟩) (Arr.of (atleastShape 2 [2]) (Arr.vec ⟨[2], fun _ => 0⟩)) :=
    ⟨0, by simp [lib, chAtleast, runBody, env1, hp]⟩
  have hm := means_of_isA hy (v := fun _ => ⟨[2], fun _ => 0⟩) (fun _ => hv) (by erw [env_one]; exact hR)
  have h1 := (reports_unique (hall h 1 0 _ _ _ (Or.inr rfl) hr hy hl hv hm).2 (hd hl) ⟨0, by simp, 0, by simp, by simp⟩).1
  simp [Arr.size] at h1
end Chumpy
