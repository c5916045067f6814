import Verif.AD.Wrong
import Verif.Properties.Reorder
/-!
# C25: what the reordering classes get wrong, and states meeting the hypotheses of `Verif/Properties/Reorder.lean`
-/
namespace Chumpy
open scoped BigOperators Topology

section
variable {h : Heap ClassDef Par Arr Jac} {y a : Id} {v : Arr} {ρ : Option Par → Option Par → Arr → Option Layout} {L L' : Layout}

theorem returns_reorder {tm : Name → Option Par} (hL : ρ (tm nmP) (tm nmQ) v = some L) :
    Returns lib (chReorder ρ) tm (env1 v) (L.apply v).atleast1 := ⟨0, by simp [lib, chReorder, runBody, env1, hL]⟩

theorem means_reorder (hy : IsA h.graph y (chReorder ρ) [nmA] fun _ => a) (hv : Means lib h.graph (.r a) (.ok v))
    (hL : ρ ((h.graph y).terms nmP) ((h.graph y).terms nmQ) v = some L) : Means lib h.graph (.r y) (.ok (L.apply v).atleast1) :=
  means_of_isA hy (v := fun _ => v) (fun _ => hv) (by erw [env_one]; exact returns_reorder hL)

/-- What reordering classes report of a plain `Ch`: the 0/1 matrix of the reordered positions, zeros put in by the function
counting as position 0. -/
theorem reports_reorder (hr : Reach lib ⟨False, True⟩ h) (hy : IsA h.graph y (chReorder ρ) [nmA] fun _ => a)
    (hv : Means lib h.graph (.r a) (.ok v)) (hl : IsLeaf h.graph a)
    (hL : ρ ((h.graph y).terms nmP) ((h.graph y).terms nmQ) v = some L)
    (hL' : ρ ((h.graph y).terms nmP) ((h.graph y).terms nmQ) (arange v.shape) = some L') (hs : L'.shape = L.shape) :
    Reports h y a (L.apply v).atleast1.size v.size (selMat (fun k => (L'.src k).getD 0) fun _ => 1) := by
  refine reports_of_rep hr hy (v := fun _ => v) (fun _ => hv) (means_reorder hy hv hL) (fun _ => hl) ⟨(0 : Fin 1), rfl⟩
    (d := some (.sparse (L.apply v).atleast1.size v.size (coo L'.shape.prod id (fun k => (L'.src k).getD 0) fun _ => 1))) ?_ ?_
  · rw [namesOf_one hy]; erw [env_one]
    exact ⟨0, by simp [lib, chReorder, runBody, env1, hL']⟩
  · refine ⟨rfl, rfl, ?_⟩
    have : (L.apply v).atleast1.size = L'.shape.prod := by rw [Arr.atleast1_size, hs]; rfl
    rw [this]
    exact coo_rows _ _

/-- The derivative of moving entries about. -/
theorem hasFDerivAt_layout (m n : ℕ) (src : ℕ → Option ℕ) (hsrc : ∀ k < m, ∀ j, src k = some j → j < n) (x : Fin n → ℝ) :
    HasFDerivAt (fun t : Fin n → ℝ => fun k : Fin m => ((src k).map fun j => if hj : j < n then t ⟨j, hj⟩ else 0).getD 0)
      (Ent.lin m n fun k j => if src k = some j then 1 else 0) x := by
  have e : (fun t : Fin n → ℝ => fun k : Fin m => ((src k).map fun j => if hj : j < n then t ⟨j, hj⟩ else 0).getD 0) =
      Ent.lin m n fun k j => if src k = some j then 1 else 0 := by
    funext t k
    rw [Ent.lin_apply]
    cases hk : src k with
    | none => simp
    | some j =>
      have hj := hsrc k k.2 j hk
      simp only [Option.map_some, Option.getD_some, dif_pos hj, Option.some.injEq]
      rw [Finset.sum_eq_single (⟨j, hj⟩ : Fin n)]
      · simp
      · intro b _ hb
        rw [if_neg (fun e => hb (Fin.ext e.symm)), zero_mul]
      · simp
  rw [e]
  exact (Ent.lin m n _).hasFDerivAt

/-- If a reordering class is right then the matrix it reports is that of the positions. -/
theorem wrong_layout (hr : Reach lib ⟨False, True⟩ h) (hy : IsA h.graph y (chReorder ρ) [nmA] fun _ => a)
    (hv : Means lib h.graph (.r a) (.ok v)) (hl : IsLeaf h.graph a)
    (hL : ∀ᶠ t in 𝓝 v.data, ρ ((h.graph y).terms nmP) ((h.graph y).terms nmQ) (v.put t) = some L)
    (hL' : ρ ((h.graph y).terms nmP) ((h.graph y).terms nmQ) (arange v.shape) = some L') (hs : L'.shape = L.shape) (hne : L.shape ≠ [])
    (hsrc : ∀ k < L.shape.prod, ∀ j, L.src k = some j → j < v.size) (hpos : 0 < L.shape.prod) (hj : (L'.src 0).getD 0 < v.size)
    (hR : Right h y (L.apply v).atleast1) :
    ∀ k < L.shape.prod, ∀ j < v.size, (if L.src k = some j then (1 : ℝ) else 0) = if (L'.src k).getD 0 = j then 1 else 0 := by
  have hLv : ρ ((h.graph y).terms nmP) ((h.graph y).terms nmQ) v = some L := hL.self_of_nhds
  have hE := reports_reorder hr hy hv hl hLv hL' hs
  have e : ∀ u, (L.apply u).atleast1 = L.apply u := fun u => atleast1_of_ne hne
  rw [e] at hR hE
  have := right_unique hR hr hy hl hv (M := fun k j => if L.src k = some j then 1 else 0)
    (fun t k => ((L.src k).map fun j => if hj : j < v.size then t ⟨j, hj⟩ else 0).getD 0) (by
    filter_upwards [hL] with t ht
    have := returns_reorder ht
    rw [e] at this
    exact this) (hasFDerivAt_layout L.shape.prod v.size L.src hsrc _) hE ⟨0, hpos, _, hj, by simp [selMat]⟩
  intro k hk j hj
  exact this.2.2 k hk j hj
end

/-! ## Sorting -/

section
variable {h : Heap ClassDef Par Arr Jac} {y a : Id} {v : Arr}

theorem sortρ_id {u : Arr} {n : ℕ} (hs : u.shape = [n]) (hu : ∀ i j, i < j → j < u.size → u.vec i ≤ u.vec j) (p q : Option Par) :
    sortρ p q u = some ⟨[n], fun k => (List.range n)[k]?⟩ := by
  have hn : u.size = n := by simp [Arr.size, hs]
  unfold sortρ
  rw [hs]
  dsimp only
  rw [argsort_id hu, hn]

theorem apply_id {n : ℕ} {u : Arr} (hs : u.shape = [n]) : Layout.apply ⟨[n], fun k => (List.range n)[k]?⟩ u = u := by
  refine Arr.ext_vec hs.symm fun k hk => ?_
  have hk' : k < [n].prod := hk
  unfold Layout.apply
  rw [Arr.vec_of _ _ hk']
  have : k < n := by simpa using hk'
  simp [this]

theorem arange_sorted (sh : List ℕ) (i j : ℕ) (hij : i < j) (hj : j < (arange sh).size) : (arange sh).vec i ≤ (arange sh).vec j := by
  unfold arange
  have hj' : j < sh.prod := hj
  rw [Arr.vec_of _ _ (Nat.lt_trans hij hj'), Arr.vec_of _ _ hj']
  exact_mod_cast hij.le

/-- C25 for `sort`, of vectors whose entries are in (strictly) increasing order: the result is the vector itself and the derivative
right.  Other vectors: the value is right (`C25_sort_value_partial`), the derivative is not (`C25_full_refuted_sort`). -/
theorem C25_sort_partial {n : ℕ} (hr : Reach lib ⟨False, True⟩ h)
    (hy : IsA h.graph y chSort [nmA] fun _ => a) (hv : Means lib h.graph (.r a) (.ok v)) (hs : v.shape = [n])
    (hinc : ∀ i j, i < j → j < v.size → v.vec i < v.vec j) : SortedOf v v ∧ Right h y v := by
  have hn : v.size = n := by simp [Arr.size, hs]
  have hne : v.shape ≠ [] := by simp [hs]
  have key : ∀ u : Arr, u.shape = [n] → (∀ i j, i < j → j < u.size → u.vec i ≤ u.vec j) →
      Returns lib chSort (h.graph y).terms (env1 u) u := by
    intro u hu hi
    have := returns_reorder (ρ := sortρ) (tm := (h.graph y).terms) (sortρ_id hu hi _ _)
    rwa [apply_id hu, atleast1_of_ne (by simp [hu])] at this
  refine ⟨⟨rfl, List.Perm.refl _, fun i j hij hj => ?_⟩, ?_⟩
  · rcases Nat.lt_or_ge i j with h1 | h1
    · exact (hinc i j h1 hj).le
    · rw [Nat.le_antisymm hij h1]
  refine right_of_exact hr hy (v := fun _ => v) (fun _ => hv) (P := fun _ => selMat (fun k => k) fun _ => 1) ?_
  refine exact_one (key v hs fun i j hij hj => (hinc i j hij hj).le) (fun x => x) ?_ ?_ ?_
  · have : ∀ᶠ u in 𝓝 (num.fn v.size v), ∀ p : Fin v.size × Fin v.size, p.1 < p.2 → u p.1 < u p.2 := by
      rw [Filter.eventually_all]
      intro p
      by_cases hp : p.1 < p.2
      · have h1 : num.fn v.size v p.1 < num.fn v.size v p.2 := hinc _ _ hp p.2.2
        filter_upwards [((continuous_apply p.1).continuousAt (x := num.fn v.size v)).eventually_lt
          ((continuous_apply p.2).continuousAt) h1] with u hu _
        exact hu
      · exact Filter.Eventually.of_forall fun u h => absurd h hp
    filter_upwards [this] with u hu
    refine key (v.put u) hs fun i j hij hj => ?_
    have hj' : j < v.size := hj
    rw [Arr.vec_put v u ⟨i, by omega⟩, Arr.vec_put v u ⟨j, hj'⟩]
    exact (hu (⟨i, by omega⟩, ⟨j, hj'⟩) hij).le
  · exact hasFDerivAt_elem₁ (fun _ x => x) (fun _ hk => hk) _ (fun _ => 1) (fun k hk => hasDerivAt_id _)
  · refine ⟨some (.sparse v.size v.size (coo n id (fun k => ((List.range n)[k]?).getD 0) fun _ => 1)), ⟨0, ?_⟩, ?_⟩
    · have hL' := sortρ_id (u := arange v.shape) (n := n) hs (arange_sorted _) ((h.graph y).terms nmP) ((h.graph y).terms nmQ)
      simp [lib, chSort, chReorder, runBody, env1, hL']
    · refine ⟨rfl, rfl, ?_⟩
      rw [hn]
      refine (coo_rows _ _).trans ?_
      exact selMat_congr (fun k hk => by simp [hk]) (fun _ _ => rfl)

/-- The value of `sort` of a vector is the sorted vector. -/
theorem C25_sort_value_partial {n : ℕ} (hr : Reach lib ⟨False, True⟩ h)
    (hy : IsA h.graph y chSort [nmA] fun _ => a) (hv : Means lib h.graph (.r a) (.ok v)) (hs : v.shape = [n]) :
    ∃ out, SortedOf v out ∧ ∃ f₀, ∀ f ≥ f₀, (read lib f (.r y) h).2 = .ok out := by
  obtain ⟨L, h1, h2, h3⟩ := sort_value hs ((h.graph y).terms nmP) ((h.graph y).terms nmQ)
  refine ⟨_, h3, read_of_means hr ?_⟩
  have := means_reorder hy hv h1
  rwa [atleast1_of_ne (by exact h2)] at this

/-- The value of `diag` of a vector is the diagonal matrix; its derivative is wrong (`C25_full_refuted_diag`). -/
theorem C25_diag_value_partial {n : ℕ} {k : ℤ} (hr : Reach lib ⟨False, True⟩ h)
    (hy : IsA h.graph y chDiag [nmA] fun _ => a) (hv : Means lib h.graph (.r a) (.ok v)) (hs : v.shape = [n])
    (hp : (h.graph y).terms nmP = some (.int k)) :
    ∃ out, DiagonalMatrix k v out ∧ ∃ f₀, ∀ f ≥ f₀, (read lib f (.r y) h).2 = .ok out := by
  obtain ⟨L, h1, h2, h3⟩ := diagL_vector n k v (by simp [Arr.size, hs])
  refine ⟨_, h3, read_of_means hr ?_⟩
  have := means_reorder (L := L) hy hv (by simp only [hp, diagρ, hs]; exact h1)
  rwa [atleast1_of_ne (by exact h2)] at this

/-- The value of `diagflat`, likewise. -/
theorem C25_diagflat_value_partial {k : ℤ} (hr : Reach lib ⟨False, True⟩ h)
    (hy : IsA h.graph y chDiagFlat [nmA] fun _ => a) (hv : Means lib h.graph (.r a) (.ok v))
    (hp : (h.graph y).terms nmP = some (.int k)) :
    ∃ out, DiagonalMatrix k v out ∧ ∃ f₀, ∀ f ≥ f₀, (read lib f (.r y) h).2 = .ok out := by
  obtain ⟨L, h1, h2, h3⟩ := diagL_vector v.size k v rfl
  refine ⟨_, h3, read_of_means hr ?_⟩
  have := means_reorder (L := L) hy hv (by simp only [hp, diagflatρ]; exact h1)
  rwa [atleast1_of_ne (by exact h2)] at this
end

namespace ADDemo
/-- A reordering, with the given parameters, of an array. -/
noncomputable def reordered (c : ClassDef) (v : Arr) (ps : List (KW Par)) : List (ObjSpec ClassDef Par) :=
  [leafO v, ⟨c, [nmA], ps ++ [.link nmA 0]⟩]

/-- A state with a reordering of an array. -/
theorem reordered_reach (c : ClassDef) (v : Arr) (hv : v.shape ≠ []) (p q : Par) :
    ∃ h, Reach lib ⟨False, True⟩ h ∧ IsA h.graph 1 c [nmA] (fun _ => 0) ∧ Means lib h.graph (.r 0) (.ok v) ∧ IsLeaf h.graph 0 ∧
      (h.graph 1).terms nmP = some p ∧ (h.graph 1).terms nmQ = some q := by
  have hg := build_graph (s := lib) (reordered c v [.term nmP p, .term nmQ q]) (by
    intro i o ho kw hkw
    match i, ho with
    | 0, ho => cases ho; simp [leafO] at hkw; subst hkw; trivial
    | 1, ho =>
      cases ho
      simp at hkw
      rcases hkw with rfl | rfl | rfl
      · trivial
      · trivial
      · exact ⟨by simp, by decide⟩)
  refine ⟨_, build_reach (s := lib) ⟨False, True⟩ (reordered c v [.term nmP p, .term nmQ q]) ?_, ?_⟩
  · intro o ho _ k hk
    simp [reordered] at ho
    rcases ho with rfl | rfl
    · cases hk
    · simpa using hk
  · rw [hg]
    refine ⟨⟨rfl, rfl, by simp, ?_⟩, (leaf_means rfl hv).1, isLeaf_leafO rfl, rfl, rfl⟩
    intro j
    have : j = 0 := Fin.eq_zero j
    subst this; rfl
end ADDemo

open ADDemo in
/-- C25 in full is false for `diag`: of a vector of two entries, the derivative reported has a 1 for the entry (0, 1) of the
matrix, which is constant. -/
theorem C25_full_refuted_diag : ¬ C25_full := by
  intro hall
  obtain ⟨h, hr, hy, hv, hl, hp, hq⟩ := reordered_reach chDiag ⟨[2], fun k => k.1⟩ (by simp) (.int 0) .none
  have hL : ∀ u : Arr, u.shape = [2] → diagρ ((h.graph 1).terms nmP) ((h.graph 1).terms nmQ) u = some ⟨[2, 2], fun p =>
      if ((p % 2 : ℕ) : ℤ) = (p / 2 : ℕ) + 0 then some (p / 2 - 0) else none⟩ := by
    intro u hu; simp [hp, diagρ, diagL, hu]
  have hR := hall _ .diag h 1 0 _ _ hr hy hv (by
    intro i j hij hj
    have : j < 2 := hj
    rw [show i = 0 by omega, show j = 1 by omega]
    simp [Arr.vec]) (hL _ rfl)
  have := wrong_layout hr hy hv hl (Filter.Eventually.of_forall fun t => hL _ rfl) (hL _ rfl) rfl (by simp) (by
      intro k hk j hj
      have hk' : k < 4 := hk
      show j < 2
      dsimp only at hj
      split at hj
      · cases hj; omega
      · cases hj) (by decide) (by decide) hR 1 (by decide) 0 (by decide)
  simp at this

open ADDemo in
/-- C25 in full is false for `diagflat`, for the same reason. -/
theorem C25_full_refuted_diagflat : ¬ C25_full := by
  intro hall
  obtain ⟨h, hr, hy, hv, hl, hp, hq⟩ := reordered_reach chDiagFlat ⟨[2], fun k => k.1⟩ (by simp) (.int 0) .none
  have hL : ∀ u : Arr, u.shape = [2] → diagflatρ ((h.graph 1).terms nmP) ((h.graph 1).terms nmQ) u = some ⟨[2, 2], fun p =>
      if ((p % 2 : ℕ) : ℤ) = (p / 2 : ℕ) + 0 then some (p / 2 - 0) else none⟩ := by
    intro u hu; simp [hp, diagflatρ, diagL, hu, Arr.size]
  have hR := hall _ .diagflat h 1 0 _ _ hr hy hv (by
    intro i j hij hj
    have : j < 2 := hj
    rw [show i = 0 by omega, show j = 1 by omega]
    simp [Arr.vec]) (hL _ rfl)
  have := wrong_layout hr hy hv hl (Filter.Eventually.of_forall fun t => hL _ rfl) (hL _ rfl) rfl (by simp) (by
      intro k hk j hj
      have hk' : k < 4 := hk
      show j < 2
      dsimp only at hj
      split at hj
      · cases hj; omega
      · cases hj) (by decide) (by decide) hR 1 (by decide) 0 (by decide)
  simp at this

theorem argsort_two {u : Arr} (hs : u.shape = [2]) (h : u.vec 1 < u.vec 0) : argsort u = [1, 0] := by
  have hn : u.size = 2 := by simp [Arr.size, hs]
  unfold argsort
  rw [hn]
  have : List.range 2 = [0, 1] := rfl
  rw [this]
  simp [List.insertionSort, List.orderedInsert, not_le.2 h]

open ADDemo in
/-- C25 in full is false for `sort`: of the vector (1, 0), the derivative reported is the identity, although the entries change
places. -/
theorem C25_full_refuted_sort : ¬ C25_full := by
  intro hall
  obtain ⟨h, hr, hy, hv, hl, hp, hq⟩ := reordered_reach chSort ⟨[2], fun k => 1 - k.1⟩ (by simp) .none .none
  have hL : ∀ u : Arr, u.shape = [2] → u.vec 1 < u.vec 0 →
      sortρ ((h.graph 1).terms nmP) ((h.graph 1).terms nmQ) u = some ⟨[2], fun k => [1, 0][k]?⟩ := by
    intro u hu hlt
    unfold sortρ
    rw [hu]
    dsimp only
    rw [argsort_two hu hlt]
  have hR := hall _ .sort h 1 0 _ _ hr hy hv (by
    intro i j hij hj
    have : j < 2 := hj
    rw [show i = 0 by omega, show j = 1 by omega]
    simp [Arr.vec]) (hL _ rfl (by simp [Arr.vec]))
  have hev : ∀ᶠ t in 𝓝 ((⟨[2], fun k => 1 - k.1⟩ : Arr).data),
      sortρ ((h.graph 1).terms nmP) ((h.graph 1).terms nmQ) ((⟨[2], fun k => 1 - k.1⟩ : Arr).put t) = some ⟨[2], fun k => [1, 0][k]?⟩ := by
    have h1 : (⟨[2], fun k => 1 - k.1⟩ : Arr).data (⟨1, by decide⟩ : Fin 2) < (⟨[2], fun k => 1 - k.1⟩ : Arr).data (⟨0, by decide⟩ : Fin 2) := by
      norm_num
    filter_upwards [((continuous_apply (⟨1, by decide⟩ : Fin 2)).continuousAt (x := (⟨[2], fun k => 1 - k.1⟩ : Arr).data)).eventually_lt
          ((continuous_apply (⟨0, by decide⟩ : Fin 2)).continuousAt) h1] with t ht
    refine hL _ rfl ?_
    have e1 := Arr.vec_put (⟨[2], fun k => 1 - k.1⟩ : Arr) t ⟨1, by decide⟩
    have e0 := Arr.vec_put (⟨[2], fun k => 1 - k.1⟩ : Arr) t ⟨0, by decide⟩
    rw [e1, e0]; exact ht
  have := wrong_layout hr hy hv hl hev (sortρ_id rfl (arange_sorted _) _ _) rfl (by simp) (by
      intro k hk j hj
      have hk' : k < 2 := hk
      show j < 2
      interval_cases k <;> simp at hj <;> omega) (by decide) (by decide) hR 0 (by decide) 0 (by decide)
  simp at this

namespace ADDemo
/-! The hypotheses of the theorems are met. -/

/-- `transpose` of a 2×3×4 array with `axes=(2, 0, -2)`. -/
example : (∃ h, Reach lib ⟨False, True⟩ h ∧ IsA h.graph 1 chTranspose [nmA] (fun _ => 0) ∧
      Means lib h.graph (.r 0) (.ok ⟨[2, 3, 4], fun k => k.1⟩) ∧ IsLeaf h.graph 0 ∧
      (h.graph 1).terms nmP = some (.ints [2, 0, -2]) ∧ (h.graph 1).terms nmQ = some .none) ∧
    List.mapM (normAxis 3) [2, 0, -2] = some [2, 0, 1] ∧ [2, 0, 1].Perm (List.range 3) :=
  ⟨reordered_reach _ _ (by simp) _ _, rfl, by decide⟩

/-- `swapaxes` of a 2×3×4 array with axes 0 and -1. -/
example : (∃ h, Reach lib ⟨False, True⟩ h ∧ IsA h.graph 1 chSwapaxes [nmA] (fun _ => 0) ∧
      Means lib h.graph (.r 0) (.ok ⟨[2, 3, 4], fun k => k.1⟩) ∧ IsLeaf h.graph 0 ∧
      (h.graph 1).terms nmP = some (.int 0) ∧ (h.graph 1).terms nmQ = some (.int (-1))) ∧ normAxis 3 0 = some 0 ∧ normAxis 3 (-1) = some 2 :=
  ⟨reordered_reach _ _ (by simp) _ _, rfl, rfl⟩

/-- `rollaxis` of a 2×3×4 array, axis 0 to the end. -/
example : (∃ h, Reach lib ⟨False, True⟩ h ∧ IsA h.graph 1 chRollaxis [nmA] (fun _ => 0) ∧
      Means lib h.graph (.r 0) (.ok ⟨[2, 3, 4], fun k => k.1⟩) ∧ IsLeaf h.graph 0 ∧
      (h.graph 1).terms nmP = some (.int 0) ∧ (h.graph 1).terms nmQ = some (.int 3)) ∧ normAxis 3 0 = some 0 :=
  ⟨reordered_reach _ _ (by simp) _ _, rfl⟩

/-- `tile`, `repeat`, `roll`, `rot90`, `diag`, `sort` of small arrays. -/
example (c : ClassDef) (p q : Par) : ∃ h, Reach lib ⟨False, True⟩ h ∧ IsA h.graph 1 c [nmA] (fun _ => 0) ∧
      Means lib h.graph (.r 0) (.ok ⟨[2, 3], fun k => k.1⟩) ∧ IsLeaf h.graph 0 ∧
      (h.graph 1).terms nmP = some p ∧ (h.graph 1).terms nmQ = some q := reordered_reach _ _ (by simp) _ _
end ADDemo
end Chumpy
