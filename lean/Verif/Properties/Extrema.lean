import Verif.Properties.Products
/-!
# C37: extrema along an axis
-/
namespace Chumpy
open scoped BigOperators Topology

/-- `x` is the largest (`le` is `≤`) or smallest (`le` is `≥`) of `g 0, …, g (n - 1)`. -/
def BestOf (le : ℝ → ℝ → Prop) (n : ℕ) (g : ℕ → ℝ) (x : ℝ) : Prop := (∃ t < n, g t = x) ∧ ∀ t < n, le (g t) x

/-- `out` is the extremum of `v` along axis `i`. -/
def BestAlong (le : ℝ → ℝ → Prop) (i : ℕ) (v out : Arr) : Prop :=
  out.shape = (if v.shape.eraseIdx i = [] then [1] else v.shape.eraseIdx i) ∧
    ∀ c, InB (v.shape.eraseIdx i) c →
      BestOf le (v.shape.getD i 0) (fun t => v.at (c.insertIdx i t)) (out.vec (ravel (v.shape.eraseIdx i) c))

/-- Each row of `E` is zero but for a 1 at a position along axis `i` that holds the extremum. -/
def SelectsAlong (i : ℕ) (v out : Arr) (E : Ent) : Prop :=
  ∀ c, InB (v.shape.eraseIdx i) c → ∃ t < v.shape.getD i 0, v.at (c.insertIdx i t) = out.vec (ravel (v.shape.eraseIdx i) c) ∧
    ∀ j < v.size, E (ravel (v.shape.eraseIdx i) c) j = if j = ravel v.shape (c.insertIdx i t) then 1 else 0

/-- The extremum is attained once along axis `i`, everywhere. -/
def UniqueAlong (i : ℕ) (v out : Arr) : Prop :=
  ∀ c, InB (v.shape.eraseIdx i) c → ∀ t < v.shape.getD i 0, ∀ t' < v.shape.getD i 0,
    v.at (c.insertIdx i t) = out.vec (ravel (v.shape.eraseIdx i) c) → v.at (c.insertIdx i t') = out.vec (ravel (v.shape.eraseIdx i) c) → t = t'

/-- `le` is the order in which `f` is the upper bound. -/
def OrderOf (f : ℝ → ℝ → ℝ) (le : ℝ → ℝ → Prop) : Prop := ∀ x y, f x y = x ↔ le y x

theorem order_max : OrderOf max (· ≤ ·) := fun _ _ => max_eq_left_iff
theorem order_min : OrderOf min (· ≥ ·) := fun _ _ => min_eq_left_iff

section
variable {h : Heap ClassDef Par Arr Jac} {y a : Id} {v : Arr} {f : ℝ → ℝ → ℝ} {le : ℝ → ℝ → Prop}

theorem best_pick (hf : Extr f) (ho : OrderOf f le) {n : ℕ} (hn : 0 < n) (g : ℕ → ℝ) : BestOf le n g (pickF f n g) :=
  ⟨⟨_, argF_lt hn, argF_pick hf hn⟩, fun _ ht => (ho _ _).1 (pickF_bound hf ht)⟩

theorem aext_axis (hf : Extr f) (ho : OrderOf f le) (hr : Reach lib ⟨False, True⟩ h) (hy : IsA h.graph y (chAExt f) [nmA] fun _ => a)
    (hv : Means lib h.graph (.r a) (.ok v)) {z : ℤ} {i : ℕ} (hp : (h.graph y).terms nmP = some (.int z))
    (hi : normAxis v.shape.length z = some i) (hN : 0 < v.shape.getD i 0) :
    ∃ out, BestAlong le i v out ∧ (∃ f₀, ∀ f ≥ f₀, (read lib f (.r y) h).2 = .ok out) ∧
      (IsLeaf h.graph a → ∃ E, SelectsAlong i v out E ∧ Reports h y a out.size v.size E) ∧
      (UniqueAlong i v out → Right h y out) := by
  have hm := means_of_isA hy (v := fun _ => v) (fun _ => hv) (by erw [env_one]; exact returns_aext_axis (f := f) hp hi hN)
  have hpos : ∀ c, InB (v.shape.eraseIdx i) c → ∀ t, axisPos v.shape i (ravel (v.shape.eraseIdx i) c) t = ravel v.shape (c.insertIdx i t) := by
    intro c hc t; unfold axisPos; rw [unravel_ravel hc]
  have hval : ∀ c, InB (v.shape.eraseIdx i) c →
      (Arr.of (if v.shape.eraseIdx i = [] then [1] else v.shape.eraseIdx i) fun k => pickF f (v.shape.getD i 0) fun t => v.vec (axisPos v.shape i k t)).vec
        (ravel (v.shape.eraseIdx i) c) = pickF f (v.shape.getD i 0) fun t => v.at (c.insertIdx i t) := by
    intro c hc
    rw [Arr.vec_of _ _ (by rw [aext_osh]; exact ravel_lt hc)]
    simp only [hpos c hc]; rfl
  refine ⟨_, ⟨rfl, fun c hc => ?_⟩, read_of_means hr hm, fun hl => ⟨selMat (fun k =>
      axisPos v.shape i k (argF f (v.shape.getD i 0) fun t => v.vec (axisPos v.shape i k t))) fun _ => 1, fun c hc => ?_, ?_⟩, fun huniq => ?_⟩
  · rw [hval c hc]; exact best_pick hf ho hN _
  · refine ⟨argF f (v.shape.getD i 0) fun t => v.at (c.insertIdx i t), argF_lt hN, ?_, fun j _ => ?_⟩
    · rw [hval c hc]; exact argF_pick (g := fun t => v.at (c.insertIdx i t)) hf hN
    · unfold selMat
      simp only [hpos c hc]
      exact if_congr eq_comm rfl rfl
  · refine reports_of_rep hr hy (v := fun _ => v) (fun _ => hv) hm (fun _ => hl) (w := a) ⟨(0 : Fin 1), rfl⟩
      (by rw [namesOf_one hy]; erw [env_one]; exact returnsDr_aext_axis hp hi (aext_osh _)) (rep_aextMat rfl ?_)
    intro k hk
    exact axisPos_lt (normAxis_lt hi) (by rw [← aext_osh]; exact hk) (argF_lt hN)
  · obtain ⟨P, hE⟩ := exact_aext_axis (tm := (h.graph y).terms) hf hp hi hN (fun k hk t ht hne heq => by
      have hc := unravel_inB hk
      have h1 := hval _ hc
      have h2 : ∀ t, v.vec (axisPos v.shape i k t) = v.at ((unravel (v.shape.eraseIdx i) k).insertIdx i t) := fun t => rfl
      refine hne (huniq _ hc t ht _ (argF_lt hN) ?_ ?_)
      · rw [h1, ← h2, heq]; rfl
      · rw [h1]; exact argF_pick (g := fun t => v.at ((unravel (v.shape.eraseIdx i) k).insertIdx i t)) hf hN)
    exact right_of_exact hr hy (v := fun _ => v) (fun _ => hv) hE

theorem aext_flat (hf : Extr f) (ho : OrderOf f le) (hr : Reach lib ⟨False, True⟩ h) (hy : IsA h.graph y (chAExt f) [nmA] fun _ => a)
    (hv : Means lib h.graph (.r a) (.ok v)) (hp : (h.graph y).terms nmP = none ∨ (h.graph y).terms nmP = some .none) (hN : 0 < v.size) :
    ∃ x, BestOf le v.size v.vec x ∧ (∃ f₀, ∀ f ≥ f₀, ∃ out, Number x out ∧ (read lib f (.r y) h).2 = .ok out) ∧
      (IsLeaf h.graph a → ∃ t < v.size, v.vec t = x ∧ Reports h y a 1 v.size fun _ j => if j = t then 1 else 0) ∧
      ((∀ t < v.size, ∀ t' < v.size, v.vec t = x → v.vec t' = x → t = t') → ∃ out, Number x out ∧ Right h y out) := by
  have hm := means_of_isA hy (v := fun _ => v) (fun _ => hv) (by erw [env_one]; exact returns_aext_flat (f := f) hp hN)
  obtain ⟨f₀, hf₀⟩ := read_of_means hr hm
  refine ⟨pickF f v.size v.vec, best_pick hf ho hN _, ⟨f₀, fun f hf => ⟨_, number_of _, hf₀ f hf⟩⟩,
    fun hl => ⟨argF f v.size v.vec, argF_lt hN, argF_pick hf hN, ?_⟩, fun huniq => ⟨_, number_of _, ?_⟩⟩
  · have := reports_of_rep hr hy (v := fun _ => v) (fun _ => hv) hm (fun _ => hl) (w := a) ⟨(0 : Fin 1), rfl⟩
      (by rw [namesOf_one hy]; erw [env_one]; exact returnsDr_aext_flat hp rfl) (rep_aextMat rfl fun k _ => argF_lt hN)
    exact this.congr fun i _ j _ => if_congr eq_comm rfl rfl
  · obtain ⟨P, hE⟩ := exact_aext_flat (tm := (h.graph y).terms) hf hp hN (fun t ht hne heq =>
      hne (huniq t ht _ (argF_lt hN) heq (argF_pick hf hN)))
    exact right_of_exact hr hy (v := fun _ => v) (fun _ => hv) hE

/-- C37 for `amax(a, axis)`: the value is the largest entry along the axis; for a plain `a` the matrix reported selects a
position that holds it; and where it is held once, the derivative is exact. -/
theorem C37_amax_axis (hr : Reach lib ⟨False, True⟩ h) (hy : IsA h.graph y chAmax [nmA] fun _ => a)
    (hv : Means lib h.graph (.r a) (.ok v)) {z : ℤ} {i : ℕ} (hp : (h.graph y).terms nmP = some (.int z))
    (hi : normAxis v.shape.length z = some i) (hN : 0 < v.shape.getD i 0) :
    ∃ out, BestAlong (· ≤ ·) i v out ∧ (∃ f₀, ∀ f ≥ f₀, (read lib f (.r y) h).2 = .ok out) ∧
      (IsLeaf h.graph a → ∃ E, SelectsAlong i v out E ∧ Reports h y a out.size v.size E) ∧
      (UniqueAlong i v out → Right h y out) := aext_axis extr_max order_max hr hy hv hp hi hN

/-- C37 for `amin(a, axis)`. -/
theorem C37_amin_axis (hr : Reach lib ⟨False, True⟩ h) (hy : IsA h.graph y chAmin [nmA] fun _ => a)
    (hv : Means lib h.graph (.r a) (.ok v)) {z : ℤ} {i : ℕ} (hp : (h.graph y).terms nmP = some (.int z))
    (hi : normAxis v.shape.length z = some i) (hN : 0 < v.shape.getD i 0) :
    ∃ out, BestAlong (· ≥ ·) i v out ∧ (∃ f₀, ∀ f ≥ f₀, (read lib f (.r y) h).2 = .ok out) ∧
      (IsLeaf h.graph a → ∃ E, SelectsAlong i v out E ∧ Reports h y a out.size v.size E) ∧
      (UniqueAlong i v out → Right h y out) := aext_axis extr_min order_min hr hy hv hp hi hN

/-- C37 for `amax(a)`, over all entries. -/
theorem C37_amax_all (hr : Reach lib ⟨False, True⟩ h) (hy : IsA h.graph y chAmax [nmA] fun _ => a)
    (hv : Means lib h.graph (.r a) (.ok v)) (hp : (h.graph y).terms nmP = none ∨ (h.graph y).terms nmP = some .none) (hN : 0 < v.size) :
    ∃ x, BestOf (· ≤ ·) v.size v.vec x ∧ (∃ f₀, ∀ f ≥ f₀, ∃ out, Number x out ∧ (read lib f (.r y) h).2 = .ok out) ∧
      (IsLeaf h.graph a → ∃ t < v.size, v.vec t = x ∧ Reports h y a 1 v.size fun _ j => if j = t then 1 else 0) ∧
      ((∀ t < v.size, ∀ t' < v.size, v.vec t = x → v.vec t' = x → t = t') → ∃ out, Number x out ∧ Right h y out) :=
  aext_flat extr_max order_max hr hy hv hp hN

/-- C37 for `amin(a)`. -/
theorem C37_amin_all (hr : Reach lib ⟨False, True⟩ h) (hy : IsA h.graph y chAmin [nmA] fun _ => a)
    (hv : Means lib h.graph (.r a) (.ok v)) (hp : (h.graph y).terms nmP = none ∨ (h.graph y).terms nmP = some .none) (hN : 0 < v.size) :
    ∃ x, BestOf (· ≥ ·) v.size v.vec x ∧ (∃ f₀, ∀ f ≥ f₀, ∃ out, Number x out ∧ (read lib f (.r y) h).2 = .ok out) ∧
      (IsLeaf h.graph a → ∃ t < v.size, v.vec t = x ∧ Reports h y a 1 v.size fun _ j => if j = t then 1 else 0) ∧
      ((∀ t < v.size, ∀ t' < v.size, v.vec t = x → v.vec t' = x → t = t') → ∃ out, Number x out ∧ Right h y out) :=
  aext_flat extr_min order_min hr hy hv hp hN
end

namespace ADDemo
/-- The hypotheses of C37 are met by a 2×3×2 array and the axis -2, whose extrema along it are attained once. -/
example : ∃ h, Reach lib ⟨False, True⟩ h ∧ IsA h.graph 1 chAmax [nmA] (fun _ => 0) ∧
    Means lib h.graph (.r 0) (.ok ⟨[2, 3, 2], fun k => k.1⟩) ∧ IsLeaf h.graph 0 ∧ (h.graph 1).terms nmP = some (.int (-2)) ∧
    normAxis [2, 3, 2].length (-2) = some 1 ∧ 0 < [2, 3, 2].getD 1 0 ∧ ∀ out, UniqueAlong 1 ⟨[2, 3, 2], fun k => k.1⟩ out := by
  obtain ⟨h, h1, h2, h3, h4, h5, _⟩ := reordered_reach chAmax ⟨[2, 3, 2], fun k => k.1⟩ (by simp) (.int (-2)) .none
  refine ⟨h, h1, h2, h3, h4, h5, by decide, by decide, fun out c hc t ht t' ht' e e' => ?_⟩
  have h6 := inB_insertIdx (sh := [2, 3, 2]) (i := 1) (by decide) hc ht
  have h7 := inB_insertIdx (sh := [2, 3, 2]) (i := 1) (by decide) hc ht'
  have e := e.trans e'.symm
  unfold Arr.at at e
  have e1 : ∀ k < 12, (⟨[2, 3, 2], fun k => k.1⟩ : Arr).vec k = k := fun k hk => dif_pos (by simpa using hk)
  rw [e1 _ (ravel_lt h6), e1 _ (ravel_lt h7)] at e
  have e := ravel_inj h6 h7 (by exact_mod_cast e)
  have hl : c.length = 2 := hc.length
  match c, hl with
  | [x, y], _ => simpa using e
end ADDemo
end Chumpy
