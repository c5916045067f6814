import Verif.AD.SetItem
import Verif.AD.Built
import Verif.AD.Wrong
import Verif.Core.Build
import Verif.Properties.Slices
import Verif.Properties.Reorder
import Verif.Properties.Indexing
/-!
# C24: assignment through slices, reshapes and transposes

`y[key] = v`, for a view `y` of an array `l`, makes the selected entries of `y` equal to `v` and changes nothing else of `l`.
-/
namespace Chumpy
open scoped BigOperators

/-- `y` is a view of the `Ch` `l` (of shape `sh`): `l` itself, or a slice (`y = t[key]`, or any list of positions), a reshaped view, or
any other reordering class (transpose, swapaxes, rollaxis, …) of a view.  Its shape is `osh` and its `k`-th entry is the entry `pos k` of
`l`. -/
inductive View (g : Graph ClassDef Par) (l : Id) (sh : List ℕ) : (y : Id) → (osh : List ℕ) → (pos : ℕ → ℕ) → Prop
  | leaf : View g l sh l sh fun k => k
  | slice {t y : Id} {tsh : List ℕ} {pos : ℕ → ℕ} {idxs ksh : List ℕ} (ht : View g l sh t tsh pos) (hy : IsA g y chSelect [nmA] fun _ => t)
      (hp : (g y).terms nmP = some (.nats idxs)) (hq : (g y).terms nmQ = some (.nats ksh)) (hn : ksh.prod = idxs.length)
      (hi : ∀ j ∈ idxs, j < tsh.prod) : View g l sh y (if ksh = [] then [1] else ksh) fun k => pos (idxs.getD k 0)
  | reshape {t y : Id} {tsh o : List ℕ} {pos : ℕ → ℕ} {z : List ℤ} (ht : View g l sh t tsh pos) (hy : IsA g y chReshape [nmA] fun _ => t)
      (hp : (g y).terms nmP = some (.ints z)) (ho : fillShape tsh.prod z = some o) : View g l sh y (if o = [] then [1] else o) pos
  | reorder {t y : Id} {tsh : List ℕ} {pos : ℕ → ℕ} {ρ : Option Par → Option Par → Arr → Option Layout} {L : Layout}
      (ht : View g l sh t tsh pos) (hy : IsA g y (chReorder ρ) [nmA] fun _ => t)
      (hρ : ∀ u : Arr, u.shape = tsh → ρ ((g y).terms nmP) ((g y).terms nmQ) u = some L) (hL : L.Ok tsh.prod) :
      View g l sh y (if L.shape = [] then [1] else L.shape) fun k => pos ((L.src k).getD 0)

/-- What `y[key] = value` should do, the key selecting the positions `idxs` of the view `y`, in the shape `ksh` (C23):
* the objects `y[key]` have the value `value`, and `y` has these values at the selected positions;
* the array `l` keeps its shape and all entries that are not selected;
* no other existing object is changed. -/
structure Assigns (h : Heap ClassDef Par Arr Jac) (l y : Id) (x : Arr) (osh : List ℕ) (pos : ℕ → ℕ) (idxs ksh : List ℕ) (value : Arr)
    (h' : Heap ClassDef Par Arr Jac) : Prop where
  reach : Reach lib ⟨False, True⟩ h'
  slice : ∀ s, IsA h'.graph s chSelect [nmA] (fun _ => y) → (h'.graph s).terms nmP = some (.nats idxs) →
    (h'.graph s).terms nmQ = some (.nats ksh) → ∃ f₀, ∀ f ≥ f₀, (read lib f (.r s) h').2 = .ok (Arr.of ksh value.vec).atleast1
  view : ∃ out, (∃ f₀, ∀ f ≥ f₀, (read lib f (.r y) h').2 = .ok out) ∧ out.shape = osh ∧
    ∀ k < idxs.length, out.vec (idxs.getD k 0) = value.vec k
  rest : ∃ x', (∃ f₀, ∀ f ≥ f₀, (read lib f (.r l) h').2 = .ok x') ∧ x'.shape = x.shape ∧
    ∀ p < x.size, (∀ k < idxs.length, pos (idxs.getD k 0) ≠ p) → x'.vec p = x.vec p
  frame : ∀ i, i ≠ l → i < h.next → h'.graph i = h.graph i

/-- C24 in full: for all views and keys, and values that fit the selection (a number, or as many values as positions). -/
def C24_full : Prop :=
  ∀ (h : Heap ClassDef Par Arr Jac), Reach lib ⟨False, True⟩ h → ∀ (l y : Id) (x value : Arr) (osh idxs ksh : List ℕ) (pos : ℕ → ℕ) (key : List Key),
    IsLeaf h.graph l → Means lib h.graph (.r l) (.ok x) → View h.graph l x.shape y osh pos → getitem key osh = some (idxs, ksh) →
    (∀ i < idxs.length, ∀ j < idxs.length, pos (idxs.getD i 0) = pos (idxs.getD j 0) → i = j) → value.shape = ksh ∨ value.size = 1 → ∃ f₀, ∀ f ≥ f₀, ∃ h', setItem f y key value h = (h', .ok ()) ∧
      Assigns h l y x osh pos idxs ksh (Arr.of ksh fun k => value.vec (bidx value.shape ksh k)) h'

/-! ## One step of a chain -/

/-- `y` moves entries of `t` about. -/
structure ViewStep (g : Graph ClassDef Par) (y t : Id) (tsh osh : List ℕ) (σ : ℕ → ℕ) : Prop where
  bound : ∀ k < osh.prod, σ k < tsh.prod
  cls : ∃ c, IsA g y c [nmA] (fun _ => t) ∧ c.permute = true ∧ c.isBase = false ∧ ∀ v : Arr, v.shape = tsh →
    Returns lib c (g y).terms (env1 v) (Arr.of osh fun k => v.vec (σ k)) ∧
    ∃ d, ReturnsDr lib c (g y).terms (env1 v) (Arr.of osh fun k => v.vec (σ k)) [nmA] (some d) ∧
      Jac.Rep d osh.prod tsh.prod (selMat σ fun _ => 1)

theorem ones_prod (sh : List ℕ) : (if sh = [] then [1] else sh).prod = sh.prod := by
  split
  · next h => rw [h]; rfl
  · rfl

theorem atleast1_of (sh : List ℕ) (e : ℕ → ℝ) : (Arr.of sh e).atleast1 = Arr.of (if sh = [] then [1] else sh) e := by
  refine Arr.ext_vec rfl fun k hk => ?_
  have hk1 : k < (if sh = [] then [1] else sh).prod := hk
  rw [Arr.atleast1_vec, Arr.vec_of _ _ hk1, Arr.vec_of _ _ (by rw [← ones_prod]; exact hk1)]

theorem viewStep_slice {g : Graph ClassDef Par} {t y : Id} {tsh idxs ksh : List ℕ} (hy : IsA g y chSelect [nmA] fun _ => t)
    (hp : (g y).terms nmP = some (.nats idxs)) (hq : (g y).terms nmQ = some (.nats ksh)) (hn : ksh.prod = idxs.length)
    (hi : ∀ j ∈ idxs, j < tsh.prod) : ViewStep g y t tsh (if ksh = [] then [1] else ksh) fun k => idxs.getD k 0 := by
  have hpr := ones_prod ksh
  refine ⟨fun k hk => ?_, chSelect, hy, rfl, rfl, fun v hv => ⟨⟨0, ?_⟩, .sparse idxs.length v.size (coo idxs.length id (fun k => idxs.getD k 0) fun _ => 1), ⟨0, ?_⟩, ?_⟩⟩
  · rw [hpr, hn] at hk
    rw [List.getD_eq_getElem _ _ hk]
    exact hi _ (List.getElem_mem hk)
  · rw [← atleast1_of]
    have hi' : ∀ j ∈ idxs, j < v.size := by unfold Arr.size; rw [hv]; exact hi
    simp [lib, chSelect, runBody, env1, hp, hq, if_pos hi', if_pos hn]
  · have hi' : ∀ j ∈ idxs, j < v.size := by unfold Arr.size; rw [hv]; exact hi
    simp [lib, chSelect, runBody, env1, hp, if_pos hi']
  · rw [hpr, hn]
    exact ⟨rfl, by unfold Arr.size; rw [hv], coo_rows _ _⟩

theorem viewStep_reshape {g : Graph ClassDef Par} {t y : Id} {tsh o : List ℕ} {z : List ℤ} (hy : IsA g y chReshape [nmA] fun _ => t)
    (hp : (g y).terms nmP = some (.ints z)) (ho : fillShape tsh.prod z = some o) :
    ViewStep g y t tsh (if o = [] then [1] else o) fun k => k := by
  have hpr := ones_prod o
  have hs := fillShape_prod ho
  refine ⟨fun k hk => by rw [hpr, hs] at hk; exact hk, chReshape, hy, rfl, rfl, fun v hv =>
    ⟨⟨0, ?_⟩, .sparse v.size v.size fun i j => if i = j then 1 else 0, ⟨0, ?_⟩, ?_⟩⟩
  · rw [← atleast1_of]
    have ho' : fillShape v.size z = some o := by unfold Arr.size; rw [hv]; exact ho
    simp [lib, chReshape, runBody, env1, hp, ho']
  · simp [lib, chReshape, runBody, env1]
  · rw [hpr, hs]
    have : v.size = tsh.prod := by unfold Arr.size; rw [hv]
    exact ⟨this, this, fun i _ j _ => by simp [selMat]⟩

theorem viewStep_reorder {g : Graph ClassDef Par} {t y : Id} {tsh : List ℕ} {ρ : Option Par → Option Par → Arr → Option Layout} {L : Layout}
    (hy : IsA g y (chReorder ρ) [nmA] fun _ => t) (hρ : ∀ u : Arr, u.shape = tsh → ρ ((g y).terms nmP) ((g y).terms nmQ) u = some L)
    (hL : L.Ok tsh.prod) : ViewStep g y t tsh (if L.shape = [] then [1] else L.shape) fun k => (L.src k).getD 0 := by
  have hpr := ones_prod L.shape
  refine ⟨fun k hk => ?_, chReorder ρ, hy, rfl, rfl, fun v hv => ⟨⟨0, ?_⟩,
    .sparse (if L.shape = [] then [1] else L.shape).prod v.size (coo L.shape.prod id (fun k => (L.src k).getD 0) fun _ => 1), ⟨0, ?_⟩, ?_⟩⟩
  · obtain ⟨j, hj, h⟩ := hL k (by rw [hpr] at hk; exact hk)
    rw [h]; exact hj
  · have e : (Arr.of (if L.shape = [] then [1] else L.shape) fun k => v.vec ((L.src k).getD 0)) = (L.apply v).atleast1 := by
      unfold Layout.apply
      rw [atleast1_of]
      refine Arr.of_congr fun k hk => ?_
      obtain ⟨j, _, hj⟩ := hL k (by rw [hpr] at hk; exact hk)
      rw [hj]; rfl
    rw [e]
    simp [lib, chReorder, runBody, env1, hρ v hv]
  · simp [lib, chReorder, runBody, env1, hρ (arange v.shape) hv]
    rfl
  · refine ⟨rfl, by unfold Arr.size; rw [hv], ?_⟩
    rw [hpr]
    exact coo_rows _ _

theorem ViewStep.means {g : Graph ClassDef Par} {y t : Id} {tsh osh : List ℕ} {σ : ℕ → ℕ} (hs : ViewStep g y t tsh osh σ) {v : Arr}
    (hv : Means lib g (.r t) (.ok v)) (hsh : v.shape = tsh) : Means lib g (.r y) (.ok (Arr.of osh fun k => v.vec (σ k))) := by
  obtain ⟨c, hy, _, _, hc⟩ := hs.cls
  refine means_of_isA hy (v := fun _ => v) (fun _ => hv) ?_
  erw [env_one]
  exact (hc v hsh).1

theorem ViewStep.comp {g : Graph ClassDef Par} {y t : Id} {tsh osh : List ℕ} {σ : ℕ → ℕ} (hs : ViewStep g y t tsh osh σ) {v : Arr}
    (hv : Means lib g (.r t) (.ok v)) (hsh : v.shape = tsh) (hyt : y ≠ t) :
    ∃ d, CompIs lib g y t (some d) ∧ Jac.Rep d osh.prod tsh.prod (selMat σ fun _ => 1) := by
  have hm := hs.means hv hsh
  obtain ⟨c, hy, _, _, hc⟩ := hs.cls
  obtain ⟨_, d, hd, hrep⟩ := hc v hsh
  have hk := envOf_kids_some hy (v := fun _ => v) (fun _ => hv)
  erw [env_one] at hk
  rw [← namesOf_one hy, ← hy.cls] at hd
  obtain ⟨f, hf⟩ := evalCompDr_of_returnsDr hyt hm hk hd
  exact ⟨d, ⟨f, hf⟩, hrep⟩

/-! ## Chains -/

/-- By the last step of the chain. -/
theorem View.split {g : Graph ClassDef Par} {l y : Id} {sh osh : List ℕ} {pos : ℕ → ℕ} (h : View g l sh y osh pos) {P : Id → List ℕ → (ℕ → ℕ) → Prop}
    (h0 : P l sh fun k => k)
    (h1 : ∀ {t y : Id} {tsh osh : List ℕ} {τ σ : ℕ → ℕ}, View g l sh t tsh τ → ViewStep g y t tsh osh σ → P t tsh τ → P y osh fun k => τ (σ k)) :
    P y osh pos := by
  induction h with
  | leaf => exact h0
  | slice ht hy hp hq hn hi ih => exact h1 ht (viewStep_slice hy hp hq hn hi) ih
  | reshape ht hy hp ho ih => exact h1 ht (viewStep_reshape hy hp ho) ih
  | reorder ht hy hρ hL ih => exact h1 ht (viewStep_reorder hy hρ hL) ih

theorem View.bound {g : Graph ClassDef Par} {l y : Id} {sh osh : List ℕ} {pos : ℕ → ℕ} (h : View g l sh y osh pos) :
    ∀ k < osh.prod, pos k < sh.prod :=
  h.split (P := fun _ osh pos => ∀ k < osh.prod, pos k < sh.prod) (fun _ hk => hk) fun _ hs ih k hk => ih _ (hs.bound k hk)

theorem View.means {g : Graph ClassDef Par} {l y : Id} {sh osh : List ℕ} {pos : ℕ → ℕ} (h : View g l sh y osh pos) {x : Arr}
    (hx : Means lib g (.r l) (.ok x)) (hsh : x.shape = sh) : Means lib g (.r y) (.ok (Arr.of osh fun k => x.vec (pos k))) := by
  refine h.split (P := fun y osh pos => Means lib g (.r y) (.ok (Arr.of osh fun k => x.vec (pos k)))) ?_ ?_
  · rw [← hsh, Arr.of_vec]; exact hx
  · intro t y tsh osh τ σ _ hs ih
    have := hs.means ih rfl
    have e : (Arr.of osh fun k => (Arr.of tsh fun k => x.vec (τ k)).vec (σ k)) = Arr.of osh fun k => x.vec (τ (σ k)) :=
      Arr.of_congr fun k hk => Arr.vec_of _ _ (hs.bound k hk)
    rwa [e] at this

theorem ViewStep.ne_leaf {g : Graph ClassDef Par} {y t l : Id} {tsh osh : List ℕ} {σ : ℕ → ℕ} (hs : ViewStep g y t tsh osh σ) (hl : IsLeaf g l) :
    y ≠ l := by
  obtain ⟨c, hy, _, hb, _⟩ := hs.cls
  rintro rfl
  have h1 := hl.1
  rw [hy.cls] at h1
  rw [h1] at hb; cases hb

theorem View.ne_self {g : Graph ClassDef Par} {l y : Id} {sh osh : List ℕ} {pos : ℕ → ℕ} (h : View g l sh y osh pos) (hl : IsLeaf g l) :
    (g y).dterms nmA ≠ some y := by
  refine h.split (P := fun y _ _ => (g y).dterms nmA ≠ some y) (by rw [hl.2.1]; simp) ?_
  intro t y tsh osh τ σ _ hs ih e
  obtain ⟨c, hy, _⟩ := hs.cls
  have h1 : (g y).dterms nmA = some t := hy.kid ⟨0, by simp⟩
  rw [e] at h1
  injection h1 with h1
  subst h1
  exact ih e

/-- The derivative of a view is the matrix that selects its positions. -/
theorem View.dr {g : Graph ClassDef Par} {l y : Id} {sh osh : List ℕ} {pos : ℕ → ℕ} (h : View g l sh y osh pos) {x : Arr} (hl : IsLeaf g l)
    (hx : Means lib g (.r l) (.ok x)) (hsh : x.shape = sh) (hyl : y ≠ l) :
    ∃ d, MeansDr lib g y l (.ok (some d)) ∧ Jac.Rep d osh.prod sh.prod (selMat pos fun _ => 1) := by
  have hperm : lib.isPermute (g l).cls = false := by rw [hl.1]; rfl
  revert hyl
  refine h.split (P := fun y osh pos => y ≠ l → ∃ d, MeansDr lib g y l (.ok (some d)) ∧ Jac.Rep d osh.prod sh.prod (selMat pos fun _ => 1)) ?_ ?_
  · intro h; exact absurd rfl h
  · intro t y tsh osh τ σ ht hs ih hyl
    have hyt : y ≠ t := by
      obtain ⟨c, hy, _⟩ := hs.cls
      rintro rfl
      exact ht.ne_self hl (hy.kid ⟨0, by simp⟩)
    have hmt := ht.means hx hsh
    obtain ⟨d, hd, hrep⟩ := hs.comp hmt rfl hyt
    obtain ⟨c, hy, hcp, _, _⟩ := hs.cls
    have hdn : (g y).dterms nmA = some t := hy.kid ⟨0, by simp⟩
    by_cases htl : t = l
    · subst htl
      have hpos : tsh = sh ∧ ∀ k < tsh.prod, τ k = k := by
        have := ht.split (P := fun t' tsh τ => t' = t → tsh = sh ∧ ∀ k < tsh.prod, τ k = k) (fun _ => ⟨rfl, fun _ _ => rfl⟩)
          fun _ hs _ e => absurd e (hs.ne_leaf hl)
        exact this rfl
      obtain ⟨rfl, hτ⟩ := hpos
      obtain ⟨d', h1, h2⟩ := drIs_rep (g := g) (i := y) (w := t) (direct := some d) (ds := [d]) (.some hd)
        (by rw [hy.dnames]; exact .wrt hdn (.nil ..)) rfl hrep
      exact ⟨d', h1, Jac.rep_congr (fun i hi j _ => by simp only [selMat]; rw [hτ _ (hs.bound i hi)]) h2⟩
    · obtain ⟨d2, h1, h2⟩ := ih htl
      have hn : (g y).namesOf l = [] := by
        unfold GNode.namesOf
        rw [hy.dnames, List.filter_eq_nil_iff]
        intro k hk
        simp only [List.mem_singleton] at hk
        subst hk
        rw [hdn]; simpa using htl
      have h0 : SlicedIs lib g y l none := .none (compIs_none lib_localDr hyl hn) hperm
      obtain ⟨p, hp, hpr⟩ := Jac.superdot_rep hrep h2
      obtain ⟨d', h3, h4⟩ := drIs_rep (g := g) (i := y) (w := l) (direct := none) (ds := [p]) h0
        (by rw [hy.dnames]; exact .some hdn htl h1 (.some hd) hp (.nil ..)) rfl hpr
      refine ⟨d', h3, Jac.rep_congr (fun i hi j _ => ?_) h4⟩
      simp only [Ent.mul, selMat]
      rw [Finset.sum_eq_single (σ i)]
      · simp
      · intro b _ hb; rw [if_neg (Ne.symm hb), zero_mul]
      · intro hn; exact absurd (Finset.mem_range.2 (hs.bound i hi)) hn

theorem IsA.congr {g g' : Graph ClassDef Par} {y : Id} {c : ClassDef} {ns : List Name} {kids : Fin ns.length → Id} (h : IsA g y c ns kids)
    (e : g' y = g y) : IsA g' y c ns kids := ⟨by rw [e]; exact h.cls, by rw [e]; exact h.dnames, h.nodup, by rw [e]; exact h.kid⟩

/-- A view stays one if the chain is not touched. -/
theorem View.congr {g g' : Graph ClassDef Par} {l y : Id} {sh osh : List ℕ} {pos : ℕ → ℕ} (h : View g l sh y osh pos)
    (e : ∀ i, (g i).dterms nmA ≠ none → g' i = g i) : View g' l sh y osh pos := by
  have key : ∀ {y t : Id} {c : ClassDef}, IsA g y c [nmA] (fun _ => t) → g' y = g y := by
    intro y t c hy
    refine e y ?_
    have : (g y).dterms nmA = some t := hy.kid ⟨0, by simp⟩
    rw [this]; simp
  induction h with
  | leaf => exact .leaf
  | slice ht hy hp hq hn hi ih =>
    have := key hy
    exact .slice ih (hy.congr this) (by rw [this]; exact hp) (by rw [this]; exact hq) hn hi
  | reshape ht hy hp ho ih =>
    have := key hy
    exact .reshape ih (hy.congr this) (by rw [this]; exact hp) ho
  | reorder ht hy hρ hL ih =>
    have := key hy
    exact .reorder ih (hy.congr this) (by rw [this]; exact hρ) hL

theorem View.inner {g : Graph ClassDef Par} {l y : Id} {sh osh : List ℕ} {pos : ℕ → ℕ} (h : View g l sh y osh pos) (hl : IsLeaf g l) :
    ∃ f₀, ∀ f ≥ f₀, innerOf g f y = .ok l := by
  refine h.split (P := fun y _ _ => ∃ f₀, ∀ f ≥ f₀, innerOf g f y = .ok l) ?_ ?_
  · refine ⟨1, fun f hf => ?_⟩
    obtain ⟨f, rfl⟩ : ∃ k, f = k + 1 := ⟨f - 1, by omega⟩
    have : (g l).cls.isBase = true := by rw [hl.1]; rfl
    simp [innerOf, this]
  · intro t y tsh osh τ σ _ hs ⟨f₀, ih⟩
    obtain ⟨c, hy, hp, hb, _⟩ := hs.cls
    have h1 : (g y).dterms nmA = some t := hy.kid ⟨0, by simp⟩
    refine ⟨f₀ + 1, fun f hf => ?_⟩
    obtain ⟨f, rfl⟩ : ∃ k, f = k + 1 := ⟨f - 1, by omega⟩
    rw [← hy.cls] at hp hb
    simp [innerOf, hp, hb, h1, ih f (by omega)]

theorem View.alive {h : Heap ClassDef Par Arr Jac} {m : Mode} (hr : Reach lib m h) {l y : Id} {sh osh : List ℕ} {pos : ℕ → ℕ}
    (hv : View h.graph l sh y osh pos) (hyl : y ≠ l) : (h.node y).alive = true ∧ (h.node l).alive = true := by
  revert hyl
  refine hv.split (P := fun y _ _ => y ≠ l → (h.node y).alive = true ∧ (h.node l).alive = true) (fun e => absurd rfl e) ?_
  intro t y tsh osh τ σ _ hs ih _
  obtain ⟨c, hy, _⟩ := hs.cls
  have h1 : (h.node y).dterms nmA = some t := hy.kid ⟨0, by simp⟩
  have h2 : (h.node y).alive = true := by
    cases ha : (h.node y).alive with
    | true => rfl
    | false => rw [((reach_str hr).dead y ha).2.1] at h1; cases h1
  refine ⟨h2, ?_⟩
  by_cases htl : t = l
  · rw [← htl]; exact (reach_str hr).child_alive h1
  · exact (ih htl).2

theorem leaf_term {g : Graph ClassDef Par} {l : Id} (hl : IsLeaf g l) {x : Arr} (hx : Means lib g (.r l) (.ok x)) :
    ∃ x0, (g l).terms nmX = some (.arr x0) ∧ x = x0.atleast1 := by
  obtain ⟨_, f, hf⟩ := hx
  cases f with
  | zero => cases hf
  | succ f =>
    simp only [evalReq, hl.1, chLeaf, evalProg] at hf
    split at hf
    · next x0 hx => simp only [evalProg] at hf; injection hf with hf; exact ⟨x0, hx, hf.symm⟩
    · cases hf

theorem means_leaf {g : Graph ClassDef Par} {l : Id} (hl : (g l).cls = chLeaf) {x0 : Arr} (hx : (g l).terms nmX = some (.arr x0)) :
    Means lib g (.r l) (.ok x0.atleast1) :=
  ⟨by simp, 1, by simp [evalReq, hl, chLeaf, evalProg, hx]⟩

theorem read_ok {h : Heap ClassDef Par Arr Jac} {m : Mode} (hr : Reach lib m h) {q : Req} {v : Arr} {f : ℕ}
    (hv : evalReq lib h.graph f q = .ok v) : (read lib f q h).2 = .ok v := by
  have hs := (read_sim (P := True) f q h (reach_inv lib_propsOk (fun _ => lib_localDr) hr).coh rfl).2.2 trivial
  have := (readFresh_of_agree hs).2.2
  rw [hv] at this
  exact this (by simp)

theorem drWrt_ok {h : Heap ClassDef Par Arr Jac} (hr : Reach lib ⟨False, True⟩ h) {y w : Id} {d : Option Jac} {f : ℕ}
    (hw : lib.isPermute (h.graph w).cls = false) (hd : evalDr lib h.graph f y w = .ok d) : (drWrt lib f y w h).2 = .ok d := by
  have := (C02_derivative_never_stale_partial lib_propsOk lib_plainForm hr f y w hw).2.2
  rw [hd] at this
  exact this (by simp)

theorem reach_read {h : Heap ClassDef Par Arr Jac} {m : Mode} (hr : Reach lib m h) {i : Id} (hi : (h.node i).alive = true) (f : ℕ) :
    Reach lib m (read lib f (.r i) h).1 := by
  have := Reach.step (.readR f i) hr trivial
  simpa [step, ifAlive, hi, M.map'] using this

theorem reach_drWrt {h : Heap ClassDef Par Arr Jac} {m : Mode} (hr : Reach lib m h) {i w : Id} (hi : (h.node i).alive = true)
    (hw : (h.node w).alive = true) (f : ℕ) : Reach lib m (drWrt lib f i w h).1 := by
  have := Reach.step (.readDr f i w) hr trivial
  simpa [step, ifAlive, hi, hw, M.map'] using this

/-! ## Writing the array of a `Ch` -/

/-- What replacing the array of `l` does. -/
theorem setLeaf {h : Heap ClassDef Par Arr Jac} (hr : Reach lib ⟨False, True⟩ h) {l : Id} (hal : (h.node l).alive = true) (x' : Arr) :
    ∃ h', setObj lib l [.term nmX (.arr x')] h = (h', .ok ()) ∧ Reach lib ⟨False, True⟩ h' ∧ h'.next = h.next ∧
      (∀ j, (h'.node j).alive = (h.node j).alive) ∧ h'.graph l = { h.graph l with terms := fun k => if k = nmX then some (.arr x') else (h.graph l).terms k } ∧
      ∀ j, j ≠ l → h'.graph j = h.graph j := by
  obtain ⟨h1, a⟩ := setAll_built (s := lib) l [.term nmX (.arr x')] (reach_str hr) hal (by intro kw hm; simp at hm; subst hm; trivial)
  have e : setObj lib l [.term nmX (.arr x')] h = setAll lib l [.term nmX (.arr x')] h := by
    unfold setObj; rw [if_pos hal]
  refine ⟨(setAll lib l [.term nmX (.arr x')] h).1, ?_, ?_, a.next, a.alive, ?_, fun j hj => ?_⟩
  · rw [e]; exact Prod.ext rfl h1
  · have := Reach.step (.set l [.term nmX (.arr x')]) hr ⟨fun h => h.elim, Or.inl (by simp)⟩
    rw [← e]; simpa [step, M.map'] using this
  · rw [a.graph, if_pos rfl]; rfl
  · rw [a.graph, if_neg hj]

/-- What follows once the array of `l` is replaced by one with the right entries. -/
theorem assigns_of {h h' : Heap ClassDef Par Arr Jac} {l y : Id} {x x' value : Arr} {osh idxs ksh : List ℕ} {pos : ℕ → ℕ}
    (hr' : Reach lib ⟨False, True⟩ h') (hx' : Means lib h'.graph (.r l) (.ok x')) (hsh : x'.shape = x.shape)
    (hv' : View h'.graph l x.shape y osh pos) (hi : ∀ j ∈ idxs, j < osh.prod) (hn : ksh.prod = idxs.length)
    (hval : ∀ k < idxs.length, x'.vec (pos (idxs.getD k 0)) = value.vec k)
    (hrest : ∀ p < x.size, (∀ k < idxs.length, pos (idxs.getD k 0) ≠ p) → x'.vec p = x.vec p)
    (hframe : ∀ i, i ≠ l → i < h.next → h'.graph i = h.graph i) : Assigns h l y x osh pos idxs ksh value h' := by
  have hy := hv'.means hx' hsh
  have hb : ∀ k < idxs.length, idxs.getD k 0 < osh.prod := fun k hk => by
    rw [List.getD_eq_getElem _ _ hk]; exact hi _ (List.getElem_mem hk)
  refine ⟨hr', fun s hs hp hq => ?_, ⟨_, read_of_means hr' hy, rfl, fun k hk => ?_⟩, ⟨x', read_of_means hr' hx', hsh, hrest⟩, hframe⟩
  · have hvs : View h'.graph l x.shape s _ _ := .slice hv' hs hp hq hn hi
    have := hvs.means hx' hsh
    rw [← atleast1_of] at this
    have e : (Arr.of ksh fun k => x'.vec (pos (idxs.getD k 0))) = Arr.of ksh value.vec :=
      Arr.of_congr fun k hk => hval k (by rw [← hn]; exact hk)
    rw [e] at this
    exact read_of_means hr' this
  · rw [Arr.vec_of _ _ (hb k hk)]; exact hval k hk

/-! ## Basic keys select different positions -/

theorem selCoord_inj (key : List Key) (sh : List ℕ) {t : List Sel} (h : selOf key sh = some t) :
    ∀ c c', InB (selShape t) c → InB (selShape t) c' → selCoord t c = selCoord t c' → c = c' := by
  induction key generalizing sh t with
  | nil =>
    simp only [selOf, Option.some.injEq] at h
    subst h
    rw [selShape_full]
    intro c c' hc hc' e
    rwa [selCoord_full sh hc, selCoord_full sh hc'] at e
  | cons k ks ih =>
    cases sh with
    | nil => simp [selOf] at h
    | cons n sh =>
      simp only [selOf, Option.bind_eq_some_iff, Option.map_eq_some_iff] at h
      obtain ⟨s, hs, t', ht', rfl⟩ := h
      have h2 := ih sh ht'
      cases k with
      | int z =>
        simp only [Key.sel, Option.map_eq_some_iff] at hs
        obtain ⟨i, hi, rfl⟩ := hs
        intro c c' hc hc' e
        simp only [selCoord, List.cons.injEq, true_and] at e
        exact h2 c c' hc hc' e
      | slice st en sp =>
        simp only [Key.sel, Option.map_eq_some_iff] at hs
        obtain ⟨⟨b, e, s'⟩, hb, rfl⟩ := hs
        have h0 := (sliceIndices_bounds hb).1
        simp only [selShape, List.length_map, List.length_range]
        intro c c' hc hc' e'
        cases hc with
        | cons hj hc1 =>
          next j c =>
          cases hc' with
          | cons hj' hc1' =>
            next j' c' =>
            have hg : ∀ j < rangeLen b e s', ((List.range (rangeLen b e s')).map fun (k : ℕ) => (b + k * s').toNat).getD j 0 = (b + j * s').toNat := by
              intro j hj
              rw [getD_map _ _ _ 0 _ (by simpa using hj), getD_range hj]
            simp only [selCoord, List.cons.injEq] at e'
            rw [hg j hj, hg j' hj'] at e'
            have p1 := slice_pos hb hj
            have p2 := slice_pos hb hj'
            have e1 : (j : ℤ) * s' = j' * s' := by have := e'.1; omega
            have : (j : ℤ) = j' := mul_right_cancel₀ h0 e1
            rw [h2 _ _ hc1 hc1' e'.2]
            congr 1
            omega

/-- A basic key selects positions inside the array, all different, as many as the shape of the result says. -/
theorem getitem_spec {key : List Key} {sh idxs ksh : List ℕ} (h : getitem key sh = some (idxs, ksh)) :
    ksh.prod = idxs.length ∧ (∀ j ∈ idxs, j < sh.prod) ∧ idxs.Nodup := by
  simp only [getitem, Option.map_eq_some_iff, Prod.mk.injEq] at h
  obtain ⟨t, ht, rfl, rfl⟩ := h
  obtain ⟨_, h2⟩ := selOf_spec key sh ht
  refine ⟨by simp, fun j hj => ?_, ?_⟩
  · rw [List.mem_map] at hj
    obtain ⟨k, hk, rfl⟩ := hj
    exact ravel_lt (h2 _ (unravel_inB (List.mem_range.1 hk))).1
  · refine List.Nodup.map_on ?_ List.nodup_range
    intro k hk k' hk' e
    have u := unravel_inB (List.mem_range.1 hk)
    have u' := unravel_inB (List.mem_range.1 hk')
    have := ravel_inj (h2 _ u).1 (h2 _ u').1 e
    have := selCoord_inj key sh ht _ _ u u' this
    rw [← ravel_unravel (List.mem_range.1 hk), ← ravel_unravel (List.mem_range.1 hk'), this]

/-! ## The theorems -/

/-- C24, the array itself: `l[key] = value` for a `Ch` `l`, the value being broadcast to the selection. -/
theorem C24_array_partial {h : Heap ClassDef Par Arr Jac} (hr : Reach lib ⟨False, True⟩ h) {l : Id} {x value : Arr} {idxs ksh : List ℕ}
    {key : List Key} (hl : IsLeaf h.graph l) (hal : (h.node l).alive = true) (hx : Means lib h.graph (.r l) (.ok x)) (hk : getitem key x.shape = some (idxs, ksh))
    (hval : bshape value.shape ksh = some ksh) (f : ℕ) : ∃ h', setItem f l key value h = (h', .ok ()) ∧
      Assigns h l l x x.shape (fun k => k) idxs ksh (Arr.of ksh fun k => value.vec (bidx value.shape ksh k)) h' := by
  obtain ⟨x0, hx0, rfl⟩ := leaf_term hl hx
  obtain ⟨hn, hi, hd⟩ := getitem_spec hk
  obtain ⟨h', e, hr', hnext, hal', hgl, hgo⟩ := setLeaf hr hal (overwritten x0 value idxs ksh)
  have hov : (overwritten x0 value idxs ksh).shape = x0.atleast1.shape := rfl
  have hat : (overwritten x0 value idxs ksh).atleast1 = overwritten x0 value idxs ksh := by
    refine atleast1_of_ne ?_
    rw [hov]
    show (if x0.shape = [] then [1] else x0.shape) ≠ []
    split
    · simp
    · assumption
  have hx' : Means lib h'.graph (.r l) (.ok (overwritten x0 value idxs ksh)) := by
    have := means_leaf (g := h'.graph) (l := l) (x0 := overwritten x0 value idxs ksh) (by rw [hgl]; exact hl.1) (by rw [hgl]; simp)
    rwa [hat] at this
  refine ⟨h', ?_, assigns_of hr' hx' hov .leaf hi hn ?_ ?_ fun i hi _ => hgo i hi⟩
  · unfold setItem
    have hb : (h.graph l).cls.isBase = true := by rw [hl.1]; rfl
    rw [if_pos hb, hx0]
    dsimp only
    rw [hk]
    dsimp only
    rw [if_pos hval, e]
  · intro k hk'
    have hlt : idxs.getD k 0 < x0.atleast1.shape.prod := by
      rw [List.getD_eq_getElem _ _ hk']; exact hi _ (List.getElem_mem hk')
    unfold overwritten
    rw [Arr.vec_of _ _ hlt, Arr.vec_of _ _ (by rw [hn]; exact hk')]
    cases hp : lastPos idxs (idxs.getD k 0) with
    | none => exact absurd (by rw [List.getD_eq_getElem _ _ hk']; exact List.getElem_mem hk') (lastPos_none.1 hp)
    | some k2 =>
      obtain ⟨h1, h2⟩ := lastPos_some hp
      rw [List.getD_eq_getElem _ _ hk', List.getD_eq_getElem _ _ h1] at h2
      rw [(List.Nodup.getElem_inj_iff hd).1 h2]
  · intro p hp hno
    unfold overwritten
    rw [Arr.vec_of _ _ hp]
    have : lastPos idxs p = none := by
      rw [lastPos_none]
      intro hm
      obtain ⟨k, hk', e⟩ := List.getElem_of_mem hm
      refine hno k hk' ?_
      rw [List.getD_eq_getElem _ _ hk', e]
    rw [this, Arr.atleast1_vec]

/-- All of `y[key] = value` up to the last assignment, for a view `y` other than the array itself. -/
theorem setItem_view {h : Heap ClassDef Par Arr Jac} (hr : Reach lib ⟨False, True⟩ h) {l y : Id} {x0 : Arr}
    {osh idxs ksh : List ℕ} {pos : ℕ → ℕ} {key : List Key} (hl : IsLeaf h.graph l) (hx : Means lib h.graph (.r l) (.ok x0.atleast1))
    (hx0 : (h.graph l).terms nmX = some (.arr x0))
    (hv : View h.graph l x0.atleast1.shape y osh pos) (hyl : y ≠ l) (hk : getitem key osh = some (idxs, ksh)) :
    ∃ d, Jac.Rep d idxs.length x0.atleast1.shape.prod (selMat (fun k => pos (idxs.getD k 0)) fun _ => 1) ∧
    ∃ f₀, ∀ f ≥ f₀, ∃ h4, Reach lib ⟨False, True⟩ h4 ∧ IsLeaf h4.graph l ∧ (h4.node l).alive = true ∧
      (h4.graph l).terms nmX = some (.arr x0) ∧ View h4.graph l x0.atleast1.shape y osh pos ∧ (∀ i, i < h.next → h4.graph i = h.graph i) ∧
      ∀ value, setItem f y key value h = match assigned d x0 value x0.atleast1.shape with
        | .ok x' => setObj lib l [.term nmX (.arr x')] h4
        | .error e => (h4, .error e) := by
  obtain ⟨hn, hi, _⟩ := getitem_spec hk
  obtain ⟨hay, hal⟩ := hv.alive hr hyl
  have hy := hv.means hx rfl
  -- the graph with the slice
  let o : ObjSpec ClassDef Par := ⟨chSelect, [nmA], [.link nmA y, .term nmP (.nats idxs), .term nmQ (.nats ksh)]⟩
  let g1 : Graph ClassDef Par := fun j => if j = h.next then o.node else h.graph j
  have hln : l ≠ h.next := Nat.ne_of_lt ((reach_str hr).alive_lt hal)
  have hyn : y ≠ h.next := Nat.ne_of_lt ((reach_str hr).alive_lt hay)
  have hl1 : IsLeaf g1 l := by
    have : g1 l = h.graph l := if_neg hln
    unfold IsLeaf; rw [this]; exact hl
  have hx1 : Means lib g1 (.r l) (.ok x0.atleast1) := means_leaf hl1.1 (by rw [show g1 l = h.graph l from if_neg hln]; exact hx0)
  have hnew : ∀ k, (h.graph h.next).dterms k = none := ((reach_str hr).dead h.next ((reach_str hr).unborn _ (Nat.le_refl _))).2.1
  have hv1 : View g1 l x0.atleast1.shape y osh pos := hv.congr fun i hi => if_neg (by rintro rfl; exact hi (hnew _))
  have hos : g1 h.next = o.node := if_pos rfl
  have hos1 : o.node.cls = chSelect ∧ o.node.dnames = [nmA] ∧ o.node.dterms nmA = some y ∧ o.node.terms nmP = some (.nats idxs) ∧
      o.node.terms nmQ = some (.nats ksh) ∧ (∀ k, k ≠ nmA → o.node.dterms k = none) :=
    ⟨rfl, rfl, rfl, rfl, rfl, fun k hk => by simp [ObjSpec.node, o, GNode.assign, hk]⟩
  have hsA : IsA g1 h.next chSelect [nmA] fun _ => y :=
    ⟨by rw [hos]; exact hos1.1, by rw [hos]; exact hos1.2.1, by simp, fun a => by
      obtain rfl : a = (0 : Fin 1) := Fin.fin_one_eq_zero a
      rw [hos]; exact hos1.2.2.1⟩
  have hvs : View g1 l x0.atleast1.shape h.next _ _ := .slice hv1 hsA (by rw [hos]; exact hos1.2.2.2.1) (by rw [hos]; exact hos1.2.2.2.2.1) hn hi
  obtain ⟨d, ⟨_, f3, hf3⟩, hdrep⟩ := hvs.dr hl1 hx1 rfl (Ne.symm hln)
  obtain ⟨_, f2, hf2⟩ := hy
  obtain ⟨_, f4, hf4⟩ := hx1
  obtain ⟨f1, hf1⟩ := hv.inner hl
  rw [ones_prod, hn] at hdrep
  refine ⟨d, hdrep, max f1 (max f2 (max f3 f4)), fun f hf => ?_⟩
  have b1 : f1 ≤ f := le_trans (le_max_left _ _) hf
  have b2 : f2 ≤ f := le_trans (le_trans (le_max_left _ _) (le_max_right _ _)) hf
  have b3 : f3 ≤ f := le_trans (le_trans (le_trans (le_max_left _ _) (le_max_right _ _)) (le_max_right _ _)) hf
  have b4 : f4 ≤ f := le_trans (le_trans (le_trans (le_max_right _ _) (le_max_right _ _)) (le_max_right _ _)) hf
  -- `self.shape`
  have r1 : (read lib f (.r y) h).2 = .ok (Arr.of osh fun k => x0.atleast1.vec (pos k)) := by
    refine read_ok hr ?_
    have := evalReq_mono lib h.graph b2 (.r y)
    rw [Le, hf2] at this
    exact this (by simp)
  have hr1 := reach_read hr hay f
  have F1 := read_pres (s := lib) rframe_rel f (.r y) h
  rcases hh1 : read lib f (.r y) h with ⟨h1, v1⟩
  rw [hh1] at r1 hr1 F1
  dsimp only at r1 hr1 F1
  -- `self[key]`
  have hpl : ∀ kw ∈ o.kws, kw.Plain h1 o.dnames := by
    intro kw hm
    simp only [o, List.mem_cons, List.not_mem_nil, or_false] at hm
    rcases hm with rfl | rfl | rfl
    · exact ⟨by simp [o], by rw [F1.alive]; exact hay⟩
    · trivial
    · trivial
  obtain ⟨e2, _⟩ := newObj_eq (s := lib) (reach_str hr1) o hpl
  obtain ⟨_, n2, a2, g2⟩ := newObj_built (s := lib) (reach_str hr1) o hpl
  have hr2 := Reach.step (.new o.cls o.dnames false false o.kws) hr1 ⟨fun h => h.elim, fun _ => ⟨rfl, rfl⟩⟩
  have es : (step lib (.new o.cls o.dnames false false o.kws) h1).1 = (newObj lib o.cls o.dnames false false o.kws h1).1 := rfl
  rw [es] at n2 a2 g2 hr2
  rcases hh2 : newObj lib o.cls o.dnames false false o.kws h1 with ⟨h2, v2⟩
  rw [hh2] at n2 a2 g2 hr2 e2
  have v2e : v2 = .ok h1.next := congrArg Prod.snd e2
  dsimp only at n2 a2 g2 hr2
  have hg2 : h2.graph = g1 := by
    funext j; rw [g2, F1.graph, F1.next]
  -- `self.dr_wrt(inner)`
  have hal2 : (h2.node l).alive = true := by rw [a2, F1.next, if_neg hln, F1.alive]; exact hal
  have has2 : (h2.node h.next).alive = true := by rw [a2, F1.next, if_pos rfl]
  have r3 : (drWrt lib f h.next l h2).2 = .ok (some d) := by
    refine drWrt_ok hr2 (by rw [hg2, hl1.1]; rfl) ?_
    rw [hg2]; exact evalDr_up b3 hf3
  have hr3 := reach_drWrt hr2 has2 hal2 f
  have F3 := drWrt_pres (s := lib) rframe_rel f h.next l h2
  rcases hh3 : drWrt lib f h.next l h2 with ⟨h3, v3⟩
  rw [hh3] at r3 hr3 F3
  dsimp only at r3 hr3 F3
  -- `inner.shape`
  have hal3 : (h3.node l).alive = true := by rw [F3.alive]; exact hal2
  have r4 : (read lib f (.r l) h3).2 = .ok x0.atleast1 := by
    refine read_ok hr3 ?_
    rw [F3.graph, hg2]
    have := evalReq_mono lib g1 b4 (.r l)
    rw [Le, hf4] at this
    exact this (by simp)
  have hr4 := reach_read hr3 hal3 f
  have F4 := read_pres (s := lib) rframe_rel f (.r l) h3
  rcases hh4 : read lib f (.r l) h3 with ⟨h4, v4⟩
  rw [hh4] at r4 hr4 F4
  dsimp only at r4 hr4 F4
  have hg4 : h4.graph = g1 := by rw [F4.graph, F3.graph, hg2]
  have hx4 : (h4.graph l).terms nmX = some (.arr x0) := by rw [hg4, show g1 l = h.graph l from if_neg hln]; exact hx0
  refine ⟨h4, hr4, by rw [hg4]; exact hl1, by rw [F4.alive]; exact hal3, hx4, by rw [hg4]; exact hv1, fun i hi => ?_, fun value => ?_⟩
  · rw [hg4]; exact if_neg (Nat.ne_of_lt hi)
  · subst r1 v2e r3 r4
    unfold setItem
    have hb : ¬ (h.graph y).cls.isBase = true := by
      have := hv.split (P := fun y _ _ => y ≠ l → (h.graph y).cls.isBase = false) (fun e => absurd rfl e)
        (fun _ hs _ _ => by obtain ⟨c, hy, _, hb, _⟩ := hs.cls; rw [hy.cls]; exact hb) hyl
      rw [this]; simp
    rw [if_neg hb, hf1 f b1]
    dsimp only [M.bind]
    rw [hh1]
    dsimp only
    rw [show (Arr.of osh fun k => x0.atleast1.vec (pos k)).shape = osh from rfl, hk]
    dsimp only [M.bind]
    have := hh2
    dsimp only [o] at this
    rw [this]
    dsimp only
    rw [F1.next, hh3]
    dsimp only
    rw [hh4]
    dsimp only
    rw [hx4]
    rfl

theorem atleast1_ne (x : Arr) : x.atleast1.shape ≠ [] := by
  show (if x.shape = [] then [1] else x.shape) ≠ []
  split
  · simp
  · assumption

/-- C24 through slices, reshapes and other reorderings: `y[key] = value` for a view `y` of `l`, `value` having as many entries as are
selected, and these being different entries of `l`. -/
theorem C24_through_views_partial {h : Heap ClassDef Par Arr Jac} (hr : Reach lib ⟨False, True⟩ h) {l y : Id} {x value : Arr}
    {osh idxs ksh : List ℕ} {pos : ℕ → ℕ} {key : List Key} (hl : IsLeaf h.graph l) (hx : Means lib h.graph (.r l) (.ok x))
    (hv : View h.graph l x.shape y osh pos) (hyl : y ≠ l) (hk : getitem key osh = some (idxs, ksh)) (hval : value.size = idxs.length)
    (hd : ∀ i < idxs.length, ∀ j < idxs.length, pos (idxs.getD i 0) = pos (idxs.getD j 0) → i = j) :
    ∃ f₀, ∀ f ≥ f₀, ∃ h', setItem f y key value h = (h', .ok ()) ∧ Assigns h l y x osh pos idxs ksh value h' := by
  obtain ⟨x0, hx0, rfl⟩ := leaf_term hl hx
  obtain ⟨hn, hi, _⟩ := getitem_spec hk
  obtain ⟨d, hdrep, f₀, hf⟩ := setItem_view hr hl hx hx0 hv hyl hk
  obtain ⟨x', hx'1, hx'2, hx'3, hx'4⟩ := assigned_distinct (x := x0) (value := value) hdrep (by rw [← Arr.atleast1_size]) hval
    (fun j hj => hv.bound _ (by rw [List.getD_eq_getElem _ _ hj]; exact hi _ (List.getElem_mem hj))) hd
  refine ⟨f₀, fun f hff => ?_⟩
  obtain ⟨h4, hr4, hl4, hal4, hx4, hv4, hfr4, he⟩ := hf f hff
  obtain ⟨h', e5, hr5, n5, a5, gl5, go5⟩ := setLeaf hr4 hal4 x'
  have hat : x'.atleast1 = x' := atleast1_of_ne (by rw [hx'2]; exact atleast1_ne x0)
  refine ⟨h', by rw [he, hx'1]; exact e5, assigns_of hr5 (x' := x') ?_ hx'2 (hv4.congr fun i hi => ?_) hi hn hx'3 ?_ ?_⟩
  · have := means_leaf (g := h'.graph) (l := l) (x0 := x') (by rw [gl5]; exact hl4.1) (by rw [gl5]; simp)
    rwa [hat] at this
  · rw [go5 i (by rintro rfl; exact hi (hl4.2.1 _))]
  · intro p hp hno
    rw [hx'4 p hp hno, Arr.atleast1_vec]
  · intro i hil hin
    rw [go5 i hil, hfr4 i hin]

/-! ## What does not hold -/

theorem assigned_number {d : Jac} {x value : Arr} {sh : List ℕ} {k : ℕ} {E : Ent} (hd : Jac.Rep d k sh.prod E) (hk : k ≠ 1) (hsh : sh.prod ≠ 0)
    (hv : value.size = 1) : ∃ e, assigned d x value sh = .error e := by
  have h1 : ∃ t1, Jac.superdot d.transp (.dense value.size 1 fun i _ => value.vec i) = .ok t1 ∧ t1.flat.1 = sh.prod * k := by
    rw [hv]
    cases d with
    | num c => exact absurd hd.1 hk
    | dense m n e =>
      obtain ⟨rfl, rfl, _⟩ := hd
      have hu : (Jac.dense sh.prod m e.tr).unwrap = Jac.dense sh.prod m e.tr := by
        rcases Jac.unwrap_cases (Jac.dense sh.prod m e.tr) with ⟨_, h, _⟩ | h
        · injection h with _ h; exact absurd h hk
        · exact h
      refine ⟨Jac.scale (value.vec 0) (Jac.dense sh.prod m e.tr), ?_, rfl⟩
      unfold Jac.superdot Jac.transp
      rw [hu]; rfl
    | sparse m n e =>
      obtain ⟨rfl, rfl, _⟩ := hd
      exact ⟨Jac.scale (value.vec 0) (Jac.sparse sh.prod m e.tr), rfl, rfl⟩
  obtain ⟨t1, h1, h2⟩ := h1
  unfold assigned
  rw [h1]
  cases h3 : Jac.superdot d (.dense x.size 1 fun i _ => x.vec i) with
  | error e => exact ⟨e, rfl⟩
  | ok u =>
    dsimp only
    cases h4 : Jac.superdot d.transp u with
    | error e => exact ⟨e, rfl⟩
    | ok t2 =>
      dsimp only
      refine ⟨_, if_neg ?_⟩
      rintro ⟨h5, _⟩
      rw [h2] at h5
      exact hk (Nat.eq_of_mul_eq_mul_left (Nat.pos_of_ne_zero hsh) (by rw [h5, Nat.mul_one]))

/-- Assigning a number to more than one entry through a view always raises (`t1` keeps one column for each selected entry, and the
reshape fails), although the same assignment to the array itself works. -/
theorem C24_numbers_raise {h : Heap ClassDef Par Arr Jac} (hr : Reach lib ⟨False, True⟩ h) {l y : Id} {x value : Arr}
    {osh idxs ksh : List ℕ} {pos : ℕ → ℕ} {key : List Key} (hl : IsLeaf h.graph l) (hx : Means lib h.graph (.r l) (.ok x))
    (hv : View h.graph l x.shape y osh pos) (hyl : y ≠ l) (hk : getitem key osh = some (idxs, ksh)) (hval : value.size = 1)
    (h1 : 1 < idxs.length) : ∃ f₀, ∀ f ≥ f₀, ∃ e, (setItem f y key value h).2 = .error e := by
  obtain ⟨x0, hx0, rfl⟩ := leaf_term hl hx
  obtain ⟨hn, hi, _⟩ := getitem_spec hk
  obtain ⟨d, hdrep, f₀, hf⟩ := setItem_view hr hl hx hx0 hv hyl hk
  refine ⟨f₀, fun f hff => ?_⟩
  obtain ⟨h4, hr4, hl4, hal4, hx4, hv4, hfr4, he⟩ := hf f hff
  have hne : x0.atleast1.shape.prod ≠ 0 := by
    have h0 : idxs.getD 0 0 < osh.prod := by
      rw [List.getD_eq_getElem _ _ (by omega)]; exact hi _ (List.getElem_mem _)
    have := hv.bound _ h0
    omega
  obtain ⟨e, h5⟩ := assigned_number (x := x0) hdrep (by omega) hne hval
  exact ⟨e, by rw [he, h5]⟩

namespace ADDemo
/-- `a = Ch([1,2,3,4]); b = a.reshape(2,2); c = b.T` -/
noncomputable def viewed : List (ObjSpec ClassDef Par) :=
  [leafO ⟨[4], fun k => k.1 + 1⟩, unPO chReshape (.ints [2, 2]) .none 0, unPO chTranspose .none .none 1]

theorem viewed_fits : FitsFrom 0 viewed := ⟨leafO_fits _ _, unPO_fits (by decide), unPO_fits (by decide), trivial⟩

/-- Positions in `a` of the entries of `a.reshape(2,2).T`. -/
def flipped (k : ℕ) : ℕ := ((transposeL [2, 2] [1, 0]).bind fun L => L.src k).getD 0

/-- The hypotheses of C24 are met by `a.reshape(2,2).T[0] = …`. -/
theorem viewed_view : ∃ h x, Reach lib ⟨False, True⟩ h ∧ IsLeaf h.graph 0 ∧ Means lib h.graph (.r 0) (.ok x) ∧ x.shape = [4] ∧
    View h.graph 0 x.shape 2 [2, 2] flipped := by
  obtain ⟨h, hr, hg⟩ := FitsFrom.reach viewed_fits ⟨False, True⟩
  have hl : IsLeaf h.graph 0 := by rw [hg]; exact isLeaf_leafO rfl
  refine ⟨_, (⟨[4], fun k => k.1 + 1⟩ : Arr).atleast1, hr, hl, ?_, rfl, ?_⟩
  · exact means_leaf (x0 := ⟨[4], fun k => k.1 + 1⟩) hl.1 (by rw [hg]; rfl)
  · rw [hg]
    have v1 : View (buildGraph lib viewed) 0 [4] 1 [2, 2] fun k => k :=
      View.reshape (z := [2, 2]) (o := [2, 2]) .leaf (isA_unP rfl) rfl (by decide)
    obtain ⟨L, h1, h2, h3, h4⟩ := transposeL_ok (sh := [2, 2]) (ax := [1, 0]) (by decide)
    have e : flipped = fun k => (L.src k).getD 0 := by
      funext k; unfold flipped; rw [h1]; rfl
    have hsh : L.shape = [2, 2] := by
      have h1' := h1
      unfold transposeL at h1'
      rw [if_pos (by decide)] at h1'
      injection h1' with h1'
      rw [← h1']; rfl
    have := View.reorder (ρ := transposeρ) v1 (y := 2) (L := L) (isA_unP rfl) (fun u hu => by
      show transposeρ (some .none) (some .none) u = some L
      simp only [transposeρ, hu]; exact h1) h2
    rw [hsh] at this
    rw [e]
    exact this

/-- `a.reshape(2,2).T[0]` is the entries 0 and 2 of `a`. -/
theorem viewed_key : getitem [.int 0] [2, 2] = some ([0, 1], [2]) ∧ flipped 0 = 0 ∧ flipped 1 = 2 := by decide

/-- `a.reshape(2,2).T[0] = [10, 20]` makes `a` `[10, 2, 20, 4]`: the hypotheses of C24 are met. -/
example : ∃ h, Reach lib ⟨False, True⟩ h ∧ ∃ x, Means lib h.graph (.r 0) (.ok x) ∧ ∃ f₀, ∀ f ≥ f₀, ∃ h',
    setItem f 2 [.int 0] ⟨[2], ![10, 20]⟩ h = (h', .ok ()) ∧ Assigns h 0 2 x [2, 2] flipped [0, 1] [2] ⟨[2], ![10, 20]⟩ h' := by
  obtain ⟨h, x, hr, hl, hx, _, hv⟩ := viewed_view
  refine ⟨h, hr, x, hx, C24_through_views_partial hr hl hx hv (by decide) viewed_key.1 rfl ?_⟩
  intro i hi j hj e
  have hi : i < 2 := hi
  have hj : j < 2 := hj
  rcases (show i = 0 ∨ i = 1 by omega) with rfl | rfl <;> rcases (show j = 0 ∨ j = 1 by omega) with rfl | rfl
  · rfl
  · exact absurd e (by decide)
  · exact absurd e (by decide)
  · rfl
end ADDemo

/-- C24 is false as stated: `a.reshape(2,2).T[0] = 5` raises an exception. -/
theorem C24_full_refuted : ¬ C24_full := by
  intro hf
  obtain ⟨h, x, hr, hl, hx, _, hv⟩ := ADDemo.viewed_view
  obtain ⟨f1, h1⟩ := hf h hr 0 2 x ⟨[1], fun _ => 5⟩ [2, 2] [0, 1] [2] ADDemo.flipped [.int 0] hl hx hv ADDemo.viewed_key.1 (by
    intro i hi j hj e
    have hi : i < 2 := hi
    have hj : j < 2 := hj
    rcases (show i = 0 ∨ i = 1 by omega) with rfl | rfl <;> rcases (show j = 0 ∨ j = 1 by omega) with rfl | rfl
    · rfl
    · exact absurd e (by decide)
    · exact absurd e (by decide)
    · rfl) (Or.inr rfl)
  obtain ⟨f2, h2⟩ := C24_numbers_raise hr hl hx hv (by decide) ADDemo.viewed_key.1 (value := ⟨[1], fun _ => 5⟩) rfl (by decide)
  obtain ⟨h', h3, _⟩ := h1 (max f1 f2) (le_max_left _ _)
  obtain ⟨e, h4⟩ := h2 (max f1 f2) (le_max_right _ _)
  rw [h3] at h4; cases h4
end Chumpy
