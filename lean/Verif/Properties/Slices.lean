import Verif.AD.SliceWrt
import Verif.AD.Built
import Verif.AD.Wrong
import Verif.Properties.Elementwise
import Verif.Properties.Arith
/-!
# C20: the derivative with respect to a slice

`y.dr_wrt(a[key])` should be the columns of `y.dr_wrt(a)` that `key` selects.
-/
namespace Chumpy
open scoped BigOperators

/-- `s` is made of `a` by indexing, `depth` times: `k` entries, the `j`-th being the entry `σ j` of the `n` entries of `a`, all different
ones. -/
inductive SliceOf (g : Graph ClassDef Par) (a : Id) (n : ℕ) : (depth : ℕ) → (s : Id) → (k : ℕ) → (σ : ℕ → ℕ) → Prop
  | one {s : Id} {idxs sh : List ℕ} (hs : IsA g s chSelect [nmA] fun _ => a) (hp : (g s).terms nmP = some (.nats idxs))
      (hq : (g s).terms nmQ = some (.nats sh)) (hsh : sh.prod = idxs.length) (hi : ∀ j ∈ idxs, j < n) (hd : idxs.Nodup) :
      SliceOf g a n 1 s idxs.length fun j => idxs.getD j 0
  | more {depth : ℕ} {t s : Id} {k : ℕ} {σ : ℕ → ℕ} {idxs sh : List ℕ} (ht : SliceOf g a n depth t k σ) (hs : IsA g s chSelect [nmA] fun _ => t)
      (hp : (g s).terms nmP = some (.nats idxs)) (hq : (g s).terms nmQ = some (.nats sh)) (hsh : sh.prod = idxs.length)
      (hi : ∀ j ∈ idxs, j < k) (hd : idxs.Nodup) : SliceOf g a n (depth + 1) s idxs.length fun j => σ (idxs.getD j 0)

/-- The columns `σ` of the matrix `M`. -/
def columns (σ : ℕ → ℕ) (M : Ent) : Ent := fun r j => M r (σ j)

/-- C20 in full: if `y.dr_wrt(a)` is the matrix `M`, `y.dr_wrt(s)` is the columns of `M` selected by the slice. -/
def C20_full : Prop :=
  ∀ (h : Heap ClassDef Par Arr Jac), Reach lib ⟨True, True⟩ h → ∀ (y a s : Id) (depth n k m : ℕ) (σ : ℕ → ℕ) (M : Ent) (va : Arr),
    Means lib h.graph (.r a) (.ok va) → va.size = n → SliceOf h.graph a n depth s k σ → Reports h y a m n M → Reports h y s m k (columns σ M)

/-! ## What holds -/

theorem comp_of_exact {g : Graph ClassDef Par} {y : Id} {c : ClassDef} {ns : List Name} {kids : Fin ns.length → Id} (hy : IsA g y c ns kids)
    {v : Fin ns.length → Arr} {out : Arr} {P : Fin ns.length → Ent} (hk : ∀ a, Means lib g (.r (kids a)) (.ok (v a)))
    (hE : Exact c (g y).terms ns v out P) {p : Id} {x : Arr} (hyp : y ≠ p) (hS : (g y).namesOf p ≠ []) (hx : Means lib g (.r p) (.ok x)) :
    ∃ d, CompIs lib g y p d ∧ num.RepO d out.size x.size (∑ a with ns.get a ∈ (g y).namesOf p, P a) := by
  have hsub : ((g y).namesOf p).Sublist ns := by
    have := namesOf_sublist (g y) p
    rwa [hy.links] at this
  have hval : ∀ a, ns.get a ∈ (g y).namesOf p → v a = x := by
    intro a ha
    simp only [GNode.namesOf, List.mem_filter, decide_eq_true_eq] at ha
    rw [hy.kid a] at ha
    have h1 := hk a
    have : kids a = p := by injection ha.2
    rw [this] at h1
    have := h1.unique hx
    injection this
  obtain ⟨d, h1, h2⟩ := hE.dr _ x hS hsub hval
  rw [← hy.cls] at h1
  obtain ⟨f, hf⟩ := evalCompDr_of_returnsDr hyp (means_of_isA hy hk hE.val) (envOf_kids_some hy hk) h1
  exact ⟨d, ⟨f, hf⟩, h2⟩

theorem comp_one {g : Graph ClassDef Par} {y a : Id} {c : ClassDef} (hy : IsA g y c [nmA] fun _ => a)
    {v out : Arr} {P : Ent} (hk : Means lib g (.r a) (.ok v))
    (hE : Exact c (g y).terms [nmA] (fun _ => v) out fun _ => P) (hya : y ≠ a) : ∃ d, CompIs lib g y a d ∧ num.RepO d out.size v.size P := by
  obtain ⟨d, h1, h2⟩ := comp_of_exact hy (fun _ => hk) hE hya (by rw [namesOf_one hy]; simp) hk
  refine ⟨d, h1, ?_⟩
  rw [namesOf_one hy] at h2
  have : (∑ a : Fin [nmA].length with [nmA].get a ∈ [nmA], P) = P := by
    rw [Finset.sum_filter]
    exact (Fin.sum_univ_one _).trans (by simp)
  erw [this] at h2
  exact h2

/-- For every slice of every reordering class, in terms of the positions `σ` its entries come from. -/
theorem slice_columns_api {h : Heap ClassDef Par Arr Jac} (hr : Reach lib ⟨True, True⟩ h) {y a s : Id} {vy va vs : Arr} {σ : ℕ → ℕ}
    (hy : Means lib h.graph (.r y) (.ok vy)) (ha : Means lib h.graph (.r a) (.ok va)) (hvs : Means lib h.graph (.r s) (.ok vs))
    (hcomp : ∃ d, CompIs lib h.graph s a d ∧ num.RepO d vs.size va.size (selMat σ fun _ => 1))
    (hσ : ∀ j < vs.size, σ j < va.size) (hinj : ∀ j < vs.size, ∀ j' < vs.size, σ j = σ j' → j = j')
    (hnd : ∀ i, Reaches h.graph y i → (h.graph i).dnames.Nodup)
    (hok : ∀ i, Reaches h.graph y i ∨ i = s ∨ i = a → SizesOk h.graph (objSize h.graph) i) (hs : SliceOk h.graph y s a) (hys : y ≠ s)
    {f f' : ℕ} {o o' : Option Jac} {M : Ent} (ho : (drWrt lib f y s h).2 = .ok o) (ho' : (drWrt lib f' y a h).2 = .ok o')
    (hM : num.RepO o' vy.size va.size M) : num.RepO o vy.size vs.size (columns σ M) := by
  obtain ⟨_, f1, hf1⟩ := (C02_derivative_wrt_slices_partial lib_propsOk lib_localDr lib_plainForm hr f y s).1 o ho
  obtain ⟨_, f2, hf2⟩ := (C02_derivative_wrt_slices_partial lib_propsOk lib_localDr lib_plainForm hr f' y a).1 o' ho'
  have e1 := objSize_eq hy
  have e2 := objSize_eq ha
  have e3 := objSize_eq hvs
  have := slice_columns (n := objSize h.graph) (g := h.graph) (y := y) (s := s) (a := a) (σ := σ) (reach_str hr).dn hnd hok hs
    (by rw [e2, e3]; exact hσ) (by rw [e3]; exact hinj)
    (fun F o ho => by
      obtain ⟨d, h1, h2⟩ := hcomp
      have := CompIs.unique ⟨F, ho⟩ h1
      rw [this, e2, e3]; exact h2)
    f1 y f2 o o' M .refl hs.top hys hf1 hf2 (by rw [e1, e2]; exact hM)
  rw [e1, e3] at this
  exact this

/-- C20 for one level of indexing.  In every reachable state, `y.dr_wrt(a[key])` is the columns of `y.dr_wrt(a)` at the positions `idxs`
that `key` selects (C23 says which), whenever both return.  Conditions (`SliceOk`, and each is needed): `y` is not `a` itself,
`a` is not a slice itself, under `y` no object uses the slice twice or the slice and `a` together; and the classes return matrices of the
right sizes. -/
theorem C20_slice_columns_partial {h : Heap ClassDef Par Arr Jac} (hr : Reach lib ⟨True, True⟩ h) {y a s : Id} {vy va : Arr} {k : ℕ} {σ : ℕ → ℕ}
    (hy : Means lib h.graph (.r y) (.ok vy)) (ha : Means lib h.graph (.r a) (.ok va)) (hsl : SliceOf h.graph a va.size 1 s k σ)
    (hnd : ∀ i, Reaches h.graph y i → (h.graph i).dnames.Nodup)
    (hok : ∀ i, Reaches h.graph y i ∨ i = s ∨ i = a → SizesOk h.graph (objSize h.graph) i) (hs : SliceOk h.graph y s a) (hys : y ≠ s)
    {f f' : ℕ} {o o' : Option Jac} {M : Ent} (ho : (drWrt lib f y s h).2 = .ok o) (ho' : (drWrt lib f' y a h).2 = .ok o')
    (hM : num.RepO o' vy.size va.size M) : num.RepO o vy.size k (columns σ M) := by
  cases hsl with
  | more ht _ _ _ _ _ _ => cases ht
  | one hA hp hq hsh hi hd =>
    rename_i idxs sh
    have hE := exact_select hp hq hi hsh
    have hvs := means_of_isA hA (fun _ => ha) hE.val
    have hsz : (Arr.of sh fun k => va.vec (idxs.getD k 0)).atleast1.size = idxs.length := by
      show (if sh = [] then [1] else sh).prod = _
      rw [← hsh]; split
      · next h => rw [h]; rfl
      · rfl
    have hsa : s ≠ a := fun e => by
      have := hs.permute
      rw [e, hs.base] at this; cases this
    obtain ⟨d, h1, h2⟩ := comp_one hA ha hE hsa
    have := slice_columns_api hr hy ha hvs ⟨d, h1, h2⟩ (σ := fun k => idxs.getD k 0)
      (fun j hj => by
        rw [hsz] at hj
        rw [List.getD_eq_getElem _ _ hj]; exact hi _ (List.getElem_mem hj))
      (fun j hj j' hj' e => by
        rw [hsz] at hj hj'
        rw [List.getD_eq_getElem _ _ hj, List.getD_eq_getElem _ _ hj'] at e
        exact (List.Nodup.getElem_inj_iff hd).1 e)
      hnd hok hs hys ho ho' hM
    rw [hsz] at this
    exact this

/-- C20 for transposes, reshapes and the other reorderings of `a` (`L` is where the entries come from, C25), used as variables. -/
theorem C20_reordered_columns_partial {h : Heap ClassDef Par Arr Jac} (hr : Reach lib ⟨True, True⟩ h) {y a s : Id} {vy va : Arr}
    {ρ : Option Par → Option Par → Arr → Option Layout} {L : Layout} (hA : IsA h.graph s (chReorder ρ) [nmA] fun _ => a)
    (hρ : ∀ u : Arr, u.shape = va.shape → ρ ((h.graph s).terms nmP) ((h.graph s).terms nmQ) u = some L) (hL : L.Ok va.size)
    (hinj : ∀ j < L.shape.prod, ∀ j' < L.shape.prod, L.src j = L.src j' → j = j')
    (hy : Means lib h.graph (.r y) (.ok vy)) (ha : Means lib h.graph (.r a) (.ok va))
    (hnd : ∀ i, Reaches h.graph y i → (h.graph i).dnames.Nodup)
    (hok : ∀ i, Reaches h.graph y i ∨ i = s ∨ i = a → SizesOk h.graph (objSize h.graph) i) (hs : SliceOk h.graph y s a) (hys : y ≠ s)
    {f f' : ℕ} {o o' : Option Jac} {M : Ent} (ho : (drWrt lib f y s h).2 = .ok o) (ho' : (drWrt lib f' y a h).2 = .ok o')
    (hM : num.RepO o' vy.size va.size M) : num.RepO o vy.size L.shape.prod (columns (fun j => (L.src j).getD 0) M) := by
  have hE := exact_reorder hρ hL
  have hvs := means_of_isA hA (fun _ => ha) hE.val
  have hsz : (L.apply va).atleast1.size = L.shape.prod := by
    show (if L.shape = [] then [1] else L.shape).prod = _
    split
    · next h => rw [h]; rfl
    · rfl
  have hsa : s ≠ a := fun e => by
    have := hs.permute
    rw [e, hs.base] at this; cases this
  obtain ⟨d, h1, h2⟩ := comp_one hA ha hE hsa
  have := slice_columns_api hr hy ha hvs ⟨d, h1, h2⟩ (σ := fun k => (L.src k).getD 0)
    (fun j hj => by
      rw [hsz] at hj
      obtain ⟨i, hi, e⟩ := hL j hj
      rw [e]; exact hi)
    (fun j hj j' hj' e => by
      rw [hsz] at hj hj'
      obtain ⟨i, _, e1⟩ := hL j hj
      obtain ⟨i', _, e2⟩ := hL j' hj'
      rw [e1, e2] at e
      exact hinj j hj j' hj' (by rw [e1, e2]; exact congrArg _ e))
    hnd hok hs hys ho ho' hM
  rw [hsz] at this
  exact this

/-! ## A case that meets the conditions -/

theorem sizesOk_leaf {g : Graph ClassDef Par} {i : Id} (hl : IsLeaf g i) :
    SizesOk g (objSize g) i := by
  intro f p d hd
  by_cases hp : i = p
  · subst hp
    unfold evalCompDr at hd
    rw [show (i == i) = true from by simp, hl.1] at hd
    simp only [chLeaf, evalProg] at hd
    split at hd
    · next u hu =>
      cases hd
      rw [objSize_eq (show Means lib _ (.r i) (.ok u) from ⟨by simp, _, hu⟩)]
      exact ⟨_, rfl, rfl, Ent.EqOn.refl _⟩
    · cases hd
  · have := CompIs.unique ⟨f, hd⟩ (compIs_none lib_localDr hp (by unfold GNode.namesOf; rw [hl.2.2]; rfl))
    cases this

theorem sizesOk_isA {g : Graph ClassDef Par} {y : Id} {c : ClassDef} {ns : List Name} {kids : Fin ns.length → Id} (hy : IsA g y c ns kids)
    {v : Fin ns.length → Arr} {out : Arr} {P : Fin ns.length → Ent} (hk : ∀ a, Means lib g (.r (kids a)) (.ok (v a)))
    (hE : Exact c (g y).terms ns v out P) (hdecl : ∀ k c, (g y).dterms k = some c → k ∈ (g y).dnames)
    (hself : c.dr true [] = .ret none) (hn : ∀ a, kids a ≠ y) : SizesOk g (objSize g) y := by
  refine (exactly_of_exact hy hk hE).sizesOk (by rw [hy.dnames]; exact hy.nodup) hdecl fun f d hd => ?_
  have hnm : (g y).namesOf y = [] := by
    rw [List.eq_nil_iff_forall_not_mem]
    intro k hk
    simp only [GNode.namesOf, List.mem_filter, decide_eq_true_eq] at hk
    obtain ⟨hk1, hk2⟩ := hk
    rw [hy.dnames] at hk1
    obtain ⟨a, rfl⟩ := List.get_of_mem hk1
    rw [hy.kid a] at hk2
    injection hk2 with e
    exact hn a e
  unfold evalCompDr at hd
  rw [show (y == y) = true from by simp, hnm, hy.cls, show lib.computeDr c true [] = c.dr true [] from rfl, hself] at hd
  simp only [evalProg] at hd
  cases hd

theorem reports_of_meansDr {h : Heap ClassDef Par Arr Jac} (hr : Reach lib ⟨True, True⟩ h) {y w : Id} {o : Option Jac}
    (hd : MeansDr lib h.graph y w (.ok o)) {m n : ℕ} {E : Ent} (hE : num.RepO o m n E) : Reports h y w m n E := by
  obtain ⟨_, f₀, hf₀⟩ := hd
  refine ⟨f₀, fun f hf => ⟨o, ?_, hE⟩⟩
  have e := evalDr_up hf hf₀
  have := (C02_derivative_wrt_slices_partial lib_propsOk lib_localDr lib_plainForm hr f y w).2.2
  rw [e] at this
  exact this (by simp)

theorem not_reports_of_raises {h : Heap ClassDef Par Arr Jac} (hr : Reach lib ⟨True, True⟩ h) {y w : Id} {e : Err}
    (hd : MeansDr lib h.graph y w (.error e)) {m n : ℕ} {E : Ent} : ¬ Reports h y w m n E := by
  rintro ⟨f₀, h⟩
  obtain ⟨o, ho, _⟩ := h f₀ (Nat.le_refl _)
  have := (C02_derivative_wrt_slices_partial lib_propsOk lib_localDr lib_plainForm hr f₀ y w).1 o ho
  have := this.unique hd
  cases this

/-- The detour over what the slice is a slice of (ch.py:295-310). -/
theorem slicedIs_detour {g : Graph ClassDef Par} {i s a : Id} {d j x : Jac} (hp : lib.isPermute (g s).cls = true) (ha : (g s).dterms nmA = some a)
    (hai : a ≠ i) (hn : CompIs lib g i s none) (hd : CompIs lib g i a (some d)) (hj : CompIs lib g s a (some j)) (hx : Jac.superdot d j.transp = .ok x) :
    SlicedIs lib g i s (some x) := by
  obtain ⟨f1, h1⟩ := hn
  obtain ⟨f2, h2⟩ := hd
  obtain ⟨f3, h3⟩ := hj
  refine ⟨max f1 (max f2 f3) + 1, ?_⟩
  have h1 := evalCompDr_up (show f1 ≤ max f1 (max f2 f3) + 1 by omega) h1
  have h2 := evalCompDr_up (show f2 ≤ max f1 (max f2 f3) + 1 by omega) h2
  have h3 := evalCompDr_up (show f3 ≤ max f1 (max f2 f3) + 1 by omega) h3
  unfold evalSliced
  rw [h1]; dsimp only
  rw [evalSlice_perm hp ha, if_neg hai, h2]; dsimp only
  rw [h3]
  show (Jac.superdot d j.transp).map some = _
  rw [hx]; rfl

theorem drIs_rep {g : Graph ClassDef Par} {i w : Id} {direct : Option Jac} {ds : List Jac} {d : Jac} {m n : ℕ} {E : Ent} (hs : SlicedIs lib g i w direct)
    (ht : TermsIs lib g i w (g i).dnames direct.toList ds) (hr : sumD lib ds = .ok (some d)) (hE : Jac.Rep d m n E) :
    ∃ d', MeansDr lib g i w (.ok (some d')) ∧ Jac.Rep d' m n E :=
  ⟨_, drIs hs ht hr, Jac.outForm_rep _ _ (Jac.finish_rep hE)⟩

namespace ADDemo
/-- `a = Ch([1,2]); s = a[[1,0]]; t = s[[1,0]]; e = exp(a); m = a + s; y = e + s` -/
noncomputable def sliced : List (ObjSpec ClassDef Par) :=
  [leafO (vec2 1 2), unPO chSelect (.nats [1, 0]) (.nats [2]) 0, unPO chSelect (.nats [1, 0]) (.nats [2]) 1, unO chExp 0, binO chAdd 0 1,
    binO chAdd 3 1]

theorem sliced_fits : FitsFrom 0 sliced :=
  ⟨leafO_fits _ _, unPO_fits (by decide), unPO_fits (by decide), unO_fits (by decide), binO_fits (by decide) (by decide) rfl,
    binO_fits (by decide) (by decide) rfl, trivial⟩

/-- Swapped positions. -/
def swap (j : ℕ) : ℕ := [1, 0].getD j 0
/-- The value of `a[[1,0]]`. -/
noncomputable def swapped (v : Arr) : Arr := (Arr.of [2] fun k => v.vec (swap k)).atleast1
theorem swapped_size (v : Arr) : (swapped v).size = 2 := rfl

theorem exact_swap {tm : Name → Option Par} (hp : tm nmP = some (.nats [1, 0])) (hq : tm nmQ = some (.nats [2])) (v : Arr) (hv : v.size = 2) :
    Exact chSelect tm [nmA] (fun _ => v) (swapped v) (fun _ => selMat swap fun _ => 1) :=
  exact_select hp hq (by intro j hj; rw [hv]; simp at hj; omega) rfl

/-- The graph of `sliced`, piece by piece. -/
structure Sliced (g : Graph ClassDef Par) : Prop where
  leaf0 : IsLeaf g 0
  is1 : IsA g 1 chSelect [nmA] fun _ => 0
  is2 : IsA g 2 chSelect [nmA] fun _ => 1
  is3 : IsA g 3 chExp [nmA] fun _ => 0
  is4 : IsA g 4 chAdd [nmA, nmB] ![0, 1]
  is5 : IsA g 5 chAdd [nmA, nmB] ![3, 1]
  p1 : (g 1).terms nmP = some (.nats [1, 0])
  q1 : (g 1).terms nmQ = some (.nats [2])
  p2 : (g 2).terms nmP = some (.nats [1, 0])
  q2 : (g 2).terms nmQ = some (.nats [2])
  v0 : Means lib g (.r 0) (.ok (vec2 1 2))
  decl : ∀ i k c, (g i).dterms k = some c → k ∈ (g i).dnames

theorem sliced_graph : Sliced (buildGraph lib sliced) where
  leaf0 := isLeaf_leafO rfl
  is1 := isA_unP rfl
  is2 := isA_unP rfl
  is3 := isA_un rfl
  is4 := isA_bin rfl
  is5 := isA_bin rfl
  p1 := rfl
  q1 := rfl
  p2 := rfl
  q2 := rfl
  v0 := (leaf_means (g := buildGraph lib sliced) (i := 0) (v := vec2 1 2) rfl (by simp [vec2])).1
  decl := fun _ _ _ hk => (sliced_fits.link hk).1

section
variable {g : Graph ClassDef Par} (h : Sliced g)
include h

theorem Sliced.e1 : Exact chSelect (g 1).terms [nmA] (fun _ => vec2 1 2) (swapped (vec2 1 2)) (fun _ => selMat swap fun _ => 1) :=
  exact_swap h.p1 h.q1 _ rfl
theorem Sliced.v1 : Means lib g (.r 1) (.ok (swapped (vec2 1 2))) := means_of_isA h.is1 (fun _ => h.v0) h.e1.val
omit h in
theorem sliced_e3 : Exact chExp (g 3).terms [nmA] (fun _ => vec2 1 2) (mapVal Real.exp (vec2 1 2)) (fun _ => diagMat fun k => Real.exp ((vec2 1 2).vec k)) :=
  exact_unary _ (Or.inl ⟨2, [], rfl, by decide⟩) (fun _ _ => Real.hasDerivAt_exp _)
theorem Sliced.v3 : Means lib g (.r 3) (.ok (mapVal Real.exp (vec2 1 2))) := means_of_isA h.is3 (fun _ => h.v0) (sliced_e3 (g := g)).val
theorem Sliced.k4 : ∀ j, Means lib g (.r ((![0, 1] : Fin 2 → Id) j)) (.ok ((![vec2 1 2, swapped (vec2 1 2)] : Fin 2 → Arr) j)) := kids2 h.v0 h.v1
theorem Sliced.k5 : ∀ j, Means lib g (.r ((![3, 1] : Fin 2 → Id) j)) (.ok ((![mapVal Real.exp (vec2 1 2), swapped (vec2 1 2)] : Fin 2 → Arr) j)) :=
  kids2 h.v3 h.v1
theorem Sliced.v4 : Means lib g (.r 4) (.ok (bcastVal (· + ·) (vec2 1 2) (swapped (vec2 1 2)) [2])) :=
  means_of_isA h.is4 h.k4 (exact_add _ (o := [2]) (by rfl)).val
theorem Sliced.v5 : Means lib g (.r 5) (.ok (bcastVal (· + ·) (mapVal Real.exp (vec2 1 2)) (swapped (vec2 1 2)) [2])) :=
  means_of_isA h.is5 h.k5 (exact_add _ (o := [2]) (by rfl)).val

theorem Sliced.sizes : ∀ i, i = 0 ∨ i = 1 ∨ i = 3 ∨ i = 5 → SizesOk g (objSize g) i := by
  rintro i (rfl | rfl | rfl | rfl)
  · exact sizesOk_leaf h.leaf0
  · exact sizesOk_isA h.is1 (fun _ => h.v0) h.e1 (h.decl 1) rfl (fun _ => by decide)
  · exact sizesOk_isA h.is3 (fun _ => h.v0) sliced_e3 (h.decl 3) rfl (fun _ => by decide)
  · exact sizesOk_isA h.is5 h.k5 (exact_add _ (o := [2]) (by rfl)) (h.decl 5) rfl (fun a => by rcases fin2 a with rfl | rfl <;> decide)

theorem Sliced.slice : SliceOf g 0 2 1 1 2 swap := .one (idxs := [1, 0]) h.is1 h.p1 h.q1 rfl (by simp) (by simp)
theorem Sliced.slice2 : SliceOf g 0 2 2 2 2 (fun j => swap (swap j)) := .more (idxs := [1, 0]) h.slice h.is2 h.p2 h.q2 rfl (by simp) (by simp)

theorem Sliced.perm1 : lib.isPermute (g 1).cls = true := by rw [h.is1.cls]; rfl
theorem Sliced.perm2 : lib.isPermute (g 2).cls = true := by rw [h.is2.cls]; rfl
theorem Sliced.perm0 : lib.isPermute (g 0).cls = false := by rw [h.leaf0.1]; rfl

theorem Sliced.c10 : ∃ d, CompIs lib g 1 0 (some d) ∧ Jac.Rep d 2 2 (selMat swap fun _ => 1) := by
  obtain ⟨d, h1, h2⟩ := comp_one h.is1 h.v0 h.e1 (by decide)
  cases d with
  | none =>
    have := h2 0 (by decide) 1 (by decide)
    simp [selMat, swap] at this
  | some d => exact ⟨d, h1, h2⟩

theorem Sliced.c30 : ∃ d, CompIs lib g 3 0 (some d) ∧ Jac.Rep d 2 2 (diagMat fun k => Real.exp ((vec2 1 2).vec k)) := by
  obtain ⟨d, h1, h2⟩ := comp_one h.is3 h.v0 sliced_e3 (by decide)
  cases d with
  | none =>
    have := h2 0 (by decide) 0 (by decide)
    simp [selMat] at this
  | some d => exact ⟨d, h1, h2⟩

theorem Sliced.m00 : ∃ d, MeansDr lib g 0 0 (.ok (some d)) ∧ Jac.Rep d 2 2 Ent.one := by
  obtain ⟨hne, f, hf⟩ := h.v0
  have hc : CompIs lib g 0 0 (some (.sparse (vec2 1 2).size (vec2 1 2).size Ent.one)) := by
    refine ⟨f, ?_⟩
    unfold evalCompDr
    rw [show ((0 : Id) == 0) = true from rfl, h.leaf0.1]
    simp only [chLeaf, evalProg]
    rw [hf]
  exact drIs_rep (d := .sparse (vec2 1 2).size (vec2 1 2).size Ent.one) (.some hc) (by rw [h.leaf0.2.2]; exact .nil ..) rfl
    (by exact ⟨rfl, rfl, Ent.EqOn.refl _⟩)

theorem Sliced.n1 : (g 1).dterms nmA = some 0 := h.is1.kid (0 : Fin 1)
theorem Sliced.n2 : (g 2).dterms nmA = some 1 := h.is2.kid (0 : Fin 1)
theorem Sliced.n3 : (g 3).dterms nmA = some 0 := h.is3.kid (0 : Fin 1)

theorem Sliced.m01 : MeansDr lib g 0 1 (.ok none) := by
  have hn : (g 0).namesOf 1 = [] := by unfold GNode.namesOf; rw [h.leaf0.2.2]; rfl
  have : SlicedIs lib g 0 1 none := by
    obtain ⟨f, hf⟩ := compIs_none lib_localDr (show (0 : Id) ≠ 1 by decide) hn
    refine ⟨f + 1, ?_⟩
    unfold evalSliced
    rw [evalCompDr_up (Nat.le_succ f) hf]; dsimp only
    rw [evalSlice_perm h.perm1 h.n1, if_pos rfl]
  exact drIs this (by rw [h.leaf0.2.2]; exact .nil ..) rfl

theorem Sliced.m10 : ∃ d, MeansDr lib g 1 0 (.ok (some d)) ∧ Jac.Rep d 2 2 (selMat swap fun _ => 1) := by
  obtain ⟨d, h1, h2⟩ := h.c10
  exact drIs_rep (.some h1) (by rw [h.is1.dnames]; exact .wrt h.n1 (.nil ..)) rfl h2

theorem Sliced.m30 : ∃ d, MeansDr lib g 3 0 (.ok (some d)) ∧ Jac.Rep d 2 2 (diagMat fun k => Real.exp ((vec2 1 2).vec k)) := by
  obtain ⟨d, h1, h2⟩ := h.c30
  exact drIs_rep (.some h1) (by rw [h.is3.dnames]; exact .wrt h.n3 (.nil ..)) rfl h2

theorem Sliced.no3 {w : Id} (hw : w ≠ 0) : (g 3).namesOf w = [] := by
  unfold GNode.namesOf
  rw [h.is3.dnames, List.filter_cons_of_neg (by rw [h.n3]; simpa using Ne.symm hw)]; rfl

theorem Sliced.m31 : ∃ d E, MeansDr lib g 3 1 (.ok (some d)) ∧ Jac.Rep d 2 2 E := by
  obtain ⟨d, h1, h2⟩ := h.c30
  obtain ⟨j, h3, h4⟩ := h.c10
  obtain ⟨x, hx, hE⟩ := Jac.superdot_rep h2 (Jac.transp_rep h4)
  have hs := slicedIs_detour h.perm1 h.n1 (by decide) (compIs_none lib_localDr (show (3 : Id) ≠ 1 by decide) (h.no3 (by decide))) h1 h3 hx
  obtain ⟨d', h5, h6⟩ := drIs_rep hs (by rw [h.is3.dnames]; exact .none h.n3 (by decide) h.m01 (.nil ..)) rfl hE
  exact ⟨d', _, h5, h6⟩
end

/-- The derivative of a sum about one of its two different operands. -/
theorem comp_add {g : Graph ClassDef Par} {y a b : Id} (hy : IsA g y chAdd [nmA, nmB] ![a, b]) {u v : Arr} (hu : Means lib g (.r a) (.ok u))
    (hv : Means lib g (.r b) (.ok v)) (hus : u.shape = [2]) (hvs : v.shape = [2]) (hab : a ≠ b) (hya : y ≠ a) (hyb : y ≠ b) :
    (∃ d, CompIs lib g y a (some d) ∧ Jac.Rep d 2 2 Ent.one) ∧ ∃ d, CompIs lib g y b (some d) ∧ Jac.Rep d 2 2 Ent.one := by
  have hE := exact_add (g y).terms (u := u) (v := v) (o := [2]) (by rw [hus, hvs]; rfl)
  have hb : ∀ k < 2, bidx [2] [2] k = k := by
    intro k hk
    interval_cases k <;> rfl
  have hone : Ent.EqOn 2 2 (selMat (bidx [2] [2]) fun _ => 1) Ent.one := by
    intro i hi j hj
    simp only [selMat, hb i hi, Ent.one]
  have hsu : u.size = 2 := by unfold Arr.size; rw [hus]; rfl
  have hsv : v.size = 2 := by unfold Arr.size; rw [hvs]; rfl
  have key : ∀ (p : Id) (x : Arr), x.size = 2 → y ≠ p → Means lib g (.r p) (.ok x) → (g y).namesOf p ≠ [] →
      (∑ i with [nmA, nmB].get i ∈ (g y).namesOf p, (![selMat (bidx u.shape [2]) fun _ => 1, selMat (bidx v.shape [2]) fun _ => 1] : Fin 2 → Ent) i) =
        (selMat (bidx [2] [2]) fun _ => 1) → ∃ d, CompIs lib g y p (some d) ∧ Jac.Rep d 2 2 Ent.one := by
    intro p x hx hyp hm hn hsum
    obtain ⟨d, h1, h2⟩ := comp_of_exact hy (kids2 hu hv) hE hyp hn hm
    erw [hsum, hx] at h2
    have h2 : num.RepO d 2 2 (selMat (bidx [2] [2]) fun _ => 1) := h2
    cases d with
    | none =>
      have := (Ent.EqOn.trans (Ent.EqOn.symm hone) h2) 0 (by decide) 0 (by decide)
      simp [Ent.one] at this
    | some d => exact ⟨d, h1, Jac.rep_congr hone h2⟩
  refine ⟨key a u hsu hya hu (by rw [namesOf_left hy hab]; simp) ?_, key b v hsv hyb hv (by rw [namesOf_right hy hab]; simp) ?_⟩
  · rw [namesOf_left hy hab, Finset.sum_filter]
    exact (Fin.sum_univ_two _).trans (by simp [hus])
  · rw [namesOf_right hy hab, Finset.sum_filter]
    exact (Fin.sum_univ_two _).trans (by simp [hvs])

section
variable {g : Graph ClassDef Par} (h : Sliced g)
include h

theorem Sliced.comps4 : (∃ d, CompIs lib g 4 0 (some d) ∧ Jac.Rep d 2 2 Ent.one) ∧ ∃ d, CompIs lib g 4 1 (some d) ∧ Jac.Rep d 2 2 Ent.one :=
  comp_add h.is4 h.v0 h.v1 rfl rfl (by decide) (by decide) (by decide)
theorem Sliced.comps5 : (∃ d, CompIs lib g 5 3 (some d) ∧ Jac.Rep d 2 2 Ent.one) ∧ ∃ d, CompIs lib g 5 1 (some d) ∧ Jac.Rep d 2 2 Ent.one :=
  comp_add h.is5 h.v3 h.v1 rfl rfl (by decide) (by decide) (by decide)

theorem Sliced.n4 : (g 4).dterms nmA = some 0 ∧ (g 4).dterms nmB = some 1 := ⟨h.is4.kid (0 : Fin 2), h.is4.kid (1 : Fin 2)⟩
theorem Sliced.n5 : (g 5).dterms nmA = some 3 ∧ (g 5).dterms nmB = some 1 := ⟨h.is5.kid (0 : Fin 2), h.is5.kid (1 : Fin 2)⟩

/-- `y.dr_wrt(a)` and `y.dr_wrt(a[[1,0]])` return, for `y = exp(a) + a[[1,0]]`. -/
theorem Sliced.m50 : ∃ d M, MeansDr lib g 5 0 (.ok (some d)) ∧ Jac.Rep d 2 2 M := by
  obtain ⟨⟨d3, c3, r3⟩, d1, c1, r1⟩ := h.comps5
  obtain ⟨x3, m3, s3⟩ := h.m30
  obtain ⟨x1, m1, s1⟩ := h.m10
  obtain ⟨z3, e3, t3⟩ := Jac.superdot_rep r3 s3
  obtain ⟨z1, e1, t1⟩ := Jac.superdot_rep r1 s1
  obtain ⟨z, hz⟩ := Jac.add_total (by decide) t3 t1
  have hn : (g 5).namesOf 0 = [] := by
    unfold GNode.namesOf
    rw [h.is5.dnames, List.filter_cons_of_neg (by rw [h.n5.1]; simp), List.filter_cons_of_neg (by rw [h.n5.2]; simp)]; rfl
  obtain ⟨d, h1, h2⟩ := drIs_rep (direct := none) (.none (compIs_none lib_localDr (by decide) hn) h.perm0)
    (by rw [h.is5.dnames]; exact .some h.n5.1 (by decide) m3 (.some c3) e3 (.some h.n5.2 (by decide) m1 (.some c1) e1 (.nil ..)))
    (show sumD lib [z3, z1] = .ok (some z) by
      show ([z1].foldlM Jac.add z3).map some = _
      simp only [List.foldlM]; rw [hz]; rfl) (Jac.add_rep t3 t1 hz)
  exact ⟨d, _, h1, h2⟩

theorem Sliced.m51 : ∃ d M, MeansDr lib g 5 1 (.ok (some d)) ∧ Jac.Rep d 2 2 M := by
  obtain ⟨⟨d3, c3, r3⟩, d1, c1, r1⟩ := h.comps5
  obtain ⟨x3, E, m3, s3⟩ := h.m31
  obtain ⟨z3, e3, t3⟩ := Jac.superdot_rep r3 s3
  obtain ⟨z, hz⟩ := Jac.add_total (by decide) r1 t3
  obtain ⟨d, h1, h2⟩ := drIs_rep (.some c1)
    (by rw [h.is5.dnames]; exact .some h.n5.1 (by decide) m3 (.some c3) e3 (.wrt h.n5.2 (.nil ..)))
    (show sumD lib [d1, z3] = .ok (some z) by
      show ([z3].foldlM Jac.add d1).map some = _
      simp only [List.foldlM]; rw [hz]; rfl) (Jac.add_rep r1 t3 hz)
  exact ⟨d, _, h1, h2⟩

theorem Sliced.reach5 {i : Id} (hi : Reaches g 5 i) : i = 0 ∨ i = 1 ∨ i = 3 ∨ i = 5 := by
  induction hi with
  | refl => simp
  | tail _ hu ih =>
    obtain ⟨k, hk1, hk2⟩ := hu
    rcases ih with rfl | rfl | rfl | rfl
    · rw [h.leaf0.2.2] at hk1; cases hk1
    · rw [h.is1.dnames, List.mem_singleton] at hk1; subst hk1; rw [h.n1] at hk2; cases hk2; simp
    · rw [h.is3.dnames, List.mem_singleton] at hk1; subst hk1; rw [h.n3] at hk2; cases hk2; simp
    · rw [h.is5.dnames] at hk1
      rcases List.mem_pair.1 hk1 with rfl | rfl
      · rw [h.n5.1] at hk2; cases hk2; simp
      · rw [h.n5.2] at hk2; cases hk2; simp

theorem Sliced.ok (hacy : ∀ i, ¬ Relation.TransGen (Uses g) i i) : SliceOk g 5 1 0 where
  permute := h.perm1
  arg := h.n1
  only := fun k c hk => by
    have := h.decl 1 k c hk
    rwa [h.is1.dnames, List.mem_singleton] at this
  base := h.perm0
  top := by decide
  acyclic := fun i _ => hacy i
  once := by
    intro i k k' hi hk hk'
    have d1 := h.decl _ _ _ hk
    have d2 := h.decl _ _ _ hk'
    rcases h.reach5 hi with rfl | rfl | rfl | rfl
    · rw [h.leaf0.2.2] at d1; cases d1
    · rw [h.is1.dnames, List.mem_singleton] at d1 d2; rw [d1, d2]
    · rw [h.is3.dnames, List.mem_singleton] at d1 d2; rw [d1, d2]
    · rw [h.is5.dnames] at d1 d2
      rcases List.mem_pair.1 d1 with rfl | rfl
      · rw [h.n5.1] at hk; cases hk
      · rcases List.mem_pair.1 d2 with rfl | rfl
        · rw [h.n5.1] at hk'; cases hk'
        · rfl
  apart := by
    intro i k k' hi his hk hk'
    have d1 := h.decl _ _ _ hk
    have d2 := h.decl _ _ _ hk'
    rcases h.reach5 hi with rfl | rfl | rfl | rfl
    · rw [h.leaf0.2.2] at d1; cases d1
    · exact his rfl
    · rw [h.is3.dnames, List.mem_singleton] at d1; subst d1; rw [h.n3] at hk; cases hk
    · rw [h.is5.dnames] at d2
      rcases List.mem_pair.1 d2 with rfl | rfl
      · rw [h.n5.1] at hk'; cases hk'
      · rw [h.n5.2] at hk'; cases hk'
end

/-- The conditions of C20 are met by `y = exp(a) + s` with `s = a[[1,0]]`; both derivatives return, and one is the other with its columns
exchanged. -/
example : ∃ h M, Reach lib ⟨True, True⟩ h ∧ SliceOk h.graph 5 1 0 ∧ SliceOf h.graph 0 2 1 1 2 swap ∧ Reports h 5 0 2 2 M ∧
    Reports h 5 1 2 2 (columns swap M) := by
  obtain ⟨h, hr, hg⟩ := sliced_fits.reach ⟨True, True⟩
  have hs : Sliced h.graph := by rw [hg]; exact sliced_graph
  have hok := hs.ok fun i => by rw [hg]; exact sliced_fits.acyclic i
  obtain ⟨d, M, hd, hM⟩ := hs.m50
  obtain ⟨d', M', hd', hM'⟩ := hs.m51
  have r0 := reports_of_meansDr hr hd (o := some d) hM
  have r1 := reports_of_meansDr hr hd' (o := some d') hM'
  refine ⟨h, M, hr, hok, hs.slice, r0, ?_⟩
  obtain ⟨f0, h0⟩ := r0
  obtain ⟨f1, h1⟩ := r1
  refine ⟨max f0 f1, fun f hf => ?_⟩
  obtain ⟨o, ho, hoM⟩ := h0 f ((Nat.le_max_left _ _).trans hf)
  obtain ⟨o', ho', _⟩ := h1 f ((Nat.le_max_right _ _).trans hf)
  refine ⟨o', ho', C20_slice_columns_partial hr hs.v5 hs.v0 hs.slice ?_ ?_ hok (by decide) ho' ho hoM⟩
  · intro i hi
    rcases hs.reach5 hi with rfl | rfl | rfl | rfl
    · rw [hs.leaf0.2.2]; simp
    · rw [hs.is1.dnames]; exact hs.is1.nodup
    · rw [hs.is3.dnames]; exact hs.is3.nodup
    · rw [hs.is5.dnames]; exact hs.is5.nodup
  · rintro i (hi | rfl | rfl)
    · exact hs.sizes i (hs.reach5 hi)
    · exact hs.sizes 1 (by simp)
    · exact hs.sizes 0 (by simp)
end ADDemo

/-! ## What does not hold -/

open ADDemo in
/-- C20 fails for slices of slices: `exp(a).dr_wrt(a[[1,0]][[1,0]])` raises `AttributeError`, although `exp(a).dr_wrt(a)` returns. -/
theorem C20_nested_refuted : ¬ ∀ (h : Heap ClassDef Par Arr Jac), Reach lib ⟨True, True⟩ h → ∀ (y a s : Id) (n k m : ℕ) (σ : ℕ → ℕ) (M : Ent)
    (va : Arr), Means lib h.graph (.r a) (.ok va) → va.size = n → y ≠ a → SliceOf h.graph a n 2 s k σ → Reports h y a m n M →
    Reports h y s m k (columns σ M) := by
  intro hall
  obtain ⟨h, hr, hg⟩ := sliced_fits.reach ⟨True, True⟩
  have hs : Sliced h.graph := by rw [hg]; exact sliced_graph
  obtain ⟨d, hd, hM⟩ := hs.m30
  refine not_reports_of_raises hr (e := .attr) ?_ (hall h hr 3 0 2 2 2 2 _ _ _ hs.v0 rfl (by decide) hs.slice2 (reports_of_meansDr hr hd (o := some d) hM))
  obtain ⟨d, ⟨f, hf⟩, _⟩ := hs.c30
  refine ⟨by simp, f + 1 + 1 + 1, ?_⟩
  have c2 : ∀ F, evalCompDr lib h.graph F 3 2 = .ok none := fun F => evalCompDr_none (by decide) fun k hk => by
    have := hs.decl _ _ _ hk
    rw [hs.is3.dnames, List.mem_singleton] at this; subst this
    rw [hs.n3] at hk; cases hk
  have c1 : ∀ F, evalCompDr lib h.graph F 3 1 = .ok none := fun F => evalCompDr_none (by decide) fun k hk => by
    have := hs.decl _ _ _ hk
    rw [hs.is3.dnames, List.mem_singleton] at this; subst this
    rw [hs.n3] at hk; cases hk
  have c0 : ∀ F, evalCompDr lib h.graph F 2 0 = .ok none := fun F => evalCompDr_none (by decide) fun k hk => by
    have := hs.decl _ _ _ hk
    rw [hs.is2.dnames, List.mem_singleton] at this; subst this
    rw [hs.n2] at hk; cases hk
  have hsl : evalSliced lib h.graph (f + 1 + 1) 3 2 = .error .attr := by
    unfold evalSliced
    rw [c2]; dsimp only
    rw [evalSlice_perm hs.perm2 hs.n2, if_neg (by decide), c1]; dsimp only
    rw [evalSlice_perm hs.perm1 hs.n1, if_neg (by decide), evalCompDr_up (show f ≤ f + 1 + 1 by omega) hf]; dsimp only
    rw [c0]
  show evalDr lib h.graph (f + 1 + 1 + 1) 3 2 = _
  simp only [evalDr]
  rw [hsl]

open ADDemo in
/-- C20 fails for objects that use both an array and its slice: `(a + s).dr_wrt(s)`, with `s = a[[1,0]]`, ignores that `a` is used too. -/
theorem C20_both_used_refuted : ¬ ∀ (h : Heap ClassDef Par Arr Jac), Reach lib ⟨True, True⟩ h → ∀ (y a s : Id) (n k m : ℕ) (σ : ℕ → ℕ) (M : Ent)
    (va : Arr), Means lib h.graph (.r a) (.ok va) → va.size = n → y ≠ a → SliceOf h.graph a n 1 s k σ → Reports h y a m n M →
    Reports h y s m k (columns σ M) := by
  intro hall
  obtain ⟨h, hr, hg⟩ := sliced_fits.reach ⟨True, True⟩
  have hs : Sliced h.graph := by rw [hg]; exact sliced_graph
  obtain ⟨⟨d0, c0, r0⟩, d1, c1, r1⟩ := hs.comps4
  obtain ⟨x1, m1, s1⟩ := hs.m10
  obtain ⟨z1, e1, t1⟩ := Jac.superdot_rep r1 s1
  obtain ⟨z, hz⟩ := Jac.add_total (by decide) r0 t1
  obtain ⟨d, h1, h2⟩ := drIs_rep (.some c0)
    (by rw [hs.is4.dnames]; exact .wrt hs.n4.1 (.some hs.n4.2 (by decide) m1 (.some c1) e1 (.nil ..)))
    (show sumD lib [d0, z1] = .ok (some z) by
      show ([z1].foldlM Jac.add d0).map some = _
      simp only [List.foldlM]; rw [hz]; rfl) (Jac.add_rep r0 t1 hz)
  have ha := reports_of_meansDr hr h1 (o := some d) h2
  obtain ⟨d', h1', h2'⟩ := drIs_rep (.some c1) (by rw [hs.is4.dnames]; exact .none hs.n4.1 (by decide) hs.m01 (.wrt hs.n4.2 (.nil ..))) rfl r1
  have hb := reports_of_meansDr hr h1' (o := some d') h2'
  have := (reports_unique (hall h hr 4 0 1 2 2 2 _ _ _ hs.v0 rfl (by decide) hs.slice ha) hb
    ⟨0, by decide, 0, by decide, by simp [Ent.one]⟩).2.2 0 (by decide) 1 (by decide)
  simp [columns, swap, Ent.one, Ent.mul, Finset.sum_range_succ, selMat] at this

open ADDemo in
/-- C20 fails for the array itself: `a.dr_wrt(a[[1,0]])` is `None`, although `a.dr_wrt(a)` is the identity. -/
theorem C20_self_refuted : ¬ ∀ (h : Heap ClassDef Par Arr Jac), Reach lib ⟨True, True⟩ h → ∀ (a s : Id) (n k m : ℕ) (σ : ℕ → ℕ) (M : Ent)
    (va : Arr), Means lib h.graph (.r a) (.ok va) → va.size = n → SliceOf h.graph a n 1 s k σ → Reports h a a m n M →
    Reports h a s m k (columns σ M) := by
  intro hall
  obtain ⟨h, hr, hg⟩ := sliced_fits.reach ⟨True, True⟩
  have hs : Sliced h.graph := by rw [hg]; exact sliced_graph
  obtain ⟨d, hd, hM⟩ := hs.m00
  obtain ⟨f, hf⟩ := hall h hr 0 1 2 2 2 _ _ _ hs.v0 rfl hs.slice (reports_of_meansDr hr hd (o := some d) hM)
  obtain ⟨f', hf'⟩ := reports_of_meansDr hr hs.m01 (m := 2) (n := 2) (E := 0) (Ent.EqOn.refl _)
  obtain ⟨o, ho, hE⟩ := hf _ (Nat.le_max_left f f')
  obtain ⟨o', ho', hE'⟩ := hf' _ (Nat.le_max_right f f')
  rw [ho] at ho'; cases ho'
  have := repO_unique hE hE' 0 (by decide) 1 (by decide)
  simp [columns, swap, Ent.one] at this

theorem C20_full_refuted : ¬ C20_full := fun h => C20_nested_refuted fun hp hr y a s n k m σ M va hv hn _ hs hR =>
  h hp hr y a s 2 n k m σ M va hv hn hs hR
end Chumpy
