import Mathlib.Logic.Relation
import Verif.Core.Spec
/-!
# Walking the expression graph: `is_dr_wrt` and `tree_iterator`

Neither function touches the bookkeeping, so they are modelled on the graph.
-/
namespace Chumpy
variable {C T V D : Type}

/-- `i` refers to `c` through one of its differentiable terms (specification). -/
def Uses (g : Graph C T) (i c : Id) : Prop := ∃ k ∈ (g i).dnames, (g i).dterms k = some c

/-- `[getattr(self, dterm) for dterm in self.dterms if hasattr(self, dterm)]` (ch.py:488, 1103-1105).
The array stored under `x` of a leaf is not an object and is not listed (leaves have `dnames = []`). -/
def GNode.kids (n : GNode C T) : List Id := n.dnames.filterMap n.dterms

theorem mem_kids {g : Graph C T} {i c : Id} : c ∈ (g i).kids ↔ Uses g i c := by
  simp [GNode.kids, Uses]

/-- `any([d.is_dr_wrt(wrt) for d in ds])`: the list is built completely before `any` looks at it. -/
def anyM (f : Id → Option Bool) : List Id → Option Bool
  | [] => some false
  | d :: ds =>
    match f d with
    | none => none
    | some b =>
      match anyM f ds with
      | none => none
      | some b' => some (b || b')

/-- `Ch.is_dr_wrt` (ch.py:485-489) with recursion limit; `none` is `RecursionError`.  `wrt in list` is
identity, `Ch` having no `__eq__` (ch.py:1165). -/
def isDrWrt (s : Sig C T V D) (g : Graph C T) : Nat → Id → Id → Option Bool
  | 0, _, _ => none
  | f + 1, i, w =>
    if s.isBase (g i).cls then some (decide (w = i))
    else if w ∈ (g i).kids then some true
    else anyM (fun d => isDrWrt s g f d w) (g i).kids

/-- The `for dterm in self.dterms` loop of `tree_iterator` (ch.py:1103-1108); `rec` is the iterator of a
child, sharing `visited`. -/
def treeKids (rec : Id → List Id → Option (List Id × List Id)) :
    List Id → List Id → Option (List Id × List Id)
  | [], vis => some (vis, [])
  | c :: cs, vis =>
    match rec c vis with
    | none => none
    | some (v1, o1) =>
      match treeKids rec cs v1 with
      | none => none
      | some (v2, o2) => some (v2, o1 ++ o2)

/-- `Ch.tree_iterator` run to the end (ch.py:1088-1108): result `visited` and the objects yielded, in
order; `none` is `RecursionError`.  The `path` argument is not modelled. -/
def treeIter (g : Graph C T) : Nat → Id → List Id → Option (List Id × List Id)
  | 0, _, _ => none
  | f + 1, i, vis =>
    if i ∈ vis then some (vis, [])
    else
      match treeKids (treeIter g f) (g i).kids (i :: vis) with
      | none => none
      | some (v, o) => some (v, i :: o)

/-! ## `is_dr_wrt` -/

theorem anyM_some {f : Id → Option Bool} : ∀ {ds : List Id} {b : Bool}, anyM f ds = some b →
    (∀ d ∈ ds, ∃ b', f d = some b') ∧ (b = true ↔ ∃ d ∈ ds, f d = some true) := by
  intro ds
  induction ds with
  | nil => intro b h; simp only [anyM, Option.some.injEq] at h; subst h; simp
  | cons d ds ih =>
    intro b h
    simp only [anyM] at h
    cases h1 : f d with
    | none => rw [h1] at h; cases h
    | some b1 =>
      rw [h1] at h
      cases h2 : anyM f ds with
      | none => rw [h2] at h; cases h
      | some b2 =>
        rw [h2] at h
        simp only [Option.some.injEq] at h
        obtain ⟨ha, hb⟩ := ih h2
        constructor
        · intro x hx
          rcases List.mem_cons.1 hx with rfl | hx
          · exact ⟨_, h1⟩
          · exact ha x hx
        · rw [← h, Bool.or_eq_true, hb]
          constructor
          · rintro (rfl | ⟨x, hx, hx'⟩)
            · exact ⟨d, by simp, h1⟩
            · exact ⟨x, by simp [hx], hx'⟩
          · rintro ⟨x, hx, hx'⟩
            rcases List.mem_cons.1 hx with rfl | hx
            · rw [h1] at hx'; left; simpa using hx'
            · exact Or.inr ⟨x, hx, hx'⟩

/-- Leaves refer to no object. -/
def LeafGraph (s : Sig C T V D) (g : Graph C T) : Prop := ∀ i, s.isBase (g i).cls = true → (g i).dnames = []

theorem isDrWrt_spec (s : Sig C T V D) {g : Graph C T} (hl : LeafGraph s g) (f : Nat) : ∀ {i w : Id} {b : Bool},
    isDrWrt s g f i w = some b →
    (b = true ↔ (s.isBase (g i).cls = true ∧ i = w) ∨ Relation.TransGen (Uses g) i w) := by
  induction f with
  | zero => intro i w b h; cases h
  | succ f ih =>
    intro i w b h
    simp only [isDrWrt] at h
    split at h
    · rename_i hb
      simp only [Option.some.injEq] at h
      subst h
      have hno : ¬ Relation.TransGen (Uses g) i w := by
        intro ht
        obtain ⟨c, ⟨k, hk, _⟩, _⟩ := Relation.TransGen.head'_iff.1 ht
        rw [hl i hb] at hk; cases hk
      simp only [decide_eq_true_eq, hb, true_and, hno, or_false]
      exact eq_comm
    · rename_i hb
      simp only [hb, Bool.false_eq_true, false_and, false_or]
      split at h
      · rename_i hw
        simp only [Option.some.injEq] at h
        subst h
        simp only [true_iff]
        exact .single (mem_kids.1 hw)
      · rename_i hw
        obtain ⟨ha, hb'⟩ := anyM_some h
        rw [hb']
        constructor
        · rintro ⟨d, hd, hdt⟩
          rcases (ih hdt).1 rfl with ⟨_, rfl⟩ | ht
          · exact .single (mem_kids.1 hd)
          · exact .head (mem_kids.1 hd) ht
        · intro ht
          obtain ⟨c, hc, hcw⟩ := Relation.TransGen.head'_iff.1 ht
          rcases Relation.reflTransGen_iff_eq_or_transGen.1 hcw with rfl | hcw
          · exact absurd (mem_kids.2 hc) hw
          · refine ⟨c, mem_kids.2 hc, ?_⟩
            obtain ⟨b', hb''⟩ := ha c (mem_kids.2 hc)
            rw [hb'', (ih hb'').2 (Or.inr hcw)]

theorem anyM_total {f : Id → Option Bool} {ds : List Id} (h : ∀ d ∈ ds, ∃ b, f d = some b) :
    ∃ b, anyM f ds = some b := by
  induction ds with
  | nil => exact ⟨_, rfl⟩
  | cons d ds ih =>
    obtain ⟨b, hb⟩ := h d (by simp)
    obtain ⟨b', hb'⟩ := ih (fun x hx => h x (by simp [hx]))
    exact ⟨b || b', by simp only [anyM, hb, hb']⟩

theorem anyM_congr {f f' : Id → Option Bool} {ds : List Id} (h : ∀ d ∈ ds, f d = f' d) : anyM f ds = anyM f' ds := by
  induction ds with
  | nil => rfl
  | cons d ds ih => simp only [anyM, h d (by simp), ih (fun x hx => h x (by simp [hx]))]

/-- A bound for finitely many existentially chosen recursion limits. -/
theorem exists_bound {P : Id → Nat → Prop} (mono : ∀ x a b, a ≤ b → P x a → P x b) {l : List Id}
    (h : ∀ x ∈ l, ∃ n, P x n) : ∃ n, ∀ x ∈ l, P x n := by
  induction l with
  | nil => exact ⟨0, by simp⟩
  | cons a l ih =>
    obtain ⟨n, hn⟩ := h a (by simp)
    obtain ⟨m, hm⟩ := ih (fun x hx => h x (by simp [hx]))
    refine ⟨max n m, fun x hx => ?_⟩
    rcases List.mem_cons.1 hx with rfl | hx
    · exact mono _ _ _ (Nat.le_max_left ..) hn
    · exact mono _ _ _ (Nat.le_max_right ..) (hm x hx)

theorem isDrWrt_mono (s : Sig C T V D) (g : Graph C T) {w : Id} : ∀ (f f' : Nat) {i : Id} {b : Bool},
    f ≤ f' → isDrWrt s g f i w = some b → isDrWrt s g f' i w = some b := by
  intro f
  induction f with
  | zero => intro f' i b _ h; cases h
  | succ f ih =>
    intro f' i b hf h
    obtain ⟨f', rfl⟩ : ∃ m, f' = m + 1 := ⟨f' - 1, by omega⟩
    simp only [isDrWrt] at h ⊢
    split at h
    · rename_i hb; rw [if_pos hb]; exact h
    · rename_i hb
      rw [if_neg hb]
      split at h
      · rename_i hw; rw [if_pos hw]; exact h
      · rename_i hw
        rw [if_neg hw, ← h]
        refine anyM_congr fun d hd => ?_
        obtain ⟨b', hb'⟩ := (anyM_some h).1 d hd
        rw [hb', ih f' (by omega) hb']

/-- On a graph without cycles below `i` the call returns. -/
theorem isDrWrt_total (s : Sig C T V D) (g : Graph C T) (w : Id) {i : Id} (h : Acc (fun c i => Uses g i c) i) :
    ∃ f b, isDrWrt s g f i w = some b := by
  induction h with
  | intro i _ ih =>
    have : ∀ c ∈ (g i).kids, ∃ f, ∃ b, isDrWrt s g f c w = some b := fun c hc => ih c (mem_kids.1 hc)
    obtain ⟨f, hf⟩ := exists_bound (P := fun c f => ∃ b, isDrWrt s g f c w = some b)
      (fun x a b hab ⟨v, hv⟩ => ⟨v, isDrWrt_mono s g a b hab hv⟩) this
    obtain ⟨b, hb⟩ := anyM_total hf
    refine ⟨f + 1, ?_⟩
    simp only [isDrWrt]
    split
    · exact ⟨_, rfl⟩
    · split
      · exact ⟨_, rfl⟩
      · exact ⟨b, hb⟩

/-! ## `tree_iterator` -/

/-- How many elements of `U` are not in `vis`. -/
def missing (U vis : List Id) : Nat := (U.filter (fun x => !decide (x ∈ vis))).length

theorem missing_le {U v v' : List Id} (h : ∀ x ∈ v, x ∈ v') : missing U v' ≤ missing U v := by
  induction U with
  | nil => simp [missing]
  | cons a U ih =>
    simp only [missing, List.filter_cons] at ih ⊢
    by_cases h1 : a ∈ v'
    · by_cases h2 : a ∈ v <;> simp [h1, h2] <;> omega
    · have h2 : a ∉ v := fun h' => h1 (h a h')
      simp [h1, h2]; omega

theorem missing_lt {U v : List Id} {i : Id} (hi : i ∈ U) (hv : i ∉ v) : missing U (i :: v) < missing U v := by
  induction U with
  | nil => cases hi
  | cons a U ih =>
    have hle := missing_le (U := U) (v := v) (v' := i :: v) (fun x hx => by simp [hx])
    simp only [missing, List.filter_cons] at ih hle ⊢
    by_cases ha : a = i
    · subst ha; simp [hv] at hle ⊢; omega
    · have hi' : i ∈ U := by simpa [Ne.symm ha] using hi
      have := ih hi'
      by_cases h2 : a ∈ v <;> simp [ha, h2] at this ⊢ <;> omega

/-- What a (partial) traversal from the objects `cs` with `vis` already visited produces. -/
structure Walk (g : Graph C T) (cs vis v out : List Id) : Prop where
  eq : v = out.reverse ++ vis
  nodup : out.Nodup
  new : ∀ j ∈ out, j ∉ vis
  reach : ∀ j ∈ out, ∃ c ∈ cs, Relation.ReflTransGen (Uses g) c j
  roots : ∀ c ∈ cs, c ∈ v
  closed : ∀ j ∈ out, ∀ c, Uses g j c → c ∈ v

theorem treeKids_walk {g : Graph C T} {rec : Id → List Id → Option (List Id × List Id)} {U : List Id} {n : Nat}
    (hrec : ∀ c ∈ U, ∀ vis, missing U vis ≤ n → ∃ v o, rec c vis = some (v, o) ∧ Walk g [c] vis v o) :
    ∀ cs : List Id, (∀ c ∈ cs, c ∈ U) → ∀ vis, missing U vis ≤ n →
      ∃ v o, treeKids rec cs vis = some (v, o) ∧ Walk g cs vis v o := by
  intro cs
  induction cs with
  | nil => intro _ vis _; exact ⟨vis, [], rfl, by simp, .nil, by simp, by simp, by simp, by simp⟩
  | cons c cs ih =>
    intro hc vis hm
    obtain ⟨v1, o1, e1, w1⟩ := hrec c (hc c (by simp)) vis hm
    have h1 : ∀ x ∈ vis, x ∈ v1 := fun x hx => by rw [w1.eq]; simp [hx]
    obtain ⟨v2, o2, e2, w2⟩ := ih (fun x hx => hc x (by simp [hx])) v1 (Nat.le_trans (missing_le h1) hm)
    have h2 : ∀ x ∈ v1, x ∈ v2 := fun x hx => by rw [w2.eq]; simp [hx]
    refine ⟨v2, o1 ++ o2, by simp only [treeKids, e1, e2], ?_, ?_, ?_, ?_, ?_, ?_⟩
    · rw [w2.eq, w1.eq]; simp
    · refine List.nodup_append.2 ⟨w1.nodup, w2.nodup, fun a ha b hb => ?_⟩
      rintro rfl
      exact w2.new a hb (by rw [w1.eq]; simp [ha])
    · intro j hj
      rcases List.mem_append.1 hj with hj | hj
      · exact w1.new j hj
      · exact fun h => w2.new j hj (h1 j h)
    · intro j hj
      rcases List.mem_append.1 hj with hj | hj
      · obtain ⟨x, hx, hr⟩ := w1.reach j hj
        simp only [List.mem_singleton] at hx
        subst hx
        exact ⟨x, by simp, hr⟩
      · obtain ⟨x, hx, hr⟩ := w2.reach j hj
        exact ⟨x, by simp [hx], hr⟩
    · intro x hx
      rcases List.mem_cons.1 hx with rfl | hx
      · exact h2 _ (w1.roots _ (by simp))
      · exact w2.roots x hx
    · intro j hj x hx
      rcases List.mem_append.1 hj with hj | hj
      · exact h2 _ (w1.closed j hj x hx)
      · exact w2.closed j hj x hx

theorem treeIter_walk {g : Graph C T} {U : List Id} (hU : ∀ j ∈ U, ∀ c, Uses g j c → c ∈ U) (f : Nat) :
    ∀ i ∈ U, ∀ vis, missing U vis ≤ f → ∃ v o, treeIter g (f + 1) i vis = some (v, o) ∧ Walk g [i] vis v o ∧
      (i ∉ vis → o.head? = some i) := by
  induction f with
  | zero =>
    intro i hi vis hm
    by_cases hv : i ∈ vis
    · refine ⟨vis, [], by simp only [treeIter]; rw [if_pos hv], ⟨by simp, .nil, by simp, by simp, by simpa using hv, by simp⟩,
        fun h => absurd hv h⟩
    · have := missing_lt hi hv; omega
  | succ f ih =>
    intro i hi vis hm
    by_cases hv : i ∈ vis
    · refine ⟨vis, [], by simp only [treeIter]; rw [if_pos hv], ⟨by simp, .nil, by simp, by simp, by simpa using hv, by simp⟩,
        fun h => absurd hv h⟩
    · obtain ⟨v, o, e, w⟩ := treeKids_walk (g := g) (rec := treeIter g (f + 1)) (U := U) (n := f)
        (fun c hc vis hm => by obtain ⟨v, o, e, w, _⟩ := ih c hc vis hm; exact ⟨v, o, e, w⟩)
        (g i).kids (fun c hc => hU i hi c (mem_kids.1 hc)) (i :: vis) (by have := missing_lt hi hv; omega)
      have hiv : i ∈ v := by rw [w.eq]; simp
      refine ⟨v, i :: o, ?_, ⟨?_, ?_, ?_, ?_, ?_, ?_⟩, fun _ => rfl⟩
      · rw [treeIter.eq_2, if_neg hv, e]
      · rw [w.eq]; simp
      · exact List.nodup_cons.2 ⟨fun h => w.new i h (by simp), w.nodup⟩
      · intro j hj
        rcases List.mem_cons.1 hj with rfl | hj
        · exact hv
        · exact fun h => w.new j hj (by simp [h])
      · intro j hj
        rcases List.mem_cons.1 hj with rfl | hj
        · exact ⟨_, by simp, .refl⟩
        · obtain ⟨c, hc, hr⟩ := w.reach j hj
          exact ⟨i, by simp, .head (mem_kids.1 hc) hr⟩
      · intro c hc; simp only [List.mem_singleton] at hc; subst hc; exact hiv
      · intro j hj c hc
        rcases List.mem_cons.1 hj with rfl | hj
        · exact w.roots c (mem_kids.2 hc)
        · exact w.closed j hj c hc

end Chumpy
