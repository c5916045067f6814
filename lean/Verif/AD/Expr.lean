import Verif.AD.Total
import Verif.Core.Build
/-!
# Expressions written down object by object

Used to show that the graphs the derivative theorems are about are reached by real histories.
-/
namespace Chumpy
variable {C T V D : Type} {s : Sig C T V D}

theorem foldl_assign_dterms (kws : List (KW T)) : ∀ (n : GNode C T) (k : Name) (c : Id),
    (kws.foldl GNode.assign n).dterms k = some c → n.dterms k = some c ∨ KW.link k c ∈ kws := by
  induction kws with
  | nil => intro n k c h; exact Or.inl h
  | cons kw kws ih =>
    intro n k c h
    rcases ih _ k c h with h | h
    · cases kw with
      | link k' c' =>
        simp only [GNode.assign] at h
        split at h
        · next e => cases h; subst e; exact Or.inr (by simp)
        · exact Or.inl h
      | term a b => exact Or.inl h
      | wrap a b => exact Or.inl h
      | bad a => exact Or.inl h
    · exact Or.inr (by simp [h])

theorem foldl_assign_rest (kws : List (KW T)) : ∀ (n : GNode C T),
    (kws.foldl GNode.assign n).dnames = n.dnames ∧ (kws.foldl GNode.assign n).cls = n.cls := by
  induction kws with
  | nil => intro n; exact ⟨rfl, rfl⟩
  | cons kw kws ih =>
    intro n
    have e : (n.assign kw).dnames = n.dnames ∧ (n.assign kw).cls = n.cls := by cases kw <;> exact ⟨rfl, rfl⟩
    exact ⟨(ih _).1.trans e.1, (ih _).2.trans e.2⟩

theorem ObjSpec.node_dterms {o : ObjSpec C T} {k : Name} {c : Id} (h : o.node.dterms k = some c) : KW.link k c ∈ o.kws := by
  rcases foldl_assign_dterms _ _ _ _ h with h | h
  · cases h
  · exact h

/-- An expression all of whose objects use only earlier ones, under declared and distinct names, none being a slice. -/
structure WellBuilt (s : Sig C T V D) (os : List (ObjSpec C T)) : Prop where
  earlier : ∀ (i : Nat) (o : ObjSpec C T), os[i]? = some o → ∀ kw ∈ o.kws, KW.Earlier i o.dnames kw
  nodup : ∀ o ∈ os, o.dnames.Nodup
  plain : ∀ o ∈ os, s.isPermute o.cls = false
  base : s.isPermute s.base = false

theorem WellBuilt.link {os : List (ObjSpec C T)} (h : WellBuilt s os) {i : Id} {k : Name} {c : Id}
    (hk : (buildGraph s os i).dterms k = some c) :
    ∃ o, os[i]? = some o ∧ KW.link k c ∈ o.kws ∧ k ∈ (buildGraph s os i).dnames ∧ c < i := by
  unfold buildGraph at hk ⊢
  split at hk
  · next o ho =>
    have hm := ObjSpec.node_dterms hk
    have := h.earlier i o ho _ hm
    refine ⟨o, ho, hm, ?_, this.2⟩
    rw [ObjSpec.node, (foldl_assign_rest _ _).1]; exact this.1
  · cases hk

theorem WellBuilt.lt {os : List (ObjSpec C T)} (h : WellBuilt s os) {i c : Id} (hu : Uses (buildGraph s os) i c) : c < i := by
  obtain ⟨k, _, hk⟩ := hu
  exact (h.link hk).choose_spec.2.2.2

theorem WellBuilt.acyclic {os : List (ObjSpec C T)} (h : WellBuilt s os) (i : Id) :
    ¬ Relation.TransGen (Uses (buildGraph s os)) i i := by
  have : ∀ {a b}, Relation.TransGen (Uses (buildGraph s os)) a b → b < a := by
    intro a b hab
    induction hab with
    | single hu => exact h.lt hu
    | tail _ hu ih => exact Nat.lt_trans (h.lt hu) ih
  exact fun hi => Nat.lt_irrefl _ (this hi)

theorem WellBuilt.acc {os : List (ObjSpec C T)} (h : WellBuilt s os) (i : Id) : Acc (fun a b => Uses (buildGraph s os) b a) i := by
  induction i using Nat.strong_induction_on with
  | _ i ih => exact ⟨_, fun j hj => ih j (h.lt hj)⟩

theorem WellBuilt.notPermute {os : List (ObjSpec C T)} (h : WellBuilt s os) (i : Id) :
    s.isPermute (buildGraph s os i).cls = false := by
  unfold buildGraph
  split
  · next o ho => rw [ObjSpec.node, (foldl_assign_rest _ _).2]; exact h.plain o (List.mem_of_getElem? ho)
  · exact h.base

theorem WellBuilt.dnames_nodup {os : List (ObjSpec C T)} (h : WellBuilt s os) (i : Id) : (buildGraph s os i).dnames.Nodup := by
  unfold buildGraph
  split
  · next o ho => rw [ObjSpec.node, (foldl_assign_rest _ _).1]; exact h.nodup o (List.mem_of_getElem? ho)
  · exact List.nodup_nil

theorem WellBuilt.chainOk {os : List (ObjSpec C T)} (h : WellBuilt s os) {y w : Id}
    (honce : ∀ o ∈ os, ∀ k k' p, KW.link k p ∈ o.kws → KW.link k' p ∈ o.kws → p ≠ w → k = k') :
    ChainOk s (buildGraph s os) y w where
  acyclic := fun i _ => h.acyclic i
  wrt := h.notPermute w
  nodup := fun i _ => h.dnames_nodup i
  decl := fun i k c hk => (h.link hk).choose_spec.2.2.1
  once := by
    intro i k k' p _ h1 h2 hp _
    obtain ⟨o, ho, hm, _⟩ := h.link h1
    obtain ⟨o', ho', hm', _⟩ := h.link h2
    rw [ho] at ho'; cases ho'
    exact honce o (List.mem_of_getElem? ho) k k' p hm hm' hp
  slice := by
    intro i k p _ _ hp
    rw [h.notPermute] at hp; cases hp

/-- A leaf `Ch(v)`. -/
noncomputable def leafO (v : Arr) : ObjSpec ClassDef Par := ⟨chLeaf, [], [.term nmX (.arr v)]⟩
/-- A unary operation. -/
def unO (c : ClassDef) (a : Id) : ObjSpec ClassDef Par := ⟨c, [nmA], [.link nmA a]⟩
/-- A binary operation. -/
def binO (c : ClassDef) (a b : Id) : ObjSpec ClassDef Par := ⟨c, [nmA, nmB], [.link nmA a, .link nmB b]⟩

/-- The conditions of `WellBuilt` on the object with identity `i`. -/
def ObjSpec.OkAt (s : Sig C T V D) (i : ℕ) (o : ObjSpec C T) : Prop :=
  (∀ kw ∈ o.kws, KW.Earlier i o.dnames kw) ∧ o.dnames.Nodup ∧ s.isPermute o.cls = false

def OkFrom (s : Sig C T V D) : ℕ → List (ObjSpec C T) → Prop
  | _, [] => True
  | i, o :: os => o.OkAt s i ∧ OkFrom s (i + 1) os

theorem OkFrom.get {i : ℕ} {os : List (ObjSpec C T)} (h : OkFrom s i os) {j : ℕ} {o : ObjSpec C T} (hj : os[j]? = some o) :
    o.OkAt s (i + j) := by
  induction os generalizing i j with
  | nil => simp at hj
  | cons o' os ih =>
    cases j with
    | zero => simp at hj; subst hj; exact h.1
    | succ j =>
      simp at hj
      have := ih h.2 hj
      rwa [show i + (j + 1) = i + 1 + j from by omega]

theorem OkFrom.wellBuilt {os : List (ObjSpec C T)} (h : OkFrom s 0 os) (hb : s.isPermute s.base = false) : WellBuilt s os where
  earlier := fun i o ho => by have := (h.get ho).1; rwa [Nat.zero_add] at this
  nodup := fun o ho => by
    obtain ⟨j, hj⟩ := List.getElem?_of_mem ho
    exact (h.get hj).2.1
  plain := fun o ho => by
    obtain ⟨j, hj⟩ := List.getElem?_of_mem ho
    exact (h.get hj).2.2
  base := hb

theorem leafO_ok (v : Arr) (i : ℕ) : (leafO v).OkAt lib i := by
  refine ⟨?_, List.nodup_nil, rfl⟩
  intro kw hm
  simp only [leafO, List.mem_singleton] at hm
  subst hm; trivial

theorem unO_ok {c : ClassDef} {a i : ℕ} (h : a < i) (hc : c.permute = false) : (unO c a).OkAt lib i := by
  refine ⟨?_, by simp [unO], hc⟩
  intro kw hm
  simp only [unO, List.mem_singleton] at hm
  subst hm; exact ⟨by simp [unO], h⟩

theorem binO_ok {c : ClassDef} {a b i : ℕ} (h : a < i) (h' : b < i) (hc : c.permute = false) : (binO c a b).OkAt lib i := by
  refine ⟨?_, by simp [binO], hc⟩
  intro kw hm
  simp only [binO, List.mem_cons, List.not_mem_nil, or_false] at hm
  rcases hm with rfl | rfl
  · exact ⟨by simp [binO], h⟩
  · exact ⟨by simp [binO], h'⟩

/-- A state with this graph is reached. -/
theorem WellBuilt.reach {os : List (ObjSpec ClassDef Par)} (h : WellBuilt lib os) (m : Mode) :
    ∃ hp, Reach lib m hp ∧ hp.graph = buildGraph lib os :=
  ⟨_, build_reach m os (fun o ho hp => by rw [h.plain o ho] at hp; cases hp), build_graph os h.earlier⟩

theorem leaf_means {g : Graph ClassDef Par} {i : Id} {v : Arr} (h : g i = (leafO v).node) (h1 : v.shape ≠ []) :
    Means lib g (.r i) (.ok v) ∧ Exactly g i := by
  have hc : (g i).cls = chLeaf := by rw [h]; rfl
  have hl : (g i).links = [] := by rw [h]; rfl
  have ht : (g i).terms nmX = some (.arr v) := by rw [h]; rfl
  have ha : v.atleast1 = v := by
    unfold Arr.atleast1; rw [if_neg h1]; exact Arr.of_vec v
  have hE := exact_leaf (tm := (g i).terms) ht (fun _ => 0)
  rw [ha] at hE
  have hm := correct_of_exact (g := g) (i := i) (ns := []) (v := fun a => a.elim0) (out := v) (P := fun _ => 0) hl (by simp)
    (fun a => a.elim0) (by rw [hc]; exact hE)
  refine ⟨hm.1, v, ?_⟩
  rw [hl, hc]
  exact ⟨fun a => a.elim0, fun _ => 0, hm.1, fun a => a.elim0, hE⟩

theorem un_means {g : Graph ClassDef Par} {i a : Id} {c : ClassDef} {v out : Arr} {P : Ent} (h : g i = (unO c a).node)
    (hv : Means lib g (.r a) (.ok v)) (hE : Exact c (fun _ => none) [nmA] (fun _ => v) out (fun _ => P)) :
    Means lib g (.r i) (.ok out) ∧ Exactly g i := by
  have hc : (g i).cls = c := by rw [h]; rfl
  have hl : (g i).links = [nmA] := by rw [h]; rfl
  have ht : (g i).terms = fun _ => none := by rw [h]; rfl
  have hk : ∀ b : Fin [nmA].length, (g i).kid ([nmA].get b) = a := by
    intro b; have : b = 0 := Fin.eq_zero b
    subst this; rw [h]; rfl
  rw [← ht, ← hc] at hE
  have hm := correct_of_exact (g := g) (i := i) hl (by simp) (fun b => by rw [hk b]; exact hv) hE
  refine ⟨hm.1, ?_⟩
  unfold Exactly
  rw [hl]
  exact ⟨out, fun _ => v, fun _ => P, hm.1, fun b => by rw [hk b]; exact hv, hE⟩

theorem bin_means {g : Graph ClassDef Par} {i a b : Id} {c : ClassDef} {u v out : Arr} {P Q : Ent} (h : g i = (binO c a b).node)
    (hu : Means lib g (.r a) (.ok u)) (hv : Means lib g (.r b) (.ok v))
    (hE : Exact c (fun _ => none) [nmA, nmB] ![u, v] out ![P, Q]) :
    Means lib g (.r i) (.ok out) ∧ Exactly g i := by
  have hc : (g i).cls = c := by rw [h]; rfl
  have hl : (g i).links = [nmA, nmB] := by rw [h]; rfl
  have ht : (g i).terms = fun _ => none := by rw [h]; rfl
  have hk : ∀ j : Fin 2, Means lib g (.r ((g i).kid ([nmA, nmB].get j))) (.ok (![u, v] j)) := by
    intro j
    have : j = 0 ∨ j = 1 := by fin_cases j <;> simp
    rcases this with rfl | rfl
    · have : (g i).kid ([nmA, nmB].get 0) = a := by rw [h]; rfl
      rw [this]; exact hu
    · have : (g i).kid ([nmA, nmB].get 1) = b := by rw [h]; rfl
      rw [this]; exact hv
  rw [← ht, ← hc] at hE
  have hm := correct_of_exact (g := g) (i := i) hl (by decide) hk hE
  refine ⟨hm.1, ?_⟩
  unfold Exactly
  rw [hl]
  exact ⟨out, ![u, v], ![P, Q], hm.1, hk, hE⟩
end Chumpy
