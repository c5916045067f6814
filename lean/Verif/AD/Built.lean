import Verif.AD.Api
import Verif.AD.Select
/-!
# Reachable states with given objects, slices among them
-/
namespace Chumpy

/-- The object with identity `i` is made of objects made before, and reorderings have one operand. -/
def ObjSpec.FitsAt (i : ℕ) (o : ObjSpec ClassDef Par) : Prop :=
  (∀ kw ∈ o.kws, KW.Earlier i o.dnames kw) ∧ (o.cls.permute = true → ∀ k ∈ o.dnames, k = nmA)

def FitsFrom : ℕ → List (ObjSpec ClassDef Par) → Prop
  | _, [] => True
  | i, o :: os => o.FitsAt i ∧ FitsFrom (i + 1) os

theorem FitsFrom.get {i : ℕ} {os : List (ObjSpec ClassDef Par)} (h : FitsFrom i os) {j : ℕ} {o : ObjSpec ClassDef Par} (hj : os[j]? = some o) :
    o.FitsAt (i + j) := by
  induction os generalizing i j with
  | nil => simp at hj
  | cons o' os ih =>
    cases j with
    | zero => simp at hj; subst hj; exact h.1
    | succ j =>
      simp at hj
      have := ih h.2 hj
      rwa [show i + (j + 1) = i + 1 + j from by omega]

/-- A state with these objects is reached. -/
theorem FitsFrom.reach {os : List (ObjSpec ClassDef Par)} (h : FitsFrom 0 os) (m : Mode) :
    ∃ hp, Reach lib m hp ∧ hp.graph = buildGraph lib os := by
  refine ⟨_, build_reach m os (fun o ho hp k hk => ?_), build_graph os fun i o ho => ?_⟩
  · obtain ⟨j, hj⟩ := List.getElem?_of_mem ho
    exact (h.get hj).2 hp k hk
  · have := (h.get ho).1; rwa [Nat.zero_add] at this

theorem leafO_fits (v : Arr) (i : ℕ) : (leafO v).FitsAt i := ⟨(leafO_ok v i).1, fun _ _ hk => by cases hk⟩

theorem unO_fits {c : ClassDef} {a i : ℕ} (h : a < i) : (unO c a).FitsAt i := by
  refine ⟨?_, fun _ k hk => by simpa [unO] using hk⟩
  intro kw hm
  simp only [unO, List.mem_singleton] at hm
  subst hm; exact ⟨by simp [unO], h⟩

theorem binO_fits {c : ClassDef} {a b i : ℕ} (h : a < i) (h' : b < i) (hc : c.permute = false) : (binO c a b).FitsAt i :=
  ⟨(binO_ok h h' hc).1, fun hp => by have hp : c.permute = true := hp; rw [hc] at hp; cases hp⟩

/-- A unary operation with the parameters `p` and `q`. -/
def unPO (c : ClassDef) (p q : Par) (a : Id) : ObjSpec ClassDef Par := ⟨c, [nmA], [.term nmP p, .term nmQ q, .link nmA a]⟩

theorem unPO_fits {c : ClassDef} {p q : Par} {a i : ℕ} (h : a < i) : (unPO c p q a).FitsAt i := by
  refine ⟨?_, fun _ k hk => by simpa [unPO] using hk⟩
  intro kw hm
  simp only [unPO, List.mem_cons, List.not_mem_nil, or_false] at hm
  rcases hm with rfl | rfl | rfl
  · trivial
  · trivial
  · exact ⟨by simp [unPO], h⟩

theorem isA_unP {g : Graph ClassDef Par} {y a : Id} {c : ClassDef} {p q : Par} (h : g y = (unPO c p q a).node) : IsA g y c [nmA] fun _ => a := by
  refine ⟨by rw [h]; rfl, by rw [h]; rfl, by simp, ?_⟩
  intro j
  have : j = 0 := Fin.eq_zero j
  subst this; rw [h]; rfl

theorem FitsFrom.link {os : List (ObjSpec ClassDef Par)} (h : FitsFrom 0 os) {i : Id} {k : Name} {c : Id}
    (hk : (buildGraph lib os i).dterms k = some c) : k ∈ (buildGraph lib os i).dnames ∧ c < i := by
  unfold buildGraph at hk ⊢
  split at hk
  · next o ho =>
    have hm := ObjSpec.node_dterms hk
    have := (h.get ho).1 _ hm
    rw [Nat.zero_add] at this
    exact ⟨by rw [ObjSpec.node, (foldl_assign_rest _ _).1]; exact this.1, this.2⟩
  · cases hk

theorem FitsFrom.lt {os : List (ObjSpec ClassDef Par)} (h : FitsFrom 0 os) {i c : Id} (hu : Uses (buildGraph lib os) i c) : c < i := by
  obtain ⟨k, _, hk⟩ := hu
  exact (h.link hk).2

theorem FitsFrom.acyclic {os : List (ObjSpec ClassDef Par)} (h : FitsFrom 0 os) (i : Id) :
    ¬ Relation.TransGen (Uses (buildGraph lib os)) i i := by
  have : ∀ {a b}, Relation.TransGen (Uses (buildGraph lib os)) a b → b < a := by
    intro a b hab
    induction hab with
    | single hu => exact h.lt hu
    | tail _ hu ih => exact (h.lt hu).trans ih
  intro hii
  exact (Nat.lt_irrefl i (this hii)).elim

theorem FitsFrom.le {os : List (ObjSpec ClassDef Par)} (h : FitsFrom 0 os) {y i : Id} (hr : Reaches (buildGraph lib os) y i) : i ≤ y := by
  induction hr with
  | refl => exact Nat.le_refl _
  | tail _ hu ih => exact (h.lt hu).le.trans ih

theorem exactly_of_exact {g : Graph ClassDef Par} {y : Id} {c : ClassDef} {ns : List Name} {kids : Fin ns.length → Id} (hy : IsA g y c ns kids)
    {v : Fin ns.length → Arr} {out : Arr} {P : Fin ns.length → Ent} (hk : ∀ a, Means lib g (.r (kids a)) (.ok (v a)))
    (hE : Exact c (g y).terms ns v out P) : Exactly g y := by
  have hE' : Exact (g y).cls (g y).terms ns v out P := by rw [hy.cls]; exact hE
  unfold Exactly
  rw [hy.links]
  exact ⟨out, v, P, means_of_isA hy hk hE.val, fun a => by rw [hy.kid_eq]; exact hk a, hE'⟩
end Chumpy
