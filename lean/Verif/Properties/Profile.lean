import Verif.Core.Profile
import Verif.Properties.Structure
/-!
# C79: the tree written by a profiler
-/
namespace Chumpy
variable {C T V D : Type}

/-! ## Specification -/

namespace Dump
/-- The object an entry is about. -/
def subject : Dump → Id
  | full i _ => i
  | indirect i => i

mutual
/-- The entries with their operands, in the order of the file. -/
def expanded : Dump → List Id
  | full i ks => i :: expandedL ks
  | indirect _ => []
def expandedL : List Dump → List Id
  | [] => []
  | d :: ds => d.expanded ++ expandedL ds
end

/-- The entry `e` occurs in the file `d`. -/
inductive In : Dump → Dump → Prop
  | here (d) : In d d
  | inside {e d : Dump} {i ks} : d ∈ ks → In e d → In e (full i ks)

/-- Every entry with operands lists exactly the operands of its object, in the order of their names. -/
def ListsOperands (g : Graph C T) (d : Dump) : Prop := ∀ i ks, In (full i ks) d → ks.map subject = (g i).kids
end Dump

/-! ## Proof -/

/-- What `dump_tree` produces, next to what `tree_iterator` does. -/
structure DumpIs (g : Graph C T) (i : Id) (d : Dump) (v o : List Id) : Prop where
  subject : d.subject = i
  expanded : d.expanded = o
  lists : d.ListsOperands g
  refs : ∀ j, Dump.In (.indirect j) d → j ∈ v

theorem dumpKids_spec {g : Graph C T} {rec : Id → List Id → Option (Dump × List Id)} {rec' : Id → List Id → Option (List Id × List Id)}
    (hrec : ∀ c vis v o, rec' c vis = some (v, o) → v = o.reverse ++ vis ∧ ∃ d, rec c vis = some (d, v) ∧ DumpIs g c d v o) :
    ∀ cs vis v o, treeKids rec' cs vis = some (v, o) → v = o.reverse ++ vis ∧ ∃ ds, dumpKids rec cs vis = some (ds, v) ∧
      ds.map Dump.subject = cs ∧ Dump.expandedL ds = o ∧ (∀ d ∈ ds, d.ListsOperands g) ∧ ∀ d ∈ ds, ∀ j, Dump.In (.indirect j) d → j ∈ v := by
  intro cs
  induction cs with
  | nil =>
    intro vis v o h
    simp only [treeKids, Option.some.injEq, Prod.mk.injEq] at h
    obtain ⟨rfl, rfl⟩ := h
    exact ⟨rfl, [], rfl, rfl, rfl, by simp, by simp⟩
  | cons c cs ih =>
    intro vis v o h
    simp only [treeKids] at h
    cases h1 : rec' c vis with
    | none => rw [h1] at h; cases h
    | some p =>
      obtain ⟨v1, o1⟩ := p
      rw [h1] at h
      dsimp only at h
      cases h2 : treeKids rec' cs v1 with
      | none => rw [h2] at h; cases h
      | some p =>
        obtain ⟨v2, o2⟩ := p
        rw [h2] at h
        simp only [Option.some.injEq, Prod.mk.injEq] at h
        obtain ⟨rfl, rfl⟩ := h
        obtain ⟨s1, d, e1, D1⟩ := hrec c vis v1 o1 h1
        obtain ⟨s2, ds, e2, m, x, l, r⟩ := ih v1 v2 o2 h2
        refine ⟨by rw [s2, s1]; simp, d :: ds, by simp only [dumpKids, e1, e2], ?_, ?_, ?_, ?_⟩
        · simp [m, D1.subject]
        · simp [Dump.expandedL, x, D1.expanded]
        · intro e he
          rcases List.mem_cons.1 he with rfl | he
          · exact D1.lists
          · exact l e he
        · intro e he j hj
          rcases List.mem_cons.1 he with rfl | he
          · rw [s2]; exact List.mem_append_right _ (D1.refs j hj)
          · exact r e he j hj

theorem dumpTree_spec {g : Graph C T} (f : Nat) : ∀ i vis v o, treeIter g f i vis = some (v, o) → v = o.reverse ++ vis ∧
    ∃ d, dumpTree g f i vis = some (d, v) ∧ DumpIs g i d v o := by
  induction f with
  | zero => intro i vis v o h; cases h
  | succ f ih =>
    intro i vis v o h
    rw [treeIter.eq_2] at h
    split at h
    · next hv =>
      simp only [Option.some.injEq, Prod.mk.injEq] at h
      obtain ⟨rfl, rfl⟩ := h
      refine ⟨rfl, .indirect i, by rw [dumpTree.eq_2, if_pos hv], rfl, rfl, ?_, ?_⟩
      · intro j ks hj; cases hj
      · intro j hj; cases hj; exact hv
    · next hv =>
      cases h1 : treeKids (treeIter g f) (g i).kids (i :: vis) with
      | none => rw [h1] at h; cases h
      | some p =>
        obtain ⟨v1, o1⟩ := p
        rw [h1] at h
        simp only [Option.some.injEq, Prod.mk.injEq] at h
        obtain ⟨rfl, rfl⟩ := h
        obtain ⟨s1, ds, e1, m, x, l, r⟩ := dumpKids_spec ih _ _ _ _ h1
        refine ⟨by rw [s1]; simp, .full i ds, by rw [dumpTree.eq_2, if_neg hv, e1], rfl, ?_, ?_, ?_⟩
        · simp [Dump.expanded, x]
        · intro j ks hj
          cases hj with
          | here => exact m
          | inside hd hj => exact l _ hd j ks hj
        · intro j hj
          cases hj with
          | inside hd hj => exact r _ hd j hj

/-! ## Theorems -/

/-- C79: a profiler made for an objective whose objects no profiler has seen writes a tree in which every object the objective depends on,
itself included, is shown with its operands exactly once; every entry with operands lists exactly the operands of its object; and every
other occurrence is a reference to an object shown elsewhere.  After every history, cycles included, if the recursion limit exceeds the
number of objects ever made.  Missing: objects seen before, see `C79_second_profiler_shows_nothing`. -/
theorem C79_tree_is_complete_partial (s : Sig C T V D) (ops : List (Op C T D)) (y : Id) (f : Nat) :
    let h := run s ops (Heap.empty s)
    (h.node y).alive = true → h.next < f →
    ∃ d seen, dumpTree h.graph f y [] = some (d, seen) ∧ d.subject = y ∧ d.expanded.Nodup ∧
      (∀ j, j ∈ d.expanded ↔ Relation.ReflTransGen (Uses h.graph) y j) ∧ d.ListsOperands h.graph ∧
      (∀ j, Dump.In (.indirect j) d → j ∈ d.expanded) ∧ ∀ j, j ∈ seen ↔ Relation.ReflTransGen (Uses h.graph) y j := by
  intro h hy hf
  obtain ⟨v, o, e, hh, hn, hm⟩ := C17_after_every_history s ops y f hy hf
  obtain ⟨hv, d, e2, D⟩ := dumpTree_spec _ y [] v o e
  have hv : ∀ x, x ∈ v ↔ x ∈ o := fun x => by rw [hv]; simp
  refine ⟨d, v, e2, D.subject, by rw [D.expanded]; exact hn, fun j => by rw [D.expanded]; exact hm j, D.lists, fun j hj => ?_, fun j => by rw [hv, hm]⟩
  rw [D.expanded, ← hv]; exact D.refs j hj

/-- C79 without "that no profiler has seen" is false, for every objective: the marks are never removed, and a second profiler writes a
single entry without operands. -/
theorem C79_second_profiler_shows_nothing (s : Sig C T V D) (ops : List (Op C T D)) (y : Id) (f f' : Nat) :
    let h := run s ops (Heap.empty s)
    (h.node y).alive = true → h.next < f → 0 < f' →
    ∃ d seen, dumpTree h.graph f y [] = some (d, seen) ∧ dumpTree h.graph f' y seen = some (.indirect y, seen) := by
  intro h hy hf hf'
  obtain ⟨d, v, e, _, _, _, _, _, hv⟩ := C79_tree_is_complete_partial s ops y f hy hf
  obtain ⟨n, rfl⟩ : ∃ n, f' = n + 1 := ⟨f' - 1, by omega⟩
  exact ⟨d, v, e, by rw [dumpTree.eq_2, if_pos ((hv y).2 .refl)]⟩

namespace Demo
/-- The objects of `ex16`: `y` (3) uses 2, which uses 0 and 1; the first profiler shows all of them, the second none. -/
example : (dumpTree (hist ex16).graph 9 3 []).map (fun p => p.1.expanded) = some [3, 2, 0, 1] := by decide +kernel
example : (dumpTree (hist ex16).graph 9 3 [1, 0, 2, 3]).map (fun p => p.1.expanded) = some [] := by decide +kernel
/-- A cycle: y.a = y. -/
example : (dumpTree (hist (ex16 ++ [.set 2 [.link a 3]])).graph 9 3 []).map (fun p => p.1.expanded) = some [3, 2, 1, 0] := by decide +kernel
/-- The hypotheses are met by it. -/
example : ((hist (ex16 ++ [.set 2 [.link a 3]])).node 3).alive = true ∧ (hist (ex16 ++ [.set 2 [.link a 3]])).next < 9 := by decide +kernel
end Demo
end Chumpy
