import Verif.Core.LambdaReach
import Verif.Core.Build
/-! Programs with lambdas: objects constructed from scratch, one after the other, and arguments assigned afterwards. -/
namespace Chumpy
variable {C T V D : Type} {s : Sig C T V D} {L : Lam}

/-- Assigning to an object outside all bodies, one attribute after the other. -/
theorem lreach_sets {i : Id} (hi : L.owners i = []) (kws : List (KW T)) : ∀ {h : Heap C T V D}, LReach s L h → Str h → (h.node i).alive = true →
    (∀ kw ∈ kws, kw.Plain h (h.graph i).dnames) → (∀ k c, KW.link k c ∈ kws → L.owners c = []) →
    ∃ h', LReach s L h' ∧ Built h h' i (kws.foldl GNode.assign (h.graph i)) := by
  induction kws with
  | nil =>
    intro h hr hs _ _ _
    refine ⟨h, hr, hs, rfl, rfl, fun _ => rfl, fun j => ?_⟩
    show h.graph j = _
    split
    · subst_vars; rfl
    · rfl
  | cons kw kws ih =>
    intro h hr hs ha hk ho
    obtain ⟨_, a⟩ := setattr_built (s := s) hs ha (hk kw (by simp)) (itr := none) (by intro t h; cases h)
    have hr' : LReach s L (setattr s i none kw h).1 := by
      have hkw := hk kw (by simp)
      cases kw with
      | term n t =>
        have := LReach.step (.term i n t) hr (by exact hi)
        simp only [stepL, Lam.step, ha, if_true] at this
        exact this
      | link k c =>
        have := LReach.step (.link i k c) hr (by exact ⟨hi, ho k c (by simp)⟩)
        simp only [stepL, Lam.step, ha, if_true] at this
        exact this
      | wrap k x => exact hkw.elim
      | bad n => exact hkw.elim
    have hgi : (setattr s i none kw h).1.graph i = (h.graph i).assign kw := by rw [a.graph, if_pos rfl]
    obtain ⟨h2, hr2, b⟩ := ih hr' a.str (by rw [a.alive]; exact ha) (by
      intro kw' hm
      rw [hgi, GNode.assign_dnames]
      exact (hk kw' (List.mem_cons_of_mem _ hm)).of_alive (fun j hj => by rw [a.alive]; exact hj))
      (fun k c hm => ho k c (List.mem_cons_of_mem _ hm))
    refine ⟨h2, hr2, b.str, b.next.trans a.next, b.giter.trans a.giter, fun j => (b.alive j).trans (a.alive j), ?_⟩
    intro j
    rw [b.graph, hgi]
    split
    · rfl
    · rename_i hj; rw [a.graph, if_neg hj]

/-- The objects of a list, each made of earlier ones. -/
theorem lreach_build (os : List (ObjSpec C T))
    (hok : ∀ (i : Nat) (o : ObjSpec C T), os[i]? = some o → ∀ kw ∈ o.kws, KW.Earlier i o.dnames kw) :
    ∀ n ≤ os.length, ∃ h, LReach s Lam.empty h ∧
      Str h ∧ h.next = n ∧ (∀ j, (h.node j).alive = decide (j < n)) ∧ h.graph = buildGraph s (os.take n) := by
  intro n
  induction n with
  | zero =>
    intro _
    refine ⟨_, .init, run_str (s := s) [], rfl, fun j => by simp [Heap.empty, blankNode], ?_⟩
    funext j; simp [buildGraph]; rfl
  | succ n ih =>
    intro hn
    obtain ⟨h, hr, h1, h2, h3, h4⟩ := ih (by omega)
    have hlt : n < os.length := by omega
    have htake : os.take (n + 1) = os.take n ++ [os[n]] := (List.take_append_getElem hlt).symm
    have ha := alloc_node (C := C) (T := T) (V := V) (D := D) os[n].cls os[n].dnames false false h
    have hr1 : LReach s Lam.empty (alloc os[n].cls os[n].dnames false false h).1 := LReach.step (.alloc os[n].cls os[n].dnames) hr trivial
    have hnn : ((alloc os[n].cls os[n].dnames false false h).1.node n) = freshNode os[n].cls os[n].dnames false false := by
      rw [ha, if_pos h2.symm]
    obtain ⟨h', hr', b⟩ := lreach_sets (i := n) (L := Lam.empty) rfl os[n].kws hr1 (alloc_str h1 _ _ false false) (by rw [hnn]; rfl) (by
      intro kw hm
      rw [Heap.graph_apply, hnn]
      have := hok n os[n] (List.getElem?_eq_getElem hlt) kw hm
      cases kw with
      | term n t => trivial
      | link k c =>
        refine ⟨this.1, ?_⟩
        rw [ha]
        split
        · rfl
        · rw [h3]; simpa using this.2
      | wrap k x => exact this
      | bad n => exact this) (fun _ _ _ => rfl)
    refine ⟨h', hr', b.str, by rw [b.next]; show h.next + 1 = _; rw [h2], fun j => ?_, ?_⟩
    · rw [b.alive, ha, h2]
      by_cases hj : j = n
      · subst hj; simp [freshNode]
      · rw [if_neg hj, h3]
        by_cases h : j < n
        · simp [h, Nat.lt_succ_of_lt h]
        · have : ¬ j < n + 1 := fun h' => by
            rcases Nat.lt_succ_iff_lt_or_eq.1 h' with h' | h'
            · exact h h'
            · exact hj h'
          simp [h, this]
    · funext j
      rw [b.graph]
      unfold buildGraph
      rw [htake]
      by_cases hj : j = n
      · subst hj; have hm : min j os.length = j := Nat.min_eq_left (Nat.le_of_lt hlt)
        rw [if_pos rfl, List.getElem?_append_right (by simp [hm]), Heap.graph_apply, hnn]; simp [hm]; rfl
      · rw [if_neg hj, Heap.graph_apply, ha, if_neg (by rw [h2]; exact hj)]
        have : h.graph j = buildGraph s (os.take n) j := by rw [h4]
        unfold buildGraph at this
        rw [← Heap.graph_apply, this]
        by_cases h : j < n
        · rw [List.getElem?_append_left (by rw [List.length_take, Nat.min_eq_left (Nat.le_of_lt hlt)]; exact h)]
        · have hgt : n < j := Nat.lt_of_le_of_ne (Nat.le_of_not_lt h) (Ne.symm hj)
          have hm : min n os.length = n := Nat.min_eq_left (Nat.le_of_lt hlt)
          rw [List.getElem?_eq_none (by rw [List.length_take, hm]; exact Nat.le_of_lt hgt),
            List.getElem?_eq_none (by rw [List.length_append, List.length_take, hm]; exact hgt)]

end Chumpy
