import Verif.Core.Reach
import Verif.Core.Inv
import Verif.Properties.Fresh
/-!
# Expressions built from scratch

Histories that only construct objects, each from earlier ones, reach exactly the graph one writes down.  Used to
show that the graphs the derivative theorems talk about are reachable.
-/
namespace Chumpy
variable {C T V D : Type} {s : Sig C T V D}

/-- What one assignment does to the graph part of an object. -/
def GNode.assign (n : GNode C T) : KW T → GNode C T
  | .term m t => { n with terms := fun k => if k = m then some t else n.terms k }
  | .link k c => { n with dterms := fun m => if m = k then some c else n.dterms m }
  | _ => n

/-- A plain value, or an existing object for a declared name. -/
def KW.Plain (h : Heap C T V D) (dn : List Name) : KW T → Prop
  | .term _ _ => True
  | .link k c => k ∈ dn ∧ (h.node c).alive = true
  | _ => False

/-- Outcome of assignments on `i`. -/
structure Built (h h' : Heap C T V D) (i : Id) (n : GNode C T) : Prop where
  str : Str h'
  next : h'.next = h.next
  giter : h'.giter = h.giter
  alive : ∀ j, (h'.node j).alive = (h.node j).alive
  graph : ∀ j, h'.graph j = if j = i then n else h.graph j

theorem setattr_built {h : Heap C T V D} (hs : Str h) {i : Id} (hi : (h.node i).alive = true) {kw : KW T}
    (hk : kw.Plain h (h.graph i).dnames) {itr : Option Nat} (ht : ∀ t, itr = some t → t ≤ h.giter ∨ t = 9999) :
    (setattr s i itr kw h).2 = .ok () ∧ Built h (setattr s i itr kw h).1 i ((h.graph i).assign kw) := by
  have hpost := (setattr_post (s := s) (fr := ⟨False, False⟩) hs hi kw ht).1
  cases kw with
  | term n t =>
    obtain ⟨h2, w, _, hg⟩ := setTerm_writing (s := s) h hs i n t itr
    refine ⟨rfl, hpost.str, w.next4.trans w.next2, hpost.giter, w.alive4, ?_⟩
    intro j
    show (setTerm s i n t itr h).1.graph j = _
    rw [hg]; rfl
  | link k c =>
    obtain ⟨hok, h2, w, _, hg⟩ := setDterm_writing (s := s) h hs i k c itr hk.2
    have e : setattr s i itr (.link k c) h = setDterm s i k c itr h := by
      simp only [setattr]; rw [if_pos ⟨hk.1, hk.2⟩]
    rw [e] at hpost ⊢
    refine ⟨hok, hpost.str, w.next4.trans w.next2, hpost.giter, w.alive4, ?_⟩
    intro j
    rw [hg]; rfl
  | wrap k x => exact hk.elim
  | bad n => exact hk.elim

theorem KW.Plain.of_alive {h h' : Heap C T V D} {dn : List Name} {kw : KW T} (hk : kw.Plain h dn)
    (ha : ∀ j, (h.node j).alive = true → (h'.node j).alive = true) : kw.Plain h' dn := by
  cases kw with
  | term n t => trivial
  | link k c => exact ⟨hk.1, ha c hk.2⟩
  | wrap k x => exact hk
  | bad n => exact hk

theorem GNode.assign_dnames (n : GNode C T) (kw : KW T) : (n.assign kw).dnames = n.dnames := by cases kw <;> rfl

theorem setAll_built (i : Id) (kws : List (KW T)) : ∀ {h : Heap C T V D}, Str h → (h.node i).alive = true →
    (∀ kw ∈ kws, kw.Plain h (h.graph i).dnames) →
    (setAll s i kws h).2 = .ok () ∧ Built h (setAll s i kws h).1 i (kws.foldl GNode.assign (h.graph i)) := by
  induction kws with
  | nil =>
    intro h hs _ _
    refine ⟨rfl, hs, rfl, rfl, fun _ => rfl, fun j => ?_⟩
    show h.graph j = _
    split
    · subst_vars; rfl
    · rfl
  | cons kw kws ih =>
    intro h hs hi hk
    cases kws with
    | nil =>
      simp only [setAll]
      exact setattr_built hs hi (hk kw (by simp)) (by intro t h; cases h)
    | cons kw2 kws =>
      obtain ⟨h1, a⟩ := setattr_built (s := s) hs hi (hk kw (by simp)) (itr := some 9999) (by intro t h; cases h; simp)
      rw [setAll.eq_3 s i kw (kw2 :: kws) (by simp)]
      simp only [M.bind]
      rcases hx : setattr s i (some 9999) kw h with ⟨h', r⟩
      rw [hx] at h1 a
      dsimp only at h1 a
      subst h1
      dsimp only
      have hgi : h'.graph i = (h.graph i).assign kw := by rw [a.graph, if_pos rfl]
      obtain ⟨h3, b⟩ := ih a.str (by rw [a.alive]; exact hi) (by
        intro kw' hm
        rw [hgi, GNode.assign_dnames]
        exact (hk kw' (List.mem_cons_of_mem _ hm)).of_alive (fun j hj => by rw [a.alive]; exact hj))
      refine ⟨h3, b.str, b.next.trans a.next, b.giter.trans a.giter, fun j => (b.alive j).trans (a.alive j), ?_⟩
      intro j
      rw [b.graph, hgi]
      split
      · rfl
      · rename_i hj; rw [a.graph, if_neg hj]

/-- Description of one object: class, differentiable names, assignments. -/
structure ObjSpec (C T : Type) where
  cls : C
  dnames : List Name
  kws : List (KW T)

/-- The object as a graph node. -/
def ObjSpec.node (o : ObjSpec C T) : GNode C T :=
  o.kws.foldl GNode.assign ⟨o.cls, fun _ => none, o.dnames, fun _ => none, false, false⟩

/-- The history that constructs the objects one after the other. -/
def buildOps (os : List (ObjSpec C T)) : List (Op C T D) := os.map fun o => .new o.cls o.dnames false false o.kws

/-- Only plain values and objects with smaller identities, under declared names. -/
def KW.Earlier (n : Nat) (dn : List Name) : KW T → Prop
  | .term _ _ => True
  | .link k c => k ∈ dn ∧ c < n
  | _ => False

/-- The graph one writes down. -/
def buildGraph (s : Sig C T V D) (os : List (ObjSpec C T)) : Graph C T := fun i =>
  match os[i]? with
  | some o => o.node
  | none => ⟨s.base, fun _ => none, [], fun _ => none, false, false⟩

/-- Constructing an object from plain values and existing objects does not raise, and returns the new identity. -/
theorem newObj_eq {h : Heap C T V D} (hs : Str h) (o : ObjSpec C T) (hk : ∀ kw ∈ o.kws, kw.Plain h o.dnames) :
    newObj s o.cls o.dnames false false o.kws h =
      ((setAll s h.next o.kws (alloc o.cls o.dnames false false h).1).1, .ok h.next) ∧
    Built (alloc o.cls o.dnames false false h).1 (setAll s h.next o.kws (alloc o.cls o.dnames false false h).1).1 h.next
      (o.kws.foldl GNode.assign ((alloc o.cls o.dnames false false h).1.graph h.next)) := by
  have ha := alloc_node (C := C) (T := T) (V := V) (D := D) o.cls o.dnames false false h
  have hold : o.kws.all (·.Old h) = true := by
    rw [List.all_eq_true]
    intro kw hm
    have := hk kw hm
    cases kw with
    | link k c => exact this.2
    | term n t => rfl
    | wrap k x => rfl
    | bad n => rfl
  have hnn : ((alloc o.cls o.dnames false false h).1.node h.next) = freshNode o.cls o.dnames false false := by rw [ha, if_pos rfl]
  obtain ⟨h1, a⟩ := setAll_built (s := s) h.next o.kws (alloc_str hs o.cls o.dnames false false) (by rw [hnn]; rfl) (by
    intro kw hm
    rw [Heap.graph_apply, hnn]
    refine (hk kw hm).of_alive fun j hj => ?_
    rw [ha]; split
    · rfl
    · exact hj)
  refine ⟨?_, a⟩
  unfold newObj
  rw [if_pos hold]
  have hb : M.bind (alloc o.cls o.dnames false false) (fun i => orCollect i (setAll s i o.kws)) h =
    orCollect h.next (setAll s h.next o.kws) (alloc o.cls o.dnames false false h).1 := rfl
  rw [hb, orCollect]
  rcases hx : setAll s h.next o.kws (alloc o.cls o.dnames false false h).1 with ⟨h', r⟩
  rw [hx] at h1; dsimp only at h1; subst h1; rfl

theorem newObj_built {h : Heap C T V D} (hs : Str h) (o : ObjSpec C T) (hk : ∀ kw ∈ o.kws, kw.Plain h o.dnames) :
    let h' := (step s (.new o.cls o.dnames false false o.kws) h).1
    Str h' ∧ h'.next = h.next + 1 ∧ (∀ j, (h'.node j).alive = if j = h.next then true else (h.node j).alive) ∧
      ∀ j, h'.graph j = if j = h.next then o.node else h.graph j := by
  have ha := alloc_node (C := C) (T := T) (V := V) (D := D) o.cls o.dnames false false h
  have hnn : ((alloc o.cls o.dnames false false h).1.node h.next) = freshNode o.cls o.dnames false false := by rw [ha, if_pos rfl]
  obtain ⟨e, a⟩ := newObj_eq (s := s) hs o hk
  dsimp only [step, M.map']
  rw [e]
  refine ⟨a.str, a.next, fun j => ?_, fun j => ?_⟩
  · rw [a.alive, ha]; split <;> rfl
  · rw [a.graph]
    split
    · rw [Heap.graph_apply, hnn]; rfl
    · rename_i hj
      rw [Heap.graph_apply, ha, if_neg hj]; rfl

/-- Constructing objects one after the other, up to the `n`-th. -/
theorem build_all (os : List (ObjSpec C T))
    (hok : ∀ (i : Nat) (o : ObjSpec C T), os[i]? = some o → ∀ kw ∈ o.kws, KW.Earlier i o.dnames kw) :
    ∀ n ≤ os.length, let h := run s (buildOps (os.take n)) (Heap.empty s)
      Str h ∧ h.next = n ∧ (∀ j, (h.node j).alive = decide (j < n)) ∧ h.graph = buildGraph s (os.take n) := by
  intro n
  induction n with
  | zero =>
    intro _
    refine ⟨run_str (s := s) [], rfl, fun j => by simp [buildOps, run, Heap.empty, blankNode], ?_⟩
    funext j; simp [buildGraph, buildOps, run]; rfl
  | succ n ih =>
    intro hn
    obtain ⟨h1, h2, h3, h4⟩ := ih (by omega)
    have hlt : n < os.length := by omega
    have htake : os.take (n + 1) = os.take n ++ [os[n]] := (List.take_append_getElem hlt).symm
    have hrun : run s (buildOps (os.take (n + 1))) (Heap.empty s) =
        (step s (.new os[n].cls os[n].dnames false false os[n].kws) (run s (buildOps (os.take n)) (Heap.empty s))).1 := by
      rw [htake]; unfold buildOps run; rw [List.map_append, List.foldl_append]; rfl
    obtain ⟨a, b, c, d⟩ := newObj_built (s := s) h1 os[n] (by
      intro kw hm
      have := hok n os[n] (List.getElem?_eq_getElem hlt) kw hm
      cases kw with
      | term n t => trivial
      | link k c => exact ⟨this.1, by rw [h3]; simpa using this.2⟩
      | wrap k x => exact this
      | bad n => exact this)
    rw [← hrun] at a b c d
    dsimp only
    refine ⟨a, by rw [b, h2], fun j => ?_, ?_⟩
    · rw [c, h2, h3]
      by_cases hj : j = n
      · subst hj; simp
      · rw [if_neg hj]
        by_cases h : j < n
        · simp [h, Nat.lt_succ_of_lt h]
        · have : ¬ j < n + 1 := fun h' => by
            rcases Nat.lt_succ_iff_lt_or_eq.1 h' with h' | h'
            · exact h h'
            · exact hj h'
          simp [h, this]
    · funext j
      rw [d, h2, h4]
      unfold buildGraph
      rw [htake]
      by_cases hj : j = n
      · subst hj; have hm : min j os.length = j := Nat.min_eq_left (Nat.le_of_lt hlt)
        rw [if_pos rfl, List.getElem?_append_right (by simp [hm])]; simp [hm]
      · rw [if_neg hj]
        by_cases h : j < n
        · rw [List.getElem?_append_left (by rw [List.length_take, Nat.min_eq_left (Nat.le_of_lt hlt)]; exact h)]
        · have hgt : n < j := Nat.lt_of_le_of_ne (Nat.le_of_not_lt h) (Ne.symm hj)
          have hm : min n os.length = n := Nat.min_eq_left (Nat.le_of_lt hlt)
          rw [List.getElem?_eq_none (by rw [List.length_take, hm]; exact Nat.le_of_lt hgt),
            List.getElem?_eq_none (by rw [List.length_append, List.length_take, hm]; exact hgt)]

/-- Constructing objects one after the other reaches the graph written down. -/
theorem build_graph (os : List (ObjSpec C T))
    (hok : ∀ (i : Nat) (o : ObjSpec C T), os[i]? = some o → ∀ kw ∈ o.kws, KW.Earlier i o.dnames kw) :
    (run s (buildOps os) (Heap.empty s)).graph = buildGraph s os := by
  have := (build_all (s := s) os hok os.length (Nat.le_refl _)).2.2.2
  rwa [List.take_length] at this

/-- … and exactly these objects exist. -/
theorem build_alive (os : List (ObjSpec C T))
    (hok : ∀ (i : Nat) (o : ObjSpec C T), os[i]? = some o → ∀ kw ∈ o.kws, KW.Earlier i o.dnames kw) :
    (run s (buildOps os) (Heap.empty s)).next = os.length ∧
      ∀ j : Nat, ((run s (buildOps os) (Heap.empty s)).node j).alive = decide (j < os.length) := by
  have := build_all (s := s) os hok os.length (Nat.le_refl _)
  rw [List.take_length] at this
  exact ⟨this.2.1, this.2.2.1⟩

theorem build_reach (m : Mode) (os : List (ObjSpec C T))
    (hp : ∀ o ∈ os, s.isPermute o.cls = true → ∀ k ∈ o.dnames, k = s.permArg) :
    Reach s m (run s (buildOps os) (Heap.empty s)) := by
  refine reach_run _ .init ?_
  generalize Heap.empty s = h
  induction os generalizing h with
  | nil => trivial
  | cons o os ih =>
    exact ⟨⟨fun _ => hp o (by simp), fun _ => ⟨rfl, rfl⟩⟩, ih (fun o' h' => hp o' (by simp [h'])) _⟩
end Chumpy
