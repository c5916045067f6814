import Verif.Core.Group
import Verif.Core.Pending
import Verif.Core.SameObs
import Verif.Core.Build
/-! Invariant of a heap with a group. -/
namespace Chumpy
variable {C T V D α β : Type} {s : Sig C T V D}

/-! ## Reads of other objects leave the group's bookkeeping alone -/

/-- Nothing refers to `G`. -/
def Unused (g : Graph C T) (G : Id) : Prop := ∀ j k, (g j).dterms k ≠ some G

/-- `h'` has the graph of `h`, and the object `G` is untouched. -/
structure ApartG (G : Id) (h h' : Heap C T V D) : Prop where
  graph : h'.graph = h.graph
  node : h'.node G = h.node G

variable {G : Id}

theorem ApartG.refl (h : Heap C T V D) : ApartG G h h := ⟨rfl, rfl⟩
theorem ApartG.trans {a b c : Heap C T V D} (x : ApartG G a b) (y : ApartG G b c) : ApartG G a c :=
  ⟨y.graph.trans x.graph, y.node.trans x.node⟩

theorem modify_apart {i : Id} (hi : i ≠ G) (h : Heap C T V D) (F : Node C T V D → Node C T V D)
    (hg : (F (h.node i)).toGNode = (h.node i).toGNode) : ApartG G h (h.modify i F) := by
  refine ⟨?_, ?_⟩
  · funext j
    simp only [Heap.graph, Heap.modify]
    split
    · subst_vars; exact hg
    · rfl
  · simp [Heap.modify, Ne.symm hi]

theorem callOnChanged_apart {i : Id} (hi : i ≠ G) (h : Heap C T V D) : ApartG G h (callOnChanged i h).1 := by
  unfold callOnChanged
  split
  · exact .refl h
  · exact ⟨(modify_apart hi h (fun n => { n with dirty := [] }) rfl).graph, (modify_apart hi h (fun n => { n with dirty := [] }) rfl).node⟩

theorem emit_apart (e : Event) (h : Heap C T V D) : ApartG G h (emit e h).1 := ⟨rfl, rfl⟩

theorem bind_apart {m : M C T V D α} {k : α → M C T V D β} {h : Heap C T V D} (hm : ApartG G h (m h).1)
    (hk : ∀ a h', ApartG G h h' → ApartG G h' (k a h').1) : ApartG G h (M.bind m k h).1 := by
  simp only [M.bind]
  rcases hmh : m h with ⟨h1, r⟩
  rw [hmh] at hm
  cases r with
  | error e => exact hm
  | ok a => exact hm.trans (hk a h1 hm)

/-- The object a request asks for. -/
def Req.who : Req → Id
  | .r i => i
  | .prop i _ => i

theorem runProg_apart {g : Graph C T} (hG : Unused g G) {rd : Req → M C T V D V}
    (hrd : ∀ q (h : Heap C T V D), h.graph = g → q.who ≠ G → ApartG G h (rd q h).1) {i : Id} (hi : i ≠ G) (p : Prog T V α) :
    ∀ h : Heap C T V D, h.graph = g → ApartG G h (runProg rd i p h).1 := by
  induction p with
  | ret a => intro h _; exact .refl h
  | raise c => intro h _; exact .refl h
  | term n k ih => intro h hg; simp only [runProg]; exact ih _ h hg
  | child n k ih =>
    intro h hg
    simp only [runProg]
    cases hc : (h.node i).dterms n with
    | none => exact .refl h
    | some c =>
      have hc' : (g i).dterms n = some c := by rw [← hg]; exact hc
      exact bind_apart (hrd _ h hg (fun e => hG i n (e ▸ hc'))) fun a h' ht => ih a h' (ht.graph.trans hg)
  | prop p k ih => intro h hg; exact bind_apart (hrd _ h hg hi) fun a h' ht => ih a h' (ht.graph.trans hg)
  | selfR k ih => intro h hg; exact bind_apart (hrd _ h hg hi) fun a h' ht => ih a h' (ht.graph.trans hg)

theorem read_apart {g : Graph C T} (hG : Unused g G) (f : Nat) : ∀ q (h : Heap C T V D), h.graph = g → q.who ≠ G →
    ApartG G h (read s f q h).1 := by
  induction f with
  | zero => intro q h _ _; exact .refl h
  | succ f ih =>
    intro q h hg hq
    cases q with
    | r i =>
      refine bind_apart (callOnChanged_apart hq h) fun _ h1 ht => ?_
      have hg1 := ht.graph.trans hg
      cases hc : (h1.node i).cacheR with
      | some v => exact .refl h1
      | none =>
        refine bind_apart (emit_apart (.ranR i) h1) fun _ h2 ht2 => ?_
        exact bind_apart (runProg_apart hG ih hq _ h2 (ht2.graph.trans hg1)) fun v h3 _ =>
          modify_apart (i := i) hq h3 (fun n => { n with cacheR := some v }) rfl
    | prop i p =>
      simp only [read]
      cases s.propDecl (h.node i).cls p with
      | none => exact .refl h
      | some d =>
        dsimp only
        cases hc : (h.node i).props p with
        | some v => exact .refl h
        | none =>
          refine bind_apart (emit_apart (.ranProp i p) h) fun _ h2 ht2 => ?_
          exact bind_apart (runProg_apart hG ih hq _ h2 (ht2.graph.trans hg)) fun v h3 _ =>
            modify_apart (i := i) hq h3 (fun n => { n with props := fun q => if q = p then some v else n.props q }) rfl

theorem runCompDr_apart {g : Graph C T} (hG : Unused g G) (f : Nat) {i : Id} (hi : i ≠ G) (w : Id) (h : Heap C T V D) (hg : h.graph = g) :
    ApartG G h (runCompDr s f i w h).1 := by
  refine bind_apart (emit_apart (.ranDr i w) h) fun _ h1 h1a => ?_
  exact runProg_apart hG (read_apart hG f) hi _ h1 (h1a.graph.trans hg)

theorem sliceLoop_apart {g : Graph C T} (hG : Unused g G) (f : Nat) {i : Id} (hi : i ≠ G) (n : Nat) : ∀ (w : Id) (h : Heap C T V D), h.graph = g →
    ApartG G h (sliceLoop s f i n w h).1 := by
  induction n with
  | zero => intro w h _; exact .refl h
  | succ n ih =>
    intro w h hg
    rw [sliceLoop]
    dsimp only
    split
    · split
      · exact .refl h
      · split
        · exact .refl h
        · refine bind_apart (runCompDr_apart hG f hi _ h hg) fun o h1 h1a => ?_
          cases o with
          | none => exact ih _ h1 (h1a.graph.trans hg)
          | some d => exact .refl h1
    · exact .refl h

theorem drSliced_apart {g : Graph C T} (hG : Unused g G) (f : Nat) {i w : Id} (hi : i ≠ G) (hw : w ≠ G) (h : Heap C T V D) (hg : h.graph = g) :
    ApartG G h (drSliced s f i w h).1 := by
  refine bind_apart (callOnChanged_apart hi h) fun _ h1 h1a => ?_
  refine bind_apart (runCompDr_apart hG f hi w h1 (h1a.graph.trans hg)) fun o h2 h2a => ?_
  have hg2 := h2a.graph.trans (h1a.graph.trans hg)
  cases o with
  | some d => exact .refl h2
  | none =>
    refine bind_apart (sliceLoop_apart hG f hi f w h2 hg2) fun o h3 h3a => ?_
    have hg3 := h3a.graph.trans hg2
    cases o with
    | none => exact .refl h3
    | some x =>
      refine bind_apart (callOnChanged_apart hw h3) fun _ h4 h4a => ?_
      refine bind_apart (runCompDr_apart hG f hw _ h4 (h4a.graph.trans hg3)) fun o h5 h5a => ?_
      cases o <;> exact .refl h5

theorem drTerms_apart {g : Graph C T} (hG : Unused g G) (f : Nat) {i w : Id} (hi : i ≠ G) {rec : Id → M C T V D (Option D)}
    (hrec : ∀ p, p ≠ G → ∀ h : Heap C T V D, h.graph = g → ApartG G h (rec p h).1) (ks : List Name) :
    ∀ (acc : List D) (h : Heap C T V D), h.graph = g → ApartG G h (drTerms s f i w rec ks acc h).1 := by
  induction ks with
  | nil => intro acc h _; exact .refl h
  | cons k ks ih =>
    intro acc h hg
    rw [drTerms]
    dsimp only
    cases hk : (h.node i).dterms k with
    | none => exact ih acc h hg
    | some p =>
      have hp : p ≠ G := fun e => hG i k (by rw [← hg, ← e]; exact hk)
      dsimp only
      by_cases hpw : p = w
      · rw [if_pos hpw]; exact ih acc h hg
      · rw [if_neg hpw]
        refine bind_apart (hrec p hp h hg) fun o h1 h1a => ?_
        have hg1 := h1a.graph.trans hg
        cases o with
        | none => exact ih acc h1 hg1
        | some d2 =>
          refine bind_apart (drSliced_apart hG f hi hp h1 hg1) fun o h2 h2a => ?_
          have hg2 := h2a.graph.trans hg1
          cases o with
          | none => exact ih acc h2 hg2
          | some d =>
            refine bind_apart (m := M.lift (s.superdot d d2)) (.refl h2) fun x h3 h3a => ?_
            exact ih _ h3 (h3a.graph.trans hg2)

theorem storeDr_apart {i : Id} (hi : i ≠ G) (w : Id) (d : Option D) (h : Heap C T V D) : ApartG G h (storeDr i w d h).1 := by
  unfold storeDr
  split
  · exact .refl h
  · exact modify_apart hi h (fun n => { n with drs := fun x => if x = w then some d else n.drs x }) rfl

theorem drWrt_apart {g : Graph C T} (hG : Unused g G) (f : Nat) : ∀ {i w : Id}, i ≠ G → w ≠ G → ∀ h : Heap C T V D, h.graph = g →
    ApartG G h (drWrt s f i w h).1 := by
  induction f with
  | zero => intro i w _ _ h _; exact .refl h
  | succ f ih =>
    intro i w hi hw h hg
    refine bind_apart (callOnChanged_apart hi h) fun _ h1 h1a => ?_
    have hg1 := h1a.graph.trans hg
    cases hd : (h1.node i).drs w with
    | some d => exact .refl h1
    | none =>
      refine bind_apart (drSliced_apart hG f hi hw h1 hg1) fun o h2 h2a => ?_
      have hg2 := h2a.graph.trans hg1
      refine bind_apart (drTerms_apart hG f hi (fun p hp h' hg' => ih hp hw h' hg') _ _ h2 hg2) fun ds h3 h3a => ?_
      refine bind_apart (m := M.lift (sumD s ds)) (.refl h3) fun r h4 h4a => ?_
      refine bind_apart (storeDr_apart hi w _ h4) fun _ h5 _ => .refl h5

/-! ## The invariant -/

/-- The heap holds the group as constructed: nothing refers to it, its arguments are there, every argument has its own handle. -/
structure GroupOk (s : Sig C T V D) (gr : Grp) (h : Heap C T V D) : Prop where
  liveG : (h.node gr.G).alive = true
  liveR : (h.node gr.res).alive = true
  ne : gr.res ≠ gr.G
  unused : Unused h.graph gr.G
  body : ∃ u, s.computeR (h.graph gr.G).cls = .ret u
  arg : ∀ e ∈ gr.args, ∃ p, (h.graph gr.G).dterms e.1 = some p
  handle : ∀ e ∈ gr.args, (h.node e.2).alive = true ∧ e.2 ≠ gr.G ∧ s.xname ∈ (h.graph e.2).dnames
  one : (gr.args.map (·.2)).Nodup

/-- The handle of every argument refers to the argument. -/
def Synced (s : Sig C T V D) (gr : Grp) (g : Graph C T) : Prop := ∀ e ∈ gr.args, (g e.2).dterms s.xname = (g gr.G).dterms e.1

structure GInv (s : Sig C T V D) (gr : Grp) (st : GSt C T V D) : Prop where
  inv : Inv s ⟨False, True⟩ st.heap
  ok : GroupOk s gr st.heap
  sync : ∀ e ∈ gr.args, e.1 ∈ (st.heap.node gr.G).dirty ∨ (st.heap.graph e.2).dterms s.xname = (st.heap.graph gr.G).dterms e.1
  val : ∀ v, st.cached gr = some v → (st.heap.node gr.G).dirty = [] ∧ Means s st.heap.graph (.r gr.res) (.ok v)

variable {gr : Grp} {st : GSt C T V D}

theorem regroup_of_find {g : Graph C T} {i : Id} (hn : ∀ e ∈ gr.args, e.2 ≠ i) : regroup s gr g i = g i := by
  unfold regroup
  have : gr.args.find? (fun e => e.2 == i) = none := List.find?_eq_none.2 fun e he => by simpa using hn e he
  rw [this]

theorem nodup_snd_inj {l : List (Name × Id)} (hn : (l.map (·.2)).Nodup) {x y : Name × Id} (hx : x ∈ l) (hy : y ∈ l) (h : x.2 = y.2) : x = y := by
  induction l with
  | nil => cases hx
  | cons z l ih =>
    simp only [List.map_cons, List.nodup_cons] at hn
    rcases List.mem_cons.1 hx with rfl | hx
    · rcases List.mem_cons.1 hy with rfl | hy
      · rfl
      · exact absurd (h ▸ List.mem_map_of_mem hy) hn.1
    · rcases List.mem_cons.1 hy with rfl | hy
      · exact absurd (h ▸ List.mem_map_of_mem ‹x ∈ l›) hn.1
      · exact ih hn.2 hx hy

theorem find_arg (hn : (gr.args.map (·.2)).Nodup) {e : Name × Id} (he : e ∈ gr.args) : gr.args.find? (fun x => x.2 == e.2) = some e := by
  obtain ⟨x, hx⟩ : ∃ x, gr.args.find? (fun x => x.2 == e.2) = some x := by
    cases h : gr.args.find? (fun x => x.2 == e.2) with
    | some x => exact ⟨x, rfl⟩
    | none => exact absurd (List.find?_eq_none.1 h e he) (by simp)
  have h1 := List.mem_of_find?_eq_some hx
  have h2 : x.2 = e.2 := by simpa using List.find?_some hx
  rw [hx, nodup_snd_inj hn h1 he h2]

theorem regroup_synced {g : Graph C T} (hs : Synced s gr g) : regroup s gr g = g := by
  funext i
  unfold regroup
  cases h : gr.args.find? (fun e => e.2 == i) with
  | none => rfl
  | some e =>
    have h1 := List.mem_of_find?_eq_some h
    have h2 : e.2 = i := by simpa using List.find?_some h
    have h3 := hs e h1
    rw [h2] at h3
    have : (fun k => if k = s.xname then (g gr.G).dterms e.1 else (g i).dterms k) = (g i).dterms := by
      funext k
      split
      · subst_vars; exact h3.symm
      · rfl
    simp only [this]

theorem inv_set (hpo : s.PropsOk) {h : Heap C T V D} (hr : Inv s ⟨False, True⟩ h) {i : Id} (hi : (h.node i).alive = true) (kw : KW T) :
    Inv s ⟨False, True⟩ (setattr s i none kw h).1 :=
  setattr_none_inv hpo hr.str hi kw (fun h => False.elim h) hr.perm hr.flags hr.coh

/-- Assignments that make no new object. -/
def KW.Direct : KW T → Prop
  | .wrap _ _ => False
  | _ => True

theorem setattr_graph {h : Heap C T V D} (hs : Str h) {i : Id} {kw : KW T} (hk : kw.Direct) (ho : (setattr s i none kw h).2 = .ok ()) :
    (setattr s i none kw h).1.graph = fun j => if j = i then (h.graph i).assign kw else h.graph j := by
  cases kw with
  | term n t =>
    obtain ⟨h2, w, _, hg⟩ := setTerm_writing (s := s) h hs i n t none
    exact hg
  | link k c =>
    simp only [setattr] at ho ⊢
    split
    · rename_i hc
      obtain ⟨_, h2, w, _, hg⟩ := setDterm_writing (s := s) h hs i k c none hc.2
      rw [hg]; rfl
    · rename_i hc; rw [if_neg hc] at ho; cases ho
  | bad n => cases ho
  | wrap k x => exact absurd hk id

theorem setattr_fail {h : Heap C T V D} (hs : Str h) {i : Id} {kw : KW T} (hk : kw.Direct) (ho : (setattr s i none kw h).2 ≠ .ok ()) :
    (setattr s i none kw h).1 = h := by
  cases kw with
  | term n t => exact absurd rfl ho
  | link k c =>
    simp only [setattr] at ho ⊢
    split
    · rename_i hc
      obtain ⟨e, _⟩ := setDterm_writing (s := s) h hs i k c none hc.2
      rw [if_pos hc] at ho; exact absurd e ho
    · rfl
  | bad n => rfl
  | wrap k x => exact absurd hk id

theorem assign_cls' (n : GNode C T) (kw : KW T) : (n.assign kw).cls = n.cls := by cases kw <;> rfl

/-- The group survives an assignment that does not refer to it. -/
theorem GroupOk.set {h : Heap C T V D} (hg : GroupOk s gr h) (hs : Str h) {i : Id} (hi : (h.node i).alive = true) {kw : KW T} (hk : kw.Direct)
    (hG : ∀ k, kw ≠ .link k gr.G) (ho : (setattr s i none kw h).2 = .ok ()) : GroupOk s gr (setattr s i none kw h).1 := by
  have a := (setattr_post (s := s) (fr := ⟨False, True⟩) hs hi kw (itr := none) (by intro t h; cases h)).1
  have e := setattr_graph (s := s) hs hk ho
  have hcls : ∀ j, ((setattr s i none kw h).1.graph j).cls = (h.graph j).cls := fun j => by
    rw [e]; dsimp only; split
    · subst_vars; exact assign_cls' _ _
    · rfl
  have hdn : ∀ j, ((setattr s i none kw h).1.graph j).dnames = (h.graph j).dnames := fun j => by
    rw [e]; dsimp only; split
    · subst_vars; exact GNode.assign_dnames _ _
    · rfl
  refine ⟨a.alive _ hg.liveG, a.alive _ hg.liveR, hg.ne, ?_, ?_, ?_, ?_, hg.one⟩
  · intro j k
    rw [e]; dsimp only; split
    · subst_vars
      cases kw with
      | term n t => exact hg.unused _ k
      | bad n => exact hg.unused _ k
      | wrap n x => exact hg.unused _ k
      | link n c =>
        simp only [GNode.assign]
        split
        · intro hc; cases hc; exact hG n rfl
        · exact hg.unused _ k
    · exact hg.unused j k
  · obtain ⟨u, hu⟩ := hg.body
    exact ⟨u, by rw [hcls]; exact hu⟩
  · intro x hx
    obtain ⟨p, hp⟩ := hg.arg x hx
    rw [e]; dsimp only; split
    · rename_i hGi
      cases kw with
      | link n c =>
        simp only [GNode.assign]
        split
        · exact ⟨c, rfl⟩
        · exact ⟨p, by rw [← hGi]; exact hp⟩
      | term n t => exact ⟨p, by rw [← hGi]; exact hp⟩
      | bad n => exact ⟨p, by rw [← hGi]; exact hp⟩
      | wrap n x => exact ⟨p, by rw [← hGi]; exact hp⟩
    · exact ⟨p, hp⟩
  · intro x hx
    obtain ⟨h1, h2, h3⟩ := hg.handle x hx
    exact ⟨a.alive _ h1, h2, by rw [hdn]; exact h3⟩

theorem GroupOk.frame {h h' : Heap C T V D} (hg : GroupOk s gr h) (e : h'.graph = h.graph) (ha : ∀ j, (h'.node j).alive = (h.node j).alive) :
    GroupOk s gr h' := by
  obtain ⟨a, b, c, d, u, p, q, r⟩ := hg
  refine ⟨by rw [ha]; exact a, by rw [ha]; exact b, c, by rw [e]; exact d, by rw [e]; exact u, by rw [e]; exact p, ?_, r⟩
  intro x hx
  obtain ⟨h1, h2, h3⟩ := q x hx
  exact ⟨by rw [ha]; exact h1, h2, by rw [e]; exact h3⟩

/-! ## The handles are put right -/

/-- `n` with `c` under the name `k`. -/
def GNode.point (n : GNode C T) (k : Name) (c : Option Id) : GNode C T := { n with dterms := fun m => if m = k then c else n.dterms m }

theorem point_self (n : GNode C T) (k : Name) : n.point k (n.dterms k) = n := by
  have : (fun m => if m = k then n.dterms k else n.dterms m) = n.dterms := by
    funext m; split
    · subst_vars; rfl
    · rfl
  unfold GNode.point
  rw [this]

/-- What the loop over the handles in `l` achieves. -/
structure SyncPost (s : Sig C T V D) (gr : Grp) (which : List Name) (l : List (Name × Id)) (h : Heap C T V D)
    (out : Heap C T V D × Except Err Unit) : Prop where
  ok : out.2 = .ok ()
  inv : Inv s ⟨False, True⟩ out.1
  group : GroupOk s gr out.1
  off : ∀ j, (∀ e ∈ l, e.2 ≠ j) → out.1.graph j = h.graph j
  hit : ∀ e ∈ l, e.1 ∈ which → (out.1.graph e.2).dterms s.xname = (h.graph gr.G).dterms e.1
  miss : ∀ e ∈ l, e.1 ∉ which → out.1.graph e.2 = h.graph e.2
  only : ∀ e ∈ l, out.1.graph e.2 = (h.graph e.2).point s.xname ((out.1.graph e.2).dterms s.xname)
  cache : ∀ v, (out.1.node gr.G).cacheR = some v → (h.node gr.G).cacheR = some v

theorem syncG_spec (hpo : s.PropsOk) (which : List Name) (l : List (Name × Id)) : ∀ {h : Heap C T V D}, Inv s ⟨False, True⟩ h → GroupOk s gr h →
    (∀ e ∈ l, e ∈ gr.args) → (l.map (·.2)).Nodup → SyncPost s gr which l h (syncG s gr.G which l h) := by
  induction l with
  | nil => intro h hr hg _ _; exact ⟨rfl, hr, hg, fun _ _ => rfl, by simp, by simp, by simp, fun v hv => hv⟩
  | cons x l ih =>
    intro h hr hg hl hn
    obtain ⟨a, hd⟩ := x
    have hin := hl (a, hd) (by simp)
    obtain ⟨y, hy⟩ := hg.arg _ hin
    obtain ⟨hlive, hne, hx⟩ := hg.handle _ hin
    simp only [List.map_cons, List.nodup_cons] at hn
    have hs := hr.str
    have hl' : ∀ e ∈ l, e ∈ gr.args := fun e he => hl e (by simp [he])
    have hnd : ∀ e ∈ l, e.2 ≠ hd := fun e he q => hn.1 (by rw [← q]; exact List.mem_map_of_mem he)
    -- the head does nothing
    have skip : ∀ (hskip : syncG s gr.G which ((a, hd) :: l) h = syncG s gr.G which l h)
        (hok : a ∈ which → (h.graph hd).dterms s.xname = (h.graph gr.G).dterms a),
        SyncPost s gr which ((a, hd) :: l) h (syncG s gr.G which ((a, hd) :: l) h) := by
      intro hskip hok
      obtain ⟨i1, i2, i3, i4, i5, i6, i7, i8⟩ := ih hr hg hl' hn.2
      have hhd := i4 hd hnd
      rw [hskip]
      refine ⟨i1, i2, i3, fun j hj => i4 j (fun e he => hj e (by simp [he])), ?_, ?_, ?_, i8⟩
      · intro e he hw
        rcases List.mem_cons.1 he with rfl | he
        · rw [hhd]; exact hok hw
        · exact i5 e he hw
      · intro e he hw
        rcases List.mem_cons.1 he with rfl | he
        · exact hhd
        · exact i6 e he hw
      · intro e he
        rcases List.mem_cons.1 he with rfl | he
        · show (syncG s gr.G which l h).1.graph hd = _
          rw [hhd]; exact (point_self _ _).symm
        · exact i7 e he
    by_cases ha : a ∈ which
    · by_cases hxy : (h.node hd).dterms s.xname = some y
      · refine skip ?_ (fun _ => hxy.trans hy.symm)
        have hy' : (h.node gr.G).dterms a = some y := hy
        simp only [syncG, if_pos ha, hy', if_pos hxy]
      · -- an assignment
        have hyl : (h.node y).alive = true := hs.child_alive hy
        have hres := setDterm_writing (s := s) h hs hd s.xname y none hyl
        have hset : setattr s hd none (.link s.xname y) h = setDterm s hd s.xname y none h := by
          simp only [setattr]; exact if_pos ⟨hx, hyl⟩
        have hok : (setattr s hd none (.link s.xname y) h).2 = .ok () := by rw [hset]; exact hres.1
        have hgr := setattr_graph (s := s) (kw := .link s.xname y) hs trivial hok
        have hr1 := inv_set hpo hr hlive (.link s.xname y)
        have hyG : ∀ k, KW.link (T := T) s.xname y ≠ .link k gr.G := fun k e => by
          cases e; exact hg.unused _ _ hy
        have hg1 := hg.set hs hlive (kw := .link s.xname y) trivial hyG hok
        have hsh := (setattr_post (s := s) (fr := ⟨False, True⟩) hs hlive (.link s.xname y) (itr := none) (by intro t h; cases h)).1.shrink
        have hstep : syncG s gr.G which ((a, hd) :: l) h = syncG s gr.G which l (setattr s hd none (.link s.xname y) h).1 := by
          have hy' : (h.node gr.G).dterms a = some y := hy
          simp only [syncG, if_pos ha, hy', if_neg hxy]
          rcases hq : setattr s hd none (.link s.xname y) h with ⟨h1, r⟩
          rw [hq] at hok
          dsimp only at hok
          subst hok
          simp [M.bind, hq]
        obtain ⟨i1, i2, i3, i4, i5, i6, i7, i8⟩ := ih hr1 hg1 hl' hn.2
        have hG1 : (setattr s hd none (.link s.xname y) h).1.graph gr.G = h.graph gr.G := by rw [hgr]; exact if_neg (Ne.symm hne)
        have hoff : ∀ j, j ≠ hd → (setattr s hd none (.link s.xname y) h).1.graph j = h.graph j := fun j hj => by rw [hgr]; exact if_neg hj
        have hat : (setattr s hd none (.link s.xname y) h).1.graph hd = (h.graph hd).assign (.link s.xname y) := by rw [hgr]; exact if_pos rfl
        have hhd := (i4 hd hnd).trans hat
        rw [hstep]
        refine ⟨i1, i2, i3, ?_, ?_, ?_, ?_, ?_⟩
        · intro j hj
          rw [i4 j (fun e he => hj e (by simp [he])), hoff j (Ne.symm (hj (a, hd) (by simp)))]
        · intro e he hw
          rcases List.mem_cons.1 he with rfl | he
          · rw [hhd]
            show (if s.xname = s.xname then some y else _) = (h.graph gr.G).dterms a
            rw [if_pos rfl]; exact hy.symm
          · rw [i5 e he hw, hG1]
        · intro e he hw
          rcases List.mem_cons.1 he with rfl | he
          · exact absurd ha hw
          · rw [i6 e he hw]; exact hoff _ (hnd e he)
        · intro e he
          rcases List.mem_cons.1 he with rfl | he
          · show (syncG s gr.G which l _).1.graph hd = (h.graph hd).point s.xname (((syncG s gr.G which l _).1.graph hd).dterms s.xname)
            rw [hhd]
            simp only [GNode.assign, GNode.point, if_true]
          · have := i7 e he
            rw [hoff _ (hnd e he)] at this
            exact this
        · intro v hv
          exact hsh.r _ v (i8 v hv)
    · refine skip ?_ (fun h => absurd h ha)
      simp only [syncG, if_neg ha]

/-- `_call_on_changed` of the group: it does not raise, afterwards the graph is the one the arguments ask for, nothing is pending, and
what is kept in the cache is right. -/
theorem callOnChangedG_spec (hpo : s.PropsOk) (hi : GInv s gr st) : (callOnChangedG s gr st).2 = .ok () ∧ GInv s gr (callOnChangedG s gr st).1 ∧
    (callOnChangedG s gr st).1.heap.graph = regroup s gr st.heap.graph ∧ ((callOnChangedG s gr st).1.heap.node gr.G).dirty = [] ∧
    (∃ u, ((callOnChangedG s gr st).1.heap.node gr.G).cacheR = some u) ∧
    ((callOnChangedG s gr st).1.val ≠ none → (st.heap.node gr.G).dirty = []) := by
  obtain ⟨a1, a2, a3, a4, a5, a6, a7, a8⟩ := syncG_spec (s := s) hpo (st.heap.node gr.G).dirty gr.args hi.inv hi.ok (fun e he => he) hi.ok.one
  rcases hq : syncG s gr.G (st.heap.node gr.G).dirty gr.args st.heap with ⟨h1, r⟩
  rw [hq] at a1 a2 a3 a4 a5 a6 a7 a8
  dsimp only at a1 a2 a3 a4 a5 a6 a7 a8
  subst a1
  have hres : callOnChangedG s gr st = (⟨(read s 1 (.r gr.G) h1).1, GSt.cached gr ⟨h1, st.val⟩⟩, .ok ()) := by
    simp only [callOnChangedG, hq]
  rw [hres]
  have hGg : h1.graph gr.G = st.heap.graph gr.G := a4 _ (fun e he => (hi.ok.handle e he).2.1)
  have hsy : Synced s gr h1.graph := fun e he => by
    rw [hGg]
    by_cases hw : e.1 ∈ (st.heap.node gr.G).dirty
    · exact a5 e he hw
    · rw [a6 e he hw]; exact (hi.sync e he).resolve_left hw
  have hre : h1.graph = regroup s gr st.heap.graph := by
    funext j
    by_cases hj : ∃ e ∈ gr.args, e.2 = j
    · obtain ⟨e, he, rfl⟩ := hj
      rw [a7 e he]
      unfold regroup
      rw [find_arg hi.ok.one he]
      dsimp only
      have := hsy e he
      rw [hGg] at this
      rw [this]
      rfl
    · rw [a4 j (fun e he q => hj ⟨e, he, q⟩), regroup_of_find (fun e he q => hj ⟨e, he, q⟩)]
  -- the mark
  have fr := read_pres (s := s) rframe_rel 1 (.r gr.G) h1
  obtain ⟨u, hu⟩ := a3.body
  have hmark : ((read s 1 (.r gr.G) h1).1.node gr.G).dirty = [] ∧ ∃ u, ((read s 1 (.r gr.G) h1).1.node gr.G).cacheR = some u := by
    have hcl := callOnChanged_clean gr.G h1
    have hcls : ((callOnChanged gr.G h1).1.node gr.G).cls = (h1.node gr.G).cls := by
      have := congrFun (callOnChanged_frame gr.G h1).graph gr.G
      exact congrArg GNode.cls this
    have hok : (callOnChanged gr.G h1).2 = .ok () := by unfold callOnChanged; split <;> rfl
    rcases hc : callOnChanged gr.G h1 with ⟨h2, r⟩
    rw [hc] at hcl hcls hok
    dsimp only at hcl hcls hok
    subst hok
    have hu' : s.computeR (h2.node gr.G).cls = .ret u := by rw [hcls]; exact hu
    cases hr : (h2.node gr.G).cacheR with
    | some v =>
      have : read s 1 (.r gr.G) h1 = (h2, .ok v) := by simp [read, M.bind, hc, hr]
      rw [this]; exact ⟨hcl, v, hr⟩
    | none =>
      have : (read s 1 (.r gr.G) h1).1 = (storeR gr.G u (emit (.ranR gr.G) h2).1).1 := by
        simp [read, M.bind, hc, hr, hu', runProg, M.pure, emit]
      rw [this]
      simp [storeR, emit, Heap.modify, hcl]
  have hgr : (read s 1 (.r gr.G) h1).1.graph = h1.graph := fr.graph
  have hval : ∀ v, GSt.cached gr ⟨h1, st.val⟩ = some v → st.cached gr = some v := by
    intro v hv
    unfold GSt.cached at hv ⊢
    dsimp only at hv
    cases hc : (h1.node gr.G).cacheR with
    | none => rw [hc] at hv; cases hv
    | some w => rw [hc] at hv; rw [a8 w hc]; exact hv
  have hkeep : ∀ v, GSt.cached gr ⟨h1, st.val⟩ = some v → (st.heap.node gr.G).dirty = [] ∧ Means s h1.graph (.r gr.res) (.ok v) := by
    intro v hv
    obtain ⟨hd, hm⟩ := hi.val v (hval v hv)
    refine ⟨hd, ?_⟩
    have : regroup s gr st.heap.graph = st.heap.graph := regroup_synced fun e he => (hi.sync e he).resolve_left (by rw [hd]; simp)
    rw [hre, this]; exact hm
  refine ⟨rfl, ⟨read_inv a2 1 _, a3.frame hgr fr.alive, fun e he => Or.inr (by rw [hgr]; exact hsy e he), fun v hv => ⟨hmark.1, ?_⟩⟩,
    hgr.trans hre, hmark.1, hmark.2, fun hv => ?_⟩
  · rw [hgr]
    obtain ⟨u, hu⟩ := hmark.2
    have : GSt.cached gr ⟨(read s 1 (.r gr.G) h1).1, GSt.cached gr ⟨h1, st.val⟩⟩ = GSt.cached gr ⟨h1, st.val⟩ := by
      conv => lhs; unfold GSt.cached
      rw [hu]
      rfl
    exact (hkeep v (this ▸ hv)).2
  · cases hc : GSt.cached gr ⟨h1, st.val⟩ with
    | none => exact absurd hc hv
    | some v => exact (hkeep v hc).1

/-! ## Reads -/

/-- Reads of objects other than the group. -/
structure QuietG (s : Sig C T V D) (G : Id) (h h' : Heap C T V D) : Prop where
  inv : Inv s ⟨False, True⟩ h → Inv s ⟨False, True⟩ h'
  apart : ApartG G h h'
  alive : ∀ j, (h'.node j).alive = (h.node j).alive

theorem QuietG.refl (h : Heap C T V D) : QuietG s G h h := ⟨id, .refl h, fun _ => rfl⟩
theorem QuietG.trans {a b c : Heap C T V D} (x : QuietG s G a b) (y : QuietG s G b c) : QuietG s G a c :=
  ⟨fun h => y.inv (x.inv h), x.apart.trans y.apart, fun j => (y.alive j).trans (x.alive j)⟩

theorem bind_quietG {m : M C T V D α} {k : α → M C T V D β} {h : Heap C T V D} (hm : QuietG s G h (m h).1)
    (hk : ∀ a h', QuietG s G h h' → QuietG s G h' (k a h').1) : QuietG s G h (M.bind m k h).1 := by
  simp only [M.bind]
  rcases hmh : m h with ⟨h1, r⟩
  rw [hmh] at hm
  cases r with
  | error e => exact hm
  | ok a => exact hm.trans (hk a h1 hm)

theorem quietG_of {h h' : Heap C T V D} (ha : ApartG G h h') (fr : RFrame h h') (hc : Coh s (Fresh s) (Wf s ⟨False, True⟩) h → Coh s (Fresh s) (Wf s ⟨False, True⟩) h') :
    QuietG s G h h' :=
  ⟨fun hs => ⟨hs.str.rframe fr, hc hs.coh, fun hfr => False.elim hfr, fun hp n => by rw [fr.graph]; exact hs.flags hp n⟩, ha, fr.alive⟩

theorem read_quietG {g : Graph C T} (hG : Unused g G) (f : Nat) (q : Req) (h : Heap C T V D) (hg : h.graph = g) (hq : q.who ≠ G) :
    QuietG s G h (read s f q h).1 :=
  quietG_of (read_apart hG f q h hg hq) (read_pres rframe_rel f q h) fun hc => (read_sim (P := True) f q h hc rfl).1

theorem drWrt_quietG {g : Graph C T} (hG : Unused g G) (f : Nat) {i w : Id} (hi : i ≠ G) (hw : w ≠ G) (h : Heap C T V D) (hg : h.graph = g) :
    QuietG s G h (drWrt s f i w h).1 :=
  quietG_of (drWrt_apart hG f hi hw h hg) (drWrt_pres rframe_rel f i w h) fun hc => (drWrt_sim f i w h hc rfl).1

/-- `_call_on_changed` and `compute_dr_wrt` of another object. -/
theorem compDr_quietG {g : Graph C T} (hG : Unused g G) (f : Nat) {i : Id} (hi : i ≠ G) (w : Id) (h : Heap C T V D) (hg : h.graph = g) :
    QuietG s G h (M.bind (callOnChanged i) (fun _ => runCompDr s f i w) h).1 := by
  refine quietG_of (bind_apart (callOnChanged_apart hi h) fun _ h1 h1a => runCompDr_apart hG f hi w h1 (h1a.graph.trans hg))
    (Pres.onChanged rframe_rel i (fun h' hd => runCompDr_pres rframe_rel f i w h' hd) h) fun hc => ?_
  have h1 := callOnChanged_coh i hc
  have h2 := callOnChanged_ok i h
  simp only [M.bind]
  rcases hq : callOnChanged i h with ⟨h', r⟩
  rw [hq] at h1 h2
  dsimp only at h2
  subst h2
  exact (runCompDr_sim (P := True) f i w h' h1 rfl).1

theorem sliceLoopG_quiet {g : Graph C T} (hG : Unused g gr.G) (hne : gr.res ≠ gr.G) (f n : Nat) : ∀ (w : Id) (h : Heap C T V D), h.graph = g →
    QuietG s gr.G h (sliceLoopG s gr f n w h).1 := by
  induction n with
  | zero => intro w h _; exact .refl h
  | succ n ih =>
    intro w h hg
    rw [sliceLoopG]
    dsimp only
    split
    · split
      · exact .refl h
      · split
        · exact .refl h
        · rename_i hni
          refine bind_quietG (drWrt_quietG hG f hne hni h hg) fun o h1 h1a => ?_
          cases o with
          | none => exact ih _ h1 (h1a.apart.graph.trans hg)
          | some d => exact .refl h1
    · exact .refl h

theorem bind_assoc' {γ : Type} (m : M C T V D α) (k : α → M C T V D β) (l : β → M C T V D γ) (h : Heap C T V D) :
    M.bind m (fun a => M.bind (k a) l) h = M.bind (M.bind m k) l h := by
  simp only [M.bind]
  rcases m h with ⟨h1, r⟩
  cases r <;> rfl

theorem drSlicedG_quiet {g : Graph C T} (hG : Unused g gr.G) (hne : gr.res ≠ gr.G) (f : Nat) {w : Id} (hw : w ≠ gr.G) (h : Heap C T V D)
    (hg : h.graph = g) : QuietG s gr.G h (drSlicedG s gr f w h).1 := by
  refine bind_quietG (drWrt_quietG hG f hne hw h hg) fun o h1 h1a => ?_
  have hg1 := h1a.apart.graph.trans hg
  cases o with
  | some d => exact .refl h1
  | none =>
    refine bind_quietG (sliceLoopG_quiet hG hne f f w h1 hg1) fun o h2 h2a => ?_
    have hg2 := h2a.apart.graph.trans hg1
    cases o with
    | none => exact .refl h2
    | some x =>
      obtain ⟨inner, d⟩ := x
      dsimp only
      rw [bind_assoc']
      refine bind_quietG (compDr_quietG hG f hw inner h2 hg2) fun o h3 h3a => ?_
      cases o <;> exact .refl h3

theorem drTermsG_quiet {g : Graph C T} (hG : Unused g gr.G) (hne : gr.res ≠ gr.G) (f : Nat) {w : Id} (hw : w ≠ gr.G) (ks : List Name) :
    ∀ (acc : List D) (h : Heap C T V D), h.graph = g → QuietG s gr.G h (drTermsG s gr f w ks acc h).1 := by
  induction ks with
  | nil => intro acc h _; exact .refl h
  | cons k ks ih =>
    intro acc h hg
    rw [drTermsG]
    dsimp only
    cases hk : (h.node gr.G).dterms k with
    | none => exact ih acc h hg
    | some p =>
      have hp : p ≠ gr.G := fun e => hG gr.G k (by rw [← hg]; exact hk.trans (congrArg some e))
      dsimp only
      by_cases hpw : p = w
      · rw [if_pos hpw]; exact ih acc h hg
      · rw [if_neg hpw]
        refine bind_quietG (drWrt_quietG hG f hp hw h hg) fun o h1 h1a => ?_
        have hg1 := h1a.apart.graph.trans hg
        cases o with
        | none => exact ih acc h1 hg1
        | some d2 =>
          refine bind_quietG (drSlicedG_quiet hG hne f hp h1 hg1) fun o h2 h2a => ?_
          have hg2 := h2a.apart.graph.trans hg1
          cases o with
          | none => exact ih acc h2 hg2
          | some d =>
            refine bind_quietG (m := M.lift (s.superdot d d2)) (.refl h2) fun x h3 h3a => ?_
            exact ih _ h3 (h3a.apart.graph.trans hg2)

theorem GInv.quiet (hi : GInv s gr st) {h : Heap C T V D} (hq : QuietG s gr.G st.heap h) : GInv s gr ⟨h, st.val⟩ := by
  refine ⟨hq.inv hi.inv, hi.ok.frame hq.apart.graph hq.alive, fun e he => ?_, fun v hv => ?_⟩
  · dsimp only
    rw [hq.apart.node, hq.apart.graph]; exact hi.sync e he
  · dsimp only
    rw [hq.apart.node, hq.apart.graph]
    refine hi.val v ?_
    unfold GSt.cached at hv ⊢
    dsimp only at hv
    rw [hq.apart.node] at hv
    exact hv

/-- The value of the group after `_call_on_changed`, from the cache or not. -/
theorem readG_spec (hpo : s.PropsOk) (hi : GInv s gr st) (f : Nat) : GInv s gr (readG s gr f st).1 ∧
    Agree (readG s gr f st).2 (fun f => evalReq s (regroup s gr st.heap.graph) f (.r gr.res)) f := by
  obtain ⟨a1, a2, a3, a4, ⟨u, a5⟩, _⟩ := callOnChangedG_spec hpo hi
  rcases hq : callOnChangedG s gr st with ⟨st1, r⟩
  rw [hq] at a1 a2 a3 a4 a5
  dsimp only at a1 a2 a3 a4 a5
  subst a1
  cases hv : st1.val with
  | some v =>
    have hres : readG s gr f st = (st1, .ok v) := by simp [readG, hq, hv]
    have hc : st1.cached gr = some v := by unfold GSt.cached; rw [a5]; exact hv
    obtain ⟨_, _, f', hf'⟩ := a2.val v hc
    rw [a3] at hf'
    rw [hres]
    refine ⟨a2, fun hne => ?_, fun _ => ⟨f', hf'⟩⟩
    dsimp only
    rcases Nat.le_total f f' with hle | hle
    · have := evalReq_mono s (regroup s gr st.heap.graph) hle (.r gr.res) hne
      rw [← this, hf']
    · have := evalReq_mono s (regroup s gr st.heap.graph) hle (.r gr.res) (by rw [hf']; simp)
      rw [this, hf']
  | none =>
    have hag := (read_sim (P := True) f (.r gr.res) st1.heap a2.inv.coh rfl).2.2 trivial
    have qu := read_quietG (s := s) a2.ok.unused f (.r gr.res) st1.heap rfl a2.ok.ne
    rw [a3] at hag
    rcases hrd : read s f (.r gr.res) st1.heap with ⟨h2, o⟩
    rw [hrd] at hag qu
    have hi2 := a2.quiet qu
    rw [hv] at hi2
    cases o with
    | error e =>
      have hres : readG s gr f st = (⟨h2, none⟩, .error e) := by simp [readG, hq, hv, hrd]
      rw [hres]; exact ⟨hi2, hag⟩
    | ok v =>
      have hres : readG s gr f st = (⟨h2, some v⟩, .ok v) := by simp [readG, hq, hv, hrd]
      rw [hres]
      refine ⟨⟨hi2.inv, hi2.ok, hi2.sync, fun v' hv' => ?_⟩, hag⟩
      have hgr : h2.graph = regroup s gr st.heap.graph := qu.apart.graph.trans a3
      have hn : h2.node gr.G = st1.heap.node gr.G := qu.apart.node
      have : v' = v := by
        unfold GSt.cached at hv'
        dsimp only at hv'
        rw [hn, a5] at hv'
        cases hv'; rfl
      subst this
      refine ⟨by dsimp only; rw [hn]; exact a4, by simp, ?_⟩
      obtain ⟨f', hf'⟩ := hag.2 (by simp)
      exact ⟨f', by dsimp only; rw [hgr]; exact hf'⟩

theorem drWrtG_inv (hpo : s.PropsOk) (hi : GInv s gr st) (f : Nat) {w : Id} (hw : w ≠ gr.G) : GInv s gr (drWrtG s gr f w st).1 := by
  obtain ⟨a1, a2, a3, a4, ⟨u, a5⟩, _⟩ := callOnChangedG_spec hpo hi
  rcases hq : callOnChangedG s gr st with ⟨st1, r⟩
  rw [hq] at a1 a2
  dsimp only at a1 a2
  subst a1
  have hres : (drWrtG s gr f w st).1 = ⟨(M.bind (drSlicedG s gr f w) (fun direct =>
        M.bind (fun h => drTermsG s gr f w (h.node gr.G).dnames direct.toList h) fun ds =>
        M.bind (M.lift (sumD s ds)) fun r => fun h =>
          (h, .ok ((r.map s.finish).map (s.outForm (h.node gr.G).makeDense (h.node gr.G).makeSparse)))) st1.heap).1, st1.val⟩ := by
    simp only [drWrtG, hq]
  rw [hres]
  refine a2.quiet (bind_quietG (drSlicedG_quiet a2.ok.unused a2.ok.ne f hw st1.heap rfl) fun o h1 h1a => ?_)
  refine bind_quietG (drTermsG_quiet a2.ok.unused a2.ok.ne f hw _ _ h1 h1a.apart.graph) fun ds h2 h2a => ?_
  refine bind_quietG (m := M.lift (sumD s ds)) (.refl h2) fun x h3 h3a => .refl h3

/-! ## Histories -/

/-- The restriction on a history.  Objects other than the group are read; objects other than the handles, which belong to the group,
are assigned to, one attribute at a time, existing objects or plain values of non-differentiable attributes, and never the group
itself.  And what is assigned to inside of the result is something the group knows about: it is below an argument, too. -/
def LegalG (s : Sig C T V D) (gr : Grp) (st : GSt C T V D) : GOp T → Prop
  | .set i kw => kw.Direct ∧ (∀ k, kw ≠ .link k gr.G) ∧ (∀ e ∈ gr.args, e.2 ≠ i) ∧
      (Anc (regroup s gr st.heap.graph) i gr.res → Anc st.heap.graph i gr.G)
  | .readR _ i => i ≠ gr.G
  | .readDr _ i w => i ≠ gr.G ∧ w ≠ gr.G
  | .group _ => True
  | .groupDr _ w => w ≠ gr.G

theorem GInv.set (hpo : s.PropsOk) (hi : GInv s gr st) {i : Id} (ha : (st.heap.node i).alive = true) {kw : KW T} (hl : LegalG s gr st (.set i kw)) :
    GInv s gr ⟨(setattr s i none kw st.heap).1, st.val⟩ := by
  obtain ⟨hk, hG, hhd, hbelow⟩ := hl
  rcases Classical.em ((setattr s i none kw st.heap).2 = .ok ()) with ho | ho
  case inr => rw [setattr_fail hi.inv.str hk ho]; exact hi
  have hgr := setattr_graph (s := s) hi.inv.str hk ho
  have hs := setattr_assigned (s := s) hi.inv.str i kw ho
  have hoff : SameOff st.heap.graph (setattr s i none kw st.heap).1.graph i := fun j hj => by rw [hgr]; exact if_neg hj
  have hd := hs.dirty gr.G hi.ok.liveG
  refine ⟨inv_set hpo hi.inv ha kw, hi.ok.set hi.inv.str ha hk hG ho, fun e he => ?_, fun v hv => ?_⟩
  · dsimp only
    have h1 : (setattr s i none kw st.heap).1.graph e.2 = st.heap.graph e.2 := hoff _ (hhd e he)
    rw [h1]
    rcases hi.sync e he with hdi | heq
    · exact Or.inl ((hd _).2 (Or.inl hdi))
    · by_cases hGi : gr.G = i
      · by_cases hn : e.1 = kw.name
        · exact Or.inl ((hd _).2 (Or.inr (Or.inl ⟨hGi, hn⟩)))
        · refine Or.inr (heq.trans ?_)
          rw [hgr]
          dsimp only
          rw [if_pos hGi, hGi]
          cases kw with
          | link n c =>
            have hne : e.1 ≠ n := hn
            simp only [GNode.assign, if_neg hne]
          | term n t => rfl
          | bad n => rfl
          | wrap n x => rfl
      · exact Or.inr (heq.trans (by rw [hoff _ hGi]))
  · -- the cache survived: nothing below the group was assigned to
    dsimp only at hv ⊢
    have hanc : ¬ Anc (setattr s i none kw st.heap).1.graph i gr.G := fun hc => by
      have := (hs.cleared gr.G hi.ok.liveG hc).1
      unfold GSt.cached at hv
      dsimp only at hv
      rw [this] at hv; cases hv
    have hold : st.cached gr = some v := by
      unfold GSt.cached at hv ⊢
      dsimp only at hv
      rw [(hs.kept gr.G hi.ok.liveG hanc).1] at hv
      exact hv
    obtain ⟨hdirty, hne, f, hf⟩ := hi.val v hold
    have hsync : regroup s gr st.heap.graph = st.heap.graph := regroup_synced fun e he => (hi.sync e he).resolve_left (by rw [hdirty]; simp)
    rw [hoff.anc_iff] at hanc
    rw [hsync] at hbelow
    have hres : ¬ Anc st.heap.graph i gr.res := fun hc => hanc (hbelow hc)
    refine ⟨?_, hne, f, (evalReq_off s hoff f gr.res hres).1.trans hf⟩
    refine List.eq_nil_iff_forall_not_mem.2 fun k hkm => ?_
    rcases (hd k).1 hkm with h1 | ⟨h1, _⟩ | ⟨c, hc, hca⟩
    · rw [hdirty] at h1; cases h1
    · exact hanc (h1 ▸ Anc.refl)
    · refine hanc ((hoff.anc_iff gr.G).1 (Anc.step k hc hca))

theorem GInv.step (hpo : s.PropsOk) (hi : GInv s gr st) {op : GOp T} (hl : LegalG s gr st op) : GInv s gr (stepG s gr op st) := by
  cases op with
  | set i kw =>
    simp only [stepG, setObj]
    split
    · rename_i ha; exact hi.set hpo ha hl
    · exact hi
  | readR f i =>
    simp only [stepG]
    split
    · exact hi.quiet (read_quietG hi.ok.unused f (.r i) st.heap rfl hl)
    · exact hi
  | readDr f i w =>
    simp only [stepG]
    split
    · exact hi.quiet (drWrt_quietG hi.ok.unused f hl.1 hl.2 st.heap rfl)
    · exact hi
  | group f => exact (readG_spec hpo hi f).1
  | groupDr f w =>
    simp only [stepG]
    split
    · exact drWrtG_inv hpo hi f hl
    · exact hi

/-- States of a program with a group: it starts in a reachable state in which the group has just been made. -/
inductive GReach (s : Sig C T V D) (gr : Grp) : GSt C T V D → Prop
  | made {h : Heap C T V D} : Reach s ⟨False, True⟩ h → GroupOk s gr h → Synced s gr h.graph → GReach s gr ⟨h, none⟩
  | step {st : GSt C T V D} (op : GOp T) : GReach s gr st → LegalG s gr st op → GReach s gr (stepG s gr op st)

theorem greach_inv (hpo : s.PropsOk) (hr : GReach s gr st) : GInv s gr st := by
  induction hr with
  | made h1 h2 h3 =>
    refine ⟨reach_inv hpo (fun h => False.elim h) h1, h2, fun e he => Or.inr (h3 e he), fun v hv => ?_⟩
    unfold GSt.cached at hv
    dsimp only at hv
    split at hv <;> cases hv
  | step op _ hl ih => exact ih.step hpo hl

end Chumpy
