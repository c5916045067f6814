import Mathlib.Data.List.Sort
import Verif.Core.Inv
/-!
# `Ch.remove_redundancy` and `Ch.sid`
-/
namespace Chumpy
variable {C T V D α : Type}

/-- What `sid` needs to know besides the object: the class attribute `terms`.  Parameters are compared by
`=` on `T`, which stands for Python's `id`: for an exact reading take for `T` pairs of identity and content. -/
structure Ident (C : Type) where
  tnames : C → List Name

/-- `Ch.sid` (ch.py:183-189): the class, and the identities of what is stored under the declared names.
Simplification: Python sorts the two kinds of names into one list; no name is of both kinds, so two
sorted lists carry the same information. -/
structure Sid (C T : Type) where
  cls : C
  terms : List (Name × T)
  dterms : List (Name × Id)
  deriving DecidableEq

def sid (u : Ident C) (n : GNode C T) : Sid C T where
  cls := n.cls
  terms := (u.tnames n.cls).filterMap fun k => (n.terms k).map fun t => (k, t)
  dterms := (n.dnames.insertionSort (· ≤ ·)).filterMap fun k => (n.dterms k).map fun c => (k, c)

/-- The dictionary `cache`: identifiers to objects. -/
abbrev Shared (C T : Type) := List (Sid C T × Id)

/-- The loop over `self.dterms` (ch.py:228-241); `rec` is `prop.remove_redundancy(cache, iterate=False)`.
`self.__dict__[propname]` raises `KeyError` when nothing is stored. -/
def redLoop [DecidableEq C] [DecidableEq T] (u : Ident C) (rec : Id → Shared C T → M C T V D (Shared C T × Bool)) (i : Id) :
    List Name → Shared C T → Bool → M C T V D (Shared C T × Bool)
  | [], cache, rep => M.pure (cache, rep)
  | k :: ks, cache, rep => fun h =>
    match (h.node i).dterms k with
    | none => (h, .error .attr)
    | some p =>
      match cache.lookup (sid u (h.node p).toGNode) with
      | none =>
        M.bind (rec p ((sid u (h.node p).toGNode, p) :: cache))
          (fun r => redLoop u rec i ks r.1 (rep || r.2)) h
      | some q =>
        if p = q then M.bind (rec p cache) (fun r => redLoop u rec i ks r.1 (rep || r.2)) h
        else M.bind (rec p cache) (fun r => redLoop u rec i ks r.1 true)
          (h.modify i (fun n => { n with dterms := fun m => if m = k then some q else n.dterms m }))

/-- `self.remove_redundancy(cache, iterate=False)` (ch.py:221-249). -/
def redOnce [DecidableEq C] [DecidableEq T] (u : Ident C) : Nat → Id → Shared C T → M C T V D (Shared C T × Bool)
  | 0, _, _ => M.throw .fuel
  | f + 1, i, cache => fun h => redLoop u (redOnce u f) i (h.node i).dnames cache false h

/-- The repetition until nothing is replaced (ch.py:242-249), `n` times at most. -/
def redIter [DecidableEq C] [DecidableEq T] (u : Ident C) (f : Nat) : Nat → Id → Shared C T → M C T V D Unit
  | 0, _, _ => M.throw .fuel
  | n + 1, i, cache => M.bind (redOnce u f i cache) fun r => if r.2 then redIter u f n i r.1 else M.pure ()

/-- `self.remove_redundancy()` (ch.py:221-249): first `self.r`. -/
def removeRedundancy [DecidableEq C] [DecidableEq T] (s : Sig C T V D) (u : Ident C) (f : Nat) (i : Id) : M C T V D Unit :=
  M.bind (read s f (.r i)) fun _ => redIter u f f i []

/-- The body reads only the parameters in `ns`. -/
def Prog.TermsIn {β : Type} (ns : List Name) : Prog T V β → Prop
  | .ret _ => True
  | .raise _ => True
  | .term n k => n ∈ ns ∧ ∀ t, (k t).TermsIn ns
  | .child _ k => ∀ v, (k v).TermsIn ns
  | .prop _ k => ∀ v, (k v).TermsIn ns
  | .selfR k => ∀ v, (k v).TermsIn ns

/-- Every parameter a class uses is declared in its `terms`.  (`Concatenate` uses `axis`, which it does not
declare, reordering.py:357-420.) -/
def Sig.TermsOk (s : Sig C T V D) (u : Ident C) : Prop :=
  (∀ c, (s.computeR c).TermsIn (u.tnames c)) ∧ ∀ c p d, s.propDecl c p = some d → d.2.TermsIn (u.tnames c)

variable {s : Sig C T V D} {u : Ident C}

/-! ## Redirecting links between equal objects keeps all values -/

theorem evalProg_twin {g g' : Graph C T} {ev ev' : Req → Except Err V} {i j : Id} (ns : List Name)
    (ht : ∀ n ∈ ns, (g' j).terms n = (g i).terms n)
    (hd : ∀ n, ((g' j).dterms n = none ↔ (g i).dterms n = none) ∧
      ∀ c c', (g i).dterms n = some c → (g' j).dterms n = some c' → ev' (.r c') = ev (.r c))
    (hp : ∀ p, ev' (.prop j p) = ev (.prop i p)) (hr : ev' (.r j) = ev (.r i)) (p : Prog T V α) (hn : p.TermsIn ns) :
    evalProg g' ev' j p = evalProg g ev i p := by
  induction p with
  | ret a => rfl
  | raise c => rfl
  | term n k ih => simp only [evalProg, ht n hn.1]; exact ih _ (hn.2 _)
  | child n k ih =>
    simp only [evalProg]
    obtain ⟨h1, h2⟩ := hd n
    cases h : (g i).dterms n with
    | none => rw [h1.2 h]
    | some c =>
      cases h' : (g' j).dterms n with
      | none => rw [h1.1 h'] at h; cases h
      | some c' =>
        dsimp only
        rw [h2 c c' h h']
        cases ev (.r c) with
        | ok v => exact ih v (hn v)
        | error e => rfl
  | prop p k ih =>
    simp only [evalProg, hp]
    cases ev (.prop i p) with
    | ok v => exact ih v (hn v)
    | error e => rfl
  | selfR k ih =>
    simp only [evalProg, hr]
    cases ev (.r i) with
    | ok v => exact ih v (hn v)
    | error e => rfl

/-- Objects with the same identifier: same class, same parameters, same children. -/
theorem sid_eq {n n' : GNode C T} (h : sid u n = sid u n') (hn : ∀ k c, n.dterms k = some c → k ∈ n.dnames)
    (hn' : ∀ k c, n'.dterms k = some c → k ∈ n'.dnames) :
    n.cls = n'.cls ∧ (∀ k ∈ u.tnames n.cls, n.terms k = n'.terms k) ∧ n.dterms = n'.dterms := by
  have h1 : n.cls = n'.cls := congrArg Sid.cls h
  have h2 : (sid u n).terms = (sid u n').terms := congrArg Sid.terms h
  have h3 : (sid u n).dterms = (sid u n').dterms := congrArg Sid.dterms h
  refine ⟨h1, ?_, ?_⟩
  · intro k hk
    have key : ∀ (m : GNode C T) t, m.cls = n.cls → (m.terms k = some t ↔ (k, t) ∈ (sid u m).terms) := by
      intro m t hm
      simp only [sid, List.mem_filterMap, Option.map_eq_some_iff, Prod.mk.injEq, hm]
      constructor
      · intro h; exact ⟨k, hk, t, h, rfl, rfl⟩
      · rintro ⟨k', _, t', h, rfl, rfl⟩; exact h
    apply Option.ext
    intro t
    rw [key n t rfl, key n' t h1.symm, h2]
  · have key : ∀ (m : GNode C T) k c, (∀ k c, m.dterms k = some c → k ∈ m.dnames) →
        (m.dterms k = some c ↔ (k, c) ∈ (sid u m).dterms) := by
      intro m k c hm
      simp only [sid, List.mem_filterMap, Option.map_eq_some_iff, Prod.mk.injEq, List.mem_insertionSort]
      constructor
      · intro h; exact ⟨k, hm k c h, c, h, rfl, rfl⟩
      · rintro ⟨k', _, c', h, rfl, rfl⟩; exact h
    funext k
    apply Option.ext
    intro c
    rw [key n k c hn, key n' k c hn', h3]

/-- All declared. -/
def Declared (g : Graph C T) : Prop := ∀ j k c, (g j).dterms k = some c → k ∈ (g j).dnames

/-- The two graphs give the same outcomes. -/
def SameVals (s : Sig C T V D) (g g' : Graph C T) : Prop := ∀ f q, evalReq s g' f q = evalReq s g f q

/-- Two objects with the same identifier, perhaps at different times, have the same outcomes. -/
theorem twin (ht : s.TermsOk u) {g g' : Graph C T} (hv : SameVals s g g') {i j : Id} (hd : Declared g)
    (hd' : Declared g') (h : sid u (g i) = sid u (g' j)) (f : Nat) :
    evalReq s g f (.r j) = evalReq s g f (.r i) ∧ ∀ p, evalReq s g f (.prop j p) = evalReq s g f (.prop i p) := by
  obtain ⟨hc, htm, hdt⟩ := sid_eq h (hd i) (hd' j)
  induction f with
  | zero => exact ⟨rfl, fun _ => rfl⟩
  | succ f ih =>
    have key : ∀ {β : Type} (p : Prog T V β), p.TermsIn (u.tnames (g i).cls) →
        evalProg g' (evalReq s g' f) j p = evalProg g (evalReq s g f) i p := by
      intro β p hp
      refine evalProg_twin (u.tnames (g i).cls) (fun n hn => (htm n hn).symm) ?_ ?_ ?_ p hp
      · intro n
        rw [← hdt]
        refine ⟨Iff.rfl, ?_⟩
        intro c c' h1 h2
        rw [h1] at h2; cases h2
        exact hv f _
      · intro p; rw [hv f]; exact ih.2 p
      · rw [hv f]; exact ih.1
    constructor
    · rw [← hv (f + 1)]
      simp only [evalReq, ← hc]
      exact key _ (ht.1 _)
    · intro p
      rw [← hv (f + 1)]
      simp only [evalReq, ← hc]
      cases hp : s.propDecl (g i).cls p with
      | none => rfl
      | some d => exact key _ (ht.2 _ _ _ hp)

/-- Redirecting one link to an object with the same outcomes. -/
def redirect (g : Graph C T) (i : Id) (k : Name) (q : Id) : Graph C T :=
  fun j => if j = i then { g i with dterms := fun m => if m = k then some q else (g i).dterms m } else g j

theorem evalProg_links {g g' : Graph C T} {ev ev' : Req → Except Err V} {i : Id}
    (ht : (g' i).terms = (g i).terms)
    (hd : ∀ n, ((g' i).dterms n = none ↔ (g i).dterms n = none) ∧
      ∀ c c', (g i).dterms n = some c → (g' i).dterms n = some c' → ev' (.r c') = ev (.r c))
    (hp : ∀ p, ev' (.prop i p) = ev (.prop i p)) (hr : ev' (.r i) = ev (.r i)) (p : Prog T V α) :
    evalProg g' ev' i p = evalProg g ev i p := by
  induction p with
  | ret a => rfl
  | raise c => rfl
  | term n k ih => simp only [evalProg, ht]; exact ih _
  | child n k ih =>
    simp only [evalProg]
    obtain ⟨h1, h2⟩ := hd n
    cases h : (g i).dterms n with
    | none => rw [h1.2 h]
    | some c =>
      cases h' : (g' i).dterms n with
      | none => rw [h1.1 h'] at h; cases h
      | some c' =>
        dsimp only
        rw [h2 c c' h h']
        cases ev (.r c) with
        | ok v => exact ih v
        | error e => rfl
  | prop p k ih =>
    simp only [evalProg, hp]
    cases ev (.prop i p) with
    | ok v => exact ih v
    | error e => rfl
  | selfR k ih =>
    simp only [evalProg, hr]
    cases ev (.r i) with
    | ok v => exact ih v
    | error e => rfl

theorem redirect_same {g : Graph C T} {i : Id} {k : Name} {p q : Id} (hk : (g i).dterms k = some p)
    (he : ∀ f, evalReq s g f (.r q) = evalReq s g f (.r p)) : SameVals s g (redirect g i k q) := by
  intro f
  induction f with
  | zero => intro r; rfl
  | succ f ih =>
    have hcls : ∀ j, (redirect g i k q j).cls = (g j).cls := by
      intro j; simp only [redirect]; split
      · next e => rw [e]
      · rfl
    have key : ∀ {β : Type} (j : Id) (pr : Prog T V β),
        evalProg (redirect g i k q) (evalReq s (redirect g i k q) f) j pr = evalProg g (evalReq s g f) j pr := by
      intro β j pr
      refine evalProg_links ?_ ?_ (fun p => ih _) (ih _) pr
      · simp only [redirect]; split
        · next e => rw [e]
        · rfl
      · intro n
        simp only [redirect]
        split
        · next e =>
          subst e
          dsimp only
          split
          · next e =>
            subst e
            refine ⟨by rw [hk]; simp, ?_⟩
            intro c c' h1 h2
            rw [hk] at h1; cases h1; cases h2
            rw [ih]; exact he f
          · refine ⟨Iff.rfl, ?_⟩
            intro c c' h1 h2; rw [h1] at h2; cases h2; exact ih _
        · refine ⟨Iff.rfl, ?_⟩
          intro c c' h1 h2; rw [h1] at h2; cases h2; exact ih _
    intro r
    cases r with
    | r j => simp only [evalReq, hcls]; exact key j _
    | prop j p =>
      simp only [evalReq, hcls]
      cases s.propDecl (g j).cls p with
      | none => rfl
      | some d => exact key j _

/-- What holds throughout: relative to the graph `g0` at the start. -/
structure RedInv (s : Sig C T V D) (u : Ident C) (g0 : Graph C T) (h : Heap C T V D) (cache : Shared C T) : Prop where
  same : SameVals s g0 h.graph
  decl : Declared h.graph
  cache : ∀ e ∈ cache, ∃ g, SameVals s g0 g ∧ Declared g ∧ sid u (g e.2) = e.1

/-- Nothing but links changes. -/
structure OnlyLinks (h h' : Heap C T V D) : Prop where
  r : ∀ j, (h'.node j).cacheR = (h.node j).cacheR
  p : ∀ j, (h'.node j).props = (h.node j).props
  d : ∀ j, (h'.node j).drs = (h.node j).drs
  alive : ∀ j, (h'.node j).alive = (h.node j).alive
  par : ∀ j, (h'.node j).parents = (h.node j).parents

theorem OnlyLinks.refl (h : Heap C T V D) : OnlyLinks h h :=
  ⟨fun _ => rfl, fun _ => rfl, fun _ => rfl, fun _ => rfl, fun _ => rfl⟩

theorem OnlyLinks.trans {h h' h'' : Heap C T V D} (a : OnlyLinks h h') (b : OnlyLinks h' h'') : OnlyLinks h h'' :=
  ⟨fun j => (b.r j).trans (a.r j), fun j => (b.p j).trans (a.p j), fun j => (b.d j).trans (a.d j),
   fun j => (b.alive j).trans (a.alive j), fun j => (b.par j).trans (a.par j)⟩

theorem lookup_mem {β : Type} [DecidableEq β] {l : List (β × Id)} {x : β} {y : Id} (h : l.lookup x = some y) : (x, y) ∈ l := by
  induction l with
  | nil => cases h
  | cons e l ih =>
    simp only [List.lookup] at h
    split at h
    · next hb => cases h; simp only [beq_iff_eq] at hb; subst hb; simp
    · exact List.mem_cons_of_mem _ (ih h)

/-- Effect of a piece of `remove_redundancy`. -/
def RedPost (s : Sig C T V D) (u : Ident C) (g0 : Graph C T) (h : Heap C T V D)
    (o : Heap C T V D × Except Err (Shared C T × Bool)) : Prop :=
  OnlyLinks h o.1 ∧ SameVals s g0 o.1.graph ∧ ∀ r, o.2 = .ok r → RedInv s u g0 o.1 r.1

theorem SameVals.symm' {g g' : Graph C T} (h : SameVals s g g') : SameVals s g' g := fun f q => (h f q).symm
theorem SameVals.trans' {g g' g'' : Graph C T} (h : SameVals s g g') (h' : SameVals s g' g'') : SameVals s g g'' :=
  fun f q => (h' f q).trans (h f q)

theorem RedPost.bind {g0 : Graph C T} {h h1 : Heap C T V D} {m : M C T V D (Shared C T × Bool)}
    {k : Shared C T × Bool → M C T V D (Shared C T × Bool)} (h0 : OnlyLinks h h1) (hm : RedPost s u g0 h1 (m h1))
    (hk : ∀ r h', RedInv s u g0 h' r.1 → RedPost s u g0 h' (k r h')) : RedPost s u g0 h (M.bind m k h1) := by
  obtain ⟨ho, hs, hr⟩ := hm
  simp only [M.bind]
  split
  · next h' a e =>
    rw [e] at ho hs hr
    obtain ⟨k1, k2, k3⟩ := hk a h' (hr a rfl)
    exact ⟨(h0.trans ho).trans k1, k2, k3⟩
  · next h' a e =>
    rw [e] at ho hs hr
    exact ⟨h0.trans ho, hs, fun r hr => by cases hr⟩

variable [DecidableEq C] [DecidableEq T]

theorem redLoop_post (ht : s.TermsOk u) {g0 : Graph C T} {rec : Id → Shared C T → M C T V D (Shared C T × Bool)}
    (hrec : ∀ p c h, RedInv s u g0 h c → RedPost s u g0 h (rec p c h)) (i : Id) :
    ∀ ks c rep h, RedInv s u g0 h c → RedPost s u g0 h (redLoop u rec i ks c rep h) := by
  intro ks
  induction ks with
  | nil =>
    intro c rep h hi
    exact ⟨OnlyLinks.refl h, hi.same, fun r hr => by cases hr; exact hi⟩
  | cons k ks ih =>
    intro c rep h hi
    simp only [redLoop]
    split
    · exact ⟨OnlyLinks.refl h, hi.same, fun r hr => by cases hr⟩
    · next p hp =>
      split
      · have hi' : RedInv s u g0 h ((sid u (h.node p).toGNode, p) :: c) := by
          refine ⟨hi.same, hi.decl, ?_⟩
          intro e he
          rcases List.mem_cons.1 he with rfl | he
          · exact ⟨h.graph, hi.same, hi.decl, rfl⟩
          · exact hi.cache e he
        exact RedPost.bind (OnlyLinks.refl h) (hrec p _ h hi') (fun r h' hr => ih _ _ h' hr)
      · next q hq =>
        split
        · exact RedPost.bind (OnlyLinks.refl h) (hrec p _ h hi) (fun r h' hr => ih _ _ h' hr)
        · obtain ⟨g, hg1, hg2, hg3⟩ := hi.cache _ (lookup_mem hq)
          have hgr : (h.modify i (fun n => { n with dterms := fun m => if m = k then some q else n.dterms m })).graph
              = redirect h.graph i k q := by
            funext j
            rw [Heap.graph_apply]; dsimp only [redirect]; rw [modify_node]
            split <;> rfl
          have hsame : SameVals s h.graph (redirect h.graph i k q) := by
            refine redirect_same hp ?_
            intro f
            have ht' := twin ht (hg1.symm'.trans' hi.same) hg2 hi.decl hg3 f
            have := ht'.1
            rw [← (hg1.symm'.trans' hi.same) f, ← (hg1.symm'.trans' hi.same) f] at this
            exact this.symm
          have hi' : RedInv s u g0 (h.modify i (fun n => { n with dterms := fun m => if m = k then some q else n.dterms m })) c := by
            refine ⟨?_, ?_, hi.cache⟩
            · rw [hgr]; exact hi.same.trans' hsame
            · rw [hgr]
              intro j m x hx
              simp only [redirect] at hx ⊢
              split at hx
              · next e =>
                subst e
                rw [if_pos rfl]
                dsimp only at hx ⊢
                split at hx
                · next e => subst e; exact hi.decl _ _ _ hp
                · exact hi.decl _ _ _ hx
              · next e => rw [if_neg e]; exact hi.decl _ _ _ hx
          have hol : OnlyLinks h (h.modify i (fun n => { n with dterms := fun m => if m = k then some q else n.dterms m })) := by
            constructor <;> intro j <;> rw [modify_node] <;> split <;> simp_all
          exact RedPost.bind hol (hrec p _ _ hi') (fun r h' hr => ih _ _ h' hr)

theorem redOnce_post (ht : s.TermsOk u) {g0 : Graph C T} (f : Nat) :
    ∀ i c (h : Heap C T V D), RedInv s u g0 h c → RedPost s u g0 h (redOnce u f i c h) := by
  induction f with
  | zero => intro i c h hi; exact ⟨OnlyLinks.refl h, hi.same, fun r hr => by cases hr⟩
  | succ f ih => intro i c h hi; exact redLoop_post ht ih i _ _ _ h hi

theorem redIter_post (ht : s.TermsOk u) {g0 : Graph C T} (f n : Nat) :
    ∀ i c (h : Heap C T V D), RedInv s u g0 h c →
      OnlyLinks h (redIter u f n i c h).1 ∧ SameVals s g0 (redIter u f n i c h).1.graph := by
  induction n with
  | zero => intro i c h hi; exact ⟨OnlyLinks.refl h, hi.same⟩
  | succ n ih =>
    intro i c h hi
    obtain ⟨h1, h2, h3⟩ := redOnce_post ht f i c h hi
    simp only [redIter, M.bind]
    split
    · next h' a e =>
      rw [e] at h1 h2 h3
      split
      · obtain ⟨k1, k2⟩ := ih i a.1 h' (h3 a rfl)
        exact ⟨h1.trans k1, k2⟩
      · exact ⟨h1, h2⟩
    · next e => rw [e] at h1 h2; exact ⟨h1, h2⟩
end Chumpy
