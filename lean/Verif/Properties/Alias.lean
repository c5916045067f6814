import Verif.Core.AliasReach
/-!
# Differentiable terms declared as Python properties: C74

A class may declare a differentiable term `n` and define it as a property standing for `self.k.k2`
(`Aliases`, Verif/Core/Alias.lean; test_inner_composition.py).  Specification: `Graph.view`, the graph in which
`n` leads where `getattr(self, 'n')` leads, and the cache-free evaluation `Means`/`MeansDr` on that graph.
-/
namespace Chumpy
variable {C T V D : Type} {s : Sig C T V D} {al : Aliases C} {h : Heap C T V D}

/-- C74 in full: for every class and every history. -/
def C74_full (s : Sig C T V D) (al : Aliases C) : Prop :=
  ∀ (ops : List (AOp C T)) (f : Nat) (q : Req),
    ReadFresh s ((runA s al ops (Heap.empty s)).view al) f q (readA s al f q (runA s al ops (Heap.empty s))).2

/-- A history legal at every step. -/
def LegalRunA (s : Sig C T V D) (al : Aliases C) : Heap C T V D → List (AOp C T) → Prop
  | _, [] => True
  | h, op :: ops => LegalA s al h op ∧ LegalRunA s al (stepA s al op h).1 ops

theorem reachA_run (ops : List (AOp C T)) : ∀ {h}, ReachA s al h → LegalRunA s al h ops → ReachA s al (runA s al ops h) := by
  induction ops with
  | nil => intro h hr _; exact hr
  | cons op ops ih => intro h hr hl; exact ih (.step op hr hl.1) hl.2

/-- C74, values.  After every history of constructions, assignments (through the alias, or to the inner object),
`clear_cache`, reads and collections, with any of them raising, `obj.r` and every `@depends_on` property are what
an evaluation from scratch gives with the alias leading where it now leads.  Assumed: a property that
declares an alias also declares the argument behind it (needed, `C74_full_refuted`); an alias goes through an
ordinary argument; `set` of several keywords returns normally (as in C01). -/
theorem C74_value_through_alias_never_stale_partial (hp : s.PropsOk) (hok : al.Ok) (hap : s.AliasProps al)
    (hr : ReachA s al h) (f : Nat) (q : Req) : ReadFresh s (h.view al) f q (readA s al f q h).2 :=
  readFresh_of_agree ((reachA_inv hp hok hap hr).read f q).2

/-- C74, derivatives: `obj.dr_wrt(w)` is the cache-free chain rule with the alias leading where it now leads,
for every `w` that is not a slice. -/
theorem C74_derivative_through_alias_never_stale_partial (hp : s.PropsOk) (ho : s.PlainForm) (hok : al.Ok) (hap : s.AliasProps al)
    (hr : ReachA s al h) (f : Nat) (i w : Id) (hw : s.isPermute (h.graph w).cls = false) :
    DrFresh s (h.view al) f i w (drWrtA s al f i w h).2 :=
  drFresh_of_agree (((reachA_inv hp hok hap hr).dr f i w).2 ho hw)

/-! ## What an assignment through the alias does -/

/-- The graph after `c.k = v`. -/
def assignLink (g : Graph C T) (c : Id) (k : Name) (v : Id) : Graph C T := fun j =>
  if j = c then { g c with dterms := fun m => if m = k then some v else (g c).dterms m } else g j

/-- In the state `h'`, reading `i.r` or `i.dr_wrt(w)` begins with a call of `i.on_changed` with a set of names that
contains all of `ns`. -/
def WillReport (s : Sig C T V D) (al : Aliases C) (h' : Heap C T V D) (i : Id) (ns : List Name) : Prop :=
  ∃ all : List Name, (∀ n ∈ ns, n ∈ all) ∧
    (∀ f, ∃ l, (readA s al (f + 1) (.r i) h').1.log = h'.log ++ .changed i all :: l) ∧
    (∀ f w, ∃ l, (drWrtA s al (f + 1) i w h').1.log = h'.log ++ .changed i all :: l)

theorem log_read (f : Nat) (q : Req) (h : Heap C T V D) : (readA s al f q h).1.log = (read s f q (h.view al)).1.log := by
  rw [(seen_read (s := s) (al := al) f q h).1]; rfl

theorem log_dr (f : Nat) (i w : Id) (h : Heap C T V D) : (drWrtA s al f i w h).1.log = (drWrt s f i w (h.view al)).1.log := by
  rw [(seen_dr (s := s) (al := al) f i w h).1]; rfl

/-- Everything pending is reported by the next read. -/
theorem willReport {h' : Heap C T V D} {i : Id} {ns : List Name} (hne : ns ≠ []) (hd : ∀ n ∈ ns, n ∈ (h'.node i).dirty) :
    WillReport s al h' i ns := by
  have he : ((h'.view al).node i).dirty ≠ [] := by
    intro e
    cases ns with
    | nil => exact hne rfl
    | cons n ns =>
      have h1 : n ∈ ((h'.view al).node i).dirty := hd n (by simp)
      rw [e] at h1; cases h1
  have hc : callOnChanged i (h'.view al) = ({ (h'.view al).modify i (fun n => { n with dirty := [] }) with
          log := (h'.view al).log ++ [.changed i ((h'.view al).node i).dirty] }, .ok ()) := by
    unfold callOnChanged
    rw [if_neg]; simpa using he
  have hemp : ∀ h1 : Heap C T V D, (h1.node i).dirty = [] → callOnChanged i h1 = (h1, .ok ()) := by
    intro h1 h2; unfold callOnChanged; rw [if_pos]; simp [h2]
  refine ⟨(h'.node i).dirty, hd, fun f => ?_, fun f w => ?_⟩
  · rw [log_read]
    have fr := read_pres (s := s) rframe_rel (f + 1) (.r i)
      { (h'.view al).modify i (fun n => { n with dirty := [] }) with log := (h'.view al).log ++ [.changed i ((h'.view al).node i).dirty] }
    have e : read s (f + 1) (.r i) (h'.view al) = read s (f + 1) (.r i)
      { (h'.view al).modify i (fun n => { n with dirty := [] }) with log := (h'.view al).log ++ [.changed i ((h'.view al).node i).dirty] } := by
      rw [read, M.bind, hc, M.bind, hemp _ (by simp [Heap.modify])]
    rw [e]
    obtain ⟨l, hl, _⟩ := fr.log
    exact ⟨l, by rw [hl]; simp; rfl⟩
  · rw [log_dr]
    have fr := drWrt_pres (s := s) rframe_rel (f + 1) i w
      { (h'.view al).modify i (fun n => { n with dirty := [] }) with log := (h'.view al).log ++ [.changed i ((h'.view al).node i).dirty] }
    have e : drWrt s (f + 1) i w (h'.view al) = drWrt s (f + 1) i w
      { (h'.view al).modify i (fun n => { n with dirty := [] }) with log := (h'.view al).log ++ [.changed i ((h'.view al).node i).dirty] } := by
      rw [drWrt, M.bind, hc, M.bind, hemp _ (by simp [Heap.modify])]
    rw [e]
    obtain ⟨l, hl, _⟩ := fr.log
    exact ⟨l, by rw [hl]; simp; rfl⟩

theorem setOneA (i : Id) (kw : KW T) (hi : (h.node i).alive = true) :
    stepA s al (.set i [kw]) h = ((setattrA s al i none kw h).1, (setattrA s al i none kw h).2.map (fun _ => Out.unit)) := by
  have : ordered al (h.node i).cls [kw] = [kw] := by
    unfold ordered
    cases ha : al (h.node i).cls kw.target <;> simp [List.filter_cons, ha]
  simp only [stepA, M.map', setObjA, hi, if_true, this]
  rfl

/-- C74, assignment.  If `n` is declared and stands for `self.k.k2`, then `obj.n = v` (with `v` an object) sets `k2` of the
inner object to `v` and changes nothing else; `obj.n` then is `v`; and both `n` and `k` are reported to `obj.on_changed`
when `obj` is next read. -/
theorem C74_assignment_sets_inner_attribute (hp : s.PropsOk) (hok : al.Ok) (hap : s.AliasProps al) (hr : ReachA s al h)
    {i c v : Id} {n k k2 : Name} (hi : (h.node i).alive = true) (ha : al (h.graph i).cls n = some (k, k2)) (hn : n ∈ (h.graph i).dnames)
    (hk : (h.graph i).dterms k = some c) (hk2 : k2 ∈ (h.graph c).dnames) (hv : (h.node v).alive = true) (hci : c ≠ i) :
    let h' := (stepA s al (.set i [.link n v]) h).1
    (stepA s al (.set i [.link n v]) h).2 = .ok .unit ∧
    h'.graph = assignLink h.graph c k2 v ∧ h'.graph.look al i n = some v ∧ WillReport s al h' i [n, k] := by
  have hs := (reachA_inv hp hok hap hr).str
  obtain ⟨h2, w, hpar, hg⟩ := touch_writing (s := s) hs i n none
  have hs1 : Str (touch s i n none h) := touch_str hs hi n (by intro t h; cases h)
  have hkT : ((touch s i n none h).node i).dterms k = some c := by
    have : ((touch s i n none h).graph i).dterms k = some c := by rw [hg]; exact hk
    exact this
  have hvT : ((touch s i n none h).node v).alive = true := by rw [w.alive4]; exact hv
  have hcn : k2 ∈ ((touch s i n none h).node c).dnames := by
    have : k2 ∈ ((touch s i n none h).graph c).dnames := by rw [hg]; exact hk2
    exact this
  have e1 : setattrA s al i none (.link n v) h = setDterm s c k2 v none (touch s i n none h) := by
    unfold setattrA
    have ha' : al (h.node i).cls (KW.target (T := T) (.link n v)) = some (k, k2) := ha
    rw [ha']
    have hn' : (KW.target (T := T) (.link n v)) ∈ (h.node i).dnames := hn
    dsimp only
    rw [if_pos hn']
    show (match ((touch s i n none h).node i).dterms k with
      | none => (touch s i n none h, Except.error Err.attr)
      | some c => setattr s c none (.link k2 v) (touch s i n none h)) = _
    rw [hkT]
    simp only [setattr]
    rw [if_pos ⟨hcn, hvT⟩]
  obtain ⟨hres, h3, w2, _, hg2⟩ := setDterm_writing (s := s) (touch s i n none h) hs1 c k2 v none hvT
  have hgr : (setDterm s c k2 v none (touch s i n none h)).1.graph = assignLink h.graph c k2 v := by
    rw [hg2, hg]; rfl
  have hlook : (assignLink h.graph c k2 v).look al i n = some v := by
    have hA : assignLink h.graph c k2 v i = h.graph i := if_neg (fun e => hci e.symm)
    have hB : (assignLink h.graph c k2 v c).dterms k2 = some v := by
      unfold assignLink; rw [if_pos rfl]; exact if_pos rfl
    rw [look_of (k := k) (k2 := k2) (by rw [hA]; exact ha), hA, hk]
    exact hB
  dsimp only
  rw [setOneA i _ hi, e1]
  refine ⟨by rw [hres]; rfl, hgr, by rw [hgr]; exact hlook, ?_⟩
  refine willReport (by simp) ?_
  have d1 := w.assigned.dirty i hi
  have d2 := w2.assigned.dirty i (by rw [w.alive4]; exact hi)
  intro m hm
  simp only [List.mem_cons, List.not_mem_nil, or_false] at hm
  rcases hm with rfl | rfl
  · exact (d2 m).2 (Or.inl ((d1 m).2 (Or.inr (Or.inl ⟨rfl, rfl⟩))))
  · refine (d2 m).2 (Or.inr (Or.inr ⟨c, ?_, Anc.refl⟩))
    show ((setDterm s c k2 v none (touch s i n none h)).1.graph i).dterms m = some c
    rw [hgr]
    unfold assignLink
    rw [if_neg (fun e => hci e.symm)]; exact hk

/-- C74, the other way: assigning the inner attribute directly, `c.k2 = v`, changes what `obj.n` is in the same way, and `k`
is reported to `obj.on_changed`.  (`n` is not: `C74_inner_assignment_reports_alias_refuted`.) -/
theorem C74_inner_assignment_seen_through_alias (hp : s.PropsOk) (hok : al.Ok) (hap : s.AliasProps al) (hr : ReachA s al h)
    {i c v : Id} {n k k2 : Name} (hi : (h.node i).alive = true) (ha : al (h.graph i).cls n = some (k, k2))
    (hk : (h.graph i).dterms k = some c) (hk2 : k2 ∈ (h.graph c).dnames) (hac : al (h.graph c).cls k2 = none)
    (hv : (h.node v).alive = true) (hci : c ≠ i) :
    let h' := (stepA s al (.set c [.link k2 v]) h).1
    (stepA s al (.set c [.link k2 v]) h).2 = .ok .unit ∧
    h'.graph = assignLink h.graph c k2 v ∧ h'.graph.look al i n = some v ∧ WillReport s al h' i [k] := by
  have hs := (reachA_inv hp hok hap hr).str
  have hc : (h.node c).alive = true := hs.child_alive hk
  have e1 : setattrA s al c none (.link k2 v) h = setDterm s c k2 v none h := by
    unfold setattrA
    have ha' : al (h.node c).cls (KW.target (T := T) (.link k2 v)) = none := hac
    rw [ha']
    simp only [setattr]
    rw [if_pos ⟨hk2, hv⟩]
  obtain ⟨hres, h3, w2, _, hg2⟩ := setDterm_writing (s := s) h hs c k2 v none hv
  have hgr : (setDterm s c k2 v none h).1.graph = assignLink h.graph c k2 v := by rw [hg2]; rfl
  have hA : assignLink h.graph c k2 v i = h.graph i := if_neg (fun e => hci e.symm)
  have hB : (assignLink h.graph c k2 v c).dterms k2 = some v := by
    unfold assignLink; rw [if_pos rfl]; exact if_pos rfl
  dsimp only
  rw [setOneA c _ hc, e1]
  refine ⟨by rw [hres]; rfl, hgr, ?_, ?_⟩
  · rw [hgr, look_of (k := k) (k2 := k2) (by rw [hA]; exact ha), hA, hk]
    exact hB
  refine willReport (by simp) ?_
  intro m hm
  simp only [List.mem_cons, List.not_mem_nil, or_false] at hm
  subst hm
  refine (w2.assigned.dirty i hi m).2 (Or.inr (Or.inr ⟨c, ?_, Anc.refl⟩))
  show ((setDterm s c k2 v none h).1.graph i).dterms m = some c
  rw [hgr, hA]; exact hk

/-- C74, assignment of a plain value: `obj.n = x` makes `Ch(x)` and sets `k2` of the inner object to it; no other object
changes. -/
theorem C74_plain_value_is_wrapped (hp : s.PropsOk) (hok : al.Ok) (hap : s.AliasProps al) (hr : ReachA s al h)
    {i c : Id} {n k k2 : Name} (x : T) (hi : (h.node i).alive = true) (ha : al (h.graph i).cls n = some (k, k2))
    (hn : n ∈ (h.graph i).dnames) (hk : (h.graph i).dterms k = some c) (hk2 : k2 ∈ (h.graph c).dnames) (hci : c ≠ i)
    (kw : KW T) (hkw : kw = .term n x ∨ kw = .wrap n x) :
    let h' := (stepA s al (.set i [kw]) h).1
    (stepA s al (.set i [kw]) h).2 = .ok .unit ∧
    ∃ l, (h.node l).alive = false ∧ (h'.graph l).cls = s.base ∧ (h'.graph l).terms s.xname = some x ∧
      (∀ j, (h.node j).alive = true → h'.graph j = assignLink h.graph c k2 l j) ∧ h'.graph.look al i n = some l := by
  have hs := (reachA_inv hp hok hap hr).str
  obtain ⟨h2, w, hpar, hg⟩ := touch_writing (s := s) hs i n none
  have hs1 : Str (touch s i n none h) := touch_str hs hi n (by intro t h; cases h)
  have hkT : ((touch s i n none h).node i).dterms k = some c := by
    have : ((touch s i n none h).graph i).dterms k = some c := by rw [hg]; exact hk
    exact this
  have hcn : k2 ∈ ((touch s i n none h).node c).dnames := by
    have : k2 ∈ ((touch s i n none h).graph c).dnames := by rw [hg]; exact hk2
    exact this
  have hc : (h.node c).alive = true := hs.child_alive hk
  have e1 : setattrA s al i none kw h = M.bind (newLeaf s x) (fun l => setDterm s c k2 l none) (touch s i n none h) := by
    have ht : kw.target = n := by rcases hkw with rfl | rfl <;> rfl
    have ho : kw.onto k2 = .wrap k2 x := by rcases hkw with rfl | rfl <;> rfl
    unfold setattrA
    have ha' : al (h.node i).cls kw.target = some (k, k2) := by rw [ht]; exact ha
    rw [ha']
    have hn' : kw.target ∈ (h.node i).dnames := by rw [ht]; exact hn
    dsimp only
    rw [if_pos hn', ht, ho]
    show (match ((touch s i n none h).node i).dterms k with
      | none => (touch s i n none h, Except.error Err.attr)
      | some c => setattr s c none (.wrap k2 x) (touch s i n none h)) = _
    rw [hkT]
    simp only [setattr]
    rw [if_pos hcn]
  generalize hT : touch s i n none h = h1 at *
  have hal1 : ∀ j, (h1.node j).alive = (h.node j).alive := w.alive4
  obtain ⟨nl, hx, _⟩ := newLeaf_post (s := s) (fr := ⟨False, False⟩) hs1 x
  have hb : M.bind (newLeaf s x) (fun l => setDterm s c k2 l none) h1 = setDterm s c k2 h1.next none (newLeaf s x h1).1 := by
    simp only [M.bind]
    rcases hx' : newLeaf s x h1 with ⟨h', r⟩
    rw [hx'] at hx; dsimp only at hx; subst hx; rfl
  have hleaf : ((newLeaf s x h1).1.graph h1.next).cls = s.base ∧ ((newLeaf s x h1).1.graph h1.next).terms s.xname = some x := by
    have al0 := alloc_post (s := s) (fr := ⟨False, False⟩) hs1 s.base [] false false
    obtain ⟨_, _, _, hgl⟩ := setTerm_writing (s := s) (alloc s.base [] false false h1).1 al0.str h1.next s.xname x none
    have e : (newLeaf s x h1).1 = (setTerm s h1.next s.xname x none (alloc s.base [] false false h1).1).1 := rfl
    rw [e, hgl]
    dsimp only
    rw [if_pos rfl]
    refine ⟨?_, if_pos rfl⟩
    show ((alloc s.base [] false false h1).1.graph h1.next).cls = _
    rw [Heap.graph_apply, alloc_node, if_pos rfl]; rfl
  obtain ⟨hres, _, _, _, hg2⟩ := setDterm_writing (s := s) (newLeaf s x h1).1 nl.str c k2 h1.next none nl.born
  have hdead : (h.node h1.next).alive = false := by rw [← hal1]; exact hs1.unborn _ (Nat.le_refl _)
  have hne : ∀ j, (h.node j).alive = true → j ≠ h1.next := by rintro j hj rfl; rw [hdead] at hj; cases hj
  have hold : ∀ j, (h.node j).alive = true → (setDterm s c k2 h1.next none (newLeaf s x h1).1).1.graph j =
      assignLink h.graph c k2 h1.next j := by
    intro j hj
    rw [hg2]
    unfold setLink assignLink
    by_cases hjc : j = c
    · subst hjc
      rw [if_pos rfl, if_pos rfl, nl.off j (hne j hj), hg]
    · rw [if_neg hjc, if_neg hjc, nl.off j (hne j hj), hg]
  dsimp only
  rw [setOneA i _ hi, e1, hb]
  refine ⟨by rw [hres]; rfl, h1.next, hdead, ?_, ?_, hold, ?_⟩
  · rw [hg2]; unfold setLink; rw [if_neg (fun e => hne c hc e.symm)]; exact hleaf.1
  · rw [hg2]; unfold setLink; rw [if_neg (fun e => hne c hc e.symm)]; exact hleaf.2
  · have hA : assignLink h.graph c k2 h1.next i = h.graph i := if_neg (fun e => hci e.symm)
    have hB : (assignLink h.graph c k2 h1.next c).dterms k2 = some h1.next := by
      unfold assignLink; rw [if_pos rfl]; exact if_pos rfl
    rw [look_of (k := k) (k2 := k2) (by rw [hold i hi, hA]; exact ha), hold i hi, hA, hk]
    show (((setDterm s c k2 h1.next none (newLeaf s x h1).1).1.graph c).dterms k2) = _
    rw [hold c hc]; exact hB

/-- C74, `set`.  `obj.set(k=c, n=v)`, in whichever order the keywords are written, first gives `obj` its new inner
object `c` and then sets `k2` of `c`; the old inner object is left alone. -/
theorem C74_set_assigns_aliases_last (hp : s.PropsOk) (hok : al.Ok) (hap : s.AliasProps al) (hr : ReachA s al h)
    {i c v : Id} {n k k2 : Name} (hi : (h.node i).alive = true) (ha : al (h.graph i).cls n = some (k, k2))
    (hn : n ∈ (h.graph i).dnames) (hkn : k ∈ (h.graph i).dnames) (hc : (h.node c).alive = true) (hk2 : k2 ∈ (h.graph c).dnames)
    (hv : (h.node v).alive = true) (hci : c ≠ i) (kws : List (KW T))
    (hkws : kws = [.link k c, .link n v] ∨ kws = [.link n v, .link k c]) :
    (stepA s al (.set i kws) h).2 = .ok .unit ∧
    (stepA s al (.set i kws) h).1.graph = assignLink (assignLink h.graph i k c) c k2 v := by
  have hs := (reachA_inv hp hok hap hr).str
  have hak : al (h.node i).cls k = none := hok _ _ _ _ ha
  have ha0 : al (h.node i).cls n = some (k, k2) := ha
  have hord : ordered al (h.node i).cls kws = [.link k c, .link n v] := by
    rcases hkws with rfl | rfl <;>
      simp [ordered, List.filter_cons, KW.target, hak, ha0]
  have hstep : stepA s al (.set i kws) h =
      ((setAllA s al i [.link k c, .link n v] h).1, (setAllA s al i [.link k c, .link n v] h).2.map (fun _ => Out.unit)) := by
    simp only [stepA, M.map', setObjA, hi, if_true, hord]
  -- the first keyword
  have e1 : setattrA s al i (some 9999) (.link k c) h = setDterm s i k c (some 9999) h := by
    unfold setattrA
    have ha' : al (h.node i).cls (KW.target (T := T) (.link k c)) = none := hak
    rw [ha']
    simp only [setattr]
    rw [if_pos ⟨hkn, hc⟩]
  obtain ⟨hres1, _, w1, _, hg1⟩ := setDterm_writing (s := s) h hs i k c (some 9999) hc
  have p1 := setattrA_post (s := s) (al := al) hp hok hap hs (reachA_inv hp hok hap hr).flags hi (.link k c) (itr := some 9999)
    (by intro t h; injection h with h; exact Or.inr h.symm)
  rw [e1] at p1
  generalize hh1 : (setDterm s i k c (some 9999) h).1 = h1 at *
  have hs1 : Str h1 := p1.str
  -- the second
  obtain ⟨h2, w, hpar, hg⟩ := touch_writing (s := s) hs1 i n none
  have hs2 : Str (touch s i n none h1) := touch_str hs1 (p1.alive i hi) n (by intro t h; cases h)
  have hgi : (touch s i n none h1).graph = assignLink h.graph i k c := by rw [hg, hg1]; rfl
  have hcls : (h1.node i).cls = (h.node i).cls := p1.cls i hi
  have hvT : ((touch s i n none h1).node v).alive = true := by rw [w.alive4]; exact p1.alive v hv
  have hkT : ((touch s i n none h1).node i).dterms k = some c := by
    have : ((touch s i n none h1).graph i).dterms k = some c := by
      rw [hgi]; unfold assignLink; rw [if_pos rfl]; exact if_pos rfl
    exact this
  have hcn : k2 ∈ ((touch s i n none h1).node c).dnames := by
    have : k2 ∈ ((touch s i n none h1).graph c).dnames := by
      rw [hgi]; unfold assignLink; rw [if_neg hci]; exact hk2
    exact this
  have hn1 : n ∈ (h1.node i).dnames := by
    have : n ∈ (h1.graph i).dnames := by rw [hg1]; unfold setLink; rw [if_pos rfl]; exact hn
    exact this
  have e2 : setattrA s al i none (.link n v) h1 = setDterm s c k2 v none (touch s i n none h1) := by
    unfold setattrA
    have ha' : al (h1.node i).cls (KW.target (T := T) (.link n v)) = some (k, k2) := by rw [hcls]; exact ha
    rw [ha']
    have hn' : (KW.target (T := T) (.link n v)) ∈ (h1.node i).dnames := hn1
    dsimp only
    rw [if_pos hn']
    show (match ((touch s i n none h1).node i).dterms k with
      | none => (touch s i n none h1, Except.error Err.attr)
      | some c => setattr s c none (.link k2 v) (touch s i n none h1)) = _
    rw [hkT]
    simp only [setattr]
    rw [if_pos ⟨hcn, hvT⟩]
  obtain ⟨hres2, _, _, _, hg2⟩ := setDterm_writing (s := s) (touch s i n none h1) hs2 c k2 v none hvT
  have hall : setAllA s al i [.link k c, .link n v] h = setDterm s c k2 v none (touch s i n none h1) := by
    simp only [setAllA, M.bind, e1]
    rcases hx : setDterm s i k c (some 9999) h with ⟨h9, r⟩
    rw [hx] at hres1 hh1
    dsimp only at hres1 hh1
    subst hres1 hh1
    exact e2
  rw [hstep, hall]
  exact ⟨by rw [hres2]; rfl, by rw [hg2, hgi]; rfl⟩

/-! ## Concrete classes, after test_inner_composition.py -/

namespace AliasDemo
open Demo (Arr Jac eye diag madd matmul)

/-- `parent` has value `2*aliased + child` and a property `@depends_on('aliased', 'child')`; `careless` is the
same with `@depends_on('aliased')`, as in test_inner_composition.py:52-54. -/
inductive Cls where
  | leaf | child | parent | careless
  deriving DecidableEq

abbrev x : Name := 0
abbrev a : Name := 1
abbrev child : Name := 2
abbrev aliased : Name := 3
abbrev p : Name := 10

def aka : Aliases Cls := fun c n => if (c = .parent ∨ c = .careless) ∧ n = aliased then some (child, a) else none

def value : Prog Arr Arr Arr := .child aliased fun u => .child child fun v => .ret (List.zipWith (fun u v => 2 * u + v) u v)
def jac (ns : List Name) : Prog Arr Arr (Option Jac) := .child child fun u =>
  let m := diag (u.map fun _ => 2)
  .ret (match ns.contains aliased, ns.contains child with
    | true, true => some (madd m (eye u.length), true)
    | true, false => some (m, true)
    | false, true => some (eye u.length, true)
    | false, false => none)

def sig : Sig Cls Arr Arr Jac where
  computeR := fun
    | .leaf => .term x fun | some v => .ret v | none => .raise 9
    | .child => .child a fun u => .ret u
    | _ => value
  computeDr := fun
    | .leaf, true, _ => .selfR fun v => .ret (some (eye v.length, true))
    | .leaf, false, _ => .ret none
    | .child, _, ns => if ns.contains a then .child a fun u => .ret (some (eye u.length, true)) else .ret none
    | _, _, ns => jac ns
  propDecl := fun c q =>
    if q = p then match c with
      | .parent => some ([aliased, child], .child aliased fun u => .ret u)
      | .careless => some ([aliased], .child aliased fun u => .ret u)
      | _ => none
    else none
  isPermute := fun _ => false
  permArg := a
  isBase := fun c => c = .leaf
  base := .leaf
  xname := x
  superdot := fun m n => .ok (matmul m.1 n.1, m.2 && n.2)
  add := fun m n => .ok (madd m.1 n.1, m.2 && n.2)
  transp := fun m => (Demo.transp m.1, m.2)
  finish := fun m => m
  todense := fun m => (m.1, false)
  outForm := fun md ms m => (m.1, if md then false else if ms then true else m.2)

theorem propsOk : sig.PropsOk := by
  intro c q d h
  simp only [sig] at h
  split at h
  · cases c <;> simp at h <;> subst h <;> simp [Prog.Only]
  · cases h

theorem plainForm : sig.PlainForm := fun d => by simp [sig]

theorem alOk : aka.Ok := by
  intro c n k k2 h
  simp only [aka] at h
  split at h
  · cases h; exact if_neg (fun h => absurd h.2 (by decide))
  · cases h

/-- Without the careless class. -/
def goodSig : Sig Cls Arr Arr Jac := { sig with
  propDecl := fun c q => if c = .careless then none else sig.propDecl c q }

theorem goodProps : goodSig.PropsOk := by
  intro c q d h
  cases c <;> simp only [goodSig, sig] at h
  all_goals simp at h
  obtain ⟨_, rfl⟩ := h
  simp [Prog.Only]

theorem goodPlain : goodSig.PlainForm := fun d => by simp [goodSig, sig]

theorem goodAlias : goodSig.AliasProps aka := by
  intro c q d h n hn k k2 ha
  simp only [aka] at ha
  split at ha
  · rename_i hc
    cases ha
    simp only [goodSig] at h
    split at h
    · cases h
    · rcases hc with ⟨rfl | rfl, rfl⟩
      · simp only [sig] at h
        split at h
        · cases h; simp
        · cases h
      · rename_i hne; exact absurd rfl hne
  · cases ha

abbrev leaf (v : Arr) : AOp Cls Arr := .new .leaf [] [.term x v]

/-- `child = Child(a=Ch(10))`, `parent = Parent(child=child, aliased=Ch(50))`; `r`, `p` and `dr_wrt` are read; then
`parent.aliased = Ch(20)`. -/
def ex1 : List (AOp Cls Arr) := [leaf [10], .new .child [a] [.link a 0], leaf [50],
  .new .parent [aliased, child] [.link aliased 2, .link child 1], .readR 9 3, .readProp 9 3 p, .readDr 9 3 2, leaf [20],
  .set 3 [.link aliased 4]]

theorem ex1_legal : LegalRunA goodSig aka (Heap.empty goodSig) ex1 :=
  ⟨trivial, trivial, trivial, trivial, trivial, trivial, trivial, trivial, Or.inl (by decide), trivial⟩

/-- The hypotheses of the theorems are met, and the caches are full before the assignment. -/
example : ReachA goodSig aka (runA goodSig aka ex1 (Heap.empty goodSig)) := reachA_run ex1 .init ex1_legal
example : ((runA goodSig aka (ex1.take 8) (Heap.empty goodSig)).node 3).cacheR = some [150] ∧
    ((runA goodSig aka (ex1.take 8) (Heap.empty goodSig)).node 3).props p = some [50] ∧
    ((runA goodSig aka (ex1.take 8) (Heap.empty goodSig)).node 3).drs 2 = some (some ([[3]], true)) := by decide +kernel
example : (readA goodSig aka 9 (.r 3) (runA goodSig aka ex1 (Heap.empty goodSig))).2 = .ok [60] := by decide +kernel
example : (readA goodSig aka 9 (.prop 3 p) (runA goodSig aka ex1 (Heap.empty goodSig))).2 = .ok [20] := by decide +kernel
example : (drWrtA goodSig aka 9 3 2 (runA goodSig aka ex1 (Heap.empty goodSig))).2 = .ok none := by decide +kernel
example : (drWrtA goodSig aka 9 3 4 (runA goodSig aka ex1 (Heap.empty goodSig))).2 = .ok (some ([[3]], true)) := by decide +kernel
/-- The hypotheses of `C74_assignment_sets_inner_attribute` and of `C74_set_assigns_aliases_last`. -/
example : let h := runA goodSig aka (ex1.take 8) (Heap.empty goodSig)
    (h.node 3).alive = true ∧ aka (h.graph 3).cls aliased = some (child, a) ∧ aliased ∈ (h.graph 3).dnames ∧
    child ∈ (h.graph 3).dnames ∧ (h.graph 3).dterms child = some 1 ∧ a ∈ (h.graph 1).dnames ∧ aka (h.graph 1).cls a = none ∧
    (h.node 4).alive = true := by decide +kernel

/-- The same objects with the careless class; `p` is read, then the inner attribute is assigned directly. -/
def ex2 : List (AOp Cls Arr) := [leaf [10], .new .child [a] [.link a 0], leaf [50],
  .new .careless [aliased, child] [.link aliased 2, .link child 1], .readR 9 3, .readProp 9 3 p, leaf [20],
  .set 1 [.link a 4]]

end AliasDemo

/-- Full C74 fails: a property declared `@depends_on('aliased')` only is not recomputed when the inner attribute is
assigned directly. -/
theorem C74_full_refuted : ¬ C74_full AliasDemo.sig AliasDemo.aka := by
  intro h
  have h1 := (h AliasDemo.ex2 9 (.prop 3 AliasDemo.p)).2.2
  have h2 : evalReq AliasDemo.sig ((runA AliasDemo.sig AliasDemo.aka AliasDemo.ex2 (Heap.empty AliasDemo.sig)).view AliasDemo.aka).graph 9
      (.prop 3 AliasDemo.p) = .ok [20] := by decide +kernel
  have h3 : (readA AliasDemo.sig AliasDemo.aka 9 (.prop 3 AliasDemo.p) (runA AliasDemo.sig AliasDemo.aka AliasDemo.ex2
      (Heap.empty AliasDemo.sig))).2 = .ok [50] := by decide +kernel
  rw [h2, h3] at h1
  have := h1 (by simp)
  injection this with this
  revert this; decide

/-- When the inner attribute is assigned directly, `on_changed` is not told that the alias has changed. -/
theorem C74_inner_assignment_reports_alias_refuted : ¬ ∀ (ops : List (AOp AliasDemo.Cls Demo.Arr)) (i c v : Id) (n k k2 : Name),
    let h := runA AliasDemo.goodSig AliasDemo.aka ops (Heap.empty AliasDemo.goodSig)
    (h.node i).alive = true → AliasDemo.aka (h.graph i).cls n = some (k, k2) → (h.graph i).dterms k = some c →
    (stepA AliasDemo.goodSig AliasDemo.aka (.set c [.link k2 v]) h).2 = .ok .unit →
    n ∈ (((stepA AliasDemo.goodSig AliasDemo.aka (.set c [.link k2 v]) h).1).node i).dirty := by
  intro hall
  have := hall (AliasDemo.ex1.take 8) 3 1 4 AliasDemo.aliased AliasDemo.child AliasDemo.a (by decide +kernel) (by decide +kernel)
    (by decide +kernel) (by decide +kernel)
  revert this
  decide +kernel

end Chumpy
