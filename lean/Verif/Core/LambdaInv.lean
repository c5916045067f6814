import Verif.Core.Lambda
import Verif.Core.Below
import Verif.Core.Reach
import Verif.Core.Pending
/-!
# The invariant of programs with lambdas

Caches are right for the graph in which every handle refers to the current argument (`applied`), except inside the body of a lambda
with an argument assigned since it was last read.
-/
namespace Chumpy
variable {C T V D α : Type} {s : Sig C T V D}

/-- The same caches, seen with the graph `applied`. -/
def Heap.applied (s : Sig C T V D) (L : Lam) (h : Heap C T V D) : Heap C T V D :=
  { h with node := fun i => { h.node i with toGNode := Chumpy.applied s L h.graph i } }

theorem Heap.applied_graph (L : Lam) (h : Heap C T V D) : (h.applied s L).graph = Chumpy.applied s L h.graph := rfl

/-- Derivatives are claimed for `wrt` objects that are not slices. -/
def NotSlice (s : Sig C T V D) (g : Graph C T) (w : Id) : Prop := s.isPermute (g w).cls = false

/-- `j` is part of the body of a lambda that has been assigned an argument, named in `S`, on which `j` depends, and has not been read. -/
def Exempt (L : Lam) (g : Graph C T) (S : Id → Name → Prop) (j : Id) : Prop :=
  ∃ K b hd, S K b ∧ (b, hd) ∈ L.args K ∧ K ∈ L.owners j ∧ Anc g hd j

/-- What holds of a lambda `F`, its argument `a` and its handle `hd`. -/
structure ArgOk (s : Sig C T V D) (L : Lam) (h : Heap C T V D) (S : Id → Name → Prop) (F : Id) (a : Name) (hd : Id) : Prop where
  liveF : (h.node F).alive = true
  liveH : (h.node hd).alive = true
  own : F ∈ L.owners hd
  sub : ∀ K ∈ L.owners F, K ∈ L.owners hd
  cls : s.isPermute (h.graph hd).cls = false
  xn : s.xname ∈ (h.graph hd).dnames
  npH : ∀ p, s.propDecl (h.graph hd).cls p = none
  npF : ∀ p, s.propDecl (h.graph F).cls p = none
  arg : ∃ y, (h.graph F).dterms a = some y ∧ ∀ K ∈ L.owners y, K ∈ L.owners F
  sync : ¬ S F a → (h.graph hd).dterms s.xname = (h.graph F).dterms a
  notH : L.of F = none

/-- What holds of objects and links. -/
structure LStr (s : Sig C T V D) (L : Lam) (h : Heap C T V D) (S : Id → Name → Prop) : Prop where
  str : Str h
  flags : Flags h
  enc : ∀ i k c, (h.graph i).dterms k = some c → ∀ K ∈ L.owners c, K = i ∨ K ∈ L.owners i
  ofIff : ∀ F a hd, (a, hd) ∈ L.args F ↔ L.of hd = some (F, a)
  uniq : ∀ F a hd hd', (a, hd) ∈ L.args F → (a, hd') ∈ L.args F → hd = hd'
  lam : ∀ F a hd, (a, hd) ∈ L.args F → ArgOk s L h S F a hd
  stale : ∀ F a, S F a → (∃ hd, (a, hd) ∈ L.args F) ∧ a ∈ (h.node F).dirty
  born : ∀ j, h.next ≤ j → L.owners j = [] ∧ L.args j = [] ∧ L.of j = none

/-- The invariant, for the set `S` of lambda arguments assigned and not yet handed on. -/
structure LInv (s : Sig C T V D) (L : Lam) (h : Heap C T V D) (S : Id → Name → Prop) : Prop extends LStr s L h S where
  coh : CohX s (Fresh s) (NotSlice s) (h.applied s L) (Exempt L h.graph S)

variable {L : Lam} {h : Heap C T V D} {S : Id → Name → Prop}

theorem applied_none {g : Graph C T} {i : Id} (hi : L.of i = none) : applied s L g i = g i := by
  simp [applied, hi]

theorem applied_some {g : Graph C T} {i F : Id} {a : Name} (hi : L.of i = some (F, a)) : applied s L g i =
    { g i with dterms := fun k => if k = s.xname then (g F).dterms a else (g i).dterms k } := by
  simp [applied, hi]

theorem applied_cls (g : Graph C T) (i : Id) : (applied s L g i).cls = (g i).cls := by
  cases hi : L.of i with
  | none => rw [applied_none hi]
  | some p => rw [applied_some (F := p.1) (a := p.2) hi]

theorem applied_terms (g : Graph C T) (i : Id) : (applied s L g i).terms = (g i).terms := by
  cases hi : L.of i with
  | none => rw [applied_none hi]
  | some p => rw [applied_some (F := p.1) (a := p.2) hi]

theorem applied_dnames (g : Graph C T) (i : Id) : (applied s L g i).dnames = (g i).dnames := by
  cases hi : L.of i with
  | none => rw [applied_none hi]
  | some p => rw [applied_some (F := p.1) (a := p.2) hi]

theorem applied_flags (g : Graph C T) (i : Id) : (applied s L g i).makeDense = (g i).makeDense ∧
    (applied s L g i).makeSparse = (g i).makeSparse := by
  cases hi : L.of i with
  | none => rw [applied_none hi]; exact ⟨rfl, rfl⟩
  | some p => rw [applied_some (F := p.1) (a := p.2) hi]; exact ⟨rfl, rfl⟩

/-- A link of `applied` is a link, or that of a handle to the argument. -/
theorem applied_edge {g : Graph C T} {j c : Id} {k : Name} (h : (applied s L g j).dterms k = some c) :
    (g j).dterms k = some c ∨ ∃ F a, L.of j = some (F, a) ∧ k = s.xname ∧ (g F).dterms a = some c := by
  cases hi : L.of j with
  | none => rw [applied_none hi] at h; exact Or.inl h
  | some p =>
    obtain ⟨F, a⟩ := p
    rw [applied_some hi] at h
    dsimp only at h
    split at h
    · exact Or.inr ⟨F, a, rfl, by assumption, h⟩
    · exact Or.inl h

theorem LStr.argOf (hl : LStr s L h S) {j F : Id} {a : Name} (hj : L.of j = some (F, a)) : ArgOk s L h S F a j :=
  hl.lam F a j ((hl.ofIff F a j).2 hj)

theorem LStr.of_none (hl : LStr s L h S) {i : Id} (hi : L.owners i = []) : L.of i = none := by
  cases ho : L.of i with
  | none => rfl
  | some p =>
    have := (hl.argOf (F := p.1) (a := p.2) ho).own
    rw [hi] at this; simp at this

/-- Links out of a lambda's body: also in `applied`. -/
theorem LStr.encA (hl : LStr s L h S) {i c : Id} {k : Name} (hk : (applied s L h.graph i).dterms k = some c) :
    ∀ K ∈ L.owners c, K = i ∨ K ∈ L.owners i := by
  intro K hK
  rcases applied_edge hk with he | ⟨F, a, ho, _, he⟩
  · exact hl.enc i k c he K hK
  · have ok := hl.argOf ho
    obtain ⟨y, hy, hs⟩ := ok.arg
    rw [he] at hy; injection hy with hy; subst hy
    exact Or.inr (ok.sub K (hs K hK))

/-- An object whose body is up to date has the links it should have. -/
theorem LStr.node_eq (hl : LStr s L h S) {i : Id} (hi : ∀ K ∈ L.owners i, ∀ b, ¬ S K b) :
    h.graph i = applied s L h.graph i := by
  cases ho : L.of i with
  | none => rw [applied_none ho]
  | some p =>
    obtain ⟨F, a⟩ := p
    have ok := hl.argOf ho
    have e := ok.sync (hi F ok.own a)
    rw [applied_some ho]
    have : (fun k => if k = s.xname then (h.graph F).dterms a else (h.graph i).dterms k) = (h.graph i).dterms := by
      funext k
      split
      · subst_vars; exact e.symm
      · rfl
    rw [this]

/-! ### Paths -/

theorem Anc.off {g g' : Graph C T} {i z j : Id} (hoff : SameOff g g' i) (ha : Anc g z j) (hn : ¬ Anc g i j) : Anc g' z j := by
  induction ha with
  | refl => exact Anc.refl
  | @step j c k hk _ ih => exact Anc.step k (by rw [hoff j (not_anc_ne hn)]; exact hk) (ih (not_anc_child hn hk))

/-- Going up from inside a body one stays inside, or meets the lambda. -/
theorem LStr.own_up (hl : LStr s L h S) {z j : Id} (ha : Anc h.graph z j) {K : Id} (hK : K ∈ L.owners z) :
    Anc h.graph K j ∨ K ∈ L.owners j := by
  induction ha with
  | refl => exact Or.inr hK
  | @step j c k hk _ ih =>
    rcases ih with ih | ih
    · exact Or.inl (Anc.step k hk ih)
    · rcases hl.enc j k c hk K ih with h | h
      · subst h; exact Or.inl Anc.refl
      · exact Or.inr h

/-- A path of `applied`, cut at the stale handles. -/
inductive Rt (L : Lam) (g : Graph C T) (S : Id → Name → Prop) (z : Id) : Id → Prop
  | raw {j : Id} : Anc g z j → Rt L g S z j
  | via {j : Id} (K : Id) (b : Name) (hd y : Id) : S K b → (b, hd) ∈ L.args K → K ∈ L.owners j → Anc g hd j →
      (g K).dterms b = some y → Rt L g S z y → Rt L g S z j

theorem LStr.rt_step (hl : LStr s L h S) {z c : Id} (hr : Rt L h.graph S z c) :
    ∀ j k, (h.graph j).dterms k = some c → Rt L h.graph S z j := by
  induction hr with
  | raw ha => intro j k hk; exact Rt.raw (Anc.step k hk ha)
  | via K b hd y hS hm hK ha hy hr ih =>
    intro j k hk
    rcases hl.enc j k _ hk K hK with h | h
    · subst h; exact ih K b hy
    · exact Rt.via K b hd y hS hm h (Anc.step k hk ha) hy hr

theorem LStr.rt (hl : LStr s L h S) {z j : Id} (ha : Anc (applied s L h.graph) z j) : Rt L h.graph S z j := by
  induction ha with
  | refl => exact Rt.raw Anc.refl
  | @step j c k hk _ ih =>
    rcases applied_edge hk with he | ⟨F, a, ho, hx, he⟩
    · exact hl.rt_step ih j k he
    · have ok := hl.argOf ho
      by_cases hS : S F a
      · exact Rt.via F a j c hS ((hl.ofIff F a j).2 ho) ok.own Anc.refl he ih
      · exact hl.rt_step ih j s.xname (by rw [ok.sync hS]; exact he)

theorem LStr.reroute (hl : LStr s L h S) {z j : Id} (ha : Anc (applied s L h.graph) z j) :
    Anc h.graph z j ∨ Exempt L h.graph S j := by
  cases hl.rt ha with
  | raw h => exact Or.inl h
  | via K b hd y hS hm hK hh _ _ => exact Or.inr ⟨K, b, hd, hS, hm, hK, hh⟩

/-- If nobody refers to `l`, nobody does in `applied`. -/
theorem LStr.anc_lonely (hl : LStr s L h S) {l : Id} (hp : (h.node l).parents = []) {j : Id}
    (ha : Anc (applied s L h.graph) l j) : j = l := by
  induction ha with
  | refl => rfl
  | @step j c k hk _ ih =>
    subst ih
    have key : ∀ q m, (h.graph q).dterms m = some c → False := by
      intro q m hq
      obtain ⟨ns, hm, _⟩ := (hl.str.links.exact q m c).1 hq
      have : h.par c = [] := hp
      rw [this] at hm; simp at hm
    rcases applied_edge hk with he | ⟨F, a, _, _, he⟩
    · exact (key j k he).elim
    · exact (key F a he).elim

/-! ### Writes -/

/-- The stale arguments after an assignment to `n` of `i`. -/
def staleAfter (L : Lam) (S : Id → Name → Prop) (i : Id) (n : Name) : Id → Name → Prop :=
  fun F a => S F a ∨ (F = i ∧ a = n ∧ ∃ hd, (n, hd) ∈ L.args i)

theorem Writing.dirty_mem {h2 h4 : Heap C T V D} {i : Id} {n : Name} {itr : Option Nat} (w : Writing s h h2 h4 i n itr)
    {j : Id} {m : Name} (hm : m ∈ (h.node j).dirty ∨ (j = i ∧ m = n)) : m ∈ (h4.node j).dirty := by
  obtain ⟨U, hp⟩ := w.post
  rw [(w.same4 j).2.2.2.2.2.2]
  exact (hp.dirty j m).2 (Or.inl ((w.dirty2 j m).2 hm))

theorem Writing.node_dnames {h2 h4 : Heap C T V D} {i : Id} {n : Name} {itr : Option Nat} (w : Writing s h h2 h4 i n itr)
    (j : Id) : (h4.graph j).dnames = (h.graph j).dnames := by
  by_cases hj : j = i
  · subst hj; exact w.dn
  · rw [w.off j hj]

theorem Writing.flagsL {h2 h4 : Heap C T V D} {i : Id} {n : Name} {itr : Option Nat} (w : Writing s h h2 h4 i n itr)
    (hf : Flags h) : Flags h4 := by
  intro j
  by_cases hj : j = i
  · subst hj; rw [w.fl.1, w.fl.2]; exact hf j
  · rw [w.off j hj]; exact hf j

/-- An assignment to an object that is not inside a lambda's body. -/
theorem LStr.write (hl : LStr s L h S) {h2 h4 : Heap C T V D} {i : Id} {n : Name} (w : Writing s h h2 h4 i n none)
    (hs4 : Str h4) (hi : L.owners i = [])
    (hnew : ∀ c, (h4.graph i).dterms n = some c → L.owners c = [] ∨ (h.graph i).dterms n = some c)
    (hsome : (h.graph i).dterms n ≠ none → (h4.graph i).dterms n ≠ none) :
    LStr s L h4 (staleAfter L S i n) where
  str := hs4
  flags := w.flagsL hl.flags
  enc j k c hk K hK := by
    by_cases hj : j = i
    · subst hj
      by_cases hkn : k = n
      · subst hkn
        rcases hnew c hk with e | e
        · rw [e] at hK; simp at hK
        · exact hl.enc j k c e K hK
      · rw [(w.nm k hkn).2] at hk; exact hl.enc j k c hk K hK
    · rw [w.off j hj] at hk; exact hl.enc j k c hk K hK
  ofIff := hl.ofIff
  uniq := hl.uniq
  lam F a hd hm := by
    have ok := hl.lam F a hd hm
    have hdi : hd ≠ i := by rintro rfl; have := ok.own; rw [hi] at this; simp at this
    have hg : h4.graph hd = h.graph hd := w.off hd hdi
    refine ⟨by rw [w.alive4]; exact ok.liveF, by rw [w.alive4]; exact ok.liveH, ok.own, ok.sub, by rw [hg]; exact ok.cls,
      by rw [hg]; exact ok.xn, by rw [hg]; exact ok.npH, by rw [w.cls4]; exact ok.npF, ?_, ?_, ok.notH⟩
    · obtain ⟨y, hy, hs⟩ := ok.arg
      by_cases hF : F = i
      · subst hF
        by_cases ha : a = n
        · subst ha
          cases hc : (h4.graph F).dterms a with
          | none => exact absurd hc (hsome (by rw [hy]; simp))
          | some c =>
            refine ⟨c, rfl, ?_⟩
            rcases hnew c hc with e | e
            · rw [e]; simp
            · rw [hy] at e; injection e with e; subst e; exact hs
        · exact ⟨y, by rw [(w.nm a ha).2]; exact hy, hs⟩
      · exact ⟨y, by rw [w.off F hF]; exact hy, hs⟩
    · intro hS
      rw [hg]
      rw [ok.sync (fun h => hS (Or.inl h))]
      by_cases hF : F = i
      · subst hF
        have ha : a ≠ n := by rintro rfl; exact hS (Or.inr ⟨rfl, rfl, hd, hm⟩)
        rw [(w.nm a ha).2]
      · rw [w.off F hF]
  stale F a hS := by
    rcases hS with hS | ⟨rfl, rfl, hd⟩
    · exact ⟨(hl.stale F a hS).1, w.dirty_mem (Or.inl (hl.stale F a hS).2)⟩
    · exact ⟨hd, w.dirty_mem (Or.inr ⟨rfl, rfl⟩)⟩
  born j hj := hl.born j (by rw [w.next4, w.next2] at hj; exact hj)

theorem plain_applied (h : Heap C T V D) (hf : Flags h) (ho : ∀ d, s.outForm false false d = d) :
    Plain s (applied s L h.graph) :=
  ⟨ho, fun i => by rw [(applied_flags h.graph i).1, (applied_flags h.graph i).2]; exact hf i⟩

theorem Means.no_prop {g : Graph C T} {j : Id} {p : Name} {v : V} (hm : Means s g (.prop j p) (.ok v))
    (hn : s.propDecl (g j).cls p = none) : False := by
  obtain ⟨_, f, hf⟩ := hm
  cases f with
  | zero => simp [evalReq] at hf
  | succ f => simp [evalReq, hn] at hf

theorem LInv.write (hpo : s.PropsOk) (hl : LInv s L h S) {h2 h4 : Heap C T V D} {i : Id} {n : Name} (w : Writing s h h2 h4 i n none)
    (hs4 : Str h4) (hi : L.owners i = [])
    (hnew : ∀ c, (h4.graph i).dterms n = some c → L.owners c = [] ∨ (h.graph i).dterms n = some c)
    (hsome : (h.graph i).dterms n ≠ none → (h4.graph i).dterms n ≠ none) :
    LInv s L h4 (staleAfter L S i n) := by
  have hl4 := hl.toLStr.write w hs4 hi hnew hsome
  refine ⟨hl4, ?_⟩
  have hoi := hl.of_none hi
  -- objects above the changed ones, before
  have hex : ∀ j, ¬ Anc h.graph i j → Exempt L h.graph S j → Exempt L h4.graph (staleAfter L S i n) j := by
    rintro j hj ⟨K, b, hd, hS, hm, hK, ha⟩
    exact ⟨K, b, hd, Or.inl hS, hm, hK, ha.off w.off hj⟩
  have toP : ∀ j, ¬ Anc h.graph i j → ¬ Exempt L h4.graph (staleAfter L S i n) j →
      ∀ z, (z = i ∨ L.of z = some (i, n)) → ¬ Anc (applied s L h.graph) z j := by
    intro j hj hx z hz ha
    rcases hl.reroute ha with ha | ha
    · rcases hz with rfl | hz
      · exact hj ha
      · have ok := hl.argOf hz
        rcases hl.own_up ha ok.own with h | h
        · exact hj h
        · exact hx ⟨i, n, z, Or.inr ⟨rfl, rfl, z, (hl.ofIff i n z).2 hz⟩, (hl.ofIff i n z).2 hz, h, ha.off w.off hj⟩
    · exact hx (hex j hj ha)
  have hP : EqOnClosed (applied s L h.graph) (applied s L h4.graph)
      (fun j => ∀ z, (z = i ∨ L.of z = some (i, n)) → ¬ Anc (applied s L h.graph) z j) := by
    refine ⟨fun j hj => ?_, fun j hj k c hk z hz ha => hj z hz (Anc.step k hk ha)⟩
    have hji : j ≠ i := by rintro rfl; exact hj j (Or.inl rfl) Anc.refl
    cases ho : L.of j with
    | none => rw [applied_none ho, applied_none ho, w.off j hji]
    | some p =>
      obtain ⟨F, a⟩ := p
      rw [applied_some ho, applied_some ho, w.off j hji]
      have : (h4.graph F).dterms a = (h.graph F).dterms a := by
        by_cases hF : F = i
        · subst hF
          by_cases ha : a = n
          · subst ha; exact absurd Anc.refl (hj j (Or.inr ho))
          · exact (w.nm a ha).2
        · rw [w.off F hF]
      rw [this]
  have hcl : ∀ j, Anc h.graph i j → (h4.node j).cacheR = none ∧ ∀ x, (h4.node j).drs x = none := by
    intro j hj
    have := w.anc_cleared hl.str.links (TagInv.none s h) j ((w.off.anc_iff j).2 hj)
    exact ⟨this.1, this.2.1⟩
  refine ⟨?_, ?_, ?_, ?_⟩
  · intro j v hj e
    have hji : ¬ Anc h.graph i j := fun ha => by
      have e' : (h4.node j).cacheR = some v := e
      rw [(hcl j ha).1] at e'; cases e'
    exact (hl.coh.r j v (fun hx => hj (hex j hji hx)) (w.shrink.r j v e)).congr
      (fun f => (hP.req s f j (toP j hji hj)).1)
  · intro j p v e hd
    have e' : (h4.node j).props p = some v := e
    rw [Heap.applied_graph] at hd ⊢
    rw [applied_cls, w.cls4] at hd
    have hm0 := hl.coh.p j p v (w.shrink.p j p v e')
    rw [Heap.applied_graph] at hm0
    cases hpd : s.propDecl (h.graph j).cls p with
    | none =>
      refine ((hm0 ?_).no_prop (by rw [applied_cls]; exact hpd)).elim
      intro d hd'; rw [applied_cls, hpd] at hd'; cases hd'
    | some d =>
      have hoj : L.of j = none := by
        cases ho : L.of j with
        | none => rfl
        | some q => have := (hl.argOf (F := q.1) (a := q.2) ho).npH p; rw [hpd] at this; cases this
      have hsame : ∀ k ∈ d.1, (h4.graph j).terms k = (h.graph j).terms k ∧ (h4.graph j).dterms k = (h.graph j).dterms k := by
        intro k hk
        by_cases hj : j = i
        · subst hj
          apply w.nm
          rintro rfl
          have := w.hit p (hits_of_mem hpd hk (by simp))
          rw [this] at e'; cases e'
        · rw [w.off j hj]; exact ⟨rfl, rfl⟩
      have hfree : ∀ k ∈ d.1, ∀ c, (h.graph j).dterms k = some c → ¬ Anc h.graph i c := by
        intro k hk c hc ha
        have := w.anc_props hl.str.links (TagInv.none s h) j p d (by rw [w.cls4]; exact hpd) k hk c
          (by rw [(hsame k hk).2]; exact hc) ((w.off.anc_iff c).2 ha)
        rw [this] at e'; cases e'
      have hne : ∀ k ∈ d.1, ∀ c, (h.graph j).dterms k = some c → ¬ Exempt L h4.graph (staleAfter L S i n) c := by
        intro k hk c hc
        refine hd d hpd k hk c ?_
        rw [applied_none hoj, (hsame k hk).2]; exact hc
      refine (hm0 ?_).congr (fun f => hP.prop s hpo (by rw [applied_cls, applied_cls, w.cls4]) f p d (by rw [applied_cls]; exact hpd) ?_ ?_)
      · intro d' hd' k hk c hc
        rw [applied_cls, hpd] at hd'; injection hd' with hd'; subst hd'
        rw [applied_none hoj] at hc
        exact fun hx => hne k hk c hc (hex c (hfree k hk c hc) hx)
      · intro k hk
        rw [applied_none hoj, applied_none hoj]; exact hsame k hk
      · intro k hk c hc
        rw [applied_none hoj] at hc
        exact toP c (hfree k hk c hc) (hne k hk c hc)
  · intro hp j x d hj hx e
    have e' : (h4.node j).drs x = some d := e
    have hji : ¬ Anc h.graph i j := fun ha => by rw [(hcl j ha).2] at e'; cases e'
    have hx' : s.isPermute (h.graph x).cls = false := by
      unfold NotSlice at hx; rw [Heap.applied_graph, applied_cls, w.cls4] at hx; exact hx
    refine (hl.coh.d (plain_applied h hl.flags hp.1) j x d (fun hx => hj (hex j hji hx)) ?_ (w.shrink.d j x d e')).congr
      (fun f => hP.dr s (Or.inr ⟨?_, ?_⟩) f j (toP j hji hj))
    · unfold NotSlice; rw [Heap.applied_graph, applied_cls]; exact hx'
    · rw [applied_cls]; exact hx'
    · rw [applied_cls, w.cls4]; exact hx'
  · intro j x d e
    exact w.shrink.alive x (hl.coh.k j x d (w.shrink.d j x d e))

/-- Handing an argument on to the handle. -/
def staleDrop (S : Id → Name → Prop) (F : Id) (a : Name) : Id → Name → Prop := fun K b => S K b ∧ ¬ (K = F ∧ b = a)

theorem LInv.sync (hl : LInv s L h S) {F hd y : Id} {a : Name} (hm : (a, hd) ∈ L.args F)
    (hy : (h.graph F).dterms a = some y) {h2 h4 : Heap C T V D} (w : Writing s h h2 h4 hd s.xname none) (hs4 : Str h4)
    (hg4 : h4.graph = setLink h.graph hd s.xname y) :
    LInv s L h4 (staleDrop S F a) ∧ applied s L h4.graph = applied s L h.graph := by
  have ok := hl.lam F a hd hm
  have hoh := (hl.ofIff F a hd).1 hm
  have hFd : F ≠ hd := by rintro rfl; rw [ok.notH] at hoh; cases hoh
  have hlamNe : ∀ K b hd', (b, hd') ∈ L.args K → K ≠ hd := by
    rintro K b hd' hm' rfl
    rw [(hl.lam _ _ _ hm').notH] at hoh; cases hoh
  have hdt : ∀ K b, (h4.graph K).dterms b = if K = hd ∧ b = s.xname then some y else (h.graph K).dterms b := by
    intro K b
    rw [hg4]
    unfold setLink
    by_cases hK : K = hd
    · subst hK; simp
    · simp [hK]
  have happ : applied s L h4.graph = applied s L h.graph := by
    funext j
    cases ho : L.of j with
    | none =>
      have hj : j ≠ hd := by rintro rfl; rw [ho] at hoh; cases hoh
      rw [applied_none ho, applied_none ho, w.off j hj]
    | some p =>
      obtain ⟨K, b⟩ := p
      have hK : K ≠ hd := hlamNe K b j ((hl.ofIff K b j).2 ho)
      rw [applied_some ho, applied_some ho, w.off K hK]
      by_cases hj : j = hd
      · subst hj
        rw [hg4]
        simp only [setLink, if_true]
        congr 1
        funext k
        split <;> rfl
      · rw [w.off j hj]
  refine ⟨⟨⟨hs4, w.flagsL hl.flags, ?_, hl.ofIff, hl.uniq, ?_, ?_, ?_⟩, ?_⟩, happ⟩
  · intro i k c hk K hK
    rw [hdt] at hk
    split at hk
    · rename_i he; obtain ⟨rfl, rfl⟩ := he
      injection hk with hk; subst hk
      obtain ⟨y', hy', hs⟩ := ok.arg
      rw [hy] at hy'; injection hy' with hy'; subst hy'
      exact Or.inr (ok.sub K (hs K hK))
    · exact hl.enc i k c hk K hK
  · intro K b hd' hm'
    have ok' := hl.lam K b hd' hm'
    have hK := hlamNe K b hd' hm'
    refine ⟨by rw [w.alive4]; exact ok'.liveF, by rw [w.alive4]; exact ok'.liveH, ok'.own, ok'.sub, by rw [w.cls4]; exact ok'.cls,
      by rw [w.node_dnames]; exact ok'.xn, by rw [w.cls4]; exact ok'.npH, by rw [w.cls4]; exact ok'.npF,
      by rw [w.off K hK]; exact ok'.arg, ?_, ok'.notH⟩
    intro hS
    rw [w.off K hK, hdt]
    by_cases hh : hd' = hd
    · subst hh
      have := (hl.ofIff K b hd').1 hm'
      rw [hoh] at this; injection this with this; injection this with h1 h2; subst h1 h2
      rw [if_pos ⟨rfl, rfl⟩, hy]
    · rw [if_neg (fun h => hh h.1)]
      refine ok'.sync (fun hs => hS ⟨hs, ?_⟩)
      rintro ⟨rfl, rfl⟩
      exact hh (hl.uniq _ _ _ _ hm' hm)
  · rintro K b ⟨hS, _⟩
    exact ⟨(hl.stale K b hS).1, w.dirty_mem (Or.inl (hl.stale K b hS).2)⟩
  · intro j hj
    rw [w.next4, w.next2] at hj; exact hl.born j hj
  -- caches
  have hcl : ∀ j, Anc h.graph hd j → (h4.node j).cacheR = none ∧ ∀ x, (h4.node j).drs x = none := by
    intro j hj
    have := w.anc_cleared hl.str.links (TagInv.none s h) j ((w.off.anc_iff j).2 hj)
    exact ⟨this.1, this.2.1⟩
  have hex : ∀ j, ¬ Anc h.graph hd j → Exempt L h.graph S j → Exempt L h4.graph (staleDrop S F a) j := by
    rintro j hj ⟨K, b, hd', hS, hm', hK, ha⟩
    refine ⟨K, b, hd', ⟨hS, ?_⟩, hm', hK, ha.off w.off hj⟩
    rintro ⟨rfl, rfl⟩
    rw [hl.uniq _ _ _ _ hm' hm] at ha
    exact hj ha
  refine ⟨?_, ?_, ?_, ?_⟩
  · intro j v hj e
    have hji : ¬ Anc h.graph hd j := fun ha => by
      have e' : (h4.node j).cacheR = some v := e
      rw [(hcl j ha).1] at e'; cases e'
    rw [Heap.applied_graph, happ]
    exact hl.coh.r j v (fun hx => hj (hex j hji hx)) (w.shrink.r j v e)
  · intro j p v e hd0
    have e' : (h4.node j).props p = some v := e
    rw [Heap.applied_graph, happ] at hd0 ⊢
    refine hl.coh.p j p v (w.shrink.p j p v e') ?_
    intro d hd' k hk c hc hx
    have hcj : s.propDecl (h.graph j).cls p = some d := by rw [Heap.applied_graph, applied_cls] at hd'; exact hd'
    have hoj : L.of j = none := by
      cases ho : L.of j with
      | none => rfl
      | some q => have := (hl.argOf (F := q.1) (a := q.2) ho).npH p; rw [hcj] at this; cases this
    have hj : j ≠ hd := by rintro rfl; rw [hoj] at hoh; cases hoh
    have hc0 : (h.graph j).dterms k = some c := by
      rw [Heap.applied_graph, applied_none hoj] at hc; exact hc
    refine hd0 d hd' k hk c hc (hex c (fun ha => ?_) hx)
    have := w.anc_props hl.str.links (TagInv.none s h) j p d (by rw [w.cls4]; exact hcj) k hk c
          (by rw [w.off j hj]; exact hc0) ((w.off.anc_iff c).2 ha)
    rw [this] at e'; cases e'
  · intro hp j x d hj hx e
    have e' : (h4.node j).drs x = some d := e
    have hji : ¬ Anc h.graph hd j := fun ha => by rw [(hcl j ha).2] at e'; cases e'
    rw [Heap.applied_graph, happ] at hp hx ⊢
    exact hl.coh.d hp j x d (fun hx => hj (hex j hji hx)) hx (w.shrink.d j x d e')
  · intro j x d e
    exact w.shrink.alive x (hl.coh.k j x d (w.shrink.d j x d e))

end Chumpy
