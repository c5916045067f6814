import Verif.Core.Links
import Verif.Core.Sim
/-! What a write does to coherence. -/
namespace Chumpy
variable {C T V D α : Type}

/-- Coherence outside a set `X` of objects. -/
structure CohX (s : Sig C T V D) (U : Graph C T → Id → Id → Option D → Prop) (W : Graph C T → Id → Prop) (h : Heap C T V D) (X : Id → Prop) : Prop where
  r : ∀ j v, ¬ X j → (h.node j).cacheR = some v → Means s h.graph (.r j) (.ok v)
  p : ∀ j p v, (h.node j).props p = some v →
    (∀ d, s.propDecl (h.graph j).cls p = some d → ∀ k ∈ d.1, ∀ c, (h.graph j).dterms k = some c → ¬ X c) →
    Means s h.graph (.prop j p) (.ok v)
  d : Plain s h.graph → ∀ j w d, ¬ X j → W h.graph w → (h.node j).drs w = some d →
    U h.graph j w d
  k : ∀ i w d, (h.node i).drs w = some d → (h.node w).alive = true

variable {s : Sig C T V D} {U : Graph C T → Id → Id → Option D → Prop} {W : Graph C T → Id → Prop}

theorem Coh.cohX {h : Heap C T V D} (hc : Coh s U W h) (X : Id → Prop) : CohX s U W h X :=
  ⟨fun j v _ e => hc.r j v e, fun j p v e _ => hc.p j p v e, fun hp j w d _ hw e => hc.d hp j w d hw e, hc.k⟩

theorem CohX.mono {h : Heap C T V D} {X Y : Id → Prop} (hc : CohX s U W h X) (hXY : ∀ j, X j → Y j) :
    CohX s U W h Y :=
  ⟨fun j v hj e => hc.r j v (fun h => hj (hXY j h)) e,
   fun j p v e hd => hc.p j p v e (fun d hd' k hk c hc' h => hd d hd' k hk c hc' (hXY c h)),
   fun hp j w d hj hw e => hc.d hp j w d (fun h => hj (hXY j h)) hw e, hc.k⟩

/-- Coherence outside `X`, with `X` cleared, is coherence. -/
theorem CohX.fix {h : Heap C T V D} {X : Id → Prop} (hc : CohX s U W h X)
    (hclr : ∀ j, X j → (h.node j).cacheR = none ∧ ∀ w, (h.node j).drs w = none)
    (hp : ∀ j p d, s.propDecl (h.graph j).cls p = some d → ∀ k ∈ d.1, ∀ c, (h.graph j).dterms k = some c →
      X c → (h.node j).props p = none) : Coh s U W h where
  r j v e := hc.r j v (fun hx => by rw [(hclr j hx).1] at e; cases e) e
  p j p v e := hc.p j p v e (fun d hd k hk c hc' hx => by rw [hp j p d hd k hk c hc' hx] at e; cases e)
  d hpl j w d hw e := hc.d hpl j w d (fun hx => by rw [(hclr j hx).2] at e; cases e) hw e
  k := hc.k

/-- Caches of `h'` are those of `h`, or fewer. -/
structure ShrinkC (h h' : Heap C T V D) : Prop where
  r : ∀ j v, (h'.node j).cacheR = some v → (h.node j).cacheR = some v
  p : ∀ j p v, (h'.node j).props p = some v → (h.node j).props p = some v
  d : ∀ j w d, (h'.node j).drs w = some d → (h.node j).drs w = some d

/-- As `ShrinkC`, except for the properties of `l`. -/
structure ShrinkOff (l : Id) (h h' : Heap C T V D) : Prop where
  r : ∀ j v, (h'.node j).cacheR = some v → (h.node j).cacheR = some v
  p : ∀ j p v, j ≠ l → (h'.node j).props p = some v → (h.node j).props p = some v
  d : ∀ j w d, (h'.node j).drs w = some d → (h.node j).drs w = some d

/-- Moreover no object is collected. -/
structure Shrink (h h' : Heap C T V D) : Prop extends ShrinkC h h' where
  alive : ∀ j, (h.node j).alive = true → (h'.node j).alive = true

theorem Shrink.refl (h : Heap C T V D) : Shrink h h :=
  ⟨⟨fun _ _ e => e, fun _ _ _ e => e, fun _ _ _ e => e⟩, fun _ e => e⟩

theorem Shrink.trans {h1 h2 h3 : Heap C T V D} (a : Shrink h1 h2) (b : Shrink h2 h3) : Shrink h1 h3 :=
  ⟨⟨fun j v e => a.r j v (b.r j v e), fun j p v e => a.p j p v (b.p j p v e),
   fun j w d e => a.d j w d (b.d j w d e)⟩, fun j e => b.alive j (a.alive j e)⟩

theorem ClearPost.shrink {h h' : Heap C T V D} {i : Id} {itr : Option Nat} {S : List Id}
    (hp : ClearPost s h h' i itr S) : Shrink h h' where
  r j v e := by
    by_cases hj : j ∈ S
    · rw [(hp.wiped j hj).1] at e; cases e
    · rw [← (hp.kept j hj).1]; exact e
  p j p v e := by
    by_cases hx : ∃ n ∈ S, ∃ ns, (j, ns) ∈ (h.node n).parents ∧ Hits s (h.node j).cls p ns
    · rw [hp.propsHit j p hx] at e; cases e
    · rw [← hp.propsKept j p hx]; exact e
  d j w d e := by
    by_cases hj : j ∈ S
    · rw [(hp.wiped j hj).2.1] at e; cases e
    · rw [← (hp.kept j hj).2.1]; exact e
  alive j e := by rw [hp.alive]; exact e


theorem Means.congr {g g' : Graph C T} {q : Req} {r : Except Err V} (h : Means s g q r)
    (he : ∀ f, evalReq s g' f q = evalReq s g f q) : Means s g' q r :=
  ⟨h.1, let ⟨f, hf⟩ := h.2; ⟨f, (he f).trans hf⟩⟩

theorem MeansDr.congr {g g' : Graph C T} {i w : Id} {r : Except Err (Option D)} (h : MeansDr s g i w r)
    (he : ∀ f, evalDr s g' f i w = evalDr s g f i w) : MeansDr s g' i w r :=
  ⟨h.1, let ⟨f, hf⟩ := h.2; ⟨f, (he f).trans hf⟩⟩

/-- Graphs equal up to declared names under which nothing is stored. -/
structure GEq (g g' : Graph C T) : Prop where
  cls : ∀ j, (g' j).cls = (g j).cls
  terms : ∀ j, (g' j).terms = (g j).terms
  dterms : ∀ j, (g' j).dterms = (g j).dterms
  md : ∀ j, (g' j).makeDense = (g j).makeDense
  ms : ∀ j, (g' j).makeSparse = (g j).makeSparse
  names : ∀ j, (g' j).dnames.filter (fun k => ((g j).dterms k).isSome) =
    (g j).dnames.filter (fun k => ((g j).dterms k).isSome)

/-- What is claimed of cached derivatives depends only on what the derivative is computed from. -/
class Local (s : Sig C T V D) (U : Graph C T → Id → Id → Option D → Prop) : Prop where
  off : ∀ {g g' : Graph C T} {x i w : Id} {d : Option D}, SameOff g g' x → ¬ Anc g x i → (g' w).cls = (g w).cls →
    WrtOff s g g' x w → U g i w d → U g' i w d
  geq : ∀ {g g' : Graph C T} {i w : Id} {d : Option D}, GEq g g' → U g i w d → U g' i w d

/-- A write to names `N` of object `i` keeps everything coherent that does not depend on `i`. -/
theorem CohX.write [Local s U] {h h' : Heap C T V D} {i : Id} (hs : s.PropsOk) (hc : CohX s U W h (Anc h.graph i))
    (hoff : SameOff h.graph h'.graph i) (hcls : (h'.graph i).cls = (h.graph i).cls)
    (hfl : (h'.graph i).makeDense = (h.graph i).makeDense ∧ (h'.graph i).makeSparse = (h.graph i).makeSparse)
    (N : List Name) (hn : ∀ m, m ∉ N → (h'.graph i).terms m = (h.graph i).terms m ∧
      (h'.graph i).dterms m = (h.graph i).dterms m)
    (hsh : Shrink h h') (hhit : ∀ p, Hits s (h.graph i).cls p N → (h'.node i).props p = none)
    (hW : ∀ w, W h'.graph w → W h.graph w)
    (hw : ∀ j w d, W h.graph w → (h.node j).drs w = some d → WrtOff s h.graph h'.graph i w) :
    CohX s U W h' (Anc h'.graph i) where
  r j v hj e := by
    rw [hoff.anc_iff] at hj
    exact (hc.r j v hj (hsh.r j v e)).congr (fun f => (evalReq_off s hoff f j hj).1)
  p j p v e hd := by
    have hclsj : (h'.graph j).cls = (h.graph j).cls := by
      by_cases hj : j = i
      · subst hj; exact hcls
      · rw [hoff j hj]
    rw [hclsj] at hd
    -- the terms named in the declaration have not changed
    have hsame : ∀ d, s.propDecl (h.graph j).cls p = some d →
        ∀ k ∈ d.1, (h'.graph j).terms k = (h.graph j).terms k ∧ (h'.graph j).dterms k = (h.graph j).dterms k := by
      intro d hd' k hk
      by_cases hj : j = i
      · subst hj
        apply hn
        intro hkN
        rw [hhit p ⟨d, hd', k, hk, hkN⟩] at e; cases e
      · rw [hoff j hj]; exact ⟨rfl, rfl⟩
    have hfree : ∀ d, s.propDecl (h.graph j).cls p = some d → ∀ k ∈ d.1, ∀ c, (h.graph j).dterms k = some c →
        ¬ Anc h.graph i c := by
      intro d hd' k hk c hc'
      rw [← hoff.anc_iff]
      exact hd d hd' k hk c (by rw [(hsame d hd' k hk).2]; exact hc')
    have hm := hc.p j p v (hsh.p j p v e) hfree
    cases hpd : s.propDecl (h.graph j).cls p with
    | none =>
      obtain ⟨_, f, hf⟩ := hm
      cases f with
      | zero => simp [evalReq] at hf
      | succ f => simp [evalReq, hpd] at hf
    | some d =>
      exact hm.congr (fun f => evalProp_off s hs hoff hclsj f p d hpd (hsame d hpd) (hfree d hpd))
  d hp j w d hj hWw e := by
    rw [hoff.anc_iff] at hj
    have hp' : Plain s h.graph := by
      refine ⟨hp.1, fun j => ?_⟩
      by_cases hji : j = i
      · subst hji; rw [← hfl.1, ← hfl.2]; exact hp.2 j
      · rw [← hoff j hji]; exact hp.2 j
    have hWw' := hW w hWw
    have e' := hsh.d j w d e
    refine Local.off hoff hj ?_ (hw j w d hWw' e') (hc.d hp' j w d hj hWw' e')
    by_cases hwi : w = i
    · rw [hwi]; exact hcls
    · rw [hoff w hwi]
  k j w d e := hsh.alive w (hc.k j w d (hsh.d j w d e))

/-- A change of an object `l` nobody depends on keeps the others coherent. -/
theorem CohX.fresh [Local s U] {h h' : Heap C T V D} {l : Id} {X : Id → Prop} (hc : CohX s U W h X)
    (hoff : SameOff h.graph h'.graph l) (hno : ∀ j, Anc h.graph l j → j = l) (hsh : ShrinkOff l h h')
    (hal : ∀ j, j ≠ l → (h.node j).alive = true → (h'.node j).alive = true)
    (hl : (h'.node l).cacheR = none ∧ (∀ w, (h'.node l).drs w = none) ∧
      ∀ p v, (h'.node l).props p = some v → Means s h'.graph (.prop l p) (.ok v))
    (hfl : ∀ w, W h'.graph w → (h.graph l).makeDense = false ∧ (h.graph l).makeSparse = false)
    (hk : ∀ j, (h'.node j).drs l = none) (hW : ∀ w, w ≠ l → W h'.graph w → W h.graph w) :
    CohX s U W h' X where
  r j v hj e := by
    by_cases hjl : j = l
    · subst hjl; rw [hl.1] at e; cases e
    · exact (hc.r j v hj (hsh.r j v e)).congr (fun f => (evalReq_off s hoff f j (fun h => hjl (hno j h))).1)
  p j p v e hd := by
    by_cases hjl : j = l
    · subst hjl; exact hl.2.2 p v e
    · rw [hoff j hjl] at hd
      exact (hc.p j p v (hsh.p j p v hjl e) hd).congr (fun f => (evalReq_off s hoff f j (fun h => hjl (hno j h))).2 p)
  d hp j w d hj hWw e := by
    by_cases hjl : j = l
    · subst hjl; rw [hl.2.1] at e; cases e
    · have hwl : w ≠ l := by rintro rfl; rw [hk] at e; cases e
      have hp' : Plain s h.graph := by
        refine ⟨hp.1, fun j => ?_⟩
        by_cases hji : j = l
        · subst hji; exact hfl w hWw
        · rw [← hoff j hji]; exact hp.2 j
      have hnw : ¬ Anc h.graph l w := fun h => hwl (hno w h)
      exact Local.off hoff (fun h => hjl (hno j h)) (by rw [hoff w hwl]) (wrtOff_of_not_anc s hoff hnw)
        (hc.d hp' j w d hj (hW w hwl hWw) (hsh.d j w d e))
  k j w d e := by
    have hwl : w ≠ l := by rintro rfl; rw [hk] at e; cases e
    exact hal w hwl (hc.k j w d (hsh.d j w d e))

/-- The tag rule: objects carrying the current tag are cleared, and so is everything above them. -/
def TagInv (s : Sig C T V D) (h : Heap C T V D) (itr : Option Nat) : Prop :=
  ∀ n, h.Tagged itr n → (h.node n).cacheR = none ∧ (∀ w, (h.node n).drs w = none) ∧
    ∀ q k, Reg (h.node n).parents q k → h.Tagged itr q ∧
      ∀ p, Hits s (h.node q).cls p [k] → (h.node q).props p = none

theorem TagInv.none (s : Sig C T V D) (h : Heap C T V D) : TagInv s h none :=
  fun n hn => absurd hn (not_tagged_none h n)

theorem TagInv.of_untagged {h : Heap C T V D} {itr : Option Nat} (hn : ∀ n, ¬ h.Tagged itr n) : TagInv s h itr :=
  fun n h => absurd h (hn n)

theorem hits_of_mem {c : C} {p : Name} {ns : List Name} {d : List Name × Prog T V V} {k : Name}
    (hd : s.propDecl c p = some d) (hk : k ∈ d.1) (hn : k ∈ ns) : Hits s c p ns := ⟨d, hd, k, hk, hn⟩

/-- The heart of `__setattr__`.  `h`: before; `h2`: after the link bookkeeping and the invalidation of the
properties of `i` that declare `n`; then `clear_cache(itr)`, then the assignment, giving `h4`. -/
structure Writing (s : Sig C T V D) (h h2 h4 : Heap C T V D) (i : Id) (n : Name) (itr : Option Nat) : Prop where
  g2 : h2.graph = h.graph
  next2 : h2.next = h.next
  r2 : ∀ j, (h2.node j).cacheR = (h.node j).cacheR
  d2 : ∀ j, (h2.node j).drs = (h.node j).drs
  p2 : ∀ j p, (h2.node j).props p = none ∨ (h2.node j).props p = (h.node j).props p
  p2i : ∀ p, Hits s (h.graph i).cls p [n] → (h2.node i).props p = none
  p2k : ∀ j p, ¬ (j = i ∧ Hits s (h.graph i).cls p [n]) → (h2.node j).props p = (h.node j).props p
  itr2 : ∀ j, (h2.node j).itr = (h.node j).itr
  alive2 : ∀ j, (h2.node j).alive = (h.node j).alive
  giter2 : h2.giter = h.giter
  off : SameOff h.graph h4.graph i
  cls : (h4.graph i).cls = (h.graph i).cls
  fl : (h4.graph i).makeDense = (h.graph i).makeDense ∧ (h4.graph i).makeSparse = (h.graph i).makeSparse
  nm : ∀ m, m ≠ n → (h4.graph i).terms m = (h.graph i).terms m ∧ (h4.graph i).dterms m = (h.graph i).dterms m
  dn : (h4.graph i).dnames = (h.graph i).dnames
  links : Links h2.par h4.graph
  par0 : ∀ m, h2.next ≤ m → (h2.node m).parents = []
  -- the assignment after clear_cache touches only the graph part of `i`
  same4 : ∀ j, (h4.node j).cacheR = ((clearCache s i itr h2).node j).cacheR ∧
    (h4.node j).drs = ((clearCache s i itr h2).node j).drs ∧
    (h4.node j).props = ((clearCache s i itr h2).node j).props ∧
    (h4.node j).itr = ((clearCache s i itr h2).node j).itr ∧
    (h4.node j).parents = ((clearCache s i itr h2).node j).parents ∧
    (h4.node j).alive = ((clearCache s i itr h2).node j).alive ∧
    (h4.node j).dirty = ((clearCache s i itr h2).node j).dirty
  dirty2 : ∀ j m, m ∈ (h2.node j).dirty ↔ m ∈ (h.node j).dirty ∨ (j = i ∧ m = n)
  log4 : h4.log = h.log
  next4 : h4.next = h2.next
  giter4 : h4.giter = h2.giter

namespace Writing
variable {h h2 h4 : Heap C T V D} {i : Id} {n : Name} {itr : Option Nat}

theorem shrink2 (w : Writing s h h2 h4 i n itr) : Shrink h h2 where
  r j v e := by rw [← w.r2]; exact e
  p j p v e := by
    rcases w.p2 j p with h | h
    · rw [h] at e; cases e
    · rw [← h]; exact e
  d j x d e := by rw [← w.d2]; exact e
  alive j e := by rw [w.alive2]; exact e

theorem post (w : Writing s h h2 h4 i n itr) : ∃ S, ClearPost s h2 (clearCache s i itr h2) i itr S :=
  clearCache_spec s h2 i itr w.par0

theorem shrink (w : Writing s h h2 h4 i n itr) : Shrink h h4 := by
  obtain ⟨S, hp⟩ := w.post
  refine w.shrink2.trans (hp.shrink.trans ?_)
  refine ⟨⟨?_, ?_, ?_⟩, ?_⟩
  · intro j v e; rw [← (w.same4 j).1]; exact e
  · intro j p v e; rw [← (w.same4 j).2.2.1]; exact e
  · intro j x d e; rw [← (w.same4 j).2.1]; exact e
  · intro j e; rw [(w.same4 j).2.2.2.2.2.1]; exact e

theorem hit (w : Writing s h h2 h4 i n itr) (p : Name) (hh : Hits s (h.graph i).cls p [n]) :
    (h4.node i).props p = none := by
  obtain ⟨S, hp⟩ := w.post
  rw [(w.same4 i).2.2.1]
  cases hx : ((clearCache s i itr h2).node i).props p with
  | none => rfl
  | some v => have := hp.shrink.p i p v hx; rw [w.p2i p hh] at this; cases this

theorem par4 (w : Writing s h h2 h4 i n itr) (j : Id) : (h4.node j).parents = (h2.node j).parents := by
  obtain ⟨S, hp⟩ := w.post
  rw [(w.same4 j).2.2.2.2.1, hp.parents]

theorem links4 (w : Writing s h h2 h4 i n itr) : Links h4.par h4.graph := by
  have : h4.par = h2.par := by funext j; exact w.par4 j
  rw [this]; exact w.links

theorem cls4 (w : Writing s h h2 h4 i n itr) (j : Id) : (h4.graph j).cls = (h.graph j).cls := by
  by_cases hj : j = i
  · subst hj; exact w.cls
  · rw [w.off j hj]

/-- Outside the dependants of `i`, coherence is kept whatever the tag. -/
theorem cohX [Local s U] (w : Writing s h h2 h4 i n itr) (hs : s.PropsOk) (hc : CohX s U W h (Anc h.graph i))
    (hW : ∀ x, W h4.graph x → W h.graph x)
    (hw : ∀ j x d, W h.graph x → (h.node j).drs x = some d → WrtOff s h.graph h4.graph i x) :
    CohX s U W h4 (Anc h4.graph i) :=
  hc.write hs w.off w.cls w.fl [n] (fun m hm => w.nm m (by simpa using hm)) w.shrink w.hit hW hw

/-- Registration before the write, from registration after. -/
theorem reg_old (w : Writing s h h2 h4 i n itr) (hl : Links h.par h.graph) {m q : Id} {k : Name}
    (hr : Reg (h2.node m).parents q k) : Reg (h.node m).parents q k ∨ (q = i ∧ k = n) := by
  by_cases hx : q = i ∧ k = n
  · exact Or.inr hx
  · left
    have h1 := (w.links.exact q k m).2 hr
    apply (hl.exact q k m).1
    by_cases hq : q = i
    · subst hq
      rw [← (w.nm k (fun h => hx ⟨rfl, h⟩)).2]; exact h1
    · rw [← w.off q hq]; exact h1

theorem tagged2 (w : Writing s h h2 h4 i n itr) (j : Id) : h2.Tagged itr j ↔ h.Tagged itr j := by
  unfold Heap.Tagged; rw [w.itr2]

/-- After the write the dependants of `i` that were not yet tagged are wiped; with the tag rule, all are. -/
theorem anc_cleared (w : Writing s h h2 h4 i n itr) (hl : Links h.par h.graph) (ht : TagInv s h itr) :
    ∀ j, Anc h4.graph i j → (h4.node j).cacheR = none ∧ (∀ x, (h4.node j).drs x = none) ∧
      (itr.isSome = true → h4.Tagged itr j) := by
  obtain ⟨S, hp⟩ := w.post
  have key : ∀ j, j ∈ S ∨ h2.Tagged itr j → (h4.node j).cacheR = none ∧ (∀ x, (h4.node j).drs x = none) ∧
      (itr.isSome = true → h4.Tagged itr j) := by
    intro j hj
    obtain ⟨s1, s2, _, s4, _⟩ := w.same4 j
    unfold Heap.Tagged
    rw [s1, s2, s4]
    by_cases hS : j ∈ S
    · obtain ⟨a, b, c⟩ := hp.wiped j hS
      rw [a, b, c]; exact ⟨rfl, fun _ => rfl, fun h => ⟨h, rfl⟩⟩
    · obtain ⟨a, b, c⟩ := hp.kept j hS
      have hj' := hj.resolve_left hS
      obtain ⟨t1, t2, _⟩ := ht j ((w.tagged2 j).1 hj')
      rw [a, b, c, w.r2, w.d2]
      exact ⟨t1, t2, fun _ => hj'⟩
  intro j hj
  apply key
  induction hj with
  | refl => exact hp.start
  | @step q c k hk _ ih =>
    have hr : Reg (h2.node c).parents q k := (w.links.exact q k c).1 hk
    have hreg : h2.Registered c q := by obtain ⟨ns, hm, _⟩ := hr; exact ⟨ns, hm⟩
    rcases ih with ih | ih
    · exact hp.closed c ih q hreg
    · rcases w.reg_old hl hr with hr' | ⟨rfl, _⟩
      · right
        rw [w.tagged2]
        exact ((ht c ((w.tagged2 c).1 ih)).2.2 q k hr').1
      · exact hp.start

theorem anc_props (w : Writing s h h2 h4 i n itr) (hl : Links h.par h.graph) (ht : TagInv s h itr)
    (j : Id) (p : Name) (d : List Name × Prog T V V) (hd : s.propDecl (h4.graph j).cls p = some d) (k : Name)
    (hk : k ∈ d.1) (c : Id) (hc : (h4.graph j).dterms k = some c) (ha : Anc h4.graph i c) :
    (h4.node j).props p = none := by
  obtain ⟨S, hp⟩ := w.post
  rw [(w.same4 j).2.2.1]
  rw [w.cls4] at hd
  have hclsj : (h2.node j).cls = (h.graph j).cls := congrArg GNode.cls (congrFun w.g2 j)
  have hr : Reg (h2.node c).parents j k := (w.links.exact j k c).1 hc
  obtain ⟨ns, hm, hkn⟩ := hr
  have hcS : c ∈ S ∨ h2.Tagged itr c := by
    by_cases hS : c ∈ S
    · exact Or.inl hS
    · right
      -- c is an ancestor of i
      have : ∀ c, Anc h4.graph i c → c ∈ S ∨ h2.Tagged itr c := by
        intro c hc
        induction hc with
        | refl => exact hp.start
        | @step q c k hk _ ih =>
          have hr : Reg (h2.node c).parents q k := (w.links.exact q k c).1 hk
          have hreg : h2.Registered c q := by obtain ⟨ns, hm, _⟩ := hr; exact ⟨ns, hm⟩
          rcases ih with ih | ih
          · exact hp.closed c ih q hreg
          · rcases w.reg_old hl hr with hr' | ⟨rfl, _⟩
            · right
              rw [w.tagged2]
              exact ((ht c ((w.tagged2 c).1 ih)).2.2 q k hr').1
            · exact hp.start
      exact (this c ha).resolve_left hS
  rcases hcS with hS | hT
  · exact hp.propsHit j p ⟨c, hS, ns, hm, by rw [hclsj]; exact hits_of_mem hd hk hkn⟩
  · have hnone : (h2.node j).props p = none := by
      rcases w.reg_old hl (⟨ns, hm, hkn⟩ : Reg (h2.node c).parents j k) with hr' | ⟨rfl, rfl⟩
      · have := ((ht c ((w.tagged2 c).1 hT)).2.2 j k hr').2 p (hits_of_mem hd hk (by simp))
        rcases w.p2 j p with h | h
        · exact h
        · rw [h]; exact this
      · exact w.p2i p (hits_of_mem hd hk (by simp))
    cases hx : ((clearCache s i itr h2).node j).props p with
    | none => rfl
    | some v => have := hp.shrink.p j p v hx; rw [hnone] at this; cases this

/-- A write from a coherent heap obeying the tag rule gives a coherent heap obeying the tag rule. -/
theorem coh [Local s U] (w : Writing s h h2 h4 i n itr) (hs : s.PropsOk) (hc : CohX s U W h (Anc h.graph i))
    (hl : Links h.par h.graph) (ht : TagInv s h itr) (hW : ∀ x, W h4.graph x → W h.graph x)
    (hw : ∀ j x d, W h.graph x → (h.node j).drs x = some d → WrtOff s h.graph h4.graph i x) :
    Coh s U W h4 :=
  (w.cohX hs hc hW hw).fix (fun j hj => let x := w.anc_cleared hl ht j hj; ⟨x.1, x.2.1⟩)
    (fun j p d hd k hk c hc' hx => w.anc_props hl ht j p d hd k hk c hc' hx)

theorem tagInv (w : Writing s h h2 h4 i n itr) (hl : Links h.par h.graph) (ht : TagInv s h itr) :
    TagInv s h4 itr := by
  obtain ⟨S, hp⟩ := w.post
  intro m hm
  obtain ⟨s1, s2, s3, s4, s5, _⟩ := w.same4 m
  have hmS : m ∈ S ∨ h2.Tagged itr m := by
    by_cases hS : m ∈ S
    · exact Or.inl hS
    · right
      refine ⟨hm.1, ?_⟩
      rw [← (hp.kept m hS).2.2, ← s4]; exact hm.2
  have tag4 : ∀ q, q ∈ S ∨ h2.Tagged itr q → h4.Tagged itr q := by
    intro q hq
    refine ⟨hm.1, ?_⟩
    rw [(w.same4 q).2.2.2.1]
    by_cases hS : q ∈ S
    · exact (hp.wiped q hS).2.2
    · rw [(hp.kept q hS).2.2]; exact (hq.resolve_left hS).2
  refine ⟨?_, ?_, ?_⟩
  · rw [s1]
    by_cases hS : m ∈ S
    · exact (hp.wiped m hS).1
    · rw [(hp.kept m hS).1, w.r2]; exact (ht m ((w.tagged2 m).1 (hmS.resolve_left hS))).1
  · intro x
    rw [s2]
    by_cases hS : m ∈ S
    · rw [(hp.wiped m hS).2.1]
    · rw [(hp.kept m hS).2.1, w.d2]; exact (ht m ((w.tagged2 m).1 (hmS.resolve_left hS))).2.1 x
  · intro q k hr
    rw [w.par4] at hr
    have hclsq : (h2.node q).cls = (h.graph q).cls := congrArg GNode.cls (congrFun w.g2 q)
    have hclsq4 : (h4.node q).cls = (h.graph q).cls := w.cls4 q
    obtain ⟨ns, hmem, hkn⟩ := hr
    have hreg : h2.Registered m q := ⟨ns, hmem⟩
    rcases hmS with hS | hT
    · refine ⟨tag4 q (hp.closed m hS q hreg), fun p hh => ?_⟩
      rw [(w.same4 q).2.2.1]
      obtain ⟨d, hd, k', hk', hkk⟩ := hh
      simp at hkk; subst hkk
      exact hp.propsHit q p ⟨m, hS, ns, hmem, by rw [hclsq, ← hclsq4]; exact hits_of_mem hd hk' hkn⟩
    · rcases w.reg_old hl (⟨ns, hmem, hkn⟩ : Reg (h2.node m).parents q k) with hr' | ⟨rfl, rfl⟩
      · obtain ⟨t1, t2⟩ := (ht m ((w.tagged2 m).1 hT)).2.2 q k hr'
        refine ⟨tag4 q (Or.inr ((w.tagged2 q).2 t1)), fun p hh => ?_⟩
        have := t2 p (by rw [hclsq4] at hh; exact hh)
        rw [(w.same4 q).2.2.1]
        cases hx : ((clearCache s i itr h2).node q).props p with
        | none => rfl
        | some v =>
          have hy := w.shrink2.p q p v (hp.shrink.p q p v hx)
          rw [this] at hy; cases hy
      · exact ⟨tag4 _ hp.start, fun p hh => w.hit p (by rw [hclsq4] at hh; exact hh)⟩

end Writing
end Chumpy
