import Verif.AD.Arith
import Verif.AD.Steps
import Verif.Properties.Jacobian
/-!
# What the library's classes are shown to do

The statements about single classes (C31 and later) are all of the same kind, described here: an object of the class
whose children have certain values has a certain value, and `dr_wrt` of it is the derivative.
-/
namespace Chumpy
open scoped BigOperators Topology

/-- Object `y` is an instance of class `c`, whose differentiable terms are `ns`, holding the objects `kids` under them. -/
structure IsA (g : Graph ClassDef Par) (y : Id) (c : ClassDef) (ns : List Name) (kids : Fin ns.length → Id) : Prop where
  cls : (g y).cls = c
  dnames : (g y).dnames = ns
  nodup : ns.Nodup
  kid : ∀ a, (g y).dterms (ns.get a) = some (kids a)

/-- `i` is a plain `Ch` holding an array. -/
def IsLeaf (g : Graph ClassDef Par) (i : Id) : Prop := (g i).cls = chLeaf ∧ (∀ k, (g i).dterms k = none) ∧ (g i).dnames = []

/-- "`y.dr_wrt(w)` reports the `m × n` matrix `E`": given enough stack depth it returns a value that is that matrix, or
`None` if the matrix is zero. -/
def Reports (h : Heap ClassDef Par Arr Jac) (y w : Id) (m n : ℕ) (E : Ent) : Prop :=
  ∃ f₀, ∀ f ≥ f₀, ∃ o, (drWrt lib f y w h).2 = .ok o ∧ num.RepO o m n E

/-- "The value of `y` is `out`, and its derivatives are right":
* evaluating `y.r` gives `out`;
* the class of `y` is `Exactly` right, so that C18 applies to every graph containing `y`;
* if the children of `y` are plain `Ch`s, then for each of them, `w`, the value of `y` is differentiable as a function
  of the entries of `w`, and given enough stack depth `y.dr_wrt(w)` returns that derivative, `None` standing for zero. -/
structure Right (h : Heap ClassDef Par Arr Jac) (y : Id) (out : Arr) : Prop where
  value : ∃ f₀, ∀ f ≥ f₀, (read lib f (.r y) h).2 = .ok out
  exactly : Exactly h.graph y
  deriv : (∀ k c, (h.graph y).dterms k = some c → IsLeaf h.graph c) → ∀ k w, (h.graph y).dterms k = some w →
    ∃ vw M, HasJacobian h.graph y w out vw M ∧ Reports h y w out.size vw.size M

/-- The same for derivatives with respect to `w` only, whether or not `y` is differentiable in children that do not
depend on `w`. -/
structure RightFor (h : Heap ClassDef Par Arr Jac) (y w : Id) (out : Arr) : Prop where
  value : ∃ f₀, ∀ f ≥ f₀, (read lib f (.r y) h).2 = .ok out
  exactly : ExactlyFor h.graph w y
  deriv : (∀ k c, (h.graph y).dterms k = some c → IsLeaf h.graph c) → ∀ k, (h.graph y).dterms k = some w →
    ∃ vw M, HasJacobian h.graph y w out vw M ∧ Reports h y w out.size vw.size M

theorem Right.for {h : Heap ClassDef Par Arr Jac} {y : Id} {out : Arr} (hR : Right h y out) (w : Id) : RightFor h y w out :=
  ⟨hR.value, hR.exactly.for w, fun hl k hk => hR.deriv hl k w hk⟩

theorem IsA.links {g : Graph ClassDef Par} {y : Id} {c : ClassDef} {ns : List Name} {kids : Fin ns.length → Id}
    (h : IsA g y c ns kids) : (g y).links = ns := by
  unfold GNode.links
  rw [h.dnames, List.filter_eq_self]
  intro k hk
  obtain ⟨a, rfl⟩ := List.get_of_mem hk
  rw [h.kid a]; rfl

theorem IsA.kid_eq {g : Graph ClassDef Par} {y : Id} {c : ClassDef} {ns : List Name} {kids : Fin ns.length → Id}
    (h : IsA g y c ns kids) (a : Fin ns.length) : (g y).kid (ns.get a) = kids a := by
  rw [GNode.kid, h.kid a]; rfl

theorem IsLeaf.no_uses {g : Graph ClassDef Par} {i j : Id} (h : IsLeaf g i) : ¬ Uses g i j := by
  rintro ⟨k, _, hk⟩; rw [h.2.1 k] at hk; cases hk

theorem IsLeaf.reaches {g : Graph ClassDef Par} {i j : Id} (h : IsLeaf g i) (hr : Reaches g i j) : j = i := by
  rcases Relation.ReflTransGen.cases_head hr with e | ⟨c, hc, _⟩
  · exact e.symm
  · exact absurd hc h.no_uses

theorem IsLeaf.exactly {g : Graph ClassDef Par} {i : Id} (h : IsLeaf g i) {v : Arr} (hv : Means lib g (.r i) (.ok v)) : Exactly g i := by
  have hl : (g i).links = [] := by
    unfold GNode.links
    rw [List.filter_eq_nil_iff]
    intro k _; rw [h.2.1 k]; simp
  have hx : ∃ x, (g i).terms nmX = some (.arr x) ∧ v = x.atleast1 := by
    obtain ⟨_, f, hf⟩ := hv
    cases f with
    | zero => cases hf
    | succ f =>
      simp only [evalReq, h.1, chLeaf, evalProg] at hf
      split at hf
      · next x hx => simp only [evalProg] at hf; injection hf with hf; exact ⟨x, hx, hf.symm⟩
      · cases hf
  obtain ⟨x, hx, rfl⟩ := hx
  refine ⟨x.atleast1, ?_⟩
  rw [hl, h.1]
  exact ⟨fun a => a.elim0, fun _ => 0, hv, fun a => a.elim0, exact_leaf hx _⟩

theorem read_of_means {h : Heap ClassDef Par Arr Jac} {m : Mode} (hr : Reach lib m h) {q : Req} {v : Arr}
    (hv : Means lib h.graph q (.ok v)) : ∃ f₀, ∀ f ≥ f₀, (read lib f q h).2 = .ok v := by
  obtain ⟨_, f₀, hf₀⟩ := hv
  refine ⟨f₀, fun f hf => ?_⟩
  have e := evalReq_mono lib h.graph hf q
  rw [Le, hf₀] at e
  have hs := (read_sim (P := True) f q h (reach_inv lib_propsOk (fun _ => lib_localDr) hr).coh rfl).2.2 trivial
  have := (readFresh_of_agree hs).2.2
  rw [e (by simp)] at this
  exact this (by simp)

theorem envOf_kids_some {g : Graph ClassDef Par} {y : Id} {c : ClassDef} {ns : List Name} {kids : Fin ns.length → Id}
    (hy : IsA g y c ns kids) {v : Fin ns.length → Arr} (hk : ∀ a, Means lib g (.r (kids a)) (.ok (v a))) :
    ∀ k z, envOf num ns v (fun a => num.fn (v a).size (v a)) k = some z → ∃ c, (g y).dterms k = some c ∧ Means lib g (.r c) (.ok z) := by
  intro k z hz
  obtain ⟨a, rfl, rfl⟩ := envOf_some hy.nodup v _ hz
  exact ⟨kids a, hy.kid a, by rw [put_fn]; exact hk a⟩

/-- What `compute_dr_wrt` answers about a child, `dr_wrt` answers, if the children are plain `Ch`s. -/
theorem drWrt_leaf_kids {h : Heap ClassDef Par Arr Jac} (hr : Reach lib ⟨False, True⟩ h) {y : Id} {c : ClassDef} {ns : List Name}
    {kids : Fin ns.length → Id} (hy : IsA h.graph y c ns kids) {v : Fin ns.length → Arr} {out : Arr}
    (hk : ∀ a, Means lib h.graph (.r (kids a)) (.ok (v a))) (hout : Means lib h.graph (.r y) (.ok out))
    (hleaf : ∀ a, IsLeaf h.graph (kids a)) {w : Id} (hw : ∃ a, kids a = w) {d : Option Jac}
    (hd : ReturnsDr lib c (h.graph y).terms (envOf num ns v (fun a => num.fn (v a).size (v a))) out ((h.graph y).namesOf w) d) :
    ∃ f₀, ∀ f ≥ f₀, (drWrt lib f y w h).2 =
      .ok (d.map fun d => lib.outForm (h.graph y).makeDense (h.graph y).makeSparse (lib.finish d)) := by
  obtain ⟨aw, rfl⟩ := hw
  have hyw : y ≠ kids aw := by
    intro e
    have h1 := hy.kid aw
    have h2 := hleaf aw
    rw [← e] at h2
    rw [h2.2.1] at h1; cases h1
  have hper : lib.isPermute (h.graph (kids aw)).cls = false := by rw [(hleaf aw).1]; rfl
  rw [← hy.cls] at hd
  obtain ⟨f1, hf1⟩ := evalCompDr_of_returnsDr hyw hout (envOf_kids_some hy hk) hd
  have hs : SlicedIs lib h.graph y (kids aw) d := by
    cases d with
    | none => exact SlicedIs.none ⟨f1, hf1⟩ hper
    | some d => exact SlicedIs.some ⟨f1, hf1⟩
  have ht : ∀ ks : List Name, (∀ k ∈ ks, k ∈ ns) → TermsIs lib h.graph y (kids aw) ks d.toList d.toList := by
    intro ks
    induction ks with
    | nil => intro _; exact .nil ..
    | cons k' ks ih =>
      intro hks
      have ih := ih fun k hk => hks k (by simp [hk])
      obtain ⟨a, rfl⟩ := List.get_of_mem (hks k' (by simp))
      by_cases hpw : kids a = kids aw
      · exact .wrt (by rw [hy.kid a, hpw]) ih
      · refine .none (hy.kid a) hpw ?_ ih
        have hlp := hleaf a
        have hn : (h.graph (kids a)).namesOf (kids aw) = [] := by unfold GNode.namesOf; rw [hlp.2.2]; rfl
        exact drIs (SlicedIs.none (compIs_none lib_localDr hpw hn) hper) (by rw [hlp.2.2]; exact .nil ..) rfl
  have hs' : sumD lib d.toList = .ok d := by
    cases d with
    | none => rfl
    | some d => rfl
  have hdr := drIs hs (ht _ (by rw [hy.dnames]; exact fun k hk => hk)) hs'
  obtain ⟨_, f₀, hf₀⟩ := hdr
  refine ⟨f₀, fun f hf => ?_⟩
  have e := evalDr_mono lib h.graph hf y (kids aw)
  rw [Le, hf₀] at e
  have := (C02_derivative_never_stale_partial lib_propsOk lib_plainForm hr f y (kids aw) hper).2.2
  rw [e (by simp)] at this
  exact this (by simp)

theorem reports_of_rep {h : Heap ClassDef Par Arr Jac} (hr : Reach lib ⟨False, True⟩ h) {y : Id} {c : ClassDef} {ns : List Name}
    {kids : Fin ns.length → Id} (hy : IsA h.graph y c ns kids) {v : Fin ns.length → Arr} {out : Arr}
    (hk : ∀ a, Means lib h.graph (.r (kids a)) (.ok (v a))) (hout : Means lib h.graph (.r y) (.ok out))
    (hleaf : ∀ a, IsLeaf h.graph (kids a)) {w : Id} (hw : ∃ a, kids a = w) {d : Option Jac}
    (hd : ReturnsDr lib c (h.graph y).terms (envOf num ns v (fun a => num.fn (v a).size (v a))) out ((h.graph y).namesOf w) d)
    {m n : ℕ} {E : Ent} (hE : num.RepO d m n E) : Reports h y w m n E := by
  obtain ⟨f₀, hf⟩ := drWrt_leaf_kids hr hy hk hout hleaf hw hd
  refine ⟨f₀, fun f hfl => ⟨_, hf f hfl, ?_⟩⟩
  cases d with
  | none => exact hE
  | some d => exact Jac.outForm_rep _ _ (Jac.finish_rep hE)

theorem means_of_isA {g : Graph ClassDef Par} {y : Id} {c : ClassDef} {ns : List Name} {kids : Fin ns.length → Id}
    (hy : IsA g y c ns kids) {v : Fin ns.length → Arr} (hk : ∀ a, Means lib g (.r (kids a)) (.ok (v a))) {out : Arr}
    (hv : Returns lib c (g y).terms (envOf num ns v (fun a => num.fn (v a).size (v a))) out) : Means lib g (.r y) (.ok out) := by
  rw [← hy.cls] at hv
  exact means_of_returns (envOf_kids_some hy hk) hv

/-- From exactness of the class to the API. -/
theorem rightFor_of_exactOn {h : Heap ClassDef Par Arr Jac} (hr : Reach lib ⟨False, True⟩ h) {y w : Id} {c : ClassDef} {ns : List Name}
    {kids : Fin ns.length → Id} (hy : IsA h.graph y c ns kids) {v : Fin ns.length → Arr} {out : Arr} {P : Fin ns.length → Ent}
    (hk : ∀ a, Means lib h.graph (.r (kids a)) (.ok (v a)))
    (hE : ExactOn c (h.graph y).terms ns v out (fun a => Reaches h.graph (kids a) w) kids P) : RightFor h y w out := by
  have hl := hy.links
  have hm : Means lib h.graph (.r y) (.ok out) := means_of_isA hy hk hE.val
  have hE' : ExactOn (h.graph y).cls (h.graph y).terms ns v out (fun a => Reaches h.graph ((h.graph y).kid (ns.get a)) w)
      (fun a => (h.graph y).kid (ns.get a)) P := by
    have : (fun a => Reaches h.graph ((h.graph y).kid (ns.get a)) w) = fun a => Reaches h.graph (kids a) w := by
      funext a; rw [hy.kid_eq]
    have hI : (fun a => (h.graph y).kid (ns.get a)) = kids := funext fun a => hy.kid_eq a
    rw [hy.cls, this, hI]; exact hE
  have hex : ExactlyFor h.graph w y := by
    unfold ExactlyFor
    rw [hl]
    exact ⟨out, v, P, hm, fun a => by rw [hy.kid_eq]; exact hk a, hE'⟩
  refine ⟨read_of_means hr hm, hex, ?_⟩
  intro hleaf k hkw
  have hstr := reach_str hr
  have hdecl : ∀ i k c, (h.graph i).dterms k = some c → k ∈ (h.graph i).dnames := hstr.dn
  have hkm : ∀ k c, (h.graph y).dterms k = some c → ∃ x, Means lib h.graph (.r c) (.ok x) := by
    intro k c hc
    have : k ∈ ns := by rw [← hy.dnames]; exact hdecl y k c hc
    obtain ⟨a, rfl⟩ := List.get_of_mem this
    rw [hy.kid a] at hc; cases hc
    exact ⟨_, hk a⟩
  obtain ⟨vw, hvw⟩ := hkm k w hkw
  have hyw : y ≠ w := by
    rintro rfl
    rw [(hleaf k y hkw).2.1 k] at hkw; cases hkw
  have hreach : ∀ i, Reaches h.graph y i → i = y ∨ ∃ k, (h.graph y).dterms k = some i := by
    intro i hi
    rcases Relation.ReflTransGen.cases_head hi with e | ⟨c, ⟨k, _, hc⟩, hi⟩
    · exact Or.inl e.symm
    · rw [(hleaf k c hc).reaches hi]; exact Or.inr ⟨k, hc⟩
  have hnoself : ∀ k c, (h.graph y).dterms k = some c → c ≠ y := by
    rintro k c hc rfl
    rw [(hleaf k c hc).2.1 k] at hc; cases hc
  have hac : ∀ i, Reaches h.graph y i → ¬ Relation.TransGen (Uses h.graph) i i := by
    intro i hi ht
    rcases hreach i hi with rfl | ⟨k, hc⟩
    · rw [Relation.TransGen.head'_iff] at ht
      obtain ⟨c, ⟨k, _, hc⟩, hi⟩ := ht
      exact hnoself k c hc ((hleaf k c hc).reaches hi).symm
    · rw [Relation.TransGen.head'_iff] at ht
      obtain ⟨c, hc', _⟩ := ht
      exact (hleaf k i hc).no_uses hc'
  have hper : ∀ k c, (h.graph y).dterms k = some c → lib.isPermute (h.graph c).cls = false := by
    intro k c hc; rw [(hleaf k c hc).1]; rfl
  have hch : ChainOk lib h.graph y w := by
    refine ⟨hac, hper k w hkw, ?_, hdecl, ?_, ?_⟩
    · intro i hi
      rcases hreach i hi with rfl | ⟨k, hc⟩
      · rw [hy.dnames]; exact hy.nodup
      · rw [(hleaf k i hc).2.2]; exact List.nodup_nil
    · intro i k1 k2 p hi h1 _ hpw hr
      rcases hreach i hi with rfl | ⟨k, hc⟩
      · exact absurd ((hleaf k1 p h1).reaches hr).symm hpw
      · rw [(hleaf k i hc).2.1 k1] at h1; cases h1
    · intro i k1 p hi h1 hp
      rcases hreach i hi with rfl | ⟨k, hc⟩
      · rw [hper k1 p h1] at hp; cases hp
      · rw [(hleaf k i hc).2.1 k1] at h1; cases h1
  have hall : ∀ i, Reaches h.graph y i → i ≠ w → ExactlyFor h.graph w i := by
    intro i hi _
    rcases hreach i hi with rfl | ⟨k, hc⟩
    · exact hex
    · obtain ⟨x, hx⟩ := hkm k i hc
      exact ((hleaf k i hc).exactly hx).for w
  obtain ⟨f1, direct, hf1⟩ : ∃ f d, evalSliced lib h.graph f y w = .ok d := by
    obtain ⟨out', v', P', hm', hv', hE'⟩ := hex
    obtain ⟨f1, direct, hf1, _⟩ := sliced_total (by rw [hy.dnames]; exact hy.nodup) hm' hv' hE' hyw
      (fun a ha => by rw [GNode.kid, ha]; exact .refl) hvw
      (fun h => by rw [hper k w hkw] at h; cases h)
    exact ⟨f1, direct, hf1⟩
  have ht : TermsIs lib h.graph y w (h.graph y).dnames direct.toList direct.toList := by
    generalize (h.graph y).dnames = ks
    induction ks with
    | nil => exact .nil ..
    | cons k' ks ih =>
      cases hc : (h.graph y).dterms k' with
      | none => exact .unset hc ih
      | some p =>
        by_cases hpw : p = w
        · subst hpw; exact .wrt hc ih
        · refine .none hc hpw ?_ ih
          have hlp := hleaf k' p hc
          have hn : (h.graph p).namesOf w = [] := by unfold GNode.namesOf; rw [hlp.2.2]; rfl
          exact drIs (SlicedIs.none (compIs_none lib_localDr hpw hn) (hper k w hkw)) (by rw [hlp.2.2]; exact .nil ..) rfl
  have hs : ∃ r, sumD lib direct.toList = .ok r := by
    cases direct with
    | none => exact ⟨_, rfl⟩
    | some d => exact ⟨_, rfl⟩
  obtain ⟨r, hr'⟩ := hs
  have hdr := drIs ⟨f1, hf1⟩ ht hr'
  obtain ⟨vy, M, hJ, hM⟩ := jacobian hch hvw (fun i hi hiw => (hall i hi hiw).correct) hyw hdr
  have := hJ.valY.unique hm
  injection this with this
  subst this
  refine ⟨vw, M, hJ, ?_⟩
  obtain ⟨_, f₀, hf₀⟩ := hdr
  refine ⟨f₀, fun f hf => ⟨_, ?_, hM⟩⟩
  have e := evalDr_mono lib h.graph hf y w
  rw [Le, hf₀] at e
  have := (C02_derivative_never_stale_partial lib_propsOk lib_plainForm hr f y w hch.wrt).2.2
  rw [e (by simp)] at this
  exact this (by simp)

theorem right_of_exact {h : Heap ClassDef Par Arr Jac} (hr : Reach lib ⟨False, True⟩ h) {y : Id} {c : ClassDef} {ns : List Name}
    {kids : Fin ns.length → Id} (hy : IsA h.graph y c ns kids) {v : Fin ns.length → Arr} {out : Arr} {P : Fin ns.length → Ent}
    (hk : ∀ a, Means lib h.graph (.r (kids a)) (.ok (v a))) (hE : Exact c (h.graph y).terms ns v out P) : Right h y out := by
  have hm : Means lib h.graph (.r y) (.ok out) := means_of_isA hy hk hE.val
  refine ⟨read_of_means hr hm, ?_, fun hl k w hkw => (rightFor_of_exactOn hr hy hk (hE.on _ _)).deriv hl k hkw⟩
  have hE' : Exact (h.graph y).cls (h.graph y).terms ns v out P := by rw [hy.cls]; exact hE
  unfold Exactly
  rw [hy.links]
  exact ⟨out, v, P, hm, fun a => by rw [hy.kid_eq]; exact hk a, hE'⟩

/-! ## Classes with one or two children -/

theorem fin2 (j : Fin [nmA, nmB].length) : j = (0 : Fin 2) ∨ j = (1 : Fin 2) := by
  have := j.2
  simp only [List.length_cons, List.length_nil] at this
  have : j.1 = 0 ∨ j.1 = 1 := by omega
  rcases this with h | h
  · exact Or.inl (Fin.ext h)
  · exact Or.inr (Fin.ext h)

theorem kids2 {g : Graph ClassDef Par} {a b : Id} {u v : Arr} (hu : Means lib g (.r a) (.ok u)) (hv : Means lib g (.r b) (.ok v))
    (j : Fin [nmA, nmB].length) : Means lib g (.r ((![a, b] : Fin 2 → Id) j)) (.ok ((![u, v] : Fin 2 → Arr) j)) := by
  rcases fin2 j with rfl | rfl
  · exact hu
  · exact hv

theorem leaves2 {g : Graph ClassDef Par} {a b : Id} (hu : IsLeaf g a) (hv : IsLeaf g b) (j : Fin [nmA, nmB].length) :
    IsLeaf g ((![a, b] : Fin 2 → Id) j) := by
  rcases fin2 j with rfl | rfl
  · exact hu
  · exact hv

theorem env_two (u v : Arr) :
    envOf num [nmA, nmB] ![u, v] (fun a => num.fn ((![u, v] : Fin 2 → Arr) a).size ((![u, v] : Fin 2 → Arr) a)) = env2 u v := by
  rw [envOf_two (by decide)]
  show (fun k => if k = nmA then some (u.put (num.fn u.size u)) else if k = nmB then some (v.put (num.fn v.size v)) else Option.none) = _
  rw [put_fn, put_fn]; rfl

theorem env_one (u : Arr) : envOf num [nmA] (fun _ => u) (fun _ => num.fn u.size u) = env1 u := by
  rw [envOf_one]
  show (fun k => if k = nmA then some (u.put (num.fn u.size u)) else Option.none) = _
  rw [put_fn]; rfl

theorem namesOf_one {g : Graph ClassDef Par} {y a : Id} {c : ClassDef} (hy : IsA g y c [nmA] fun _ => a) : (g y).namesOf a = [nmA] := by
  have h0 : (g y).dterms nmA = some a := hy.kid (0 : Fin 1)
  simp [GNode.namesOf, hy.dnames, h0]

theorem namesOf_left {g : Graph ClassDef Par} {y a b : Id} {c : ClassDef} (hy : IsA g y c [nmA, nmB] ![a, b]) (hab : a ≠ b) :
    (g y).namesOf a = [nmA] := by
  have h0 : (g y).dterms nmA = some a := hy.kid (0 : Fin 2)
  have h1 : (g y).dterms nmB = some b := hy.kid (1 : Fin 2)
  simp [GNode.namesOf, hy.dnames, h0, h1, Ne.symm hab]

theorem namesOf_right {g : Graph ClassDef Par} {y a b : Id} {c : ClassDef} (hy : IsA g y c [nmA, nmB] ![a, b]) (hab : a ≠ b) :
    (g y).namesOf b = [nmB] := by
  have h0 : (g y).dterms nmA = some a := hy.kid (0 : Fin 2)
  have h1 : (g y).dterms nmB = some b := hy.kid (1 : Fin 2)
  simp [GNode.namesOf, hy.dnames, h0, h1, hab]

theorem namesOf_same {g : Graph ClassDef Par} {y a : Id} {c : ClassDef} (hy : IsA g y c [nmA, nmB] ![a, a]) :
    (g y).namesOf a = [nmA, nmB] := by
  have h0 : (g y).dterms nmA = some a := hy.kid (0 : Fin 2)
  have h1 : (g y).dterms nmB = some a := hy.kid (1 : Fin 2)
  simp [GNode.namesOf, hy.dnames, h0, h1]

/-- A unary object in an expression. -/
theorem isA_un {g : Graph ClassDef Par} {y a : Id} {c : ClassDef} (h : g y = (unO c a).node) : IsA g y c [nmA] fun _ => a := by
  refine ⟨by rw [h]; rfl, by rw [h]; rfl, by simp, ?_⟩
  intro j
  have : j = 0 := Fin.eq_zero j
  subst this; rw [h]; rfl

/-- A binary object in an expression. -/
theorem isA_bin {g : Graph ClassDef Par} {y a b : Id} {c : ClassDef} (h : g y = (binO c a b).node) : IsA g y c [nmA, nmB] ![a, b] := by
  refine ⟨by rw [h]; rfl, by rw [h]; rfl, by decide, ?_⟩
  intro j
  rcases fin2 j with rfl | rfl <;> (rw [h]; rfl)

theorem isLeaf_leafO {g : Graph ClassDef Par} {i : Id} {v : Arr} (h : g i = (leafO v).node) : IsLeaf g i := by
  refine ⟨by rw [h]; rfl, fun k => by rw [h]; rfl, by rw [h]; rfl⟩
end Chumpy
