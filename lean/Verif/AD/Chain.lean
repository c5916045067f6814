import Verif.AD.Num
import Verif.Core.Ops
import Verif.Core.Traverse
/-!
# The chain rule: what `dr_wrt` returns is the Fréchet derivative
-/
namespace Chumpy
open scoped BigOperators Topology
variable {C T V D : Type}

/-- The names of object `n` under which something is stored. -/
def GNode.links (n : GNode C T) : List Name := n.dnames.filter (fun k => (n.dterms k).isSome)

/-- The object stored under `k`. -/
def GNode.kid (n : GNode C T) (k : Name) : Id := (n.dterms k).getD 0

variable {s : Sig C T V D} (N : Num s)

/-- Children's values: the arrays `v`, with the entries `u`. -/
def envOf (ns : List Name) (v : Fin ns.length → V) (u : (a : Fin ns.length) → Fin (N.size (v a)) → ℝ) : Name → Option V :=
  fun k => ((List.finRange ns.length).find? (fun a => ns.get a = k)).map (fun a => N.put (v a) (u a))

/-- The points that differ from `u₀` only in the children `A`. -/
def Moving {m : ℕ} {X : Fin m → Type} (A : Fin m → Prop) (u₀ : (a : Fin m) → X a) : Set ((a : Fin m) → X a) :=
  {u | ∀ a, ¬ A a → u a = u₀ a}

/-- "Class `c` returns the true partial Jacobians" at the point where its parameters are `tm`, its children
(named `ns`) have the values `v`, and its value is `out`.  Only the children `A` are varied; `I` are the identities
of the children.  For some partial Jacobians `P`:
* near that point, `compute_r` returns a value of the same shape, whose entries are a function `F` of all
  the children's entries, and, as long as only children in `A` vary, `F` has the Fréchet derivative with partials `P`;
* `compute_dr_wrt`, asked about an object of value `x` stored under the names `S`, all in `A` and the same object, returns the sum of those
  partials (`None` only if that is zero). -/
structure TrueJacobians (c : C) (tm : Name → Option T) (ns : List Name) (v : Fin ns.length → V) (out : V)
    (A : Fin ns.length → Prop) (I : Fin ns.length → Id) (P : Fin ns.length → Ent) : Prop where
  body : ∃ F : ((a : Fin ns.length) → Fin (N.size (v a)) → ℝ) → Fin (N.size out) → ℝ,
    (∀ᶠ u in 𝓝[Moving A fun a => N.fn (N.size (v a)) (v a)] (fun a => N.fn (N.size (v a)) (v a)),
      Returns s c tm (envOf N ns v u) (N.put out (F u))) ∧
    HasFDerivWithinAt F (∑ a, (Ent.lin (N.size out) (N.size (v a)) (P a)).comp (ContinuousLinearMap.proj a))
      (Moving A fun a => N.fn (N.size (v a)) (v a)) (fun a => N.fn (N.size (v a)) (v a))
  dr : ∀ (S : List Name) (x : V) (d : Option D), S ≠ [] → S.Sublist ns → (∀ a, ns.get a ∈ S → v a = x ∧ A a) →
    (∀ a b, ns.get a ∈ S → ns.get b ∈ S → I a = I b) →
    ReturnsDr s c tm (envOf N ns v (fun a => N.fn (N.size (v a)) (v a))) out S d →
    N.RepO d (N.size out) (N.size x) (∑ a with ns.get a ∈ S, P a)

/-- `i` is used, directly or not, by `y`, or is `y`. -/
abbrev Reaches (g : Graph C T) (y i : Id) : Prop := Relation.ReflTransGen (Uses g) y i

/-- The class of object `i` returns the true partial Jacobians at the values `φ`, when only those children vary
that are `w` or depend on it. -/
def ObjOk (g : Graph C T) (w : Id) (φ : Id → V) (i : Id) : Prop :=
  ∃ P, TrueJacobians N (g i).cls (g i).terms (g i).links (fun a => φ ((g i).kid ((g i).links.get a))) (φ i)
    (fun a => Reaches g ((g i).kid ((g i).links.get a)) w) (fun a => (g i).kid ((g i).links.get a)) P

/-- The restrictions under which the chain rule of the code is right (each is needed, see the refutations):
* the graph is acyclic;
* `w` is not a slice;
* an object's names are distinct and nothing is stored under an undeclared one (always so);
* no object uses under two names an object depending on `w` (other than `w` itself);
* no class answers `None` about a child that is a slice. -/
structure ChainOk (s : Sig C T V D) (g : Graph C T) (y w : Id) : Prop where
  acyclic : ∀ i, Reaches g y i → ¬ Relation.TransGen (Uses g) i i
  wrt : s.isPermute (g w).cls = false
  nodup : ∀ i, Reaches g y i → (g i).dnames.Nodup
  decl : ∀ i k c, (g i).dterms k = some c → k ∈ (g i).dnames
  once : ∀ i k k' p, Reaches g y i → (g i).dterms k = some p → (g i).dterms k' = some p → p ≠ w → Reaches g p w → k = k'
  slice : ∀ i k p, Reaches g y i → (g i).dterms k = some p → s.isPermute (g p).cls = true →
    ∀ f, evalCompDr s g f i p ≠ .ok none

variable {N}

/-! ## Lists of Jacobian values -/

/-- The list stands for the sum `E`. -/
def SumRep (N : Num s) (l : List D) (m n : ℕ) (E : Ent) : Prop :=
  ∃ Es : List Ent, List.Forall₂ (fun d e => N.Rep d m n e) l Es ∧ Ent.EqOn m n Es.sum E

theorem SumRep.nil (m n : ℕ) : SumRep N [] m n 0 := ⟨[], .nil, Ent.EqOn.refl _⟩

theorem SumRep.congr {l : List D} {m n : ℕ} {E E' : Ent} (h : SumRep N l m n E) (he : Ent.EqOn m n E E') :
    SumRep N l m n E' := by
  obtain ⟨Es, h1, h2⟩ := h
  exact ⟨Es, h1, h2.trans he⟩

theorem SumRep.append {l : List D} {m n : ℕ} {E X : Ent} {x : D} (h : SumRep N l m n E) (hx : N.Rep x m n X) :
    SumRep N (l ++ [x]) m n (E + X) := by
  obtain ⟨Es, h1, h2⟩ := h
  refine ⟨Es ++ [X], List.rel_append h1 (.cons hx .nil), ?_⟩
  rw [List.sum_append]
  simpa using h2.add (Ent.EqOn.refl X)

theorem foldlM_rep {m n : ℕ} : ∀ (ds : List D) (Es : List Ent) (d x : D) (A : Ent), N.Rep d m n A →
    List.Forall₂ (fun d e => N.Rep d m n e) ds Es → ds.foldlM s.add d = .ok x → N.Rep x m n (A + Es.sum) := by
  intro ds
  induction ds with
  | nil =>
    intro Es d x A hd h hx
    cases h
    cases hx
    simpa using hd
  | cons e ds ih =>
    intro Es d x A hd h hx
    cases h with
    | cons he h =>
      rename_i E Es
      simp only [List.foldlM] at hx
      cases ha : s.add d e with
      | error err => rw [ha] at hx; cases hx
      | ok y =>
        rw [ha] at hx
        have := ih Es y x (A + E) (N.add hd he ha) h hx
        simpa [add_assoc] using this

theorem sumD_rep {m n : ℕ} {ds : List D} {E : Ent} {o : Option D} (h : SumRep N ds m n E) (ho : sumD s ds = .ok o) :
    N.RepO o m n E := by
  obtain ⟨Es, h1, h2⟩ := h
  cases h1 with
  | nil => cases ho; exact h2.symm
  | cons hd h =>
    rename_i d X ds Es
    simp only [sumD] at ho
    cases hf : ds.foldlM s.add d with
    | error e => rw [hf] at ho; cases ho
    | ok x =>
      rw [hf] at ho
      cases ho
      exact N.rep_congr (by simpa using h2) (foldlM_rep ds Es d x X hd h hf)

/-! ## Objects that do not depend on `w` -/

/-- An object that does not depend on `w` keeps its value when `w` changes. -/
theorem means_below {g g' : Graph C T} {p w : Id} {v : V} (hd : ∀ i k c, (g i).dterms k = some c → k ∈ (g i).dnames)
    (hg : ∀ i, i ≠ w → g' i = g i) (hp : ¬ Reaches g p w) (h : Means s g (.r p) (.ok v)) : Means s g' (.r p) (.ok v) := by
  have hanc : ∀ p, Anc g w p → Reaches g p w := by
    intro p h
    induction h with
    | refl => exact .refl
    | step k hk _ ih => exact .head ⟨k, hd _ _ _ hk, hk⟩ ih
  obtain ⟨h1, f, hf⟩ := h
  exact ⟨h1, f, by rw [(evalReq_off s (i := w) hg f p fun h => hp (hanc p h)).1]; exact hf⟩

theorem evalSliced_plain {g : Graph C T} {f : ℕ} {i w : Id} {o : Option D} (hw : s.isPermute (g w).cls = false)
    (h : evalSliced s g f i w = .ok o) : evalCompDr s g f i w = .ok o := by
  unfold evalSliced at h
  cases hc : evalCompDr s g f i w with
  | error e => rw [hc] at h; cases h
  | ok d =>
    rw [hc] at h
    cases d with
    | some d => exact h
    | none =>
      dsimp only at h
      cases f with
      | zero => simp [evalSlice] at h
      | succ f =>
        have : evalSlice s g (f + 1) i (f + 1) w = .ok none := by simp [evalSlice, hw]
        rw [this] at h; exact h

theorem evalTerms_nil {g : Graph C T} {f : ℕ} {i w : Id} {ev : Id → Except Err (Option D)}
    (hev : ∀ k p o, (g i).dterms k = some p → p ≠ w → ev p = .ok o → o = none) :
    ∀ (ks : List Name) (acc ds : List D), evalTerms s g f i w ev ks acc = .ok ds → ds = acc := by
  intro ks
  induction ks with
  | nil => intro acc ds h; cases h; rfl
  | cons k ks ih =>
    intro acc ds h
    simp only [evalTerms] at h
    cases hk : (g i).dterms k with
    | none => rw [hk] at h; exact ih _ _ h
    | some p =>
      rw [hk] at h; dsimp only at h
      by_cases hp : p = w
      · rw [if_pos hp] at h; exact ih _ _ h
      · rw [if_neg hp] at h
        cases he : ev p with
        | error e => rw [he] at h; cases h
        | ok o =>
          have := hev k p o hk hp he
          subst this
          rw [he] at h; exact ih _ _ h

theorem evalDr_none_of_not_reach (hl : s.LocalDr) {g : Graph C T} {w : Id} (hw : s.isPermute (g w).cls = false)
    (hd : ∀ i k c, (g i).dterms k = some c → k ∈ (g i).dnames) (f : ℕ) :
    ∀ i o, ¬ Reaches g i w → evalDr s g f i w = .ok o → o = none := by
  induction f with
  | zero => intro i o _ h; cases h
  | succ f ih =>
    intro i o hn h
    have hiw : i ≠ w := fun e => hn (e ▸ .refl)
    simp only [evalDr] at h
    cases hs : evalSliced s g f i w with
    | error e => rw [hs] at h; cases h
    | ok direct =>
      rw [hs] at h; dsimp only at h
      have hc := evalSliced_plain hw hs
      have hnm : (g i).namesOf w = [] := by
        rw [List.eq_nil_iff_forall_not_mem]
        intro k hk
        simp only [GNode.namesOf, List.mem_filter, decide_eq_true_eq] at hk
        exact hn (Relation.ReflTransGen.single ⟨k, hk.1, hk.2⟩)
      have hb : (i == w) = false := by simpa using hiw
      unfold evalCompDr at hc
      rw [hb, hnm, hl] at hc
      cases hc
      cases ht : evalTerms s g f i w (fun p => evalDr s g f p w) (g i).dnames (Option.toList (none : Option D)) with
      | error e => rw [ht] at h; cases h
      | ok ds =>
        have := evalTerms_nil (fun k p o hk hp he => ih p o
          (fun hr => hn (Relation.ReflTransGen.head ⟨k, hd i k p hk, hk⟩ hr)) he) _ _ _ ht
        subst this
        rw [ht] at h
        simp only [Option.toList, sumD] at h
        cases h; rfl

/-! ## One object -/

/-- The partial for a name. -/
noncomputable def partialOf {ns : List Name} (P : Fin ns.length → Ent) (k : Name) : Ent := ∑ a with ns.get a = k, P a

theorem partialOf_get {ns : List Name} (hn : ns.Nodup) (P : Fin ns.length → Ent) (a : Fin ns.length) :
    partialOf P (ns.get a) = P a := by
  unfold partialOf
  have : (Finset.univ.filter fun b => ns.get b = ns.get a) = {a} := by
    ext b; simp only [Finset.mem_filter, Finset.mem_univ, true_and, Finset.mem_singleton]
    exact ⟨fun h => (List.nodup_iff_injective_get.1 hn) h, fun h => h ▸ rfl⟩
  rw [this, Finset.sum_singleton]

theorem sum_links {ns : List Name} (G : Name → Ent) : (ns.map G).sum = ∑ a : Fin ns.length, G (ns.get a) := by
  rw [← List.sum_ofFn]
  congr 1
  conv_lhs => rw [← List.ofFn_get ns]
  rw [List.map_ofFn]
  rfl

theorem mem_links {n : GNode C T} (hd : ∀ k c, n.dterms k = some c → k ∈ n.dnames) {k : Name} :
    k ∈ n.links ↔ ∃ c, n.dterms k = some c := by
  simp only [GNode.links, List.mem_filter, Option.isSome_iff_exists]
  exact ⟨fun h => h.2, fun h => ⟨hd k h.choose h.choose_spec, h⟩⟩

theorem namesOf_sublist (n : GNode C T) (w : Id) : (n.namesOf w).Sublist n.links := by
  unfold GNode.namesOf GNode.links
  refine List.monotone_filter_right _ ?_
  intro k hk
  simp only [decide_eq_true_eq] at hk
  rw [hk]; rfl

theorem envOf_get {ns : List Name} (hn : ns.Nodup) (v : Fin ns.length → V) (u : (a : Fin ns.length) → Fin (N.size (v a)) → ℝ)
    (a : Fin ns.length) : envOf N ns v u (ns.get a) = some (N.put (v a) (u a)) := by
  have : (List.finRange ns.length).find? (fun b => ns.get b = ns.get a) = some a := by
    cases hf : (List.finRange ns.length).find? (fun b => decide (ns.get b = ns.get a)) with
    | none =>
      have := List.find?_eq_none.1 hf a (List.mem_finRange a)
      simp at this
    | some b =>
      have := List.find?_some hf
      simp only [decide_eq_true_eq] at this
      rw [(List.nodup_iff_injective_get.1 hn) this]
  unfold envOf; rw [this]; rfl

theorem envOf_not {ns : List Name} (v : Fin ns.length → V) (u : (a : Fin ns.length) → Fin (N.size (v a)) → ℝ)
    {k : Name} (hk : k ∉ ns) : envOf N ns v u k = none := by
  have : (List.finRange ns.length).find? (fun b => ns.get b = k) = none := by
    rw [List.find?_eq_none]
    intro b _ hb
    simp only [decide_eq_true_eq] at hb
    exact hk (hb ▸ List.get_mem ns b)
  unfold envOf; rw [this]; rfl

/-- The children's values, as `envOf`. -/
theorem envOf_kids {g : Graph C T} {i : Id} (hn : (g i).dnames.Nodup)
    (hd : ∀ k c, (g i).dterms k = some c → k ∈ (g i).dnames) (v : Fin (g i).links.length → V)
    (u : (a : Fin (g i).links.length) → Fin (N.size (v a)) → ℝ) (φ : Id → V)
    (h : ∀ a, φ ((g i).kid ((g i).links.get a)) = N.put (v a) (u a)) :
    envOf N (g i).links v u = kidVals g φ i := by
  funext k
  by_cases hk : k ∈ (g i).links
  · obtain ⟨a, rfl⟩ := List.get_of_mem hk
    obtain ⟨c, hc⟩ := (mem_links hd).1 hk
    have : (g i).kid ((g i).links.get a) = c := by rw [GNode.kid, hc]; rfl
    have hnl : (g i).links.Nodup := hn.filter _
    rw [envOf_get hnl, ← h a, kidVals, this, hc]; rfl
  · rw [envOf_not v u hk, kidVals]
    cases hc : (g i).dterms k with
    | none => rfl
    | some c => exact absurd ((mem_links hd).2 ⟨c, hc⟩) hk

/-- Multiplying a matrix with `o` from the right is multiplying it with `E`: `o` need not be the matrix `E` itself (the number 1 does for
the identity). -/
def Acts (N : Num s) (o : Option D) (m n : ℕ) (E : Ent) : Prop :=
  match o with
  | none => Ent.IsZero m n E
  | some e => ∀ d x l A, N.Rep d l m A → s.superdot d e = .ok x → N.Rep x l n (Ent.mul m A E)

theorem acts_of_repO {o : Option D} {m n : ℕ} {E : Ent} (h : N.RepO o m n E) : Acts N o m n E := by
  cases o with
  | none => exact h
  | some e => exact fun d x l A hd hx => N.superdot hd h hx

/-- The loop over the children adds up the products. -/
theorem evalTerms_acts {g : Graph C T} {f : ℕ} {i w : Id} {ev : Id → Except Err (Option D)} {m n : ℕ}
    (sz : Id → ℕ) (Pn : Name → Ent) (Dp : Id → Ent)
    (hev : ∀ k p o, (g i).dterms k = some p → p ≠ w → ev p = .ok o → Acts N o (sz p) n (Dp p))
    (hdr : ∀ k p d2 o, (g i).dterms k = some p → p ≠ w → ev p = .ok (some d2) → evalSliced s g f i p = .ok o →
      N.RepO o m (sz p) (Pn k)) :
    ∀ (ks : List Name) (acc ds : List D) (E : Ent), SumRep N acc m n E → evalTerms s g f i w ev ks acc = .ok ds →
      SumRep N ds m n (E + ((ks.filter fun k => ((g i).dterms k).isSome).map fun k =>
        if (g i).kid k = w then 0 else Ent.mul (sz ((g i).kid k)) (Pn k) (Dp ((g i).kid k))).sum) := by
  intro ks
  induction ks with
  | nil => intro acc ds E hE h; cases h; simpa using hE
  | cons k ks ih =>
    intro acc ds E hE h
    simp only [evalTerms] at h
    cases hk : (g i).dterms k with
    | none =>
      rw [hk] at h
      have := ih _ _ _ hE h
      rw [List.filter_cons]; simpa [hk] using this
    | some p =>
      have hkid : (g i).kid k = p := by simp [GNode.kid, hk]
      rw [hk] at h; dsimp only at h
      rw [List.filter_cons]
      simp only [hk, Option.isSome_some, if_true, List.map_cons, List.sum_cons, hkid]
      have skip : ∀ {X : Ent}, Ent.IsZero m n X → evalTerms s g f i w ev ks acc = .ok ds →
          SumRep N ds m n (E + (X + ((ks.filter fun k => ((g i).dterms k).isSome).map fun k =>
        if (g i).kid k = w then 0 else Ent.mul (sz ((g i).kid k)) (Pn k) (Dp ((g i).kid k))).sum)) := by
        intro X hX h
        refine (ih _ _ _ hE h).congr ?_
        refine (Ent.EqOn.refl E).add ?_
        intro a ha b hb
        have := hX a ha b hb
        simp only [Pi.zero_apply] at this
        simp [this]
      by_cases hp : p = w
      · rw [if_pos hp] at h
        rw [if_pos hp]
        exact skip (Ent.EqOn.refl 0) h
      · rw [if_neg hp] at h
        rw [if_neg hp]
        cases he : ev p with
        | error e => rw [he] at h; cases h
        | ok o =>
          rw [he] at h
          have h1 := hev k p o hk hp he
          cases o with
          | none =>
            refine skip ?_ h
            have := Ent.mul_congr (m := m) (Ent.EqOn.refl (Pn k)) (h1 : Ent.EqOn (sz p) n (Dp p) 0)
            rwa [Ent.mul_zero_right] at this
          | some d2 =>
            dsimp only at h
            cases hs : evalSliced s g f i p with
            | error e => rw [hs] at h; cases h
            | ok o2 =>
              have h2 := hdr k p d2 o2 hk hp he hs
              rw [hs] at h
              cases o2 with
              | none =>
                refine skip ?_ h
                have := Ent.mul_congr (n := sz p) (h2 : Ent.EqOn m (sz p) (Pn k) 0) (Ent.EqOn.refl (n := n) (Dp p))
                rwa [Ent.mul_zero_left] at this
              | some d =>
                dsimp only at h
                cases hx : s.superdot d d2 with
                | error e => rw [hx] at h; cases h
                | ok x =>
                  rw [hx] at h
                  have := ih _ _ _ (hE.append (h1 d x m (Pn k) h2 hx)) h
                  rwa [add_assoc] at this

theorem evalTerms_rep {g : Graph C T} {f : ℕ} {i w : Id} {ev : Id → Except Err (Option D)} {m n : ℕ}
    (sz : Id → ℕ) (Pn : Name → Ent) (Dp : Id → Ent)
    (hev : ∀ k p o, (g i).dterms k = some p → p ≠ w → ev p = .ok o → N.RepO o (sz p) n (Dp p))
    (hdr : ∀ k p d2 o, (g i).dterms k = some p → p ≠ w → ev p = .ok (some d2) → evalSliced s g f i p = .ok o →
      N.RepO o m (sz p) (Pn k)) :
    ∀ (ks : List Name) (acc ds : List D) (E : Ent), SumRep N acc m n E → evalTerms s g f i w ev ks acc = .ok ds →
      SumRep N ds m n (E + ((ks.filter fun k => ((g i).dterms k).isSome).map fun k =>
        if (g i).kid k = w then 0 else Ent.mul (sz ((g i).kid k)) (Pn k) (Dp ((g i).kid k))).sum) :=
  evalTerms_acts sz Pn Dp (fun k p o hk hp he => acts_of_repO (hev k p o hk hp he)) hdr

/-- If the loop ends normally, all the recursive calls did. -/
theorem evalTerms_link_ok {g : Graph C T} {f : ℕ} {i w : Id} {ev : Id → Except Err (Option D)} :
    ∀ {ks : List Name} {acc ds : List D}, evalTerms s g f i w ev ks acc = .ok ds →
      ∀ k ∈ ks, ∀ p, (g i).dterms k = some p → p ≠ w → ∃ o, ev p = .ok o := by
  intro ks
  induction ks with
  | nil => intro acc ds _ k hk; cases hk
  | cons k' ks ih =>
    intro acc ds h
    simp only [evalTerms] at h
    have rest : ∃ acc' , evalTerms s g f i w ev ks acc' = .ok ds ∧ ∀ p, (g i).dterms k' = some p → p ≠ w → ∃ o, ev p = .ok o := by
      cases hk : (g i).dterms k' with
      | none => rw [hk] at h; exact ⟨acc, h, fun p hp => by cases hp⟩
      | some p =>
        rw [hk] at h; dsimp only at h
        by_cases hp : p = w
        · rw [if_pos hp] at h; exact ⟨acc, h, fun q hq hqw => by cases hq; exact absurd hp hqw⟩
        · rw [if_neg hp] at h
          cases he : ev p with
          | error e => rw [he] at h; cases h
          | ok o =>
            have hex : ∀ q, some p = some q → q ≠ w → ∃ o, ev q = .ok o := fun q hq _ => by cases hq; exact ⟨o, he⟩
            rw [he] at h
            cases o with
            | none => exact ⟨acc, h, hex⟩
            | some d2 =>
              dsimp only at h
              cases hs : evalSliced s g f i p with
              | error e => rw [hs] at h; cases h
              | ok o2 =>
                rw [hs] at h
                cases o2 with
                | none => exact ⟨acc, h, hex⟩
                | some d =>
                  dsimp only at h
                  cases hx : s.superdot d d2 with
                  | error e => rw [hx] at h; cases h
                  | ok x => rw [hx] at h; exact ⟨_, h, hex⟩
    obtain ⟨acc', h', hex⟩ := rest
    intro k hk
    rcases List.mem_cons.1 hk with rfl | hk
    · exact hex
    · exact ih h' k hk

/-! ## All objects -/

/-- What is proved about an object `i` with derivative `o`. -/
def DerivOk (N : Num s) {n : ℕ} (G : (Fin n → ℝ) → Graph C T) (φ : (Fin n → ℝ) → Id → V) (t₀ : Fin n → ℝ) (i : Id) (o : Option D) : Prop :=
  ∃ M, N.RepO o (N.size (φ t₀ i)) n M ∧
    HasFDerivAt (fun t => N.fn (N.size (φ t₀ i)) (φ t i)) (Ent.lin (N.size (φ t₀ i)) n M) t₀ ∧
    ∀ᶠ t in 𝓝 t₀, φ t i = N.put (φ t₀ i) (N.fn _ (φ t i)) ∧ Means s (G t) (.r i) (.ok (φ t i))

theorem uses_of_link {g : Graph C T} (hd : ∀ i k c, (g i).dterms k = some c → k ∈ (g i).dnames) {i : Id} {k : Name} {c : Id}
    (h : (g i).dterms k = some c) : Uses g i c := ⟨k, hd i k c h, h⟩

/-- What is known of a child `p` with derivative `o`: as `DerivOk`, but `o` need only act as the derivative. -/
def DerivActs (N : Num s) {n : ℕ} (G : (Fin n → ℝ) → Graph C T) (φ : (Fin n → ℝ) → Id → V) (t₀ : Fin n → ℝ) (i : Id) (o : Option D) : Prop :=
  ∃ M, Acts N o (N.size (φ t₀ i)) n M ∧
    HasFDerivAt (fun t => N.fn (N.size (φ t₀ i)) (φ t i)) (Ent.lin (N.size (φ t₀ i)) n M) t₀ ∧
    ∀ᶠ t in 𝓝 t₀, φ t i = N.put (φ t₀ i) (N.fn _ (φ t i)) ∧ Means s (G t) (.r i) (.ok (φ t i))

/-- One object.  `G t` is the graph with `w` given the entries `t`, `φ t i` the value of `i` there. -/
theorem chain_step (hl : s.LocalDr) {g : Graph C T} {i w : Id} {f n : ℕ}
    (hwrt : s.isPermute (g w).cls = false) (hnodup : (g i).dnames.Nodup)
    (hdecl : ∀ i k c, (g i).dterms k = some c → k ∈ (g i).dnames) (hirr : ∀ k, (g i).dterms k ≠ some i)
    (honce : ∀ k k' p, (g i).dterms k = some p → (g i).dterms k' = some p → p ≠ w → Reaches g p w → k = k')
    (hslice : ∀ k p, (g i).dterms k = some p → s.isPermute (g p).cls = true → ∀ f, evalCompDr s g f i p ≠ .ok none)
    {φ : (Fin n → ℝ) → Id → V} {t₀ : Fin n → ℝ} (hw1 : N.size (φ t₀ w) = n) (hw2 : ∀ t, N.fn n (φ t w) = t)
    (hw3 : ∀ t, φ t w = N.put (φ t₀ w) (N.fn _ (φ t w)))
    {G : (Fin n → ℝ) → Graph C T} (hG : ∀ t i, i ≠ w → G t i = g i) (hGw : ∀ t, Means s (G t) (.r w) (.ok (φ t w)))
    (hφ : ∀ t i v, Means s (G t) (.r i) (.ok v) → φ t i = v)
    (hself : Means s g (.r i) (.ok (φ t₀ i))) (hm : ∀ k c, (g i).dterms k = some c → Means s g (.r c) (.ok (φ t₀ c)))
    (hob : ObjOk N g w (φ t₀) i)
    (ih : ∀ k p o, (g i).dterms k = some p → p ≠ w → evalDr s g f p w = .ok o → DerivActs N G φ t₀ p o)
    {o : Option D} (hiw : i ≠ w) (h : evalDr s g (f + 1) i w = .ok o) : DerivOk N G φ t₀ i o := by
  obtain ⟨P, hP⟩ := hob
  obtain ⟨F, hF1, hF2⟩ := hP.body
  have hnd : (g i).links.Nodup := hnodup.filter _
  -- the pieces of the evaluation
  simp only [evalDr] at h
  cases hs : evalSliced s g f i w with
  | error e => rw [hs] at h; cases h
  | ok direct =>
  rw [hs] at h; dsimp only at h
  cases ht : evalTerms s g f i w (fun p => evalDr s g f p w) (g i).dnames direct.toList with
  | error e => rw [ht] at h; cases h
  | ok ds =>
  rw [ht] at h; dsimp only at h
  cases hsum : sumD s ds with
  | error e => rw [hsum] at h; cases h
  | ok r =>
  rw [hsum] at h
  cases h
  let sz : Id → ℕ := fun p => N.size (φ t₀ p)
  have hkid : ∀ a : Fin (g i).links.length, (g i).dterms ((g i).links.get a) = some ((g i).kid ((g i).links.get a)) := by
    intro a
    obtain ⟨c, hc'⟩ := (mem_links (hdecl i)).1 (List.get_mem (g i).links a)
    rw [GNode.kid, hc']; rfl
  have hkids : ∀ k c, (g i).dterms k = some c → Means s g (.r c) (.ok (φ t₀ c)) :=
    fun k c hk => hm k c hk
  have hszw : sz w = n := hw1
  -- the children's derivatives
  let Q : Id → Ent → Prop := fun p M => (∃ o, evalDr s g f p w = .ok o ∧ Acts N o (sz p) n M) ∧
    HasFDerivAt (fun t => N.fn (sz p) (φ t p)) (Ent.lin (sz p) n M) t₀ ∧
    ∀ᶠ t in 𝓝 t₀, φ t p = N.put (φ t₀ p) (N.fn _ (φ t p)) ∧ Means s (G t) (.r p) (.ok (φ t p))
  have hQ : ∀ k p, (g i).dterms k = some p → p ≠ w → ∃ M, Q p M := by
    intro k p hk hp
    obtain ⟨o, ho⟩ := evalTerms_link_ok ht k (hdecl i k p hk) p hk hp
    obtain ⟨M, h1, h2, h3⟩ := ih k p o hk hp ho
    exact ⟨M, ⟨o, ho, h1⟩, h2, h3⟩
  classical
  let Dp : Id → Ent := fun p => if h : ∃ M, Q p M then h.choose else 0
  have hDp : ∀ k p, (g i).dterms k = some p → p ≠ w → Q p (Dp p) := by
    intro k p hk hp
    have h := hQ k p hk hp
    simp only [Dp, dif_pos h]
    exact h.choose_spec
  let Ma : Fin (g i).links.length → Ent := fun a => if (g i).kid ((g i).links.get a) = w then Ent.one
    else Dp ((g i).kid ((g i).links.get a))
  have hMa : ∀ a, HasFDerivAt (fun t => N.fn (sz ((g i).kid ((g i).links.get a))) (φ t ((g i).kid ((g i).links.get a))))
      (Ent.lin (sz ((g i).kid ((g i).links.get a))) n (Ma a)) t₀ ∧
      ∀ᶠ t in 𝓝 t₀, φ t ((g i).kid ((g i).links.get a)) =
        N.put (φ t₀ ((g i).kid ((g i).links.get a))) (N.fn _ (φ t ((g i).kid ((g i).links.get a)))) ∧
        Means s (G t) (.r ((g i).kid ((g i).links.get a))) (.ok (φ t ((g i).kid ((g i).links.get a)))) := by
    intro a
    by_cases hw : (g i).kid ((g i).links.get a) = w
    · simp only [Ma, if_pos hw]
      rw [hw]
      constructor
      · have : (fun t => N.fn (sz w) (φ t w)) = fun t => Ent.lin (sz w) n Ent.one t := by
          funext t k
          have hk : (k : ℕ) < n := hszw ▸ k.2
          rw [Ent.lin_apply]
          have : N.fn (sz w) (φ t w) k = t ⟨k, hk⟩ := congrFun (hw2 t) ⟨k, hk⟩
          rw [this]
          simp only [Ent.one, ite_mul, one_mul, zero_mul]
          rw [Finset.sum_eq_single ⟨k, hk⟩]
          · simp
          · intro b _ hb
            rw [if_neg]
            intro e
            exact hb (Fin.ext e.symm)
          · simp
        rw [this]
        exact (Ent.lin (sz w) n Ent.one).hasFDerivAt
      · exact Filter.Eventually.of_forall fun t => ⟨hw3 t, hGw t⟩
    · simp only [Ma, if_neg hw]
      exact (hDp _ _ (hkid a) hw).2
  -- the function
  let U : (Fin n → ℝ) → (a : Fin (g i).links.length) → Fin (sz ((g i).kid ((g i).links.get a))) → ℝ :=
    fun t a => N.fn _ (φ t ((g i).kid ((g i).links.get a)))
  have hU : HasFDerivAt U (ContinuousLinearMap.pi fun a => Ent.lin (sz ((g i).kid ((g i).links.get a))) n (Ma a)) t₀ :=
    hasFDerivAt_pi.2 fun a => (hMa a).1
  have hstill : ∀ t, U t ∈ Moving (fun a => Reaches g ((g i).kid ((g i).links.get a)) w) (U t₀) := by
    intro t a ha
    have h0 := hm _ _ (hkid a)
    have hv := hφ t _ _ (means_below hdecl (hG t) ha h0)
    show N.fn _ (φ t _) = N.fn _ (φ t₀ _)
    rw [hv]
  have hcomp := HasFDerivWithinAt.comp_hasFDerivAt (f := U) t₀ hF2 hU (Filter.Eventually.of_forall hstill)
  have hval : ∀ᶠ t in 𝓝 t₀, φ t i = N.put (φ t₀ i) (F (U t)) ∧ Means s (G t) (.r i) (.ok (N.put (φ t₀ i) (F (U t)))) := by
    have h1 := (tendsto_nhdsWithin_iff.2 ⟨hU.continuousAt, Filter.Eventually.of_forall hstill⟩).eventually hF1
    have h2 : ∀ᶠ t in 𝓝 t₀, ∀ a, φ t ((g i).kid ((g i).links.get a)) =
        N.put (φ t₀ ((g i).kid ((g i).links.get a))) (U t a) ∧
        Means s (G t) (.r ((g i).kid ((g i).links.get a))) (.ok (φ t ((g i).kid ((g i).links.get a)))) :=
      Filter.eventually_all.2 fun a => (hMa a).2
    filter_upwards [h1, h2] with t h1 h2
    have he := envOf_kids hnodup (hdecl i) (fun a => φ t₀ ((g i).kid ((g i).links.get a))) (U t) (φ t) (fun a => (h2 a).1)
    rw [he] at h1
    have hmi : Means s (G t) (.r i) (.ok (N.put (φ t₀ i) (F (U t)))) := by
      refine means_of_returns (ρ := kidVals g (φ t) i) ?_ ?_
      · intro k v hv
        rw [hG t i hiw]
        simp only [kidVals, Option.map_eq_some_iff] at hv
        obtain ⟨c, hc1, rfl⟩ := hv
        refine ⟨c, hc1, ?_⟩
        have hmem : k ∈ (g i).links := (mem_links (hdecl i)).2 ⟨c, hc1⟩
        obtain ⟨a, ha⟩ := List.get_of_mem hmem
        have := (h2 a).2
        rw [ha] at this
        have hkc : (g i).kid k = c := by rw [GNode.kid, hc1]; rfl
        rw [hkc] at this; exact this
      · rw [hG t i hiw]; exact h1
    exact ⟨hφ t i _ hmi, hmi⟩
  have hfn : (fun t => N.fn (sz i) (φ t i)) =ᶠ[𝓝 t₀] (F ∘ U) := by
    filter_upwards [hval] with t ⟨ht, _⟩
    rw [ht]; exact N.fn_put _ _
  refine ⟨∑ a, Ent.mul (sz ((g i).kid ((g i).links.get a))) (P a) (Ma a), ?_, ?_, ?_⟩
  · -- the number
    have hself := hself
    have henv := envOf_kids (N := N) hnodup (hdecl i) (fun a => φ t₀ ((g i).kid ((g i).links.get a)))
      (fun a => N.fn _ (φ t₀ ((g i).kid ((g i).links.get a)))) (φ t₀) (fun a => (N.put_self _).symm)
    have hdirect : N.RepO direct (sz i) n (∑ a, if (g i).kid ((g i).links.get a) = w then P a else 0) := by
      have h1 := evalSliced_plain hwrt hs
      have hS : ∀ a, (g i).links.get a ∈ (g i).namesOf w ↔ (g i).kid ((g i).links.get a) = w := by
        intro a
        simp only [GNode.namesOf, List.mem_filter, decide_eq_true_eq]
        rw [hkid a]
        simp only [Option.some.injEq]
        exact ⟨fun h => h.2, fun h => ⟨hdecl i _ _ (hkid a), h⟩⟩
      by_cases hnil : (g i).namesOf w = []
      · have hb : (i == w) = false := by simpa using hiw
        unfold evalCompDr at h1
        rw [hb, hnil, hl] at h1
        cases h1
        rw [Finset.sum_eq_zero]
        · exact Ent.EqOn.refl 0
        · intro a _
          rw [if_neg]
          intro e
          have := (hS a).2 e
          rw [hnil] at this; cases this
      · have h2 := returnsDr_of_eval hiw hkids hself h1
        rw [← henv] at h2
        have h3 := hP.dr _ (φ t₀ w) direct hnil ?_ ?_ ?_ h2
        · rw [hw1] at h3
          rw [Finset.sum_filter] at h3
          simpa only [hS] using h3
        · exact namesOf_sublist _ _
        · intro a ha
          show φ t₀ ((g i).kid ((g i).links.get a)) = φ t₀ w ∧ Reaches g ((g i).kid ((g i).links.get a)) w
          rw [(hS a).1 ha]
          exact ⟨rfl, .refl⟩
        · intro a b ha hb
          exact ((hS a).1 ha).trans ((hS b).1 hb).symm
    have hsr : SumRep N direct.toList (sz i) n (∑ a, if (g i).kid ((g i).links.get a) = w then P a else 0) := by
      cases direct with
      | none => exact (SumRep.nil (sz i) n).congr hdirect.symm
      | some d => simpa using (SumRep.nil (sz i) n).append hdirect
    have hall := evalTerms_acts (N := N) sz (partialOf P) Dp
      (fun k p o hk hp he => by
        obtain ⟨o', ho', hrep⟩ := (hDp k p hk hp).1
        rw [he] at ho'; cases ho'; exact hrep)
      (fun k p d2 o hk hp he hso => by
        have hreach : Reaches g p w := by
          by_contra hcon
          have := evalDr_none_of_not_reach hl hwrt hdecl f p _ hcon he
          cases this
        have hcd : evalCompDr s g f i p = .ok o := by
          cases hperm : s.isPermute (g p).cls with
          | false => exact evalSliced_plain hperm hso
          | true =>
            have hne := hslice k p hk hperm f
            unfold evalSliced at hso
            cases hcd : evalCompDr s g f i p with
            | error e => rw [hcd] at hso; cases hso
            | ok o' =>
              rw [hcd] at hso hne
              cases o' with
              | none => exact absurd rfl hne
              | some d => exact hso
        have hip : i ≠ p := by
          rintro rfl
          exact hirr k hk
        have h2 := returnsDr_of_eval hip hkids hself hcd
        rw [← henv] at h2
        have hkl : k ∈ (g i).namesOf p := by
          simp only [GNode.namesOf, List.mem_filter, decide_eq_true_eq]
          exact ⟨hdecl i k p hk, hk⟩
        have hS : ∀ a, (g i).links.get a ∈ (g i).namesOf p ↔ (g i).links.get a = k := by
          intro a
          constructor
          · intro ha
            simp only [GNode.namesOf, List.mem_filter, decide_eq_true_eq] at ha
            exact honce _ _ p ha.2 hk hp hreach
          · intro ha; rw [ha]; exact hkl
        have h3 := hP.dr _ (φ t₀ p) o (List.ne_nil_of_mem hkl) ?_ ?_ ?_ h2
        · unfold partialOf
          simpa only [hS] using h3
        · exact namesOf_sublist _ _
        · intro a ha
          have := (hS a).1 ha
          show φ t₀ ((g i).kid ((g i).links.get a)) = φ t₀ p ∧ Reaches g ((g i).kid ((g i).links.get a)) w
          have : (g i).kid ((g i).links.get a) = p := by rw [this, GNode.kid, hk]; rfl
          rw [this]
          exact ⟨rfl, hreach⟩
        · intro a b ha hb
          show (g i).kid ((g i).links.get a) = (g i).kid ((g i).links.get b)
          rw [(hS a).1 ha, (hS b).1 hb])
      (g i).dnames direct.toList ds _ hsr ht
    have hrep := sumD_rep hall hsum
    have hfin : N.RepO r (sz i) n (∑ a, Ent.mul (sz ((g i).kid ((g i).links.get a))) (P a) (Ma a)) := by
      refine N.repO_congr ?_ hrep
      have e1 : ((List.filter (fun k => ((g i).dterms k).isSome) (g i).dnames).map fun k =>
          if (g i).kid k = w then 0 else Ent.mul (sz ((g i).kid k)) (partialOf P k) (Dp ((g i).kid k))).sum
          = ∑ a : Fin (g i).links.length, if (g i).kid ((g i).links.get a) = w then 0 else
            Ent.mul (sz ((g i).kid ((g i).links.get a))) (P a) (Dp ((g i).kid ((g i).links.get a))) := by
        rw [show List.filter (fun k => ((g i).dterms k).isSome) (g i).dnames = (g i).links from rfl, sum_links]
        refine Finset.sum_congr rfl fun a _ => ?_
        rw [partialOf_get hnd]
      rw [e1, ← Finset.sum_add_distrib]
      intro x hx z hz
      simp only [Finset.sum_apply]
      refine Finset.sum_congr rfl fun a _ => ?_
      by_cases hw : (g i).kid ((g i).links.get a) = w
      · simp only [Ma, hw, if_true, hszw, Pi.add_apply, Pi.zero_apply, add_zero]
        exact ((Ent.mul_one (m := sz i) (n := n) (P a)) x hx z hz).symm
      · simp only [Ma, if_neg hw, Pi.add_apply, Pi.zero_apply, zero_add]
    cases r with
    | none => exact hfin
    | some d => exact N.outForm _ _ (N.finish hfin)
  · refine HasFDerivAt.congr_of_eventuallyEq (hcomp.congr_fderiv ?_) hfn
    rw [Ent.lin_sum]
    ext x j
    simp only [ContinuousLinearMap.comp_apply, Ent.lin_mul, sum_apply]
    rfl
  · filter_upwards [hval] with t ⟨ht, htm⟩
    rw [ht, N.fn_put]
    exact ⟨rfl, htm⟩

/-- The induction behind `C18_jacobian_partial`.  `G t` is the graph with `w` given the entries `t`, `φ t i` the value
of `i` there. -/
theorem chain_rule (hl : s.LocalDr) {g : Graph C T} {y w : Id} (hc : ChainOk s g y w) {n : ℕ}
    {φ : (Fin n → ℝ) → Id → V} {t₀ : Fin n → ℝ} (hw1 : N.size (φ t₀ w) = n) (hw2 : ∀ t, N.fn n (φ t w) = t)
    (hw3 : ∀ t, φ t w = N.put (φ t₀ w) (N.fn _ (φ t w)))
    {G : (Fin n → ℝ) → Graph C T} (hG : ∀ t i, i ≠ w → G t i = g i) (hGw : ∀ t, Means s (G t) (.r w) (.ok (φ t w)))
    (hφ : ∀ t i v, Means s (G t) (.r i) (.ok v) → φ t i = v)
    (hm : ∀ i, Reaches g y i → Means s g (.r i) (.ok (φ t₀ i)))
    (hob : ∀ i, Reaches g y i → i ≠ w → ObjOk N g w (φ t₀) i) (f : ℕ) :
    ∀ i o, Reaches g y i → i ≠ w → evalDr s g f i w = .ok o → DerivOk N G φ t₀ i o := by
  induction f with
  | zero => intro i o _ _ h; cases h
  | succ f ih =>
    intro i o hr hiw h
    refine chain_step hl hc.wrt (hc.nodup i hr) hc.decl ?_ ?_ ?_ hw1 hw2 hw3 hG hGw hφ (hm i hr)
      (fun k c hk => hm c (hr.tail (uses_of_link hc.decl hk))) (hob i hr hiw) ?_ hiw h
    · exact fun k hk => hc.acyclic i hr (.single (uses_of_link hc.decl hk))
    · exact fun k k' p => hc.once i k k' p hr
    · exact fun k p => hc.slice i k p hr
    · intro k p o hk hp ho
      obtain ⟨M, h1, h2⟩ := ih p o (hr.tail (uses_of_link hc.decl hk)) hp ho
      exact ⟨M, acts_of_repO h1, h2⟩

end Chumpy
