import Verif.AD.Graph
/-!
# `dr_wrt` does not raise
-/
namespace Chumpy
open scoped BigOperators Topology

/-- The class of object `i` is exact at the present values: it does not raise, and it returns the true partial
Jacobians. -/
def Exactly (g : Graph ClassDef Par) (i : Id) : Prop :=
  ∃ out v P, Means lib g (.r i) (.ok out) ∧ (∀ a, Means lib g (.r ((g i).kid ((g i).links.get a))) (.ok (v a))) ∧
    Exact (g i).cls (g i).terms (g i).links v out P

/-- The same, when only those children vary that are `w` or depend on it. -/
def ExactlyFor (g : Graph ClassDef Par) (w i : Id) : Prop :=
  ∃ out v P, Means lib g (.r i) (.ok out) ∧ (∀ a, Means lib g (.r ((g i).kid ((g i).links.get a))) (.ok (v a))) ∧
    ExactOn (g i).cls (g i).terms (g i).links v out (fun a => Reaches g ((g i).kid ((g i).links.get a)) w) (fun a => (g i).kid ((g i).links.get a)) P

theorem Exactly.for {g : Graph ClassDef Par} {i : Id} (h : Exactly g i) (w : Id) : ExactlyFor g w i := by
  obtain ⟨out, v, P, h1, h2, h3⟩ := h
  exact ⟨out, v, P, h1, h2, h3.on _ _⟩

theorem ExactlyFor.correct {g : Graph ClassDef Par} {w i : Id} (h : ExactlyFor g w i) : Correct g w i := by
  obtain ⟨out, v, P, h1, h2, h3⟩ := h
  exact ⟨out, v, P, h1, h2, h3.trueJacobians⟩

theorem Exactly.correct {g : Graph ClassDef Par} {i : Id} (h : Exactly g i) (w : Id) : Correct g w i := (h.for w).correct

theorem ChainOk.sub {C T V D : Type} {s : Sig C T V D} {g : Graph C T} {y p w : Id} (hc : ChainOk s g y w) (hp : Reaches g y p) :
    ChainOk s g p w where
  acyclic := fun i hi => hc.acyclic i (hp.trans hi)
  wrt := hc.wrt
  nodup := fun i hi => hc.nodup i (hp.trans hi)
  decl := hc.decl
  once := fun i k k' q hi => hc.once i k k' q (hp.trans hi)
  slice := fun i k q hi => hc.slice i k q (hp.trans hi)

namespace Jac
theorem add_total {d e : Jac} {m n : ℕ} {A B : Ent} (hn : ¬ (m = 1 ∧ n = 1)) (hd : Rep d m n A) (he : Rep e m n B) : ∃ x, add d e = .ok x := by
  cases d with
  | num c => exact absurd ⟨hd.1, hd.2.1⟩ hn
  | dense m1 n1 e1 =>
    obtain ⟨rfl, rfl, _⟩ := hd
    cases e with
    | num c => exact absurd ⟨he.1, he.2.1⟩ hn
    | dense m2 n2 e2 => obtain ⟨rfl, rfl, _⟩ := he; simp [add, bdim]
    | sparse m2 n2 e2 => obtain ⟨rfl, rfl, _⟩ := he; simp [add]
  | sparse m1 n1 e1 =>
    obtain ⟨rfl, rfl, _⟩ := hd
    cases e with
    | num c => exact absurd ⟨he.1, he.2.1⟩ hn
    | dense m2 n2 e2 => obtain ⟨rfl, rfl, _⟩ := he; simp [add]
    | sparse m2 n2 e2 => obtain ⟨rfl, rfl, _⟩ := he; simp [add]
end Jac

theorem foldlM_total {m n : ℕ} (hn : ¬ (m = 1 ∧ n = 1)) : ∀ (ds : List Jac) (d : Jac), (∃ A, Jac.Rep d m n A) →
    (∀ e ∈ ds, ∃ A, Jac.Rep e m n A) → ∃ x, ds.foldlM lib.add d = .ok x := by
  intro ds
  induction ds with
  | nil => intro d _ _; exact ⟨d, rfl⟩
  | cons e ds ih =>
    intro d ⟨A, hA⟩ h
    obtain ⟨B, hB⟩ := h e (by simp)
    obtain ⟨x, hx⟩ := Jac.add_total hn hA hB
    obtain ⟨z, hz⟩ := ih x ⟨_, Jac.add_rep hA hB hx⟩ (fun e' he => h e' (by simp [he]))
    refine ⟨z, ?_⟩
    simp only [List.foldlM]
    rw [hx]
    exact hz

theorem sumD_total_of {m n : ℕ} (hn : ¬ (m = 1 ∧ n = 1)) {ds : List Jac} (h : ∀ e ∈ ds, ∃ A, Jac.Rep e m n A) : ∃ o, sumD lib ds = .ok o := by
  cases ds with
  | nil => exact ⟨none, rfl⟩
  | cons d ds =>
    obtain ⟨x, hx⟩ := foldlM_total hn ds d (h d (by simp)) (fun e he => h e (by simp [he]))
    exact ⟨some x, by simp only [sumD]; rw [hx]; rfl⟩

theorem sumD_total {m n : ℕ} (hn : n ≠ 1) {ds : List Jac} (h : ∀ e ∈ ds, ∃ A, Jac.Rep e m n A) : ∃ o, sumD lib ds = .ok o :=
  sumD_total_of (fun h => hn h.2) h

namespace Jac
/-- Not a scipy sparse matrix. -/
def NotSparse (d : Jac) : Prop := ∀ a b E, d ≠ .sparse a b E

theorem add_dense_total {d e : Jac} {m n : ℕ} {A B : Ent} (hd : Rep d m n A) (he : Rep e m n B)
    (hd' : ∀ a b E, d ≠ .sparse a b E) (he' : ∀ a b E, e ≠ .sparse a b E) :
    ∃ x, add d e = .ok x ∧ Rep x m n (A + B) ∧ ∀ a b E, x ≠ .sparse a b E := by
  cases d with
  | sparse a b E => exact absurd rfl (hd' a b E)
  | num c =>
    cases e with
    | sparse a b E => exact absurd rfl (he' a b E)
    | num c' => exact ⟨_, rfl, add_rep hd he rfl, by simp⟩
    | dense m' n' e' => exact ⟨_, rfl, add_rep hd he rfl, by simp⟩
  | dense m1 n1 e1 =>
    cases e with
    | sparse a b E => exact absurd rfl (he' a b E)
    | num c' => exact ⟨_, rfl, add_rep hd he rfl, by simp⟩
    | dense m' n' e' =>
      have h1 := hd; have h2 := he
      obtain ⟨rfl, rfl, _⟩ := hd
      obtain ⟨rfl, rfl, _⟩ := he
      exact ⟨.dense m' n' fun i j => e1 (bpos m' i) (bpos n' j) + e' (bpos m' i) (bpos n' j), by simp [add, bdim],
        add_rep h1 h2 (by simp [add, bdim]), by simp⟩

theorem NotSparse.superdot {d e x : Jac} (hd : d.NotSparse) (he : e.NotSparse) (hx : Jac.superdot d e = .ok x) : x.NotSparse := by
  have hu : ∀ {d : Jac}, d.NotSparse → d.unwrap.NotSparse := by
    intro d h a b E
    unfold unwrap
    split
    · simp
    · exact h a b E
  have hd := hu hd
  have he := hu he
  unfold Jac.superdot at hx
  generalize d.unwrap = d at *
  generalize e.unwrap = e at *
  cases d with
  | sparse a b E => exact absurd rfl (hd a b E)
  | num c =>
    cases e with
    | sparse a b E => exact absurd rfl (he a b E)
    | num c' => cases hx; intro a b E; simp [scale]
    | dense m n e => cases hx; intro a b E; simp [scale]
  | dense m n e1 =>
    cases e with
    | sparse a b E => exact absurd rfl (he a b E)
    | num c' => cases hx; intro a b E; simp [scale]
    | dense m' n' e =>
      simp only [matdot] at hx
      split at hx
      · cases hx; intro a b E; simp
      · cases hx
end Jac

theorem sumD_notSparse {m k : ℕ} {ds : List Jac} (h : ∀ e ∈ ds, ∃ A, Jac.Rep e m k A) (hn : ∀ e ∈ ds, e.NotSparse) :
    ∃ o, sumD lib ds = .ok o ∧ ∀ d, o = some d → d.NotSparse := by
  have key : ∀ (ds : List Jac) (d : Jac), (∃ A, Jac.Rep d m k A) → d.NotSparse → (∀ e ∈ ds, ∃ A, Jac.Rep e m k A) → (∀ e ∈ ds, e.NotSparse) →
      ∃ x, ds.foldlM lib.add d = .ok x ∧ x.NotSparse := by
    intro ds
    induction ds with
    | nil => intro d _ h _ _; exact ⟨d, rfl, h⟩
    | cons e ds ih =>
      intro d ⟨A, hA⟩ hs h hn
      obtain ⟨B, hB⟩ := h e (by simp)
      obtain ⟨x, hx, hxr, hxs⟩ := Jac.add_dense_total hA hB hs (hn e (by simp))
      obtain ⟨z, hz, hzr⟩ := ih x ⟨_, hxr⟩ hxs (fun e' he => h e' (by simp [he])) (fun e' he => hn e' (by simp [he]))
      refine ⟨z, ?_, hzr⟩
      simp only [List.foldlM]
      rw [hx]
      exact hz
  cases ds with
  | nil => exact ⟨none, rfl, fun d h => by cases h⟩
  | cons d ds =>
    obtain ⟨x, hx, hr⟩ := key ds d (h d (by simp)) (hn d (by simp)) (fun e he => h e (by simp [he])) (fun e he => hn e (by simp [he]))
    refine ⟨some x, ?_, fun d h => by cases h; exact hr⟩
    simp only [sumD]
    rw [hx]; rfl

theorem sumD_short {ds : List Jac} (h : ds.length ≤ 1) : ∃ o, sumD lib ds = .ok o := by
  match ds, h with
  | [], _ => exact ⟨none, rfl⟩
  | [d], _ => exact ⟨some d, rfl⟩
  | _ :: _ :: _, h => simp at h

section
variable {g : Graph ClassDef Par} {y w : Id} {vw : Arr}

theorem compDr_total {out : Arr} {v : Fin (g y).links.length → Arr} {P : Fin (g y).links.length → Ent}
    (hnd : (g y).dnames.Nodup)
    (hout : Means lib g (.r y) (.ok out)) (hv : ∀ a, Means lib g (.r ((g y).kid ((g y).links.get a))) (.ok (v a)))
    {A : Fin (g y).links.length → Prop} (hE : ExactOn (g y).cls (g y).terms (g y).links v out A (fun a => (g y).kid ((g y).links.get a)) P) {p : Id} {x : Arr}
    (hp : y ≠ p) (hA : ∀ a, (g y).dterms ((g y).links.get a) = some p → A a) (hx : Means lib g (.r p) (.ok x)) :
    ∃ f d, evalCompDr lib g f y p = .ok d ∧ ∃ E, num.RepO d out.size x.size E := by
  by_cases hS : (g y).namesOf p = []
  · refine ⟨0, none, ?_, 0, Ent.EqOn.refl _⟩
    have hb : (y == p) = false := by simpa using hp
    unfold evalCompDr
    rw [hb, hS, lib_localDr]; rfl
  · have hval : ∀ a, (g y).links.get a ∈ (g y).namesOf p → v a = x ∧ A a := by
      intro a ha
      have hk : (g y).dterms ((g y).links.get a) = some p := by
        simp only [GNode.namesOf, List.mem_filter, decide_eq_true_eq] at ha; exact ha.2
      have := hv a
      rw [GNode.kid, hk] at this
      have := this.unique hx
      injection this with this
      exact ⟨this, hA a hk⟩
    obtain ⟨d, h1, h2⟩ := hE.dr ((g y).namesOf p) x hS (namesOf_sublist _ _) hval (by
      intro a b ha hb
      simp only [GNode.namesOf, List.mem_filter, decide_eq_true_eq] at ha hb
      rw [GNode.kid, GNode.kid, ha.2, hb.2])
    obtain ⟨f, hf⟩ := evalCompDr_of_returnsDr hp hout (by
      intro k z hz
      obtain ⟨a, rfl, rfl⟩ := envOf_some (hnd.filter _) v _ hz
      refine ⟨(g y).kid ((g y).links.get a), ?_, ?_⟩
      · have := List.get_mem (g y).links a
        simp only [GNode.links, List.mem_filter, Option.isSome_iff_exists] at this
        obtain ⟨_, c, hc⟩ := this
        show (g y).dterms ((g y).links.get a) = _
        rw [GNode.kid]; erw [hc]; rfl
      · rw [put_fn]; exact hv a) h1
    exact ⟨f, d, hf, _, h2⟩

theorem sliced_total {out : Arr} {v : Fin (g y).links.length → Arr} {P : Fin (g y).links.length → Ent}
    (hnd : (g y).dnames.Nodup)
    (hout : Means lib g (.r y) (.ok out)) (hv : ∀ a, Means lib g (.r ((g y).kid ((g y).links.get a))) (.ok (v a)))
    {A : Fin (g y).links.length → Prop} (hE : ExactOn (g y).cls (g y).terms (g y).links v out A (fun a => (g y).kid ((g y).links.get a)) P) {p : Id} {x : Arr}
    (hp : y ≠ p) (hA : ∀ a, (g y).dterms ((g y).links.get a) = some p → A a) (hx : Means lib g (.r p) (.ok x))
    (hper : lib.isPermute (g p).cls = true → ∀ f, evalCompDr lib g f y p ≠ .ok none) :
    ∃ f d, evalSliced lib g f y p = .ok d ∧ ∃ E, num.RepO d out.size x.size E := by
  obtain ⟨f, d, hf, hE⟩ := compDr_total hnd hout hv hE hp hA hx
  cases d with
  | some d => exact ⟨f, some d, by unfold evalSliced; rw [hf], hE⟩
  | none =>
    have hn : lib.isPermute (g p).cls = false := by
      cases h : lib.isPermute (g p).cls with
      | false => rfl
      | true => exact absurd hf (hper h f)
    have hf' : evalCompDr lib g (f + 1) y p = .ok none := by
      have := evalCompDr_mono lib g (Nat.le_succ f) y p
      rw [Le, hf] at this; exact this (by simp)
    refine ⟨f + 1, none, ?_, hE⟩
    unfold evalSliced; rw [hf']; simp only [evalSlice]; rw [if_neg (by intro h; have h' : lib.isPermute (g p).cls = true := h; rw [hn] at h'; cases h')]

/-- One object whose class does not raise: `dr_wrt` does not raise if it does not for the children, and the products with their derivatives
can be taken. -/
theorem dr_step_returns_of (hnd : (g y).dnames.Nodup) (hdecl : ∀ i k c, (g i).dterms k = some c → k ∈ (g i).dnames)
    (hirr : ∀ k, (g y).dterms k ≠ some y) (hwrt : lib.isPermute (g w).cls = false)
    (hper : ∀ k p, (g y).dterms k = some p → lib.isPermute (g p).cls = true → ∀ f, evalCompDr lib g f y p ≠ .ok none)
    (hw : Means lib g (.r w) (.ok vw)) (hob : ExactlyFor g w y) (hyw : y ≠ w)
    (hsum : ∀ out f direct ds, Means lib g (.r y) (.ok out) → evalSliced lib g f y w = .ok direct →
      evalTerms lib g f y w (fun p => evalDr lib g f p w) (g y).dnames direct.toList = .ok ds →
      (∀ e ∈ ds, ∃ A, Jac.Rep e out.size vw.size A) → ∃ o, sumD lib ds = .ok o)
    (hkids : ∀ k p, (g y).dterms k = some p → p ≠ w → ∃ o vp, MeansDr lib g p w (.ok o) ∧ Means lib g (.r p) (.ok vp) ∧
      ∀ d2, o = some d2 → ∀ d l A, Jac.Rep d l vp.size A → ∃ x E, Jac.superdot d d2 = .ok x ∧ Jac.Rep x l vw.size E) :
    ∃ o, MeansDr lib g y w (.ok o) := by
  obtain ⟨out, v, P, hout, hv, hE⟩ := hob
  obtain ⟨f1, direct, hf1, E1, hE1⟩ := sliced_total hnd hout hv hE hyw
    (fun a ha => by rw [GNode.kid, ha]; exact .refl) hw (fun h => by
    have h' := hwrt
    rw [h] at h'; cases h')
  have hterms : ∀ (ks : List Name) (acc : List Jac), (∀ e ∈ acc, ∃ A, Jac.Rep e out.size vw.size A) →
      ∃ f ds, evalTerms lib g f y w (fun p => evalDr lib g f p w) ks acc = .ok ds ∧ ∀ e ∈ ds, ∃ A, Jac.Rep e out.size vw.size A := by
    intro ks
    induction ks with
    | nil => intro acc h; exact ⟨0, acc, rfl, h⟩
    | cons k ks ihk =>
      intro acc h
      cases hk : (g y).dterms k with
      | none =>
        obtain ⟨f, ds, h1, h2⟩ := ihk acc h
        exact ⟨f, ds, by simp only [evalTerms, hk]; exact h1, h2⟩
      | some p =>
        by_cases hpw : p = w
        · obtain ⟨f, ds, h1, h2⟩ := ihk acc h
          exact ⟨f, ds, by simp only [evalTerms, hk, if_pos hpw]; exact h1, h2⟩
        · have hu : Uses g y p := ⟨k, hdecl y k p hk, hk⟩
          obtain ⟨o, vp, ho, hvp, hM⟩ := hkids k p hk hpw
          obtain ⟨_, f2, hf2⟩ := ho
          have up : ∀ {f f' : ℕ} {o : Option Jac}, f ≤ f' → evalDr lib g f p w = .ok o → evalDr lib g f' p w = .ok o := by
            intro f f' o hf h
            have := evalDr_mono lib g hf p w
            rw [Le, h] at this; exact this (by simp)
          have upS : ∀ {f f' : ℕ} {o : Option Jac}, f ≤ f' → evalSliced lib g f y p = .ok o → evalSliced lib g f' y p = .ok o := by
            intro f f' o hf h
            have := evalSliced_mono lib g hf y p
            rw [Le, h] at this; exact this (by simp)
          have upT : ∀ {f f' : ℕ} {acc ds : List Jac}, f ≤ f' → evalTerms lib g f y w (fun p => evalDr lib g f p w) ks acc = .ok ds →
              evalTerms lib g f' y w (fun p => evalDr lib g f' p w) ks acc = .ok ds := by
            intro f f' acc ds hf h
            have := evalTerms_mono lib g hf y w (fun p => evalDr_mono lib g hf p w) ks acc
            rw [Le, h] at this; exact this (by simp)
          cases o with
          | none =>
            obtain ⟨f, ds, h1, h2⟩ := ihk acc h
            refine ⟨max f f2, ds, ?_, h2⟩
            simp only [evalTerms, hk, if_neg hpw]
            rw [up (Nat.le_max_right f f2) hf2]
            exact upT (Nat.le_max_left f f2) h1
          | some d2 =>
            have hyp : y ≠ p := by
              rintro rfl
              exact hirr k hk
            have hreach : Reaches g p w := by
              by_contra hcon
              have := evalDr_none_of_not_reach lib_localDr hwrt hdecl f2 p _ hcon hf2
              cases this
            obtain ⟨f3, d, hf3, E, hdE⟩ := sliced_total hnd hout hv hE hyp
              (fun a ha => by rw [GNode.kid, ha]; exact hreach) hvp (hper k p hk)
            cases d with
            | none =>
              obtain ⟨f, ds, h1, h2⟩ := ihk acc h
              refine ⟨max f (max f2 f3), ds, ?_, h2⟩
              simp only [evalTerms, hk, if_neg hpw]
              rw [up ((Nat.le_max_left f2 f3).trans (Nat.le_max_right f _)) hf2]
              dsimp only
              rw [upS ((Nat.le_max_right f2 f3).trans (Nat.le_max_right f _)) hf3]
              exact upT (Nat.le_max_left f _) h1
            | some d =>
              obtain ⟨x, _, hx, hxr⟩ := hM d2 rfl d _ _ hdE
              obtain ⟨f, ds, h1, h2⟩ := ihk (acc ++ [x]) (by
                intro e he
                rcases List.mem_append.1 he with he | he
                · exact h e he
                · rw [List.mem_singleton] at he; subst he; exact ⟨_, hxr⟩)
              refine ⟨max f (max f2 f3), ds, ?_, h2⟩
              simp only [evalTerms, hk, if_neg hpw]
              rw [up ((Nat.le_max_left f2 f3).trans (Nat.le_max_right f _)) hf2]
              dsimp only
              rw [upS ((Nat.le_max_right f2 f3).trans (Nat.le_max_right f _)) hf3]
              dsimp only
              rw [hx]
              exact upT (Nat.le_max_left f _) h1
  obtain ⟨f4, ds, hf4, hds⟩ := hterms (g y).dnames direct.toList (by
    intro e he
    cases direct with
    | none => simp at he
    | some d => simp at he; subst he; exact ⟨E1, hE1⟩)
  have e1 := evalSliced_mono lib g (Nat.le_max_left f1 f4) y w
  rw [Le, hf1] at e1
  have e1 := e1 (by simp)
  have e2 := evalTerms_mono lib g (Nat.le_max_right f1 f4) y w (fun p => evalDr_mono lib g (Nat.le_max_right f1 f4) p w)
    (g y).dnames direct.toList
  rw [Le, hf4] at e2
  have e2 := e2 (by simp)
  obtain ⟨o, ho⟩ := hsum out _ direct ds hout e1 e2 hds
  refine ⟨o.map (fun d => lib.outForm (g y).makeDense (g y).makeSparse (lib.finish d)), by simp, max f1 f4 + 1, ?_⟩
  · simp only [evalDr]
    rw [e1]
    dsimp only
    rw [e2]
    dsimp only
    rw [ho]

/-- The same when `w` does not have exactly one entry. -/
theorem dr_step_returns (hnd : (g y).dnames.Nodup) (hdecl : ∀ i k c, (g i).dterms k = some c → k ∈ (g i).dnames)
    (hirr : ∀ k, (g y).dterms k ≠ some y) (hwrt : lib.isPermute (g w).cls = false)
    (hper : ∀ k p, (g y).dterms k = some p → lib.isPermute (g p).cls = true → ∀ f, evalCompDr lib g f y p ≠ .ok none)
    (hw : Means lib g (.r w) (.ok vw)) (hsz : vw.size ≠ 1) (hob : ExactlyFor g w y) (hyw : y ≠ w)
    (hkids : ∀ k p, (g y).dterms k = some p → p ≠ w → ∃ o vp, MeansDr lib g p w (.ok o) ∧ Means lib g (.r p) (.ok vp) ∧
      ∀ d2, o = some d2 → ∀ d l A, Jac.Rep d l vp.size A → ∃ x E, Jac.superdot d d2 = .ok x ∧ Jac.Rep x l vw.size E) :
    ∃ o, MeansDr lib g y w (.ok o) :=
  dr_step_returns_of hnd hdecl hirr hwrt hper hw hob hyw (fun _ _ _ _ _ _ _ h => sumD_total hsz h) hkids

/-- Only one of the objects that `i` uses depends on `w` (or is `w`). -/
def OneWay (g : Graph ClassDef Par) (w i : Id) : Prop := ∀ p q, Uses g i p → Uses g i q → Reaches g p w → Reaches g q w → p = q

/-- Then at most one matrix is added up. -/
theorem oneWay_short (hwrt : lib.isPermute (g w).cls = false) (hdecl : ∀ i k c, (g i).dterms k = some c → k ∈ (g i).dnames)
    (hnd : (g y).dnames.Nodup) (honce : ∀ k k' p, (g y).dterms k = some p → (g y).dterms k' = some p → p ≠ w → Reaches g p w → k = k')
    (hyw : y ≠ w) (h1 : OneWay g w y) {f : ℕ} {direct : Option Jac} {ds : List Jac} (hd : evalSliced lib g f y w = .ok direct)
    (ht : evalTerms lib g f y w (fun p => evalDr lib g f p w) (g y).dnames direct.toList = .ok ds) : ds.length ≤ 1 := by
  have skip : ∀ (ks : List Name) (acc ds : List Jac), (∀ k ∈ ks, ∀ p, (g y).dterms k = some p → p ≠ w → ¬ Reaches g p w) →
      evalTerms lib g f y w (fun p => evalDr lib g f p w) ks acc = .ok ds → ds = acc := by
    intro ks
    induction ks with
    | nil => intro acc ds _ h; cases h; rfl
    | cons k ks ih =>
      intro acc ds hno h
      have ih := ih acc ds fun k hk => hno k (List.mem_cons_of_mem _ hk)
      simp only [evalTerms] at h
      cases hk : (g y).dterms k with
      | none => rw [hk] at h; exact ih h
      | some p =>
        rw [hk] at h
        dsimp only at h
        split at h
        · exact ih h
        · rename_i hpw
          cases he : evalDr lib g f p w with
          | error e => rw [he] at h; cases h
          | ok o =>
            rw [he] at h
            have := evalDr_none_of_not_reach lib_localDr hwrt hdecl f p o (hno k (List.mem_cons_self ..) p hk hpw) he
            subst this
            exact ih h
  have count : ∀ (ks : List Name), ks.Nodup → ∀ (acc ds : List Jac),
      evalTerms lib g f y w (fun p => evalDr lib g f p w) ks acc = .ok ds → ds.length ≤ acc.length + 1 := by
    intro ks
    induction ks with
    | nil => intro _ acc ds h; cases h; omega
    | cons k ks ih =>
      intro hn acc ds h
      obtain ⟨hk', hn⟩ := List.nodup_cons.1 hn
      have ih := ih hn acc ds
      simp only [evalTerms] at h
      cases hk : (g y).dterms k with
      | none => rw [hk] at h; exact ih h
      | some p =>
        rw [hk] at h
        dsimp only at h
        split at h
        · exact ih h
        · rename_i hpw
          cases he : evalDr lib g f p w with
          | error e => rw [he] at h; cases h
          | ok o =>
            rw [he] at h
            cases o with
            | none => exact ih h
            | some d2 =>
              dsimp only at h
              have hr : Reaches g p w := by
                by_contra hcon
                cases evalDr_none_of_not_reach lib_localDr hwrt hdecl f p _ hcon he
              cases hs : evalSliced lib g f y p with
              | error e => rw [hs] at h; cases h
              | ok o =>
                rw [hs] at h
                cases o with
                | none => exact ih h
                | some d =>
                  dsimp only at h
                  split at h
                  · cases h
                  · have := skip ks _ ds (fun k2 hk2 q hq hqw hqr => by
                      have := h1 p q ⟨k, hdecl y k p hk, hk⟩ ⟨k2, hdecl y k2 q hq, hq⟩ hr hqr
                      subst this
                      exact hk' (honce k k2 p hk hq hpw hr ▸ hk2)) h
                    rw [this]; simp
  cases direct with
  | none => simpa using count _ hnd _ _ ht
  | some d =>
    have hu : Uses g y w := by
      by_contra hcon
      have hnm : (g y).namesOf w = [] := by
        rw [List.eq_nil_iff_forall_not_mem]
        intro k hk
        simp only [GNode.namesOf, List.mem_filter, decide_eq_true_eq] at hk
        exact hcon ⟨k, hk.1, hk.2⟩
      have hb : (y == w) = false := by simpa using hyw
      have := evalSliced_plain hwrt hd
      unfold evalCompDr at this
      rw [hb, hnm, lib_localDr] at this
      cases this
    have := skip _ _ ds (fun k hk p hp hpw hr => hpw (h1 p w ⟨k, hk, hp⟩ hu hr .refl)) ht
    rw [this]; simp

/-- Neither the class of `i` nor the derivatives with respect to `w` of the objects it uses give a sparse matrix. -/
structure NoSparse (g : Graph ClassDef Par) (w i : Id) : Prop where
  own : ∀ p f d, Uses g i p → Reaches g p w → evalSliced lib g f i p = .ok (some d) → d.NotSparse
  used : ∀ p d, Uses g i p → p ≠ w → MeansDr lib g p w (.ok (some d)) → d.NotSparse

/-- Then no sparse matrix is added up. -/
theorem noSparse_terms (hwrt : lib.isPermute (g w).cls = false) (hdecl : ∀ i k c, (g i).dterms k = some c → k ∈ (g i).dnames)
    (hyw : y ≠ w) (h1 : NoSparse g w y) {f : ℕ} {direct : Option Jac} {ds : List Jac} (hd : evalSliced lib g f y w = .ok direct)
    (ht : evalTerms lib g f y w (fun p => evalDr lib g f p w) (g y).dnames direct.toList = .ok ds) : ∀ e ∈ ds, e.NotSparse := by
  have key : ∀ (ks : List Name) (acc ds : List Jac), (∀ e ∈ acc, e.NotSparse) →
      evalTerms lib g f y w (fun p => evalDr lib g f p w) ks acc = .ok ds → ∀ e ∈ ds, e.NotSparse := by
    intro ks
    induction ks with
    | nil => intro acc ds ha h; cases h; exact ha
    | cons k ks ih =>
      intro acc ds ha h
      simp only [evalTerms] at h
      cases hk : (g y).dterms k with
      | none => rw [hk] at h; exact ih acc ds ha h
      | some p =>
        rw [hk] at h
        dsimp only at h
        split at h
        · exact ih acc ds ha h
        · rename_i hpw
          have hu : Uses g y p := ⟨k, hdecl y k p hk, hk⟩
          cases he : evalDr lib g f p w with
          | error e => rw [he] at h; cases h
          | ok o =>
            rw [he] at h
            cases o with
            | none => exact ih acc ds ha h
            | some d2 =>
              dsimp only at h
              have hr : Reaches g p w := by
                by_contra hcon
                cases evalDr_none_of_not_reach lib_localDr hwrt hdecl f p _ hcon he
              cases hs : evalSliced lib g f y p with
              | error e => rw [hs] at h; cases h
              | ok o =>
                rw [hs] at h
                cases o with
                | none => exact ih acc ds ha h
                | some d =>
                  dsimp only at h
                  split at h
                  · cases h
                  · rename_i x hx
                    refine ih (acc ++ [x]) ds ?_ h
                    intro e he'
                    rcases List.mem_append.1 he' with he' | he'
                    · exact ha e he'
                    · rw [List.mem_singleton] at he'
                      subst he'
                      exact (h1.own p f d hu hr hs).superdot (h1.used p d2 hu hpw ⟨by simp, f, he⟩) hx
  refine key _ _ _ ?_ ht
  cases direct with
  | none => simp
  | some d =>
    intro e he
    simp at he; subst he
    refine h1.own w f _ ?_ .refl hd
    by_contra hcon
    have hnm : (g y).namesOf w = [] := by
      rw [List.eq_nil_iff_forall_not_mem]
      intro k hk
      simp only [GNode.namesOf, List.mem_filter, decide_eq_true_eq] at hk
      exact hcon ⟨k, hk.1, hk.2⟩
    have hb : (y == w) = false := by simpa using hyw
    have := evalSliced_plain hwrt hd
    unfold evalCompDr at this
    rw [hb, hnm, lib_localDr] at this
    cases this

/-- If no class raises, `dr_wrt` does not raise, except possibly when `w` has exactly one entry and several terms of one entry, some of them
sparse, are added up. -/
theorem dr_returns_of (hacc : Acc (fun a b => Uses g b a) y) (hc : ChainOk lib g y w) (hw : Means lib g (.r w) (.ok vw))
    (hsz : vw.size = 1 → ∀ i v, Reaches g y i → i ≠ w → Means lib g (.r i) (.ok v) → v.size = 1 → OneWay g w i ∨ NoSparse g w i)
    (hob : ∀ i, Reaches g y i → i ≠ w → ExactlyFor g w i) (hyw : y ≠ w) :
    ∃ o, MeansDr lib g y w (.ok o) := by
  induction hacc with
  | intro y _ ih =>
  refine dr_step_returns_of (hc.nodup y .refl) hc.decl (fun k hk => hc.acyclic y .refl (.single ⟨k, hc.decl _ _ _ hk, hk⟩)) hc.wrt
    (fun k p hk => hc.slice y k p .refl hk) hw (hob y .refl hyw) hyw ?_ ?_
  · intro out f direct ds hout hd ht hds
    by_cases h1 : out.size = 1 ∧ vw.size = 1
    · rcases hsz h1.2 y out .refl hyw hout h1.1 with h2 | h2
      · exact sumD_short (oneWay_short hc.wrt hc.decl (hc.nodup y .refl) (fun k k' p => hc.once y k k' p .refl) hyw h2 hd ht)
      · obtain ⟨o, ho, _⟩ := sumD_notSparse hds (noSparse_terms hc.wrt hc.decl hyw h2 hd ht)
        exact ⟨o, ho⟩
    · exact sumD_total_of h1 hds
  intro k p hk hpw
  have hu : Uses g y p := ⟨k, hc.decl y k p hk, hk⟩
  have hr : Reaches g y p := .single hu
  obtain ⟨o, ho⟩ := ih p hu (hc.sub hr) (fun h i v hi => hsz h i v (hr.trans hi)) (fun i hi => hob i (hr.trans hi)) hpw
  obtain ⟨vp, M, hJ, hM⟩ := jacobian (hc.sub hr) hw (fun i hi hiw => (hob i (hr.trans hi) hiw).correct) hpw ho
  refine ⟨o, vp, ho, hJ.valY, ?_⟩
  rintro d2 rfl d l A hd
  obtain ⟨x, hx, hxr⟩ := Jac.superdot_rep hd hM
  exact ⟨x, _, hx, hxr⟩

/-- A nonzero derivative of one entry is not converted to a sparse matrix. -/
theorem dr_notSparse (hwrt : lib.isPermute (g w).cls = false) (hdecl : ∀ i k c, (g i).dterms k = some c → k ∈ (g i).dnames)
    (hyw : y ≠ w) (h1 : NoSparse g w y) (hp : (g y).makeSparse = false) {d : Jac} {E : Ent} (hd : MeansDr lib g y w (.ok (some d)))
    (hr : Jac.Rep d 1 1 E) (hE : E 0 0 ≠ 0) : d.NotSparse := by
  obtain ⟨_, f, hf⟩ := hd
  cases f with
  | zero => cases hf
  | succ f =>
  simp only [evalDr] at hf
  cases hs : evalSliced lib g f y w with
  | error e => rw [hs] at hf; cases hf
  | ok direct =>
  rw [hs] at hf; dsimp only at hf
  cases ht : evalTerms lib g f y w (fun p => evalDr lib g f p w) (g y).dnames direct.toList with
  | error e => rw [ht] at hf; cases hf
  | ok ds =>
  rw [ht] at hf; dsimp only at hf
  cases hsum : sumD lib ds with
  | error e => rw [hsum] at hf; cases hf
  | ok r =>
  rw [hsum] at hf
  have hn := noSparse_terms hwrt hdecl hyw h1 hs ht
  cases r with
  | none => cases hf
  | some x =>
  injection hf with hf
  injection hf with hf
  have hx : x.NotSparse := by
    have key : ∀ (ds : List Jac) (d x : Jac), d.NotSparse → (∀ e ∈ ds, e.NotSparse) → ds.foldlM lib.add d = .ok x → x.NotSparse := by
      intro ds
      induction ds with
      | nil => intro d x hd _ h; cases h; exact hd
      | cons e ds ih =>
        intro d x hd hn h
        simp only [List.foldlM] at h
        cases ha : Jac.add d e with
        | error e' => rw [ha] at h; cases h
        | ok z =>
          rw [ha] at h
          refine ih z x ?_ (fun e' he => hn e' (by simp [he])) h
          have he := hn e (by simp)
          intro a b E
          cases d with
          | sparse a b E => exact absurd rfl (hd a b E)
          | num c =>
            cases e with
            | sparse a b E => exact absurd rfl (he a b E)
            | num c' => cases ha; simp
            | dense m n e => cases ha; simp
          | dense m n e1 =>
            cases e with
            | sparse a b E => exact absurd rfl (he a b E)
            | num c' => cases ha; simp
            | dense m' n' e =>
              simp only [Jac.add] at ha
              split at ha
              · cases ha; simp
              · cases ha
    cases ds with
    | nil => cases hsum
    | cons d0 ds =>
      simp only [sumD] at hsum
      cases hfo : ds.foldlM lib.add d0 with
      | error e => rw [hfo] at hsum; cases hsum
      | ok z =>
        rw [hfo] at hsum
        cases hsum
        exact key ds d0 _ (hn d0 (by simp)) (fun e he => hn e (by simp [he])) hfo
  subst hf
  have hf2 : (lib.finish x).NotSparse := by
    have hr' : ∀ z : Jac, Jac.Rep (lib.outForm (g y).makeDense (g y).makeSparse z) 1 1 E → ∀ m n e, z = .sparse m n e → m = 1 ∧ n = 1 ∧ e 0 0 = E 0 0 := by
      rintro z hz m n e rfl
      rw [hp] at hz
      have hz : Jac.Rep (Jac.outForm (g y).makeDense false (.sparse m n e)) 1 1 E := hz
      cases h : (g y).makeDense <;> rw [h] at hz <;> obtain ⟨a, b, c⟩ := hz <;> exact ⟨a, b, c 0 Nat.one_pos 0 Nat.one_pos⟩
    intro a b E' he
    obtain ⟨ha, hb, hc⟩ := hr' _ hr a b E' he
    have he : Jac.finish x = .sparse a b E' := he
    subst ha hb
    cases x with
    | sparse m n e => exact hx _ _ _ rfl
    | num c =>
      simp only [Jac.finish] at he
      split at he
      · injection he with _ _ he; rw [← he] at hc; exact hE hc.symm
      · cases he
    | dense m n e =>
      simp only [Jac.finish] at he
      split at he
      · rename_i hz
        injection he with h1 h2 he3
        subst h1 h2 he3
        have hnz : Jac.nnz 1 1 e = 1 := by
          unfold Jac.nnz
          have : (Finset.range 1 ×ˢ Finset.range 1).filter (fun p : ℕ × ℕ => e p.1 p.2 ≠ 0) = {(0, 0)} := by
            ext ⟨i, j⟩
            simp only [Finset.mem_filter, Finset.mem_product, Finset.mem_range, Finset.mem_singleton, Prod.mk.injEq, Nat.lt_one_iff]
            constructor
            · rintro ⟨h, _⟩; exact h
            · rintro ⟨rfl, rfl⟩; exact ⟨⟨rfl, rfl⟩, by rw [hc]; exact hE⟩
          convert Finset.card_singleton ((0 : ℕ), (0 : ℕ))
        rw [hnz] at hz
        omega
      · cases he
  show (Jac.outForm (g y).makeDense (g y).makeSparse (lib.finish x)).NotSparse
  rw [hp]
  intro a b E'
  generalize lib.finish x = z at hf2
  cases h : (g y).makeDense
  · simpa [Jac.outForm] using hf2 a b E'
  · cases z with
    | sparse m n e => exact absurd rfl (hf2 m n e)
    | num c => simp [Jac.outForm, Jac.todense]
    | dense m n e => simp [Jac.outForm, Jac.todense]

/-- If everything between `y` and `w` has one entry and a nonzero derivative, and no class returns a sparse matrix, no sparse matrix is met. -/
theorem noSparse_of_nonzero (hc : ChainOk lib g y w) (hw : Means lib g (.r w) (.ok vw)) (hvw : vw.size = 1)
    (hob : ∀ i, Reaches g y i → i ≠ w → Correct g w i) (hacc : Acc (fun a b => Uses g b a) y) (hyw : y ≠ w)
    (hp : ∀ i, (g i).makeSparse = false)
    (hown : ∀ i, Reaches g y i → i ≠ w → ∀ p f d, Uses g i p → Reaches g p w → evalSliced lib g f i p = .ok (some d) → d.NotSparse)
    (hnz : ∀ i v M, Reaches g y i → i ≠ w → Reaches g i w → HasJacobian g i w v vw M → i ≠ y → v.size = 1 ∧ M 0 0 ≠ 0) : NoSparse g w y := by
  induction hacc with
  | intro y _ ih =>
  refine ⟨hown y .refl hyw, fun p d hu hpw hd => ?_⟩
  have hr : Reaches g y p := .single hu
  have hrw : Reaches g p w := by
    by_contra hcon
    obtain ⟨_, f, hf⟩ := hd
    cases evalDr_none_of_not_reach lib_localDr hc.wrt hc.decl f p _ hcon hf
  have hpy : p ≠ y := by rintro rfl; exact hc.acyclic p .refl (.single hu)
  obtain ⟨vp, M, hJ, hM⟩ := jacobian (hc.sub hr) hw (fun i hi => hob i (hr.trans hi)) hpw hd
  obtain ⟨h1, h2⟩ := hnz p vp M hr hpw hrw hJ hpy
  have hM : Jac.Rep d vp.size vw.size M := hM
  rw [h1, hvw] at hM
  refine dr_notSparse hc.wrt hc.decl hpw (ih p hu (hc.sub hr) (fun i hi => hob i (hr.trans hi)) hpw (fun i hi => hown i (hr.trans hi))
    (fun i v M hi hiw hiw' hJ hip => hnz i v M (hr.trans hi) hiw hiw' hJ ?_)) (hp p) hd hM h2
  rintro rfl
  exact hc.acyclic i .refl (Relation.TransGen.head' hu hi)

/-- If no class raises, `dr_wrt` does not raise, except possibly when `w` has exactly one entry. -/
theorem dr_returns (hacc : Acc (fun a b => Uses g b a) y) (hc : ChainOk lib g y w) (hw : Means lib g (.r w) (.ok vw))
    (hsz : vw.size ≠ 1) (hob : ∀ i, Reaches g y i → i ≠ w → ExactlyFor g w i) (hyw : y ≠ w) :
    ∃ o, MeansDr lib g y w (.ok o) := dr_returns_of hacc hc hw (fun h => absurd h hsz) hob hyw
end
end Chumpy
