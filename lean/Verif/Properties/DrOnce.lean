import Verif.Core.DrLower
import Verif.Properties.Jacobian
import Verif.Properties.Links
import Verif.Properties.Fresh
/-!
# C73: the derivative work of one `dr_wrt`
-/
namespace Chumpy
variable {C T V D : Type} {s : Sig C T V D}

/-- C73 in full: one call of `y.dr_wrt(w)` calls `j.compute_dr_wrt(p)` at most once for every `j` and `p`. -/
def C73_full (s : Sig C T V D) : Prop :=
  ∀ (h : Heap C T V D), Reach s ⟨False, True⟩ h → ∀ (f : Nat) (y w : Id), (h.node w).alive = true →
    ∀ j p, (drWrt s f y w h).1.ran j p ≤ h.ran j p + 1

/-- C73 in full, second part: once it has returned, asking again, after any reads, computes nothing. -/
def C73_again_full (s : Sig C T V D) : Prop :=
  ∀ (h : Heap C T V D), Reach s ⟨False, True⟩ h → ∀ (f : Nat) (y w : Id), (h.node w).alive = true → (drWrt s f y w h).2.isOk = true →
    ∀ (reads : List (Op C T D)), (∀ op ∈ reads, op.IsRead) → ∀ f' j p,
      (drWrt s f' y w (run s reads (drWrt s f y w h).1)).1.ran j p = (run s reads (drWrt s f y w h).1).ran j p

theorem anc_reaches {g : Graph C T} (hd : ∀ i k c, (g i).dterms k = some c → k ∈ (g i).dnames) {i j : Id} (h : Anc g i j) : Reaches g j i := by
  induction h with
  | refl => exact .refl
  | step k hk _ ih => exact .head ⟨k, hd _ _ _ hk, hk⟩ ih

theorem reaches_anc {g : Graph C T} {i j : Id} (h : Reaches g j i) : Anc g i j := by
  induction h using Relation.ReflTransGen.head_induction_on with
  | refl => exact .refl
  | head hu _ ih => obtain ⟨k, _, hk⟩ := hu; exact .step k hk ih

/-- C73.  After every history, returning or raising, one call of `y.dr_wrt(w)` calls `j.compute_dr_wrt(p)` at most once for every `j` and
`p`, however often objects are shared, if no object under `y` refers to the same object under two names.  Missing: graphs with such
objects, for which it is false (`C73_squaring_exponential`), and slices. -/
theorem C73_each_derivative_once_partial (ops : List (Op C T D)) (f : Nat) (y w : Id) (hw : ((run s ops (Heap.empty s)).node w).alive = true)
    (hacy : ∀ i, Reaches (run s ops (Heap.empty s)).graph y i → ¬ Relation.TransGen (Uses (run s ops (Heap.empty s)).graph) i i)
    (hslice : ∀ i, Reaches (run s ops (Heap.empty s)).graph y i ∨ i = w → s.isPermute ((run s ops (Heap.empty s)).graph i).cls = false)
    (hset : ∀ i, Reaches (run s ops (Heap.empty s)).graph y i → ((run s ops (Heap.empty s)).graph i).dnames.Nodup)
    (hnames : ∀ i k k' p, Reaches (run s ops (Heap.empty s)).graph y i → ((run s ops (Heap.empty s)).graph i).dterms k = some p →
      ((run s ops (Heap.empty s)).graph i).dterms k' = some p → k = k') (j p : Id) :
    (drWrt s f y w (run s ops (Heap.empty s))).1.ran j p ≤ (run s ops (Heap.empty s)).ran j p + 1 := by
  have hs := run_str (s := s) ops
  generalize run s ops (Heap.empty s) = h at *
  have hdecl : ∀ i k c, (h.graph i).dterms k = some c → k ∈ (h.graph i).dnames := hs.dn
  have ar := fun {i j : Id} (a : Anc h.graph i j) => anc_reaches hdecl a
  have one : ∀ q, Reaches h.graph y q → ∀ p, nmOf h.graph q p ≤ 1 := by
    intro q hq p
    unfold nmOf GNode.namesOf
    by_contra hc
    have hc : 1 < ((h.graph q).dnames.filter fun k => (h.graph q).dterms k = some p).length := Nat.lt_of_not_le hc
    have nd := (hset q hq).filter fun k => decide ((h.graph q).dterms k = some p)
    match hL : (h.graph q).dnames.filter (fun k => decide ((h.graph q).dterms k = some p)), hc with
    | a :: b :: l, _ =>
      rw [hL] at nd
      have ma : a ∈ (h.graph q).dnames.filter (fun k => decide ((h.graph q).dterms k = some p)) := by rw [hL]; simp
      have mb : b ∈ (h.graph q).dnames.filter (fun k => decide ((h.graph q).dterms k = some p)) := by rw [hL]; simp
      have ea := of_decide_eq_true (List.mem_filter.1 ma).2
      have eb := of_decide_eq_true (List.mem_filter.1 mb).2
      have := hnames q a b p hq ea eb
      subst this
      simp at nd
    | [a], hc => simp at hc
    | [], hc => simp at hc
  have cx : CallCtx s h.graph h.par w y := by
    refine ⟨fun i hi k c hk ha => ?_, fun i hi => hslice i (Or.inl (ar hi)), hslice w (Or.inr rfl), fun q k c hk => ?_⟩
    · have u : Uses h.graph i c := ⟨k, hdecl i k c hk, hk⟩
      refine hacy i (ar hi) ?_
      exact Relation.TransGen.head' u (ar ha)
    · obtain ⟨ns, h1, _⟩ := (hs.links.exact q k c).1 hk
      exact ⟨ns, h1⟩
  obtain ⟨n, d⟩ := drWrt_did cx f y .refl h ⟨rfl, fun _ => rfl, hw⟩
  have key : ∀ j, Reaches h.graph y j → n j w ≤ 1 := by
    intro j hj
    induction hj with
    | refl => exact d.self
    | @tail q j hq hu ih =>
      by_cases hl : (h.par j).length = 1
      · obtain ⟨⟨q', ns⟩, e⟩ := List.length_eq_one_iff.1 hl
        by_cases hji : j = y
        · subst hji; exact d.self
        obtain ⟨k, _, hk⟩ := hu
        obtain ⟨ns', h1⟩ := cx.reg q k j hk
        rw [e, List.mem_singleton] at h1
        injection h1 with h1 _
        have := d.single j q' ns e
        rw [if_neg hji, Nat.add_zero, ← h1] at this
        exact this.trans ((Nat.mul_le_mul ih (one q hq j)).trans_eq rfl)
      · exact (d.once j hl).1
  rw [d.ran]
  refine Nat.add_le_add_left ?_ _
  by_cases hz : n j p = 0
  · rw [hz]; exact Nat.zero_le _
  have hj := ar (d.below j p hz)
  by_cases hp : p = w
  · subst hp; exact key j hj
  · exact (d.each j p hp).trans ((Nat.mul_le_mul (key j hj) (one j hj p)).trans_eq rfl)

/-- What `dr_wrt` returns is stored, unless the object has exactly one parent. -/
theorem drWrt_stored {h : Heap C T V D} {f : Nat} {y w : Id} (hw : (h.node w).alive = true) (hp : (h.node y).parents.length ≠ 1)
    (hok : (drWrt s f y w h).2.isOk = true) : ((drWrt s f y w h).1.node y).drs w ≠ none := by
  cases f with
  | zero => cases hok
  | succ f =>
    revert hok
    rw [drWrt, M.bind]
    have fr1 : RFrame h (callOnChanged y h).1 := rframe_rel.onChanged y h
    rcases hx : callOnChanged y h with ⟨h1, r⟩
    rw [hx] at fr1
    cases r with
    | error e => intro hok; cases hok
    | ok u =>
      dsimp only at fr1 ⊢
      cases hs : (h1.node y).drs w with
      | some d => intro _; dsimp only; rw [hs]; simp
      | none =>
        dsimp only [M.bind]
        have fr2 : RFrame h1 (drSliced s f y w h1).1 := drSliced_pres rframe_rel f y w h1
        rcases hy : drSliced s f y w h1 with ⟨h2, r2⟩
        rw [hy] at fr2
        cases r2 with
        | error e => intro hok; cases hok
        | ok direct =>
          dsimp only at fr2 ⊢
          have fr3 : RFrame h2 (drTerms s f y w (fun p => drWrt s f p w) (h2.node y).dnames direct.toList h2).1 :=
            drTerms_pres rframe_rel f y w (fun p => drWrt_pres rframe_rel f p w) _ _ h2
          rcases hz : drTerms s f y w (fun p => drWrt s f p w) (h2.node y).dnames direct.toList h2 with ⟨h3, r3⟩
          rw [hz] at fr3
          cases r3 with
          | error e => intro hok; cases hok
          | ok ds =>
            dsimp only [M.lift]
            cases sumD s ds with
            | error e => intro hok; cases hok
            | ok r =>
              intro _
              have fr := rframe_rel.trans (rframe_rel.trans fr1 fr2) fr3
              have e : storeDr y w (r.map s.finish) h3 = (h3.modify y (fun n => { n with drs := fun x => if x = w then some (r.map s.finish) else n.drs x }), .ok ()) := by
                unfold storeDr
                rw [if_neg]
                rintro (h | h)
                · rw [fr.parents] at h; exact hp h
                · rw [fr.alive, hw] at h; cases h
              dsimp only
              rw [e]
              dsimp only [Heap.modify]
              rw [if_pos rfl]
              simp

/-- C73, second part.  After every state, if `y` does not have exactly one parent, asking again after the call has returned, and after
any reads, computes no derivative of any object. -/
theorem C73_again_partial {h : Heap C T V D} {f : Nat} {y w : Id} (hw : (h.node w).alive = true) (hp : (h.node y).parents.length ≠ 1)
    (hok : (drWrt s f y w h).2.isOk = true) (reads : List (Op C T D)) (hre : ∀ op ∈ reads, op.IsRead) (f' : Nat) (j p : Id) :
    (drWrt s f' y w (run s reads (drWrt s f y w h).1)).1.ran j p = (run s reads (drWrt s f y w h).1).ran j p := by
  have st := (run_reads_frame (s := s) reads hre (drWrt s f y w h).1).keepD y w (drWrt_stored hw hp hok)
  generalize run s reads (drWrt s f y w h).1 = h2 at st ⊢
  cases f' with
  | zero => rfl
  | succ f' =>
    rw [drWrt, M.bind]
    have q := quiet_onChanged y h2
    rcases hx : callOnChanged y h2 with ⟨h3, r⟩
    rw [hx] at q
    cases r with
    | error e => exact q.ran j p
    | ok u =>
      dsimp only at q ⊢
      rw [← q.drs] at st
      cases hs : (h3.node y).drs w with
      | none => exact absurd hs st
      | some d => exact q.ran j p

/-! ## Refutations -/

namespace ADDemo
/-- `x = Ch([1,2])`, then `n` times `x = x*x`; every square is an object of its own. -/
noncomputable def squaring (n : ℕ) : List (ObjSpec ClassDef Par) := leafO (vec2 1 2) :: (List.range n).map fun k => binO chMul k k

theorem squaring_leaf (n : ℕ) : buildGraph lib (squaring n) (0 : ℕ) = (leafO (vec2 1 2)).node := rfl

theorem squaring_get {n k : ℕ} (hk : k < n) : (squaring n)[k + 1]? = some (binO chMul k k) := by
  simp [squaring, hk]

theorem squaring_node {n k : ℕ} (hk : k < n) : buildGraph lib (squaring n) (k + 1 : ℕ) = (binO chMul k k).node := by
  unfold buildGraph
  rw [squaring_get hk]

theorem binO_dterms {c : ClassDef} {i j p : Id} {a : Name} (h : (binO c i j).node.dterms a = some p) : p = i ∨ p = j := by
  by_cases hb : a = nmB
  · subst hb; cases h; exact Or.inr rfl
  · by_cases ha : a = nmA
    · subst ha; cases h; exact Or.inl rfl
    · have : (binO c i j).node.dterms a = none := by
        simp [binO, ObjSpec.node, GNode.assign, ha, hb]
      rw [this] at h; cases h

theorem squaring_ok (n : ℕ) : WellBuilt lib (squaring n) := by
  have key : ∀ (n i : ℕ), OkFrom lib (i + 1) ((List.range' i n).map fun k => binO chMul k k) := by
    intro n
    induction n with
    | zero => intro i; trivial
    | succ n ih =>
      intro i
      rw [List.range'_succ]
      exact ⟨binO_ok (Nat.lt_succ_self i) (Nat.lt_succ_self i) rfl, ih (i + 1)⟩
  refine OkFrom.wellBuilt ⟨leafO_ok _ _, ?_⟩ rfl
  rw [List.range_eq_range']
  exact key n 0

theorem squaring_means (n : ℕ) : ∀ k : ℕ, k ≤ n → ∃ v : Arr, v.shape = [2] ∧ Means lib (buildGraph lib (squaring n)) (.r k) (.ok v) ∧
    Exactly (buildGraph lib (squaring n)) k := by
  intro k
  induction k with
  | zero =>
    intro _
    have := leaf_means (g := buildGraph lib (squaring n)) (i := (0 : ℕ)) (v := vec2 1 2) rfl (by simp [vec2])
    exact ⟨vec2 1 2, rfl, this⟩
  | succ k ih =>
    intro hk
    obtain ⟨v, hs, hv, _⟩ := ih (Nat.le_of_succ_le hk)
    have := bin_means (g := buildGraph lib (squaring n)) (i := (k + 1 : ℕ)) (a := k) (b := k) (c := chMul) (squaring_node hk) hv hv
      (exact_mul _ (o := [2]) (by rw [hs]; rfl))
    exact ⟨_, rfl, this⟩

theorem squaring_sizes (n : ℕ) : ∀ k : ℕ, k ≤ n → SizesOk (buildGraph lib (squaring n)) (objSize (buildGraph lib (squaring n))) k := by
  intro k hk
  obtain ⟨_, _, _, hE⟩ := squaring_means n k hk
  refine hE.sizesOk ((squaring_ok n).dnames_nodup k) (fun a c h => ((squaring_ok n).link h).choose_spec.2.2.1) ?_
  intro f d hd
  unfold evalCompDr at hd
  rw [show (k == k) = true from by simp] at hd
  cases k with
  | zero =>
    rw [show (buildGraph lib (squaring n) (0 : ℕ)).cls = chLeaf from rfl] at hd
    simp only [chLeaf, evalProg] at hd
    split at hd
    · next u hu =>
      cases hd
      rw [objSize_eq (show Means lib _ (.r (0 : ℕ)) (.ok u) from ⟨by simp, _, hu⟩)]
      exact ⟨_, rfl, rfl, Ent.EqOn.refl _⟩
    · cases hd
  | succ k =>
    have hn : (binO chMul k k).node.namesOf (k + 1 : ℕ) = [] := by
      refine List.filter_eq_nil_iff.2 fun a _ h => ?_
      rcases binO_dterms (of_decide_eq_true h) with h | h <;> exact absurd h (Nat.succ_ne_self k)
    rw [squaring_node hk, hn, show (binO chMul k k).node.cls = chMul from rfl] at hd
    rw [show lib.computeDr chMul true [] = .ret none from rfl] at hd
    simp only [evalProg] at hd
    cases hd

theorem squaring_returns (n : ℕ) : ∀ k : ℕ, k < n → ∃ o, MeansDr lib (buildGraph lib (squaring n)) (k + 1 : ℕ) (0 : ℕ) (.ok o) := by
  intro k
  have ok := squaring_ok n
  have hdecl : ∀ i a c, (buildGraph lib (squaring n) i).dterms a = some c → a ∈ (buildGraph lib (squaring n) i).dnames :=
    fun i a c h => (ok.link h).choose_spec.2.2.1
  have lt : ∀ {i : ℕ} {a : Name} {c : ℕ}, (buildGraph lib (squaring n) i).dterms a = some c → c < i := fun h => (ok.link h).choose_spec.2.2.2
  induction k with
  | zero =>
    intro hk
    obtain ⟨v0, s0, m0, _⟩ := squaring_means n 0 (Nat.zero_le n)
    obtain ⟨v1, s1, m1, E1⟩ := squaring_means n 1 hk
    refine dr_step_returns (ok.dnames_nodup _) hdecl (fun a h => absurd (lt h) (Nat.lt_irrefl _)) (ok.notPermute _)
      (fun a p h hp => by rw [ok.notPermute p] at hp; cases hp) m0 (by rw [Arr.size, s0]; decide) (E1.for _) (by decide) ?_
    intro a p h hp
    exact absurd (Nat.lt_one_iff.1 (lt h)) hp
  | succ k ih =>
    intro hk
    obtain ⟨o, ho⟩ := ih (Nat.lt_of_succ_lt hk)
    obtain ⟨v0, s0, m0, _⟩ := squaring_means n 0 (Nat.zero_le n)
    obtain ⟨v1, s1, m1, E1⟩ := squaring_means n (k + 1) (Nat.le_of_lt hk)
    obtain ⟨v2, s2, m2, E2⟩ := squaring_means n (k + 1 + 1) hk
    refine dr_step_returns (ok.dnames_nodup _) hdecl (fun a h => absurd (lt h) (Nat.lt_irrefl _)) (ok.notPermute _)
      (fun a p h hp => by rw [ok.notPermute p] at hp; cases hp) m0 (by rw [Arr.size, s0]; decide) (E2.for _) (Nat.succ_ne_zero _) ?_
    intro a p h hp
    have hpk : p = (k + 1 : ℕ) := by
      rw [squaring_node hk] at h
      rcases binO_dterms h with h | h <;> exact h
    subst hpk
    refine ⟨o, v1, ho, m1, ?_⟩
    rintro d2 rfl d l A hd
    obtain ⟨_, f, hf⟩ := ho
    obtain ⟨_, E, hE⟩ := evalDr_sizes (squaring_sizes n 0 (Nat.zero_le n)) f _ _
      (fun i hi => squaring_sizes n i ((reaches_le ok hi).trans (Nat.le_of_lt hk))) hdecl hf
    rw [objSize_eq m1, objSize_eq m0] at hE
    obtain ⟨x, hx, hxr⟩ := Jac.superdot_rep hd hE
    exact ⟨x, _, hx, hxr⟩
end ADDemo

open ADDemo in
/-- C73 is false, and badly so: for every `n`, after squaring a vector `n+1` times, one call of `dr_wrt` returns and has called
`compute_dr_wrt` of the first square at least `2^n` times.  Every square has one parent, so it is never stored, and that parent refers to it
under two names. -/
theorem C73_squaring_exponential (n : ℕ) : ∃ h, Reach lib ⟨False, True⟩ h ∧ h.graph = buildGraph lib (squaring (n + 1)) ∧
    (∀ i, ¬ Relation.TransGen (Uses h.graph) i i) ∧ (∀ i, lib.isPermute (h.graph i).cls = false) ∧ (h.node (0 : ℕ)).alive = true ∧
    ∃ f o, (drWrt lib f (n + 1 : ℕ) (0 : ℕ) h).2 = .ok o ∧
      h.ran (1 : ℕ) (0 : ℕ) + 2 ^ n ≤ (drWrt lib f (n + 1 : ℕ) (0 : ℕ) h).1.ran (1 : ℕ) (0 : ℕ) := by
  have ok := squaring_ok (n + 1)
  have hr : Reach lib ⟨False, True⟩ (run lib (buildOps (squaring (n + 1))) (Heap.empty lib)) :=
    build_reach _ _ (fun o ho hp => by rw [ok.plain o ho] at hp; cases hp)
  have hg : (run lib (buildOps (squaring (n + 1))) (Heap.empty lib)).graph = buildGraph lib (squaring (n + 1)) := build_graph _ ok.earlier
  have hal : ((run lib (buildOps (squaring (n + 1))) (Heap.empty lib)).node (0 : ℕ)).alive = true := by
    rw [(build_alive _ ok.earlier).2]; simp [squaring]
  have hs := run_str (s := lib) (buildOps (squaring (n + 1)))
  generalize hh : run lib (buildOps (squaring (n + 1))) (Heap.empty lib) = h at hr hg hal hs
  obtain ⟨_, c1, _, c2, _⟩ := C04_clear_cache (s := lib) h (fun m hm => hs.par0 m hm) (0 : ℕ)
  have e : (step lib (.clear (0 : ℕ)) h).1 = (clearCacheFull lib (0 : ℕ) none h).1 := by
    simp only [step, ifAlive]; rw [if_pos hal]; rfl
  have hr' : Reach lib ⟨False, True⟩ (step lib (.clear (0 : ℕ)) h).1 := hr.step _ trivial
  rw [e] at hr'
  generalize hk : (clearCacheFull lib (0 : ℕ) none h).1 = h' at hr' c1 c2
  have hg' : h'.graph = buildGraph lib (squaring (n + 1)) := by rw [← hg]; exact funext fun y => (c2 y).1
  have hdn : ∀ k : ℕ, k ≤ n + 1 → Anc h.graph (0 : ℕ) k := by
    intro k
    induction k with
    | zero => intro _; exact .refl
    | succ k ih =>
      intro hk
      refine .step nmA ?_ (ih (Nat.le_of_succ_le hk))
      rw [hg, squaring_node hk]; rfl
  have tw : Tower (buildGraph lib (squaring (n + 1))) h.par nmA nmB (n + 1) := by
    refine ⟨fun k hk => by rw [squaring_node hk]; rfl, fun k hk => by rw [squaring_node hk]; rfl, fun k hk => by rw [squaring_node hk]; rfl, ?_⟩
    intro k h0 hk
    have users : ∀ q a, (h.graph q).dterms a = some k → q = (k + 1 : ℕ) := by
      intro q a hq
      rw [hg] at hq
      obtain ⟨o, ho, _⟩ := ok.link hq
      have hql : q < (squaring (n + 1)).length := (List.getElem?_eq_some_iff.1 ho).1
      cases q with
      | zero => cases hq
      | succ q =>
        have hqn : q < n + 1 := by simpa [squaring] using hql
        rw [squaring_node hqn] at hq
        have : k = q := by rcases binO_dterms hq with h | h <;> exact h
        rw [this]
    have key : ∀ x ∈ h.par k, x.1 = (k + 1 : ℕ) := by
      rintro ⟨q, ns⟩ hx
      have := (hs.links.ok k).names q ns hx
      obtain ⟨a, ha⟩ := List.exists_mem_of_ne_nil _ this.1
      exact users q a ((hs.links.exact q a k).2 ⟨ns, hx, ha⟩)
    have hne : h.par k ≠ [] := by
      have : (h.graph (k + 1 : ℕ)).dterms nmA = some k := by rw [hg, squaring_node hk]; rfl
      obtain ⟨ns, hm, _⟩ := (hs.links.exact _ _ _).1 this
      exact List.ne_nil_of_mem hm
    have nd := (hs.links.ok k).keys
    match hL : h.par k with
    | [] => exact absurd hL hne
    | [x] => rfl
    | x :: y :: l =>
      rw [hL] at key nd
      have := (key x (by simp)).trans (key y (by simp)).symm
      simp [this] at nd
  obtain ⟨o, _, f, hf⟩ := squaring_returns (n + 1) n (Nat.lt_succ_self n)
  have hret : (drWrt lib f (n + 1 : ℕ) (0 : ℕ) h').2 = .ok o := by
    have := (C02_derivative_never_stale_partial lib_propsOk lib_plainForm hr' f (n + 1 : ℕ) (0 : ℕ) (by rw [hg']; exact ok.notPermute _)).2.2
    rw [hg', hf] at this
    exact this (by simp)
  have hal' : (h'.node (0 : ℕ)).alive = true := by rw [(c2 (0 : ℕ)).2.2]; exact hal
  refine ⟨h', hr', hg', fun i => by rw [hg']; exact ok.acyclic i, fun i => by rw [hg']; exact ok.notPermute i, hal', f, o, hret, ?_⟩
  refine tower_lower tw (ok.notPermute _) f n (Nat.lt_succ_self n) h' ⟨hg', fun i => (c2 i).2.1, hal'⟩ ?_ (by rw [hret]; rfl)
  intro j _ hj
  refine (c1 j ?_).2 _
  rw [← up_dependent]
  exact hs.links.up_iff.2 (hdn j hj)

/-- So C73 in full fails. -/
theorem C73_full_refuted : ¬ C73_full lib := by
  intro hf
  obtain ⟨h, hr, _, _, _, ha, f, o, _, hc⟩ := C73_squaring_exponential 1
  have := hf h hr f (1 + 1 : ℕ) (0 : ℕ) ha (1 : ℕ) (0 : ℕ)
  omega

namespace Demo
/-- `c = a + b; y = c * a`: `c` has one parent, `a` two. -/
def exOnce : List (Op Cls Arr Jac) := [leaf [3], leaf [4], bin .add 0 1, bin .mul 2 0]

theorem exOnce_reach : Reach sig ⟨False, True⟩ (hist exOnce) :=
  reach_run exOnce .init ⟨⟨fun h => False.elim h, fun _ => ⟨rfl, rfl⟩⟩, ⟨fun h => False.elim h, fun _ => ⟨rfl, rfl⟩⟩,
    ⟨fun h => False.elim h, fun _ => ⟨rfl, rfl⟩⟩, ⟨fun h => False.elim h, fun _ => ⟨rfl, rfl⟩⟩, trivial⟩
end Demo

/-- The second part fails for objects with one parent: `c.dr_wrt(a)` is computed again by every call. -/
theorem C73_again_refuted : ¬ C73_again_full Demo.sig := by
  intro hf
  have := hf _ Demo.exOnce_reach 9 2 0 (by decide +kernel) (by decide +kernel) [] (by simp) 9 2 0
  revert this
  decide +kernel

open ADDemo in
/-- The hypotheses of `C73_each_derivative_once_partial` are met by `y = a*b + a` with `w = a`. -/
example (f : ℕ) (j p : Id) : (drWrt lib f 3 0 (run lib (buildOps sharing) (Heap.empty lib))).1.ran j p ≤
    (run lib (buildOps sharing) (Heap.empty lib)).ran j p + 1 := by
  have hg := build_graph (s := lib) sharing sharing_ok.earlier
  refine C73_each_derivative_once_partial (buildOps sharing) f 3 0 ?_ ?_ ?_ ?_ ?_ j p
  · rw [(build_alive sharing sharing_ok.earlier).2]; rfl
  · rw [hg]; exact fun i _ => sharing_ok.acyclic i
  · rw [hg]; exact fun i _ => sharing_ok.notPermute i
  · rw [hg]; exact fun i _ => sharing_ok.dnames_nodup i
  · rw [hg]
    intro i k k' p _ h1 h2
    obtain ⟨o, ho, hm, _⟩ := sharing_ok.link h1
    obtain ⟨o', ho', hm', _⟩ := sharing_ok.link h2
    rw [ho] at ho'; cases ho'
    have hmem := List.mem_of_getElem? ho
    simp only [sharing, List.mem_cons, List.not_mem_nil, or_false] at hmem
    rcases hmem with rfl | rfl | rfl | rfl <;> simp only [leafO, binO, List.mem_cons, List.not_mem_nil, or_false, KW.link.injEq, reduceCtorEq] at hm hm'
    · rcases hm with ⟨rfl, rfl⟩ | ⟨rfl, rfl⟩ <;> rcases hm' with ⟨rfl, h⟩ | ⟨rfl, h⟩ <;> first | rfl | cases h
    · rcases hm with ⟨rfl, rfl⟩ | ⟨rfl, rfl⟩ <;> rcases hm' with ⟨rfl, h⟩ | ⟨rfl, h⟩ <;> first | rfl | cases h

/-- For `y = (a + b) * a`, the counts go from 0 to 1, and a second call makes no further one. -/
example : (Demo.hist Demo.exOnce).ran 2 0 = 0 ∧ (drWrt Demo.sig 9 3 0 (Demo.hist Demo.exOnce)).1.ran 2 0 = 1 ∧
    (drWrt Demo.sig 9 3 0 (Demo.hist Demo.exOnce)).1.ran 3 2 = 1 ∧ ((Demo.hist Demo.exOnce).node 3).parents.length ≠ 1 ∧
    (drWrt Demo.sig 9 3 0 (Demo.hist Demo.exOnce)).2.isOk = true ∧
    (drWrt Demo.sig 9 3 0 (drWrt Demo.sig 9 3 0 (Demo.hist Demo.exOnce)).1).1.ran 2 0 = 1 := by decide +kernel
end Chumpy
