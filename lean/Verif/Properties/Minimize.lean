import Verif.AD.Minimize
import Verif.Properties.StackedJac
import Verif.Properties.Reverse
/-!
# C54: the callbacks of `minimize` for methods other than dogleg
-/
namespace Chumpy
open scoped BigOperators Topology

/-! ## `fv[:] = value` -/

theorem getitem_whole {sh : List ℕ} (h : sh ≠ []) : getitem wholeKey sh = some (List.range sh.prod, sh) := by
  obtain ⟨n, t, rfl⟩ := List.exists_cons_of_ne_nil h
  have h1 : selOf wholeKey (n :: t) = some ((n :: t).map fun n => Sel.many (List.range n)) := by
    have : (Key.slice none none none).sel n = some (Sel.many (List.range n)) := by
      simp [Key.sel, sliceIndices, rangeLen]
    simp [selOf, this]
  unfold getitem
  rw [h1, Option.map_some, selShape_full]
  refine congrArg some (Prod.ext ?_ rfl)
  show (List.range _).map _ = _
  conv_rhs => rw [← List.map_id (List.range (n :: t).prod)]
  refine List.map_congr_left fun k hk => ?_
  have hk := List.mem_range.1 hk
  rw [selCoord_full _ (unravel_inB hk), ravel_unravel hk]; rfl

/-- What `y[:] = value` does to the graph, whatever it returns, for a view `y` of `l`. -/
structure SetWhole (g : Graph ClassDef Par) (n : ℕ) (l y : Id) (x0 : Arr) (osh : List ℕ) (pos : ℕ → ℕ) (value : Arr)
    (m : Mode) (G : Graph ClassDef Par) (N : ℕ) (x1 : Arr) : Prop where
  shape : x1.shape = x0.atleast1.shape
  put : ∀ k < osh.prod, x1.vec (pos k) = value.vec k
  rest : ∀ p < x0.size, (∀ k < osh.prod, pos k ≠ p) → x1.vec p = x0.vec p
  graph : G l = withArr g l x1 l ∧ ∀ i, i < n → i ≠ l → G i = g i
  next : n ≤ N
  run : ∀ f h, Reach lib m h → h.graph = g → h.next = n → (h.node l).alive = true →
    Reach lib m (setItem f y wholeKey value h).1 ∧ (∀ i, (h.node i).alive = true → ((setItem f y wholeKey value h).1.node i).alive = true) ∧
    ((setItem f y wholeKey value h).2 = .ok () ∧ (setItem f y wholeKey value h).1.graph = G ∧ (setItem f y wholeKey value h).1.next = N ∨
      (∃ e, (setItem f y wholeKey value h).2 = .error e) ∧ n ≤ (setItem f y wholeKey value h).1.next ∧
        ∀ i < n, (setItem f y wholeKey value h).1.graph i = g i)
  returns : ∃ f₀, ∀ f ≥ f₀, ∀ h, Reach lib m h → h.graph = g → h.next = n → (h.node l).alive = true →
    (setItem f y wholeKey value h).2 = .ok ()

/-- `setLeaf` in every mode. -/
theorem setLeaf_mode {m : Mode} {h : Heap ClassDef Par Arr Jac} (hr : Reach lib m h) {l : Id} (hl : IsLeaf h.graph l) (hal : (h.node l).alive = true) (x' : Arr) :
    ∃ h', setObj lib l [.term nmX (.arr x')] h = (h', .ok ()) ∧ Reach lib m h' ∧ h'.next = h.next ∧
      (∀ j, (h'.node j).alive = (h.node j).alive) ∧ h'.graph = withArr h.graph l x' := by
  obtain ⟨h1, a⟩ := setAll_built (s := lib) l [.term nmX (.arr x')] (reach_str hr) hal (by intro kw hm; simp at hm; subst hm; trivial)
  have e : setObj lib l [.term nmX (.arr x')] h = setAll lib l [.term nmX (.arr x')] h := by
    unfold setObj; rw [if_pos hal]
  refine ⟨(setAll lib l [.term nmX (.arr x')] h).1, ?_, ?_, a.next, a.alive, ?_⟩
  · rw [e]; exact Prod.ext rfl h1
  · have := Reach.step (.set l [.term nmX (.arr x')]) hr ⟨fun _ => by rw [hl.1]; rfl, Or.inl (by simp)⟩
    rw [← e]; simpa [step, M.map'] using this
  · funext j
    rw [a.graph]
    unfold withArr
    split
    · rfl
    · rfl

theorem setWhole_leaf {g : Graph ClassDef Par} {n : ℕ} {l : Id} {x0 value : Arr} {m : Mode} (hl : IsLeaf g l)
    (hx0 : (g l).terms nmX = some (.arr x0)) (hv : value.shape = x0.atleast1.shape) :
    ∃ G N x1, SetWhole g n l l x0 x0.atleast1.shape (fun k => k) value m G N x1 := by
  have hk := getitem_whole (atleast1_ne x0)
  have key : ∀ f h, h.graph = g → setItem f l wholeKey value h =
      setObj lib l [.term nmX (.arr (overwritten x0 value (List.range x0.atleast1.shape.prod) x0.atleast1.shape))] h := by
    intro f h hg
    unfold setItem
    have hb : (h.graph l).cls.isBase = true := by rw [hg, hl.1]; rfl
    rw [if_pos hb, hg, hx0]
    dsimp only
    rw [hk]
    dsimp only
    rw [if_pos (by rw [hv]; exact bshape_self _)]
  have hval : ∀ k < x0.atleast1.shape.prod, (overwritten x0 value (List.range x0.atleast1.shape.prod) x0.atleast1.shape).vec k = value.vec k := by
    intro k hk
    unfold overwritten
    rw [Arr.vec_of _ _ hk]
    cases hp : lastPos (List.range x0.atleast1.shape.prod) k with
    | none => exact absurd (List.mem_range.2 hk) (lastPos_none.1 hp)
    | some k2 =>
      obtain ⟨h1, h2⟩ := lastPos_some hp
      rw [List.length_range] at h1
      rw [getD_range h1] at h2
      subst h2
      dsimp only
      rw [hv, bidx_self hk]
  refine ⟨withArr g l (overwritten x0 value (List.range x0.atleast1.shape.prod) x0.atleast1.shape), n,
    overwritten x0 value (List.range x0.atleast1.shape.prod) x0.atleast1.shape, rfl, hval, fun p hp hno => ?_, ⟨rfl, fun i _ hi => withArr_other hi⟩, Nat.le_refl _, ?_, 0, ?_⟩
  · rw [← atleast1_prod] at hp; exact absurd rfl (hno p hp)
  · intro f h hr hg hn hal
    rw [key f h hg]
    obtain ⟨h', e, h1, h2, h3, h4⟩ := setLeaf_mode hr (by rw [hg]; exact hl) hal (overwritten x0 value (List.range x0.atleast1.shape.prod) x0.atleast1.shape)
    rw [e]
    exact ⟨h1, fun i hi => by rw [h3]; exact hi, Or.inl ⟨rfl, by rw [h4, hg], by rw [h2, hn]⟩⟩
  · intro f _ h hr hg hn hal
    rw [key f h hg]
    obtain ⟨h', e, _⟩ := setLeaf_mode hr (by rw [hg]; exact hl) hal (overwritten x0 value (List.range x0.atleast1.shape.prod) x0.atleast1.shape)
    rw [e]

theorem View.inner_any {g : Graph ClassDef Par} {l y : Id} {sh osh : List ℕ} {pos : ℕ → ℕ} (h : View g l sh y osh pos) (hl : IsLeaf g l) :
    ∀ f, innerOf g f y = .ok l ∨ innerOf g f y = .error .fuel := by
  refine h.split (P := fun y _ _ => ∀ f, innerOf g f y = .ok l ∨ innerOf g f y = .error .fuel) ?_ ?_
  · intro f
    have : (g l).cls.isBase = true := by rw [hl.1]; rfl
    cases f with
    | zero => exact Or.inr rfl
    | succ f => simp [innerOf, this]
  · intro t y tsh osh τ σ _ hs ih f
    obtain ⟨c, hy, hp, hb, _⟩ := hs.cls
    have h1 : (g y).dterms nmA = some t := hy.kid ⟨0, by simp⟩
    rw [← hy.cls] at hp hb
    cases f with
    | zero => exact Or.inr rfl
    | succ f =>
      have : innerOf g (f + 1) y = innerOf g f t := by simp [innerOf, hp, hb, h1]
      rw [this]; exact ih f

theorem read_any {h : Heap ClassDef Par Arr Jac} {m : Mode} (hr : Reach lib m h) {f : ℕ} {i : Id} {v : Arr} (e : (read lib f (.r i) h).2 = .ok v) :
    Means lib h.graph (.r i) (.ok v) :=
  (C01_value_never_stale_partial lib_propsOk (hr.weaken (m' := ⟨False, False⟩) (fun h => False.elim h) fun h => False.elim h) f i).1 v e

theorem setWhole_view {g : Graph ClassDef Par} {n : ℕ} {l y : Id} {x0 value : Arr} {osh : List ℕ} {pos : ℕ → ℕ} {m : Mode} (hm : m.plain)
    (hl : IsLeaf g l) (hx0 : (g l).terms nmX = some (.arr x0)) (hv : View g l x0.atleast1.shape y osh pos) (hyl : y ≠ l) (hosh : osh ≠ [])
    (hinj : ∀ i < osh.prod, ∀ j < osh.prod, pos i = pos j → i = j) (hval : value.shape = osh) (hnew : ∀ k, (g n).dterms k = none)
    (hln : l ≠ n) :
    ∃ G N x1, SetWhole g n l y x0 osh pos value m G N x1 := by
  have hk := getitem_whole hosh
  obtain ⟨hn, hi, _⟩ := getitem_spec hk
  have hx : Means lib g (.r l) (.ok x0.atleast1) := means_leaf hl.1 hx0
  have hy := hv.means hx rfl
  let o : ObjSpec ClassDef Par := ⟨chSelect, [nmA], [.link nmA y, .term nmP (.nats (List.range osh.prod)), .term nmQ (.nats osh)]⟩
  let g1 : Graph ClassDef Par := fun j => if j = n then o.node else g j
  have hl1 : IsLeaf g1 l := by
    have : g1 l = g l := if_neg hln
    unfold IsLeaf; rw [this]; exact hl
  have hx1 : Means lib g1 (.r l) (.ok x0.atleast1) := means_leaf hl1.1 (by rw [show g1 l = g l from if_neg hln]; exact hx0)
  have hv1 : View g1 l x0.atleast1.shape y osh pos := hv.congr fun i hi => if_neg (by rintro rfl; exact hi (hnew _))
  have hos : g1 n = o.node := if_pos rfl
  have hos1 : o.node.cls = chSelect ∧ o.node.dnames = [nmA] ∧ o.node.dterms nmA = some y ∧ o.node.terms nmP = some (.nats (List.range osh.prod)) ∧
      o.node.terms nmQ = some (.nats osh) := ⟨rfl, rfl, rfl, rfl, rfl⟩
  have hsA : IsA g1 n chSelect [nmA] fun _ => y :=
    ⟨by rw [hos]; exact hos1.1, by rw [hos]; exact hos1.2.1, by simp, fun a => by
      obtain rfl : a = (0 : Fin 1) := Fin.fin_one_eq_zero a
      rw [hos]; exact hos1.2.2.1⟩
  have hvs : View g1 l x0.atleast1.shape n _ _ := .slice hv1 hsA (by rw [hos]; exact hos1.2.2.2.1) (by rw [hos]; exact hos1.2.2.2.2) hn hi
  obtain ⟨d, hd, hdrep⟩ := hvs.dr hl1 hx1 rfl (Ne.symm hln)
  rw [ones_prod] at hdrep
  have hdrep' : Jac.Rep d osh.prod x0.atleast1.shape.prod (selMat pos fun _ => 1) :=
    Jac.rep_congr (fun i hi j _ => by simp only [selMat]; rw [getD_range hi]) hdrep
  obtain ⟨x', hx'1, hx'2, hx'3, hx'4⟩ := assigned_distinct (x := x0) (value := value) hdrep' (by rw [← Arr.atleast1_size])
    (by unfold Arr.size; rw [hval]) hv.bound hinj
  -- one run, at any recursion limit
  have main : ∀ f h, Reach lib m h → h.graph = g → h.next = n → (h.node l).alive = true →
      Reach lib m (setItem f y wholeKey value h).1 ∧ (∀ i, (h.node i).alive = true → ((setItem f y wholeKey value h).1.node i).alive = true) ∧
      ((setItem f y wholeKey value h).2 = .ok () ∧ (setItem f y wholeKey value h).1.graph = withArr g1 l x' ∧ (setItem f y wholeKey value h).1.next = n + 1 ∨
        (∃ e, (setItem f y wholeKey value h).2 = .error e) ∧ n ≤ (setItem f y wholeKey value h).1.next ∧
          (∀ i < n, (setItem f y wholeKey value h).1.graph i = g i) ∧ ¬ (innerOf g f y = .ok l ∧ (∃ v, evalReq lib g f (.r y) = .ok v) ∧
            evalDr lib g1 f n l = .ok (some d) ∧ ∃ v, evalReq lib g1 f (.r l) = .ok v)) := by
    intro f h hr hg hnx hal
    have hay : (h.node y).alive = true := (View.alive hr (by rw [hg]; exact hv) hyl).1
    have hlt : l < n := by rw [← hnx]; exact (reach_str hr).alive_lt hal
    have hb : ¬ (h.graph y).cls.isBase = true := by
      have := hv.split (P := fun y _ _ => y ≠ l → (g y).cls.isBase = false) (fun e => absurd rfl e)
        (fun _ hs _ _ => by obtain ⟨c, hy, _, hb, _⟩ := hs.cls; rw [hy.cls]; exact hb) hyl
      rw [hg, this]; simp
    have e0 : setItem f y wholeKey value h = match innerOf g f y with
      | .error e => (h, .error e)
      | .ok inner =>
        M.bind (read lib f (.r y)) (fun v =>
          match getitem wholeKey v.shape with
          | none => M.throw (.user 1)
          | some (idxs, ksh) =>
            M.bind (newObj lib chSelect [nmA] false false [.link nmA y, .term nmP (.nats idxs), .term nmQ (.nats ksh)]) fun s =>
            M.bind (drWrt lib f s inner) fun d =>
            M.bind (read lib f (.r inner)) fun vi => fun h =>
              match d, (h.graph inner).terms nmX with
              | some d, some (.arr x) =>
                match assigned d x value vi.shape with
                | .ok x' => setObj lib inner [.term nmX (.arr x')] h
                | .error e => (h, .error e)
              | _, _ => (h, .error .attr)) h := by
      unfold setItem; rw [if_neg hb, hg]; rfl
    rw [e0]
    rcases hv.inner_any hl f with hin | hin
    swap
    · rw [hin]
      refine ⟨hr, fun _ h => h, Or.inr ⟨⟨_, rfl⟩, Nat.le_of_eq hnx.symm, fun i _ => by rw [← hg], fun hc => ?_⟩⟩
      cases hc.1
    rw [hin]
    dsimp only [M.bind]
    have hr1 := reach_read hr hay f
    have F1 := read_pres (s := lib) rframe_rel f (.r y) h
    have ok1 := fun v (e : evalReq lib g f (.r y) = .ok v) => read_ok hr (by rw [hg]; exact e)
    have an1 := fun v => read_any (v := v) (f := f) (i := y) hr
    rcases hh1 : read lib f (.r y) h with ⟨h1, v1⟩
    rw [hh1] at hr1 F1 ok1 an1
    dsimp only at hr1 F1 ok1 an1 ⊢
    cases v1 with
    | error e =>
      refine ⟨hr1, fun i hi => by rw [F1.alive]; exact hi, Or.inr ⟨⟨_, rfl⟩, by rw [F1.next, hnx], fun i _ => by rw [F1.graph, hg], fun hc => ?_⟩⟩
      obtain ⟨v, hv⟩ := hc.2.1
      have := ok1 v hv
      cases this
    | ok v1 =>
      have hv1e : v1 = Arr.of osh fun k => x0.atleast1.vec (pos k) := by
        have := an1 v1 rfl
        rw [hg] at this
        have := this.unique hy
        injection this
      have hsh : v1.shape = osh := by rw [hv1e]; rfl
      dsimp only
      rw [hsh, hk]
      dsimp only [M.bind]
      have hpl : ∀ kw ∈ o.kws, kw.Plain h1 o.dnames := by
        intro kw hm
        simp only [o, List.mem_cons, List.not_mem_nil, or_false] at hm
        rcases hm with rfl | rfl | rfl
        · exact ⟨by simp [o], by rw [F1.alive]; exact hay⟩
        · trivial
        · trivial
      obtain ⟨e2, _⟩ := newObj_eq (s := lib) (reach_str hr1) o hpl
      obtain ⟨_, n2, a2, g2⟩ := newObj_built (s := lib) (reach_str hr1) o hpl
      have hr2 := Reach.step (.new o.cls o.dnames false false o.kws) hr1 ⟨fun _ _ k hk => by simpa [o] using hk, fun _ => ⟨rfl, rfl⟩⟩
      have es : (step lib (.new o.cls o.dnames false false o.kws) h1).1 = (newObj lib o.cls o.dnames false false o.kws h1).1 := rfl
      rw [es] at n2 a2 g2 hr2
      rcases hh2 : newObj lib o.cls o.dnames false false o.kws h1 with ⟨h2, v2⟩
      rw [hh2] at n2 a2 g2 hr2 e2
      have v2e : v2 = .ok h1.next := congrArg Prod.snd e2
      dsimp only at n2 a2 g2 hr2
      have hg2 : h2.graph = g1 := by
        funext j; rw [g2, F1.graph, F1.next, hg, hnx]
      rw [v2e]
      dsimp only
      rw [F1.next, hnx]
      have up2 : ∀ i, (h.node i).alive = true → (h2.node i).alive = true := by
        intro i hi
        rw [a2, F1.alive]; split
        · rfl
        · exact hi
      have hal2 := up2 l hal
      have has2 : (h2.node n).alive = true := by rw [a2, F1.next, hnx, if_pos rfl]
      have nx2 : h2.next = n + 1 := by rw [n2, F1.next, hnx]
      have w2 : Reach lib ⟨False, True⟩ h2 := hr2.weaken (fun h => False.elim h) fun _ => hm
      have hpm : lib.isPermute (h2.graph l).cls = false := by rw [hg2, hl1.1]; rfl
      have ok3 := fun (e : evalDr lib g1 f n l = .ok (some d)) => drWrt_ok w2 hpm (by rw [hg2]; exact e)
      have an3 := (C02_derivative_never_stale_partial lib_propsOk lib_plainForm w2 f n l hpm).1
      have hr3 := reach_drWrt hr2 has2 hal2 f
      have F3 := drWrt_pres (s := lib) rframe_rel f n l h2
      rcases hh3 : drWrt lib f n l h2 with ⟨h3, v3⟩
      rw [hh3] at hr3 F3 ok3 an3
      dsimp only at hr3 F3 ok3 an3 ⊢
      have gr3 : ∀ i < n, h3.graph i = g i := fun i hi => by rw [F3.graph, hg2]; exact if_neg (Nat.ne_of_lt hi)
      cases v3 with
      | error e =>
        refine ⟨hr3, fun i hi => by rw [F3.alive]; exact up2 i hi, Or.inr ⟨⟨_, rfl⟩, by rw [F3.next, nx2]; exact Nat.le_succ _, gr3, fun hc => ?_⟩⟩
        have := ok3 hc.2.2.1
        cases this
      | ok v3 =>
        have e3 : v3 = some d := by
          have := an3 v3 rfl
          rw [hg2] at this
          have := this.unique hd
          injection this
        subst e3
        dsimp only
        have hal3 : (h3.node l).alive = true := by rw [F3.alive]; exact hal2
        have hr4 := reach_read hr3 hal3 f
        have F4 := read_pres (s := lib) rframe_rel f (.r l) h3
        have g3 : h3.graph = g1 := by rw [F3.graph, hg2]
        have ok4 := fun v (e : evalReq lib g1 f (.r l) = .ok v) => read_ok hr3 (by rw [g3]; exact e)
        have an4 := fun v => read_any (v := v) (f := f) (i := l) hr3
        rcases hh4 : read lib f (.r l) h3 with ⟨h4, v4⟩
        rw [hh4] at hr4 F4 ok4 an4
        dsimp only at hr4 F4 ok4 an4 ⊢
        have g4 : h4.graph = g1 := by rw [F4.graph, g3]
        have up4 : ∀ i, (h.node i).alive = true → (h4.node i).alive = true := fun i hi => by rw [F4.alive, F3.alive]; exact up2 i hi
        cases v4 with
        | error e =>
          refine ⟨hr4, up4, Or.inr ⟨⟨_, rfl⟩, by rw [F4.next, F3.next, nx2]; exact Nat.le_succ _, fun i hi => by rw [F4.graph]; exact gr3 i hi, fun hc => ?_⟩⟩
          obtain ⟨v, hv⟩ := hc.2.2.2
          have := ok4 v hv
          cases this
        | ok v4 =>
          have e4 : v4 = x0.atleast1 := by
            have := an4 v4 rfl
            rw [g3] at this
            have := this.unique hx1
            injection this
          subst e4
          dsimp only
          have hx4 : (h4.graph l).terms nmX = some (.arr x0) := by rw [g4, show g1 l = g l from if_neg hln]; exact hx0
          rw [hx4]
          dsimp only
          rw [hx'1]
          dsimp only
          obtain ⟨h', e5, r5, n5, a5, gr5⟩ := setLeaf_mode hr4 (by rw [g4]; exact hl1) (up4 l hal) x'
          rw [e5]
          exact ⟨r5, fun i hi => by rw [a5]; exact up4 i hi, Or.inl ⟨rfl, by rw [gr5, g4], by rw [n5, F4.next, F3.next, nx2]⟩⟩
  refine ⟨withArr g1 l x', n + 1, x', hx'2, hx'3, fun p hp => hx'4 p (by rw [atleast1_prod]; exact hp), ⟨?_, fun i hi hil => ?_⟩, Nat.le_succ _, fun f h hr hg hnx hal => ?_, ?_⟩
  · have : g1 l = g l := if_neg hln
    unfold withArr; rw [if_pos rfl, if_pos rfl, this]
  · rw [withArr_other hil]; exact if_neg (Nat.ne_of_lt hi)
  · obtain ⟨a, b, c⟩ := main f h hr hg hnx hal
    exact ⟨a, b, c.imp id fun h => ⟨h.1, h.2.1, h.2.2.1⟩⟩
  · obtain ⟨f1, hf1⟩ := hv.inner hl
    obtain ⟨_, f2, hf2⟩ := hy
    obtain ⟨_, f3, hf3⟩ := hd
    obtain ⟨_, f4, hf4⟩ := hx1
    refine ⟨max f1 (max f2 (max f3 f4)), fun f hf h hr hg hnx hal => ?_⟩
    have b1 : f1 ≤ f := le_trans (le_max_left _ _) hf
    have b2 : f2 ≤ f := le_trans (le_trans (le_max_left _ _) (le_max_right _ _)) hf
    have b3 : f3 ≤ f := le_trans (le_trans (le_trans (le_max_left _ _) (le_max_right _ _)) (le_max_right _ _)) hf
    have b4 : f4 ≤ f := le_trans (le_trans (le_trans (le_max_right _ _) (le_max_right _ _)) (le_max_right _ _)) hf
    rcases (main f h hr hg hnx hal).2.2 with hc | hc
    · exact hc.1
    · refine absurd ⟨hf1 f b1, ⟨Arr.of osh fun k => x0.atleast1.vec (pos k), ?_⟩, evalDr_up b3 hf3, ⟨x0.atleast1, ?_⟩⟩ hc.2.2.2
      · have := evalReq_mono lib g b2 (.r y)
        rw [Le, hf2] at this
        exact this (by simp)
      · have := evalReq_mono lib g1 b4 (.r l)
        rw [Le, hf4] at this
        exact this (by simp)

theorem View.osh_ne {g : Graph ClassDef Par} {l y : Id} {sh osh : List ℕ} {pos : ℕ → ℕ} (h : View g l sh y osh pos) (hsh : sh ≠ []) : osh ≠ [] := by
  have ones : ∀ s : List ℕ, (if s = [] then [1] else s) ≠ [] := fun s => by
    split
    · simp
    · assumption
  cases h with
  | leaf => exact hsh
  | slice => exact ones _
  | reshape => exact ones _
  | reorder => exact ones _

/-- `fv[:] = value` for a free variable. -/
theorem setWhole {g : Graph ClassDef Par} {n : ℕ} {v : Free} {x0 value : Arr} {m : Mode} (hm : m.plain) (hv : v.Is g)
    (hx0 : (g v.l).terms nmX = some (.arr x0)) (hval : value.shape = v.osh) (hnew : ∀ k, (g n).dterms k = none) (hln : v.l ≠ n) :
    ∃ G N x1, SetWhole g n v.l v.fv x0 v.osh v.pos value m G N x1 := by
  obtain ⟨x2, h2, hview⟩ := hv.arr
  rw [hx0] at h2
  obtain rfl : x0 = x2 := by simpa using h2
  by_cases hyl : v.fv = v.l
  · have hpos : v.osh = x0.atleast1.shape ∧ ∀ k < v.osh.prod, v.pos k = k := by
      have := hview.split (P := fun t tsh τ => t = v.l → tsh = x0.atleast1.shape ∧ ∀ k < tsh.prod, τ k = k) (fun _ => ⟨rfl, fun _ _ => rfl⟩)
        fun _ hs _ e => absurd e (hs.ne_leaf hv.leaf)
      exact this hyl
    obtain ⟨e1, e2⟩ := hpos
    obtain ⟨G, N, x1, a⟩ := setWhole_leaf (n := n) (m := m) hv.leaf hx0 (hval.trans e1)
    rw [hyl]
    refine ⟨G, N, x1, a.shape, fun k hk => ?_, fun p hp hno => ?_, a.graph, a.next, a.run, a.returns⟩
    · rw [e2 k hk]; exact a.put k (by rw [← e1]; exact hk)
    · refine a.rest p hp fun k hk => ?_
      rw [← e1] at hk
      have := hno k hk
      rwa [e2 k hk] at this
  · exact setWhole_view hm hv.leaf hx0 hview hyl (hview.osh_ne (atleast1_ne x0)) hv.inj hval hnew hln

/-! ## The states during `minimize` -/

/-- `g` is `g0`, as far as the first `n` objects are concerned, but for the entries of the free variables. -/
structure KeptBut (n : ℕ) (vs : List Free) (g0 g : Graph ClassDef Par) : Prop where
  each : ∀ v ∈ vs, ∃ x0 x1 : Arr, (g0 v.l).terms nmX = some (.arr x0) ∧ g v.l = withArr g0 v.l x1 v.l ∧
    x1.atleast1.shape = x0.atleast1.shape ∧ ∀ p < x0.size, (∀ u ∈ vs, u.l = v.l → ∀ k < u.size, u.pos k ≠ p) → x1.vec p = x0.vec p
  other : ∀ j < n, (∀ v ∈ vs, j ≠ v.l) → g j = g0 j

/-- The arguments of `minimize`: a reachable state, an objective, and free variables that are different parts of arrays. -/
structure Setting (m : Mode) (h0 : Heap ClassDef Par Arr Jac) (o : Id) (vs : List Free) : Prop where
  reach : Reach lib m h0
  plain : m.plain
  obj : (h0.node o).alive = true
  free : ∀ v ∈ vs, v.Is h0.graph ∧ (h0.node v.l).alive = true ∧ (h0.node v.fv).alive = true ∧ v.size ≠ 0
  apart : Apart vs
  nonempty : vs ≠ []

/-- A state during `minimize`. -/
structure During (m : Mode) (h0 : Heap ClassDef Par Arr Jac) (vs : List Free) (h : Heap ClassDef Par Arr Jac) : Prop where
  reach : Reach lib m h
  next : h0.next ≤ h.next
  alive : ∀ i, (h0.node i).alive = true → (h.node i).alive = true
  kept : KeptBut h0.next vs h0.graph h.graph

section
variable {m : Mode} {h0 h : Heap ClassDef Par Arr Jac} {o : Id} {vs : List Free}

theorem Setting.lt (S : Setting m h0 o vs) {v : Free} (hv : v ∈ vs) : v.l < h0.next := (reach_str S.reach).alive_lt (S.free v hv).2.1

theorem KeptBut.refl (S : Setting m h0 o vs) : KeptBut h0.next vs h0.graph h0.graph := by
  refine ⟨fun v hv => ?_, fun _ _ _ => rfl⟩
  obtain ⟨x0, hx0, _⟩ := (S.free v hv).1.arr
  exact ⟨x0, x0, hx0, by rw [withArr_same hx0], rfl, fun _ _ _ => rfl⟩

theorem Setting.start (S : Setting m h0 o vs) : During m h0 vs h0 := ⟨S.reach, Nat.le_refl _, fun _ h => h, .refl S⟩

theorem During.rframe (d : During m h0 vs h) {h' : Heap ClassDef Par Arr Jac} (hr : Reach lib m h') (F : RFrame h h') : During m h0 vs h' :=
  ⟨hr, by rw [F.next]; exact d.next, fun i hi => by rw [F.alive]; exact d.alive i hi, by rw [F.graph]; exact d.kept⟩

theorem During.free (S : Setting m h0 o vs) (d : During m h0 vs h) {v : Free} (hv : v ∈ vs) : v.Is h.graph := by
  obtain ⟨his, _⟩ := S.free v hv
  obtain ⟨x0, x1, a1, a2, a3, _⟩ := d.kept.each v hv
  obtain ⟨y, b1, b2⟩ := his.arr
  rw [a1] at b1
  obtain rfl : x0 = y := by simpa using b1
  have hl : IsLeaf h.graph v.l := by
    have := isLeaf_withArr (l := v.l) (x := x1) his.leaf
    unfold IsLeaf at this ⊢
    rw [a2]; exact this
  refine ⟨hl, ⟨x1, by rw [a2]; unfold withArr; rw [if_pos rfl]; simp, ?_⟩, his.inj⟩
  rw [a3]
  refine b2.congr fun i hi => ?_
  refine d.kept.other i ?_ fun u hu e => ?_
  · by_contra hc
    exact hi (((reach_str S.reach).dead i ((reach_str S.reach).unborn i (Nat.le_of_not_lt hc))).2.1 nmA)
  · subst e
    exact hi ((S.free u hu).1.leaf.2.1 nmA)

theorem During.new (d : During m h0 vs h) (k : Name) : (h.graph h.next).dterms k = none :=
  ((reach_str d.reach).dead h.next ((reach_str d.reach).unborn _ (Nat.le_refl _))).2.1 k

/-- The free variables `W`, at their offsets, have the entries of `xs`. -/
def Shows (g : Graph ClassDef Par) (xs : Arr) (W : List (Free × ℕ)) : Prop :=
  ∀ w ∈ W, ∀ a, (g w.1.l).terms nmX = some (.arr a) → ∀ k < w.1.size, xs.vec (w.2 + k) = a.vec (w.1.pos k)

theorem withArr_self (g : Graph ClassDef Par) (l : Id) (x : Arr) : (withArr g l x l).terms nmX = some (.arr x) := by
  unfold withArr; rw [if_pos rfl]; simp

theorem withArr_twice {g g' : Graph ClassDef Par} {l : Id} {x y : Arr} (h : g' l = withArr g l x l) : withArr g' l y l = withArr g l y l := by
  unfold withArr at h ⊢
  rw [if_pos rfl] at h
  rw [if_pos rfl, if_pos rfl, h]
  have e : (fun k => if k = nmX then some (Par.arr y) else if k = nmX then some (Par.arr x) else (g l).terms k) =
      fun k => if k = nmX then some (Par.arr y) else (g l).terms k := by
    funext k
    by_cases hk : k = nmX
    · rw [if_pos hk, if_pos hk]
    · rw [if_neg hk, if_neg hk, if_neg hk]
  dsimp only
  rw [e]

/-- What one `fv[:] = …` does to the state. -/
theorem SetWhole.kept (S : Setting m h0 o vs) (d : During m h0 vs h) {v : Free} (hv : v ∈ vs) {x0 value x1 : Arr} {G : Graph ClassDef Par} {N : ℕ}
    (hx0 : (h.graph v.l).terms nmX = some (.arr x0)) (a : SetWhole h.graph h.next v.l v.fv x0 v.osh v.pos value m G N x1) :
    KeptBut h0.next vs h0.graph G := by
  refine ⟨fun u hu => ?_, fun j hj hn => ?_⟩
  · obtain ⟨y0, y1, b1, b2, b3, b4⟩ := d.kept.each u hu
    by_cases hl : u.l = v.l
    · have hy1 : x0 = y1 := by
        have := withArr_self h0.graph u.l y1
        rw [← b2, hl, hx0] at this
        simpa using this
      subst hy1
      have b2' : h.graph v.l = withArr h0.graph v.l x0 v.l := by rw [← hl]; exact b2
      have hsz : x0.size = y0.size := by rw [← Arr.atleast1_size, ← Arr.atleast1_size y0]; unfold Arr.size; rw [b3]
      refine ⟨y0, x1, b1, ?_, ?_, fun p hp hno => ?_⟩
      · rw [hl, a.graph.1, withArr_twice b2']
      · have : x1.atleast1 = x1 := atleast1_of_ne (by rw [a.shape]; exact atleast1_ne x0)
        rw [this, a.shape, b3]
      · rw [a.rest p (by rw [hsz]; exact hp) fun k hk => hno v hv hl.symm k hk]
        exact b4 p hp hno
    · refine ⟨y0, y1, b1, ?_, b3, b4⟩
      rw [a.graph.2 _ (Nat.lt_of_lt_of_le (S.lt hu) d.next) hl, b2]
  · rw [a.graph.2 j (Nat.lt_of_lt_of_le hj d.next) (hn v hv)]
    exact d.kept.other j hj hn

theorem SetWhole.shows (S : Setting m h0 o vs) (d : During m h0 vs h) {w : Free × ℕ} (hw : w ∈ offsets vs 0) {x0 value x1 xs : Arr} {G : Graph ClassDef Par} {N : ℕ}
    (hx0 : (h.graph w.1.l).terms nmX = some (.arr x0)) (a : SetWhole h.graph h.next w.1.l w.1.fv x0 w.1.osh w.1.pos value m G N x1)
    (hval : ∀ k < w.1.size, value.vec k = xs.vec (w.2 + k)) {W : List (Free × ℕ)} (hW : ∀ u ∈ W, u ∈ offsets vs 0) (hs : Shows h.graph xs W) :
    Shows G xs (w :: W) := by
  intro u hu b hb k hk
  by_cases huw : u = w
  · subst huw
    rw [a.graph.1, withArr_self] at hb
    obtain rfl : x1 = b := by simpa using hb
    rw [a.put k hk, hval k hk]
  · have hu' : u ∈ W := by
      rcases List.mem_cons.1 hu with h | h
      · exact absurd h huw
      · exact h
    by_cases hl : u.1.l = w.1.l
    · rw [hl, a.graph.1, withArr_self] at hb
      obtain rfl : x1 = b := by simpa using hb
      rw [hs u hu' x0 (by rw [hl]; exact hx0) k hk]
      have hp := (During.free S d (mem_offsets (hW u hu'))).pos_lt (x0 := x0) (by rw [hl]; exact hx0) hk
      rw [a.rest _ hp]
      intro k' hk'
      exact fun e => offsets_apart vs 0 S.apart u (hW u hu') w hw huw hl k hk k' hk' e.symm
    · rw [a.graph.2 _ (Nat.lt_of_lt_of_le (S.lt (mem_offsets (hW u hu'))) d.next) hl] at hb
      exact hs u hu' b hb k hk

theorem During.means_fv (S : Setting m h0 o vs) (d : During m h0 vs h) {v : Free} (hv : v ∈ vs) :
    ∃ x0, (h.graph v.l).terms nmX = some (.arr x0) ∧ Means lib h.graph (.r v.fv) (.ok (Arr.of v.osh fun k => x0.vec (v.pos k))) := by
  have ok := d.free S hv
  obtain ⟨x0, h1, h2⟩ := ok.arr
  refine ⟨x0, h1, ?_⟩
  have := h2.means (means_leaf ok.leaf.1 h1) rfl
  have e : (Arr.of v.osh fun k => x0.atleast1.vec (v.pos k)) = Arr.of v.osh fun k => x0.vec (v.pos k) :=
    Arr.of_congr fun k _ => Arr.atleast1_vec _ _
  rwa [e] at this

theorem During.read (d : During m h0 vs h) {i : Id} (hi : (h0.node i).alive = true) (f : ℕ) : During m h0 vs (read lib f (.r i) h).1 :=
  d.rframe (reach_read d.reach (d.alive i hi) f) (read_pres (s := lib) rframe_rel f (.r i) h)

/-- `changevars` at any recursion limit: the state stays one during `minimize`, and if it returns then the free variables have the entries
of the vector. -/
theorem changeVars_any (S : Setting m h0 o vs) (f : ℕ) (xs : Arr) : ∀ (us : List Free) (cur : ℕ) (done : List (Free × ℕ)) (b : Bool) (h : Heap ClassDef Par Arr Jac),
    (∀ w ∈ done, w ∈ offsets vs 0) → (∀ w ∈ offsets us cur, w ∈ offsets vs 0) → During m h0 vs h → Shows h.graph xs done →
    During m h0 vs (changeVars f xs (us.map Free.fv) cur b h).1 ∧
      ∀ c, (changeVars f xs (us.map Free.fv) cur b h).2 = .ok c → Shows (changeVars f xs (us.map Free.fv) cur b h).1.graph xs (done ++ offsets us cur)
  | [], cur, done, b, h, _, _, d, hs => ⟨d, fun c _ => by simpa [changeVars, M.pure, offsets] using hs⟩
  | v :: us, cur, done, b, h, hd, hu, d, hs => by
    have hw : (v, cur) ∈ offsets vs 0 := hu _ (by simp [offsets])
    have hv : v ∈ vs := mem_offsets hw
    obtain ⟨x0, hx0, hmv⟩ := d.means_fv S hv
    have hu' : ∀ w ∈ offsets us (cur + v.size), w ∈ offsets vs 0 := fun w hw => hu w (by simp [offsets, hw])
    have dr := d.read (S.free v hv).2.2.1 f
    have F := read_pres (s := lib) rframe_rel f (.r v.fv) h
    have an := fun x => read_any (v := x) (f := f) (i := v.fv) d.reach
    simp only [List.map_cons, changeVars, M.bind]
    rcases hh : Chumpy.read lib f (.r v.fv) h with ⟨h1, r1⟩
    rw [hh] at dr F an
    dsimp only at dr F an ⊢
    cases r1 with
    | error e => exact ⟨dr, fun c hc => by cases hc⟩
    | ok y =>
      have hy : y = Arr.of v.osh fun k => x0.vec (v.pos k) := by
        have := (an y rfl).unique hmv
        injection this
      have hsz : y.size = v.size := by rw [hy]; rfl
      have hyv : ∀ k < v.size, y.vec k = x0.vec (v.pos k) := fun k hk => by rw [hy]; exact Arr.vec_of _ _ hk
      dsimp only
      by_cases hc : cur + y.size ≤ xs.size ∧ y.size ≠ 0
      swap
      · rw [if_neg hc]; exact ⟨dr, fun c hc => by cases hc⟩
      rw [if_pos hc]
      by_cases he : ∀ k < y.size, xs.vec (cur + k) = y.vec k
      · rw [if_pos he, hsz]
        have := changeVars_any S f xs us (cur + v.size) (done ++ [(v, cur)]) b h1 (fun w hw' => by
          rcases List.mem_append.1 hw' with h | h
          · exact hd w h
          · rw [List.mem_singleton.1 h]; exact hw) hu' dr (by
          rw [F.graph]
          intro w hw' a ha k hk
          rcases List.mem_append.1 hw' with h | h
          · exact hs w h a ha k hk
          · rw [List.mem_singleton.1 h] at ha hk ⊢
            rw [hx0] at ha
            obtain rfl : x0 = a := by simpa using ha
            rw [he k (by rw [hsz]; exact hk)]; exact hyv k hk)
        simpa [offsets] using this
      · rw [if_neg he]
        dsimp only [M.bind]
        have hx1 : (h1.graph v.l).terms nmX = some (.arr x0) := by rw [F.graph]; exact hx0
        obtain ⟨G, N, x1, a⟩ := setWhole (n := h1.next) (value := Arr.of y.shape fun k => xs.vec (cur + k)) S.plain (dr.free S hv) hx1
          (by rw [hy]; rfl) (fun k => dr.new k) (Nat.ne_of_lt (Nat.lt_of_lt_of_le (S.lt hv) dr.next))
        obtain ⟨r1, r2, r3⟩ := a.run f h1 dr.reach rfl rfl (dr.alive _ (S.free v hv).2.1)
        have hne := a.next
        have hkept := a.kept S dr hv hx1
        have hval : ∀ k < v.size, (Arr.of y.shape fun k => xs.vec (cur + k)).vec k = xs.vec (cur + k) := fun k hk => Arr.vec_of _ _ (by rw [hy]; exact hk)
        have hshow := a.shows S dr hw hx1 hval hd (by rw [F.graph]; exact hs)
        rcases hst : setItem f v.fv wholeKey (Arr.of y.shape fun k => xs.vec (cur + k)) h1 with ⟨h2, s2⟩
        rw [hst] at r1 r2 r3
        dsimp only at r1 r2 r3 ⊢
        rcases r3 with ⟨e1, e2, e3⟩ | ⟨⟨e, e1⟩, e2, e3⟩
        · subst e1
          have d2 : During m h0 vs h2 := ⟨r1, by rw [e3]; exact Nat.le_trans dr.next hne, fun i hi => r2 i (dr.alive i hi), by rw [e2]; exact hkept⟩
          rw [hsz]
          have := changeVars_any S f xs us (cur + v.size) (done ++ [(v, cur)]) true h2 (fun w hw' => by
            rcases List.mem_append.1 hw' with h | h
            · exact hd w h
            · rw [List.mem_singleton.1 h]; exact hw) hu' d2 (by
            rw [e2]
            intro w hw'
            exact hshow w (by simpa [or_comm] using hw'))
          simpa [offsets] using this
        · subst e1
          refine ⟨⟨r1, Nat.le_trans dr.next e2, fun i hi => r2 i (dr.alive i hi), ⟨fun u hu => ?_, fun j hj hn => ?_⟩⟩, fun c hc => by cases hc⟩
          · rw [e3 _ (Nat.lt_of_lt_of_le (S.lt hu) dr.next)]; exact dr.kept.each u hu
          · rw [e3 _ (Nat.lt_of_lt_of_le hj dr.next)]; exact dr.kept.other j hj hn

/-- `changevars` does return, with an array of the right size, and what it does to the graph does not depend on the recursion limit. -/
theorem changeVars_returns (S : Setting m h0 o vs) (xs : Arr) (hxs : ∀ w ∈ offsets vs 0, w.2 + w.1.size ≤ xs.size) :
    ∀ (us : List Free) (cur : ℕ) (b : Bool) (h : Heap ClassDef Par Arr Jac), (∀ w ∈ offsets us cur, w ∈ offsets vs 0) → During m h0 vs h →
      ∃ G N f₀, ∀ f ≥ f₀, ∀ h', During m h0 vs h' → h'.graph = h.graph → h'.next = h.next →
        (∃ c, (changeVars f xs (us.map Free.fv) cur b h').2 = .ok c) ∧ (changeVars f xs (us.map Free.fv) cur b h').1.graph = G ∧
          (changeVars f xs (us.map Free.fv) cur b h').1.next = N
  | [], cur, b, h, _, _ => ⟨h.graph, h.next, 0, fun f _ h' _ e1 e2 => ⟨⟨b, rfl⟩, e1, e2⟩⟩
  | v :: us, cur, b, h, hu, d => by
    have hw : (v, cur) ∈ offsets vs 0 := hu _ (by simp [offsets])
    have hv : v ∈ vs := mem_offsets hw
    obtain ⟨x0, hx0, hmv⟩ := d.means_fv S hv
    have hu' : ∀ w ∈ offsets us (cur + v.size), w ∈ offsets vs 0 := fun w hw => hu w (by simp [offsets, hw])
    have hle := hxs _ hw
    dsimp only at hle
    have hsz : (Arr.of v.osh fun k => x0.vec (v.pos k)).size = v.size := rfl
    have hc : cur + (Arr.of v.osh fun k => x0.vec (v.pos k)).size ≤ xs.size ∧ (Arr.of v.osh fun k => x0.vec (v.pos k)).size ≠ 0 :=
      ⟨hle, (S.free v hv).2.2.2⟩
    obtain ⟨_, f1, hf1⟩ := hmv
    have rd : ∀ f ≥ f1, ∀ h', During m h0 vs h' → h'.graph = h.graph → (Chumpy.read lib f (.r v.fv) h').2 = .ok (Arr.of v.osh fun k => x0.vec (v.pos k)) := by
      intro f hf h' d' e1
      refine read_ok d'.reach ?_
      rw [e1]
      have := evalReq_mono lib h.graph hf (.r v.fv)
      rw [Le, hf1] at this
      exact this (by simp)
    by_cases he : ∀ k < (Arr.of v.osh fun k => x0.vec (v.pos k)).size, xs.vec (cur + k) = (Arr.of v.osh fun k => x0.vec (v.pos k)).vec k
    · obtain ⟨G, N, f2, ih⟩ := changeVars_returns S xs hxs us (cur + v.size) b h hu' d
      refine ⟨G, N, max f1 f2, fun f hf h' d' e1 e2 => ?_⟩
      have r1 := rd f (le_trans (le_max_left _ _) hf) h' d' e1
      have dr := d'.read (S.free v hv).2.2.1 f
      have F := read_pres (s := lib) rframe_rel f (.r v.fv) h'
      simp only [List.map_cons, changeVars, M.bind]
      rcases hh : Chumpy.read lib f (.r v.fv) h' with ⟨h1, s1⟩
      rw [hh] at dr F r1
      dsimp only at dr F r1 ⊢
      subst r1
      dsimp only
      rw [if_pos hc, if_pos he]
      exact ih f (le_trans (le_max_right _ _) hf) h1 dr (by rw [F.graph, e1]) (by rw [F.next, e2])
    · obtain ⟨G1, N1, x1, a⟩ := setWhole (n := h.next) (value := Arr.of v.osh fun k => xs.vec (cur + k)) S.plain (d.free S hv) hx0
        rfl (fun k => d.new k) (Nat.ne_of_lt (Nat.lt_of_lt_of_le (S.lt hv) d.next))
      obtain ⟨f2, hf2⟩ := a.returns
      have hkept := a.kept S d hv hx0
      have st : ∀ f ≥ f2, ∀ h', During m h0 vs h' → h'.graph = h.graph → h'.next = h.next →
          ∃ h2, setItem f v.fv wholeKey (Arr.of v.osh fun k => xs.vec (cur + k)) h' = (h2, .ok ()) ∧ During m h0 vs h2 ∧ h2.graph = G1 ∧ h2.next = N1 := by
        intro f hf h' d' e1 e2
        have ha := d'.alive _ (S.free v hv).2.1
        have ok := hf2 f hf h' d'.reach e1 e2 ha
        obtain ⟨r1, r2, r3⟩ := a.run f h' d'.reach e1 e2 ha
        rcases hst : setItem f v.fv wholeKey (Arr.of v.osh fun k => xs.vec (cur + k)) h' with ⟨h2, s2⟩
        rw [hst] at r1 r2 r3 ok
        dsimp only at r1 r2 r3 ok
        subst ok
        rcases r3 with ⟨_, e3, e4⟩ | ⟨⟨e, e3⟩, _⟩
        · refine ⟨h2, rfl, ⟨r1, ?_, fun i hi => r2 i (d'.alive i hi), by rw [e3]; exact hkept⟩, e3, e4⟩
          rw [e4]; exact Nat.le_trans d.next a.next
        · cases e3
      obtain ⟨h2, _, d2, g2, n2⟩ := st f2 (Nat.le_refl _) h d rfl rfl
      obtain ⟨G, N, f3, ih⟩ := changeVars_returns S xs hxs us (cur + v.size) true h2 hu' d2
      refine ⟨G, N, max f1 (max f2 f3), fun f hf h' d' e1 e2 => ?_⟩
      have r1 := rd f (le_trans (le_max_left _ _) hf) h' d' e1
      have dr := d'.read (S.free v hv).2.2.1 f
      have F := read_pres (s := lib) rframe_rel f (.r v.fv) h'
      simp only [List.map_cons, changeVars, M.bind]
      rcases hh : Chumpy.read lib f (.r v.fv) h' with ⟨h1, s1⟩
      rw [hh] at dr F r1
      dsimp only at dr F r1 ⊢
      subst r1
      dsimp only
      rw [if_pos hc, if_neg he]
      dsimp only [M.bind]
      obtain ⟨h3, q1, q2, q3, q4⟩ := st f (le_trans (le_trans (le_max_left _ _) (le_max_right _ _)) hf) h1 dr (by rw [F.graph, e1]) (by rw [F.next, e2])
      have q1' : setItem f v.fv wholeKey (Arr.of (Arr.of v.osh fun k => x0.vec (v.pos k)).shape fun k => xs.vec (cur + k)) h1 = (h3, .ok ()) := q1
      rw [q1']
      exact ih f (le_trans (le_trans (le_max_right _ _) (le_max_right _ _)) hf) h3 q2 (by rw [q3, g2]) (by rw [q4, n2])

/-! ## Values and derivatives at the vector passed in -/

/-- Graphs with the same objects, up to the difference between an array without axes and one with one entry. -/
def Alike (g g' : Graph ClassDef Par) (j : Id) : Prop :=
  g' j = g j ∨ (g j).cls = chLeaf ∧ (g' j).cls = chLeaf ∧
    ∃ x x', (g j).terms nmX = some (.arr x) ∧ (g' j).terms nmX = some (.arr x') ∧ x'.atleast1 = x.atleast1

theorem eval_alike {g g' : Graph ClassDef Par} {A : Id → Prop} (hcl : ∀ j, A j → ∀ k c, (g j).dterms k = some c → A c)
    (he : ∀ j, A j → Alike g g' j) : ∀ f j, A j → evalReq lib g' f (.r j) = evalReq lib g f (.r j) ∧
      ∀ p, evalReq lib g' f (.prop j p) = evalReq lib g f (.prop j p) := by
  intro f
  induction f with
  | zero => exact fun _ _ => ⟨rfl, fun _ => rfl⟩
  | succ f ih =>
    intro j hj
    rcases he j hj with e | ⟨c1, c2, x, x', e1, e2, e3⟩
    · simp only [evalReq]
      rw [e]
      have key : ∀ p : Prog Par Arr Arr, evalProg g' (evalReq lib g' f) j p = evalProg g (evalReq lib g f) j p := fun p =>
        evalProg_congr e (fun k c hk => (ih c (hcl j hj k c hk)).1) (fun p => (ih j hj).2 p) (ih j hj).1 p
      refine ⟨key _, fun p => ?_⟩
      cases (g j).cls.prop p with
      | none => rfl
      | some d => exact key _
    · refine ⟨?_, fun p => ?_⟩
      · simp [evalReq, c1, c2, chLeaf, evalProg, e1, e2, e3]
      · have hp : chLeaf.prop p = none := rfl
        simp only [evalReq, c1, c2, hp]

theorem respread {n : ℕ} {g0 g g1 : Graph ClassDef Par} {x : Arr} (hl : ∀ v ∈ vs, IsLeaf g0 v.l) (hok : ∀ v ∈ vs, v.Is g0) (hk : KeptBut n vs g0 g)
    (hs : Spread g g1 x vs) : ∃ g2, Spread g0 g2 x vs ∧ ∀ j < n, Alike g1 g2 j := by
  classical
  let g2 : Graph ClassDef Par := fun j => if ∃ v ∈ vs, j = v.l then
    match (g0 j).terms nmX, (g1 j).terms nmX with
    | some (.arr x0), some (.arr a) => withArr g0 j (Arr.of x0.shape a.vec) j
    | _, _ => g0 j else g0 j
  have at1 : ∀ v ∈ vs, ∃ y0 y2 : Arr, (g0 v.l).terms nmX = some (.arr y0) ∧ g1 v.l = withArr g0 v.l y2 v.l ∧ y2.atleast1.shape = y0.atleast1.shape ∧
      g2 v.l = withArr g0 v.l (Arr.of y0.shape y2.vec) v.l ∧
      (∀ w ∈ offsets vs 0, w.1.l = v.l → ∀ k < w.1.size, y2.vec (w.1.pos k) = x.vec (w.2 + k)) ∧
      ∀ p < y0.size, (∀ u ∈ vs, u.l = v.l → ∀ k < u.size, u.pos k ≠ p) → y2.vec p = y0.vec p := by
    intro v hv
    obtain ⟨y0, y1, a1, a2, a3, a4⟩ := hk.each v hv
    obtain ⟨z1, y2, b1, b2, b3, b4, b5⟩ := hs.each v hv
    rw [a2, withArr_self] at b1
    obtain rfl : y1 = z1 := by simpa using b1
    have hg1 : g1 v.l = withArr g0 v.l y2 v.l := by rw [b2, withArr_twice a2]
    have hsz : y1.size = y0.size := by rw [← Arr.atleast1_size, ← Arr.atleast1_size y0]; unfold Arr.size; rw [a3]
    refine ⟨y0, y2, a1, hg1, ?_, ?_, b4, fun p hp hno => ?_⟩
    · rw [← a3]
      show (if y2.shape = [] then [1] else y2.shape) = if y1.shape = [] then [1] else y1.shape
      rw [b3]
    · have : g2 v.l = _ := if_pos ⟨v, hv, rfl⟩
      rw [this, a1, hg1, withArr_self]
    · rw [b5 p (by rw [hsz]; exact hp) hno, a4 p hp hno]
  refine ⟨g2, ⟨fun v hv => ?_, fun j hj => if_neg fun ⟨v, hv, e⟩ => hj v hv e⟩, fun j hj => ?_⟩
  · obtain ⟨y0, y2, c1, c2, c3, c4, c5, c6⟩ := at1 v hv
    refine ⟨y0, Arr.of y0.shape y2.vec, c1, c4, rfl, fun w hw hwl k hk' => ?_, fun p hp hno => ?_⟩
    · have hp := (hok _ (mem_offsets hw)).pos_lt (x0 := y0) (by rw [hwl]; exact c1) hk'
      rw [Arr.vec_of _ _ hp]; exact c5 w hw hwl k hk'
    · rw [Arr.vec_of _ _ hp]; exact c6 p hp hno
  · by_cases hv : ∃ v ∈ vs, j = v.l
    · obtain ⟨v, hv, rfl⟩ := hv
      obtain ⟨y0, y2, c1, c2, c3, c4, c5, c6⟩ := at1 v hv
      refine Or.inr ⟨by rw [c2]; exact (isLeaf_withArr (l := v.l) (hl v hv)).1, by rw [c4]; exact (isLeaf_withArr (l := v.l) (hl v hv)).1,
        y2, Arr.of y0.shape y2.vec, by rw [c2, withArr_self], by rw [c4, withArr_self], ?_⟩
      refine Arr.ext_vec c3.symm fun k hk' => ?_
      have hk1 : k < y0.shape.prod := by
        have : k < (Arr.of y0.shape y2.vec).atleast1.size := hk'
        rw [Arr.atleast1_size] at this
        exact this
      rw [Arr.atleast1_vec, Arr.atleast1_vec, Arr.vec_of _ _ hk1]
    · have hv' : ∀ v ∈ vs, j ≠ v.l := fun v h e => hv ⟨v, h, e⟩
      have : g2 j = g0 j := if_neg hv
      exact Or.inl (by rw [this, hs.other j hv', hk.other j hj hv'])

theorem Setting.closed (S : Setting m h0 o vs) {g : Graph ClassDef Par} {x : Arr} (hs : Spread h0.graph g x vs) :
    ∀ j, (h0.node j).alive = true → ∀ k c, (g j).dterms k = some c → (h0.node c).alive = true := by
  intro j hj k c hk
  have : (g j).dterms = (h0.node j).dterms := by
    by_cases hv : ∃ v ∈ vs, j = v.l
    · obtain ⟨v, hv, rfl⟩ := hv
      obtain ⟨_, x1, _, a2, _⟩ := hs.each v hv
      rw [a2, withArr_dterms]; rfl
    · rw [hs.other j fun v h e => hv ⟨v, h, e⟩]; rfl
  rw [this] at hk
  exact (reach_str S.reach).child_alive hk

/-- Any distribution of values over the current state is one over the state at the start, for the objects that existed then. -/
theorem During.respread (S : Setting m h0 o vs) (d : During m h0 vs h) {g1 : Graph ClassDef Par} {x : Arr} (hs : Spread h.graph g1 x vs) :
    ∃ g2, Spread h0.graph g2 x vs ∧ ∀ f j, (h0.node j).alive = true → evalReq lib g2 f (.r j) = evalReq lib g1 f (.r j) := by
  obtain ⟨g2, h1, h2⟩ := Chumpy.respread (fun v hv => (S.free v hv).1.leaf) (fun v hv => (S.free v hv).1) d.kept hs
  refine ⟨g2, h1, fun f j hj => ?_⟩
  refine ((eval_alike (A := fun j => (h0.node j).alive = true) ?_ (fun j hj => h2 j ((reach_str S.reach).alive_lt hj)) f j hj).1)
  intro i hi k c hk
  refine S.closed h1 i hi k c ?_
  rcases h2 i ((reach_str S.reach).alive_lt hi) with e | ⟨_, _, _⟩
  · rw [e]; exact hk
  · have hv : ∃ v ∈ vs, i = v.l ∨ (g2 i).dterms = (g1 i).dterms := by
      by_cases hv : ∃ v ∈ vs, i = v.l
      · obtain ⟨v, hv, e⟩ := hv; exact ⟨v, hv, Or.inl e⟩
      · obtain ⟨v, hv'⟩ := List.exists_mem_of_ne_nil _ S.nonempty
        refine ⟨v, hv', Or.inr ?_⟩
        rw [h1.other i fun v h e => hv ⟨v, h, e⟩, hs.other i fun v h e => hv ⟨v, h, e⟩,
          d.kept.other i ((reach_str S.reach).alive_lt hi) fun v h e => hv ⟨v, h, e⟩]
    obtain ⟨v, hv, e | e⟩ := hv
    · subst e
      obtain ⟨_, x1, _, a2, _⟩ := hs.each v hv
      rw [a2, withArr_dterms, (d.free S hv).leaf.2.1] at hk
      cases hk
    · rw [e]; exact hk

theorem During.spread (S : Setting m h0 o vs) (d : During m h0 vs h) {xs : Arr} (hs : Shows h.graph xs (offsets vs 0)) : Spread h.graph h.graph xs vs := by
  refine ⟨fun v hv => ?_, fun _ _ => rfl⟩
  obtain ⟨x0, hx0, _⟩ := (d.free S hv).arr
  exact ⟨x0, x0, hx0, by rw [withArr_same hx0], rfl, fun w hw e k hk => (hs w hw x0 (by rw [e]; exact hx0) k hk).symm, fun _ _ _ => rfl⟩

/-- Once the free variables have the entries of the vector, every old object has the value it should have. -/
theorem During.value (S : Setting m h0 o vs) (d : During m h0 vs h) {xs : Arr} (hs : Shows h.graph xs (offsets vs 0)) {g : Graph ClassDef Par}
    (hg : Spread h0.graph g xs vs) (f : ℕ) {j : Id} (hj : (h0.node j).alive = true) : evalReq lib h.graph f (.r j) = evalReq lib g f (.r j) := by
  obtain ⟨g2, h1, h2⟩ := d.respread S (d.spread S hs)
  obtain rfl := hg.unique h1
  exact (h2 f j hj).symm

theorem During.packedDeriv (S : Setting m h0 o vs) (d : During m h0 vs h) {vo x : Arr} {j : ℕ} {col : ℕ → ℝ} {z : ℝ} (h1 : vo.size = 1) (hz : col 0 = z)
    (hp : PackedDeriv h.graph o vo vs x j col) : PackedDeriv h0.graph o vo vs x j fun _ => z := by
  obtain ⟨F, hF, hd⟩ := hp
  refine ⟨F, ?_, fun i hi => ?_⟩
  · filter_upwards [hF] with t ht
    obtain ⟨g1, a, b, c⟩ := ht
    obtain ⟨g2, e1, e2⟩ := d.respread S a
    refine ⟨g2, e1, ⟨b.1, ?_⟩, c⟩
    obtain ⟨f, hf⟩ := b.2
    exact ⟨f, by rw [e2 f o S.obj]; exact hf⟩
  · have : i = 0 := by omega
    subst this
    rw [← hz]; exact hd 0 hi

/-- `l` is the gradient of the objective `o` at the vector `x`: the partial derivatives of the value of `o` with respect to the entries of the
vector distributed over the free variables, all other objects being as in `g0`. -/
def GradientAt (g0 : Graph ClassDef Par) (o : Id) (vs : List Free) (x : Arr) (l : List (Option ℝ)) : Prop :=
  ∃ g vo, Spread g0 g x vs ∧ Means lib g (.r o) (.ok vo) ∧ vo.size = 1 ∧ l.length = totalSize vs ∧
    ∀ j < totalSize vs, ∃ z, l[j]? = some (some z) ∧ PackedDeriv g0 o vo vs x j fun _ => z

/-- C19 for the objective: it has one entry, and `lop` with the left factor `[[1]]` gives its derivatives with respect to the free variables. -/
def LopRight (h : Heap ClassDef Par Arr Jac) (o : Id) (vs : List Free) : Prop :=
  ∃ vo, vo.size = 1 ∧ ∀ v ∈ vs, ∃ vl E, HasJacobian h.graph o v.l vo vl E ∧ ∃ f₀, ∀ f ≥ f₀, ∃ d,
    (lop lib Jac.todense f o v.fv (.dense 1 1 fun _ _ => 1) h).2 = .ok (some d) ∧ Jac.Rep d 1 v.size fun _ k => E 0 (v.pos k)

theorem flat_row {d : Jac} {n : ℕ} {E : Ent} (h : Jac.Rep d 1 n E) : d.flat.1 = n ∧ ∀ k < n, d.flat.2 k = E 0 k := by
  cases d with
  | num c =>
    obtain ⟨_, rfl, hE⟩ := h
    refine ⟨rfl, fun k hk => ?_⟩
    have : k = 0 := by omega
    subst this; exact hE.symm
  | dense m n' e =>
    obtain ⟨rfl, rfl, hE⟩ := h
    refine ⟨by simp [Jac.flat], fun k hk => ?_⟩
    show e (k / _) (k % _) = _
    rw [Nat.div_eq_of_lt hk, Nat.mod_eq_of_lt hk]; exact hE 0 (by decide) k hk
  | sparse m n' e =>
    obtain ⟨rfl, rfl, hE⟩ := h
    refine ⟨by simp [Jac.flat], fun k hk => ?_⟩
    show e (k / _) (k % _) = _
    rw [Nat.div_eq_of_lt hk, Nat.mod_eq_of_lt hk]; exact hE 0 (by decide) k hk

theorem lop_agree (hr : Reach lib m h) (f : ℕ) (y w : Id) (L : Jac) :
    Agree (lop lib Jac.todense f y w L h).2 (fun f => evalLeft lib (lopStyle Jac.todense) h.graph f y w L) f := by
  have hi := reach_inv lib_propsOk (fun _ => lib_localDr) hr
  exact ((leftMul_simM (s := lib) (P := True) (W := Wf lib m) (lopStyle_ok (todense := Jac.todense)) f y w L).sim h hi.coh rfl).2.2 trivial

theorem During.lop (d : During m h0 vs h) {i w : Id} (hi : (h0.node i).alive = true) (hw : (h0.node w).alive = true) (f : ℕ) (L : Jac) :
    During m h0 vs (lop lib Jac.todense f i w L h).1 := by
  refine d.rframe ?_ (leftMul_pres rframe_rel _ f i w L h)
  have := Reach.step (.readLop Jac.todense f i w L) d.reach trivial
  simpa [step, ifAlive, d.alive i hi, d.alive w hw, M.map'] using this

/-- The row of one free variable: what `lop` gives it. -/
noncomputable def rowOf (E : Free → Ent) (v : Free) : List (Option ℝ) := (List.range v.size).map fun k => some (E v 0 (v.pos k))

/-- At graph `G`, `lop` gives the entries `E`. -/
def LopAt (G : Graph ClassDef Par) (o : Id) (vs : List Free) (E : Free → Ent) : Prop :=
  ∀ v ∈ vs, ∃ f d, evalLeft lib (lopStyle Jac.todense) G f o v.fv (.dense 1 1 fun _ _ => 1) = .ok (some d) ∧ Jac.Rep d 1 v.size fun _ k => E v 0 (v.pos k)

theorem lopRow_any (S : Setting m h0 o vs) (d : During m h0 vs h) {E : Free → Ent} (hE : LopAt h.graph o vs E) {v : Free} (hv : v ∈ vs) (f : ℕ) :
    During m h0 vs (lopRow f o v.fv h).1 ∧ (lopRow f o v.fv h).1.graph = h.graph ∧ ∀ l, (lopRow f o v.fv h).2 = .ok l → l = rowOf E v := by
  obtain ⟨f1, d1, e1, r1⟩ := hE v hv
  have ag := lop_agree d.reach f o v.fv (.dense 1 1 fun _ _ => 1)
  have dd := d.lop S.obj (S.free v hv).2.2.1 f (.dense 1 1 fun _ _ => 1)
  have F := leftMul_pres (s := lib) rframe_rel (lopStyle Jac.todense) f o v.fv (.dense 1 1 fun _ _ => 1) h
  unfold lopRow
  dsimp only [M.bind]
  rcases hh : Chumpy.lop lib Jac.todense f o v.fv (.dense 1 1 fun _ _ => 1) h with ⟨h1, s1⟩
  have hh' : leftMul lib (lopStyle Jac.todense) f o v.fv (.dense 1 1 fun _ _ => 1) h = (h1, s1) := hh
  rw [hh] at ag dd
  rw [hh'] at F
  dsimp only at ag dd F ⊢
  cases s1 with
  | error e => exact ⟨dd, F.graph, fun l hl => by cases hl⟩
  | ok r =>
    have hr : r = some d1 := by
      obtain ⟨f2, e2⟩ := ag.2 (by simp)
      dsimp only at e2
      have m1 := evalLeft_mono (g := h.graph) (w := v.fv) (lopStyle_ok (todense := Jac.todense)) (le_max_left f1 f2) o (.dense 1 1 fun _ _ => 1)
      have m2 := evalLeft_mono (g := h.graph) (w := v.fv) (lopStyle_ok (todense := Jac.todense)) (le_max_right f1 f2) o (.dense 1 1 fun _ _ => 1)
      rw [Le, e1] at m1
      rw [Le, e2] at m2
      have := (m1 (by simp)).symm.trans (m2 (by simp))
      injection this with this
      exact this.symm
    subst hr
    refine ⟨dd, F.graph, fun l hl => ?_⟩
    obtain ⟨n1, n2⟩ := flat_row r1
    have : (M.pure ((List.range d1.flat.1).map fun k => some (d1.flat.2 k)) : M ClassDef Par Arr Jac (List (Option ℝ))) h1 = (h1, .ok ((List.range d1.flat.1).map fun k => some (d1.flat.2 k))) := rfl
    dsimp only at hl
    rw [this] at hl
    injection hl with hl
    rw [← hl, n1]
    unfold rowOf
    exact List.map_congr_left fun k hk => by rw [n2 k (List.mem_range.1 hk)]

theorem lopRow_returns (S : Setting m h0 o vs) {G : Graph ClassDef Par} {E : Free → Ent} (hE : LopAt G o vs E) {v : Free} (hv : v ∈ vs) :
    ∃ f₀, ∀ f ≥ f₀, ∀ h, During m h0 vs h → h.graph = G → (lopRow f o v.fv h).2 = .ok (rowOf E v) := by
  obtain ⟨f1, d1, e1, r1⟩ := hE v hv
  refine ⟨f1, fun f hf h d hg => ?_⟩
  have ag := (lop_agree d.reach f o v.fv (.dense 1 1 fun _ _ => 1)).1
  have m1 := evalLeft_mono (g := G) (w := v.fv) (lopStyle_ok (todense := Jac.todense)) hf o (.dense 1 1 fun _ _ => 1)
  rw [Le, e1] at m1
  rw [hg] at ag
  dsimp only at ag
  rw [m1 (by simp)] at ag
  have ag := ag (by simp)
  have any := (lopRow_any S d (by rw [hg]; exact hE) hv f).2.2
  unfold lopRow at any ⊢
  dsimp only [M.bind] at any ⊢
  rcases hh : Chumpy.lop lib Jac.todense f o v.fv (.dense 1 1 fun _ _ => 1) h with ⟨h1, s1⟩
  rw [hh] at ag any
  dsimp only at ag any ⊢
  subst ag
  dsimp only at any ⊢
  exact congrArg Except.ok (any _ rfl)

theorem lopRows_cons (f : ℕ) (o : Id) (v u : Id) (us : List Id) :
    lopRows f o (v :: u :: us) = M.bind (lopRow f o v) fun l => M.bind (lopRows f o (u :: us)) fun r => M.pure (l ++ r) := rfl

theorem lopRows_any (S : Setting m h0 o vs) {E : Free → Ent} (f : ℕ) : ∀ (us : List Free), (∀ v ∈ us, v ∈ vs) → ∀ h, During m h0 vs h → LopAt h.graph o vs E →
    During m h0 vs (lopRows f o (us.map Free.fv) h).1 ∧ ∀ l, (lopRows f o (us.map Free.fv) h).2 = .ok l → l = us.flatMap (rowOf E)
  | [], _, h, d, _ => ⟨d, fun l hl => by cases hl⟩
  | [v], hu, h, d, hE => by
    obtain ⟨a, _, b⟩ := lopRow_any S d hE (hu v (by simp)) f
    exact ⟨a, fun l hl => by simpa using b l hl⟩
  | v :: u :: us, hu, h, d, hE => by
    obtain ⟨a, b, c⟩ := lopRow_any S d hE (hu v (by simp)) f
    have ih := lopRows_any S (E := E) f (u :: us) (fun v hv => hu v (by simp only [List.mem_cons] at hv ⊢; exact Or.inr hv))
    have e : lopRows f o ((v :: u :: us).map Free.fv) h = (M.bind (lopRow f o v.fv) fun l => M.bind (lopRows f o ((u :: us).map Free.fv)) fun r => M.pure (l ++ r)) h := rfl
    rw [e]
    dsimp only [M.bind]
    rcases hh : lopRow f o v.fv h with ⟨h1, s1⟩
    rw [hh] at a b c
    dsimp only at a b c ⊢
    cases s1 with
    | error e => exact ⟨a, fun l hl => by cases hl⟩
    | ok l1 =>
      obtain ⟨a2, b2⟩ := ih h1 a (by rw [b]; exact hE)
      dsimp only
      rcases hh2 : lopRows f o ((u :: us).map Free.fv) h1 with ⟨h2, s2⟩
      rw [hh2] at a2 b2
      dsimp only at a2 b2 ⊢
      cases s2 with
      | error e => exact ⟨a2, fun l hl => by cases hl⟩
      | ok l2 =>
        refine ⟨a2, fun l hl => ?_⟩
        have hl' : (Except.ok (l1 ++ l2) : Except Err (List (Option ℝ))) = .ok l := hl
        injection hl' with hl'
        rw [← hl', c l1 rfl, b2 l2 rfl]
        simp

theorem lopRows_returns (S : Setting m h0 o vs) {G : Graph ClassDef Par} {E : Free → Ent} (hE : LopAt G o vs E) : ∀ (us : List Free), us ≠ [] → (∀ v ∈ us, v ∈ vs) →
    ∃ f₀, ∀ f ≥ f₀, ∀ h, During m h0 vs h → h.graph = G → ∃ l, (lopRows f o (us.map Free.fv) h).2 = .ok l
  | [], h, _ => absurd rfl h
  | [v], _, hu => by
    obtain ⟨f₀, hf⟩ := lopRow_returns S hE (hu v (by simp))
    exact ⟨f₀, fun f hff h d hg => ⟨_, hf f hff h d hg⟩⟩
  | v :: u :: us, _, hu => by
    obtain ⟨f1, hf1⟩ := lopRow_returns S hE (hu v (by simp))
    obtain ⟨f2, hf2⟩ := lopRows_returns S hE (u :: us) (by simp) (fun v hv => hu v (by simp only [List.mem_cons] at hv ⊢; exact Or.inr hv))
    refine ⟨max f1 f2, fun f hf h d hg => ?_⟩
    have e : lopRows f o ((v :: u :: us).map Free.fv) h = (M.bind (lopRow f o v.fv) fun l => M.bind (lopRows f o ((u :: us).map Free.fv)) fun r => M.pure (l ++ r)) h := rfl
    rw [e]
    have ok1 := hf1 f (le_trans (le_max_left _ _) hf) h d hg
    obtain ⟨a, b, _⟩ := lopRow_any S d (by rw [hg]; exact hE) (hu v (by simp)) f
    dsimp only [M.bind]
    rcases hh : lopRow f o v.fv h with ⟨h1, s1⟩
    rw [hh] at a b ok1
    dsimp only at a b ok1 ⊢
    subst ok1
    dsimp only
    obtain ⟨l2, ok2⟩ := hf2 f (le_trans (le_max_right _ _) hf) h1 a (by rw [b, hg])
    rcases hh2 : lopRows f o ((u :: us).map Free.fv) h1 with ⟨h2, s2⟩
    rw [hh2] at ok2
    dsimp only at ok2
    subst ok2
    exact ⟨_, rfl⟩

theorem flatMap_rows (R : Free → List (Option ℝ)) : ∀ (vs : List Free) (c : ℕ), (∀ v ∈ vs, (R v).length = v.size) →
    (vs.flatMap R).length = totalSize vs ∧ ∀ w ∈ offsets vs c, ∀ k < w.1.size, (vs.flatMap R)[w.2 - c + k]? = (R w.1)[k]?
  | [], c, _ => ⟨rfl, fun w hw => by cases hw⟩
  | v :: vs, c, hR => by
    obtain ⟨h1, h2⟩ := flatMap_rows R vs (c + v.size) fun u hu => hR u (List.mem_cons_of_mem _ hu)
    have hv := hR v (by simp)
    refine ⟨by simp [totalSize, hv] at h1 ⊢; omega, fun w hw k hk => ?_⟩
    rw [List.flatMap_cons]
    simp only [offsets, List.mem_cons] at hw
    rcases hw with rfl | hw
    · dsimp only at hk ⊢
      rw [Nat.sub_self, Nat.zero_add, List.getElem?_append_left (by rw [hv]; exact hk)]
    · have hle := offsets_le vs _ w hw
      rw [List.getElem?_append_right (by rw [hv]; omega), ← h2 w hw k hk]
      congr 1
      omega

theorem LopRight.at (hr : Reach lib m h) (hL : LopRight h o vs) : ∃ vo E, vo.size = 1 ∧ LopAt h.graph o vs E ∧ ∀ v ∈ vs, ∃ vl, HasJacobian h.graph o v.l vo vl (E v) := by
  obtain ⟨vo, h1, h2⟩ := hL
  have : ∀ v, ∃ E, v ∈ vs → (∃ vl, HasJacobian h.graph o v.l vo vl E) ∧ ∃ f₀, ∀ f ≥ f₀, ∃ d,
    (Chumpy.lop lib Jac.todense f o v.fv (.dense 1 1 fun _ _ => 1) h).2 = .ok (some d) ∧ Jac.Rep d 1 v.size fun _ k => E 0 (v.pos k) := by
    intro v
    by_cases hv : v ∈ vs
    · obtain ⟨vl, E, a, b⟩ := h2 v hv
      exact ⟨E, fun _ => ⟨⟨vl, a⟩, b⟩⟩
    · exact ⟨0, fun h => absurd h hv⟩
  choose E hE using this
  refine ⟨vo, E, h1, fun v hv => ?_, fun v hv => (hE v hv).1⟩
  obtain ⟨f₀, hf⟩ := (hE v hv).2
  obtain ⟨d, e, r⟩ := hf f₀ (Nat.le_refl _)
  obtain ⟨f', e'⟩ := (lop_agree hr f₀ o v.fv (.dense 1 1 fun _ _ => 1)).2 (by rw [e]; simp)
  exact ⟨f', d, e'.trans e, r⟩

/-- The rows `lop` gives are the gradient. -/
theorem During.gradient (S : Setting m h0 o vs) (d : During m h0 vs h) {x : Arr} (hx : x.shape = [totalSize vs]) (hs : Shows h.graph x (offsets vs 0))
    {vo : Arr} {E : Free → Ent} (h1 : vo.size = 1) (hJ : ∀ v ∈ vs, ∃ vl, HasJacobian h.graph o v.l vo vl (E v)) :
    GradientAt h0.graph o vs x (vs.flatMap (rowOf E)) := by
  obtain ⟨g2, e1, e2⟩ := d.respread S (d.spread S hs)
  obtain ⟨v, hv⟩ := List.exists_mem_of_ne_nil _ S.nonempty
  obtain ⟨vl, hj⟩ := hJ v hv
  obtain ⟨l1, l2⟩ := flatMap_rows (rowOf E) vs 0 fun v _ => by simp [rowOf]
  refine ⟨g2, vo, e1, ⟨by simp, ?_⟩, h1, l1, fun j hj => ?_⟩
  · obtain ⟨_, f, hf⟩ := hj.valY
    exact ⟨f, by rw [e2 f o S.obj]; exact hf⟩
  · obtain ⟨w, hw, k, hk, rfl⟩ := offsets_find vs 0 (Nat.zero_le j) (by omega)
    obtain ⟨vl, hj'⟩ := hJ _ (mem_offsets hw)
    refine ⟨E w.1 0 (w.1.pos k), ?_, ?_⟩
    · have := l2 w hw k hk
      rw [Nat.sub_zero] at this
      rw [this]
      simp [rowOf, hk]
    · exact d.packedDeriv S h1 (col := fun i => E w.1 i (w.1.pos k)) rfl
        (packedDeriv_of (fun v hv => d.free S hv) S.apart ⟨hx, hs⟩ hw hk hj')

/-! ## Sequences of calls -/

/-- Calls that break no rule of the model: the caller does not write into the array `scalar_jacfunc` keeps a reference to, nor into the one it
returned; gradients are asked for with vectors of the right length; other uses of the objects between the calls are reads. -/
def Fair (n : ℕ) (st : MinSt) : Call → Prop
  | .store r _ => st.grad.vs ≠ some (.ref r)
  | .scribble _ => False
  | .gradient _ r => (st.mem r).shape = [n]
  | .user op => op.IsRead
  | _ => True

/-- The states after sequences of fair calls. -/
inductive Calls (P : Problem) (n : ℕ) (h0 : Heap ClassDef Par Arr Jac) : MinSt → Prop
  | start (mem : ℕ → Arr) : Calls P n h0 (.start h0 mem)
  | step {st : MinSt} (c : Call) : Calls P n h0 st → Fair n st c → Calls P n h0 (c.run P st).1

/-- Between calls. -/
structure Running (m : Mode) (h0 : Heap ClassDef Par Arr Jac) (o : Id) (vs : List Free) (st : MinSt) : Prop where
  during : During m h0 vs st.heap
  memo : (st.grad.vs = none ∨ st.grad.vs = some (.own (Arr.of [totalSize vs] fun _ => 10 ^ 16))) ∧ st.grad.out = none ∨
    ∃ r l, st.grad = ⟨some (.ref r), some l⟩ ∧ (st.mem r).shape = [totalSize vs] ∧ GradientAt h0.graph o vs (st.mem r) l

theorem Packed.spread {g : Graph ClassDef Par} {x : Arr} (hp : Packed g vs x) : Shows g x (offsets vs 0) := hp.entries

theorem changeVars_during (S : Setting m h0 o vs) (d : During m h0 vs h) (f : ℕ) (xs : Arr) :
    During m h0 vs (changeVars f xs (vs.map Free.fv) 0 false h).1 ∧
      ∀ c, (changeVars f xs (vs.map Free.fv) 0 false h).2 = .ok c → Shows (changeVars f xs (vs.map Free.fv) 0 false h).1.graph xs (offsets vs 0) := by
  have := changeVars_any S f xs vs 0 [] false h (fun w hw => by cases hw) (fun w hw => hw) d (fun w hw => by cases hw)
  simpa using this

/-- `residuals` at any recursion limit. -/
theorem residuals_any (S : Setting m h0 o vs) (d : During m h0 vs h) (P : Problem) (hP : P.scalar = o) (hF : P.frees = vs.map Free.fv) (f : ℕ) (xs : Arr) :
    During m h0 vs (residuals P f xs h).1 ∧ ∀ z, (residuals P f xs h).2 = .ok z →
      ∀ g vo, Spread h0.graph g xs vs → Means lib g (.r o) (.ok vo) → z = vo.vec 0 := by
  obtain ⟨d1, h1⟩ := changeVars_during S d f xs
  unfold residuals
  rw [hP, hF]
  dsimp only [M.bind]
  rcases hh : changeVars f xs (vs.map Free.fv) 0 false h with ⟨h1', s1⟩
  rw [hh] at d1 h1
  dsimp only at d1 h1 ⊢
  cases s1 with
  | error e => exact ⟨d1, fun z hz => by cases hz⟩
  | ok c =>
    have hs := h1 c rfl
    have d2 := d1.read S.obj f
    have an := fun x => read_any (v := x) (f := f) (i := o) d1.reach
    dsimp only
    rcases hh2 : Chumpy.read lib f (.r o) h1' with ⟨h2, s2⟩
    rw [hh2] at d2 an
    dsimp only at d2 an ⊢
    cases s2 with
    | error e => exact ⟨d2, fun z hz => by cases hz⟩
    | ok v =>
      dsimp only
      by_cases hv : v.size = 0
      · rw [if_pos hv]; exact ⟨d2, fun z hz => by cases hz⟩
      · rw [if_neg hv]
        refine ⟨d2, fun z hz g vo hg hvo => ?_⟩
        have hz' : (Except.ok (v.vec 0) : Except Err ℝ) = .ok z := hz
        injection hz' with hz'
        obtain ⟨_, f1, hf1⟩ := an v rfl
        rw [d1.value S hs hg f1 S.obj] at hf1
        have := Means.unique (⟨by simp, f1, hf1⟩ : Means lib g (.r o) (.ok v)) hvo
        injection this with this
        rw [← hz', this]

theorem residuals_returns (S : Setting m h0 o vs) (d : During m h0 vs h) (P : Problem) (hP : P.scalar = o) (hF : P.frees = vs.map Free.fv) {xs : Arr}
    (hxs : xs.shape = [totalSize vs]) {g : Graph ClassDef Par} {vo : Arr} (hg : Spread h0.graph g xs vs) (hvo : Means lib g (.r o) (.ok vo)) (h1 : vo.size ≠ 0) :
    ∃ f₀, ∀ f ≥ f₀, (residuals P f xs h).2 = .ok (vo.vec 0) := by
  have hsz : ∀ w ∈ offsets vs 0, w.2 + w.1.size ≤ xs.size := fun w hw => by
    have := offsets_end vs 0 w hw
    unfold Arr.size; rw [hxs]; simpa using this
  obtain ⟨G, N, f1, hf1⟩ := changeVars_returns S xs hsz vs 0 false h (fun w hw => hw) d
  obtain ⟨_, f2, hf2⟩ := hvo
  refine ⟨max f1 f2, fun f hf => ?_⟩
  obtain ⟨⟨c, e1⟩, _, _⟩ := hf1 f (le_trans (le_max_left _ _) hf) h d rfl rfl
  obtain ⟨d1, hs⟩ := changeVars_during S d f xs
  unfold residuals
  rw [hP, hF]
  dsimp only [M.bind]
  rcases hh : changeVars f xs (vs.map Free.fv) 0 false h with ⟨h1', s1⟩
  rw [hh] at d1 hs e1
  dsimp only at d1 hs e1 ⊢
  subst e1
  dsimp only
  have e2 : (Chumpy.read lib f (.r o) h1').2 = .ok vo := by
    refine read_ok d1.reach ?_
    rw [d1.value S (hs c rfl) hg f S.obj]
    have := evalReq_mono lib g (le_trans (le_max_right _ _) hf : f2 ≤ f) (.r o)
    rw [Le, hf2] at this
    exact this (by simp)
  rcases hh2 : Chumpy.read lib f (.r o) h1' with ⟨h2, s2⟩
  rw [hh2] at e2
  dsimp only at e2 ⊢
  subst e2
  dsimp only
  rw [if_neg h1]
  rfl

theorem sameVec_far {a b : Arr} {t : Bool} (e : sameVec a b = .ok t) : t = true → a = b := by
  intro ht
  subst ht
  unfold sameVec at e
  split at e
  · next hc =>
    injection e with e
    refine Arr.ext_vec hc.1 fun k hk => ?_
    exact (of_decide_eq_true e) k hk
  · cases e

/-- `scalar_jacfunc` at any recursion limit. -/
theorem scalarJac_any (S : Setting m h0 o vs) (hL : ∀ h, During m h0 vs h → LopRight h o vs) {st : MinSt} (R : Running m h0 o vs st) (P : Problem)
    (hP : P.scalar = o) (hF : P.frees = vs.map Free.fv) (f r : ℕ) (hx : (st.mem r).shape = [totalSize vs]) :
    Running m h0 o vs (scalarJac P f r st).1 ∧ ∀ l, (scalarJac P f r st).2 = .row l → GradientAt h0.graph o vs (st.mem r) l := by
  -- after `init`
  have R1 : Running m h0 o vs { st with grad := st.grad.init (st.mem r) } := by
    refine ⟨R.during, ?_⟩
    rcases R.memo with ⟨h1 | h1, h2⟩ | ⟨r', l, h1, h2, h3⟩
    · refine Or.inl ⟨Or.inr ?_, h2⟩
      show some ((st.grad.vs).getD _) = _
      rw [h1]
      show some (Held.own (far (st.mem r))) = _
      unfold far; rw [hx]
    · refine Or.inl ⟨Or.inr ?_, h2⟩
      show some ((st.grad.vs).getD _) = _
      rw [h1]; rfl
    · refine Or.inr ⟨r', l, ?_, h2, h3⟩
      show (⟨some ((st.grad.vs).getD _), st.grad.out⟩ : OneMemo (List (Option ℝ))) = _
      rw [h1]; rfl
  unfold scalarJac
  dsimp only
  cases hsv : sameVec (st.mem r) ((st.grad.init (st.mem r)).key st.mem) with
  | error e => exact ⟨R1, fun l hl => by cases hl⟩
  | ok t =>
    cases t with
    | true =>
      have heq := sameVec_far hsv rfl
      refine ⟨R1, fun l hl => ?_⟩
      dsimp only at hl
      rcases R1.memo with ⟨_, h2⟩ | ⟨r', l', h1, h2, h3⟩
      · dsimp only at h2
        rw [h2] at hl; cases hl
      · dsimp only at h1 h2 h3
        rw [h1] at hl heq
        have hk : (OneMemo.key (⟨some (.ref r'), some l'⟩ : OneMemo (List (Option ℝ))) st.mem) = st.mem r' := rfl
        rw [hk] at heq
        dsimp only at hl
        injection hl with hl
        rw [heq, ← hl]; exact h3
    | false =>
      dsimp only
      rw [hP, hF]
      obtain ⟨d1, hs⟩ := changeVars_during S R.during f (st.mem r)
      dsimp only [M.bind]
      rcases hh : changeVars f (st.mem r) (vs.map Free.fv) 0 false st.heap with ⟨h1, s1⟩
      rw [hh] at d1 hs
      dsimp only at d1 hs ⊢
      cases s1 with
      | error e => exact ⟨⟨d1, R1.memo⟩, fun l hl => by cases hl⟩
      | ok c =>
        dsimp only
        obtain ⟨vo, E, e1, e2, e3⟩ := (hL h1 d1).at d1.reach
        have hgr := d1.gradient S hx (hs c rfl) e1 e3
        obtain ⟨d2, e4⟩ := lopRows_any S (E := E) f vs (fun _ h => h) h1 d1 e2
        rcases hh2 : lopRows f o (vs.map Free.fv) h1 with ⟨h2, s2⟩
        rw [hh2] at d2 e4
        dsimp only at d2 e4 ⊢
        cases s2 with
        | error e => exact ⟨⟨d2, R1.memo⟩, fun l hl => by cases hl⟩
        | ok l =>
          have el := e4 l rfl
          rw [← el] at hgr
          refine ⟨⟨d2, Or.inr ⟨r, l, rfl, hx, hgr⟩⟩, fun l' hl => ?_⟩
          dsimp only at hl
          injection hl with hl
          rw [← hl]; exact hgr

theorem During.drWrt (d : During m h0 vs h) {i w : Id} (hi : (h0.node i).alive = true) (hw : (h0.node w).alive = true) (f : ℕ) :
    During m h0 vs (drWrt lib f i w h).1 :=
  d.rframe (reach_drWrt d.reach (d.alive i hi) (d.alive w hw) f) (drWrt_pres (s := lib) rframe_rel f i w h)

theorem drRows_during {P : Problem} (hobj : (h0.node P.obj).alive = true) (f : ℕ) : ∀ (us : List Free), (∀ v ∈ us, (h0.node v.fv).alive = true) → ∀ h, During m h0 vs h →
    During m h0 vs (drRows f P.obj (us.map Free.fv) h).1
  | [], _, h, d => d
  | v :: us, hu, h, d => by
    have d1 := d.drWrt hobj (hu v (by simp)) f
    simp only [List.map_cons, drRows, M.bind]
    rcases hh : Chumpy.drWrt lib f P.obj v.fv h with ⟨h1, s1⟩
    rw [hh] at d1
    dsimp only at d1 ⊢
    cases s1 with
    | error e => exact d1
    | ok x =>
      dsimp only
      have d2 := drRows_during hobj f us (fun v hv => hu v (List.mem_cons_of_mem _ hv)) h1 d1
      rcases hh2 : drRows f P.obj (us.map Free.fv) h1 with ⟨h2, s2⟩
      rw [hh2] at d2
      cases s2 with
      | error e => exact d2
      | ok y => exact d2

/-- `hess` and `hessp` leave the state of the other callbacks alone. -/
theorem hessian_during (S : Setting m h0 o vs) {P : Problem} (hF : P.frees = vs.map Free.fv) (hobj : (h0.node P.obj).alive = true) {st : MinSt}
    (d : During m h0 vs st.heap) (keep : Bool) (f r : ℕ) :
    During m h0 vs (hessian P keep f r st).1.heap ∧ (hessian P keep f r st).1.grad = st.grad ∧ (hessian P keep f r st).1.mem = st.mem := by
  have ns : ∀ st : MinSt, During m h0 vs st.heap → During m h0 vs (nsJac P f r st).1.heap ∧ (nsJac P f r st).1.grad = st.grad ∧ (nsJac P f r st).1.mem = st.mem := by
    intro st d
    unfold nsJac
    dsimp only
    split
    · exact ⟨d, rfl, rfl⟩
    · exact ⟨d, rfl, rfl⟩
    · rw [hF]
      obtain ⟨d1, _⟩ := changeVars_during S d f (st.mem r)
      dsimp only [M.bind]
      rcases hh : changeVars f (st.mem r) (vs.map Free.fv) 0 false st.heap with ⟨h1, s1⟩
      rw [hh] at d1
      dsimp only at d1 ⊢
      cases s1 with
      | error e => exact ⟨d1, rfl, rfl⟩
      | ok c =>
        dsimp only
        have d2 := drRows_during (P := P) (vs := vs) hobj f vs (fun v hv => (S.free v hv).2.2.1) h1 d1
        rcases hh2 : drRows f P.obj (vs.map Free.fv) h1 with ⟨h2, s2⟩
        rw [hh2] at d2
        cases s2 with
        | error e => exact ⟨d2, rfl, rfl⟩
        | ok y => exact ⟨d2, rfl, rfl⟩
  unfold hessian
  rw [hF]
  obtain ⟨d1, _⟩ := changeVars_during S d f (st.mem r)
  rcases hh : changeVars f (st.mem r) (vs.map Free.fv) 0 false st.heap with ⟨h1, s1⟩
  rw [hh] at d1
  dsimp only at d1 ⊢
  cases s1 with
  | error e => exact ⟨d1, rfl, rfl⟩
  | ok c =>
    dsimp only
    split
    · exact ⟨d1, rfl, rfl⟩
    · exact ⟨d1, rfl, rfl⟩
    · have := ns { st with heap := h1, hess := st.hess.init (st.mem r) } d1
      split
      · next st' e hn => rw [hn] at this; exact this
      · next st' J hn =>
        rw [hn] at this
        split
        · exact this
        · exact this

theorem Running.run (S : Setting m h0 o vs) (hL : ∀ h, During m h0 vs h → LopRight h o vs) {P : Problem} (hP : P.scalar = o) (hF : P.frees = vs.map Free.fv)
    (hobj : (h0.node P.obj).alive = true) {st : MinSt} (R : Running m h0 o vs st) (c : Call) (hc : Fair (totalSize vs) st c) :
    Running m h0 o vs (c.run P st).1 := by
  cases c with
  | store r a =>
    refine ⟨R.during, ?_⟩
    rcases R.memo with h | ⟨r', l, h1, h2, h3⟩
    · exact Or.inl h
    · have : r' ≠ r := by
        rintro rfl
        exact hc (by rw [h1])
      refine Or.inr ⟨r', l, h1, ?_, ?_⟩
      · show (if r' = r then a else st.mem r').shape = _
        rw [if_neg this]; exact h2
      · show GradientAt _ _ _ (if r' = r then a else st.mem r') _
        rw [if_neg this]; exact h3
  | scribble l => exact hc.elim
  | residuals f r =>
    have := (residuals_any S R.during P hP hF f (st.mem r)).1
    simp only [Call.run]
    rcases hh : Chumpy.residuals P f (st.mem r) st.heap with ⟨h1, s1⟩
    rw [hh] at this
    cases s1 with
    | ok x => exact ⟨this, R.memo⟩
    | error e => exact ⟨this, R.memo⟩
  | gradient f r => exact (scalarJac_any S hL R P hP hF f r hc).1
  | hess f r =>
    obtain ⟨d, e1, e2⟩ := hessian_during S hF hobj R.during false f r
    have : Running m h0 o vs (hessian P false f r st).1 := ⟨d, by rw [e1, e2]; exact R.memo⟩
    simp only [Call.run]
    rcases hh : hessian P false f r st with ⟨st', s1⟩
    rw [hh] at this
    cases s1 with
    | ok x => exact this
    | error e => exact this
  | hessp f r p =>
    obtain ⟨d, e1, e2⟩ := hessian_during S hF hobj R.during true f r
    have : Running m h0 o vs (hessian P true f r st).1 := ⟨d, by rw [e1, e2]; exact R.memo⟩
    simp only [Call.run]
    rcases hh : hessian P true f r st with ⟨st', s1⟩
    rw [hh] at this
    cases s1 with
    | ok x =>
      dsimp only
      split
      · exact this
      · exact this
    | error e => exact this
  | user op =>
    have hop : op.IsRead := hc
    have hl : Legal lib m st.heap op := by cases hop <;> trivial
    exact ⟨R.during.rframe (Reach.step op R.during.reach hl) (step_read_frame hop), R.memo⟩

theorem Calls.running (S : Setting m h0 o vs) (hL : ∀ h, During m h0 vs h → LopRight h o vs) {P : Problem} (hP : P.scalar = o) (hF : P.frees = vs.map Free.fv)
    (hobj : (h0.node P.obj).alive = true) {st : MinSt} (C : Calls P (totalSize vs) h0 st) : Running m h0 o vs st := by
  induction C with
  | start mem => exact ⟨S.start, Or.inl ⟨Or.inl rfl, rfl⟩⟩
  | step c _ hc ih => exact ih.run S hL hP hF hobj c hc

end
end Chumpy
