import Verif.Core.GroupInv
/-! The constructor of `ChGroup` starts in the invariant. -/
namespace Chumpy
variable {C T V D : Type} {s : Sig C T V D}

/-- The state while the arguments `given` are put in place, `done` of them so far; `g0` is the graph at the beginning. -/
structure Making (s : Sig C T V D) (g0 : Graph C T) (given : List (Name × Id)) (G res : Id) (n0 : Nat) (h : Heap C T V D) (done : List (Name × Id)) :
    Prop where
  reach : Reach s ⟨False, True⟩ h
  str : Str h
  ok : GroupOk s ⟨G, res, done⟩ h
  sync : Synced s ⟨G, res, done⟩ h.graph
  low : ∀ e ∈ done, n0 < e.2 ∧ e.2 < h.next
  hG : G = n0
  hres : res < n0
  names : ∀ e ∈ given, e.1 ∈ done.map (·.1)
  has : ∀ e ∈ given, (h.graph G).dterms e.1 = some e.2
  place : ∀ e ∈ done, (h.graph res).dterms e.1 = some e.2
  other : ∀ k, k ∉ done.map (·.1) → (h.graph res).dterms k = (g0 res).dterms k
  off : ∀ j < n0, j ≠ res → h.graph j = g0 j

/-- One argument. -/
theorem making_step {g0 : Graph C T} {given : List (Name × Id)} {G res : Id} {n0 : Nat} {h h' : Heap C T V D} {done : List (Name × Id)}
    (hm : Making s g0 given G res n0 h done) {hcls : C} {a : Name}
    {p hd : Id} (hp : p < n0) (ha : a ∉ done.map (·.1))
    (hok : M.bind (newObj s hcls [s.xname] false false [.link s.xname p]) (fun hd =>
      M.bind (setObj s res [.link a hd]) fun _ => M.bind (addDterm s G a (.link a p)) fun _ => M.pure hd) h = (h', .ok hd)) :
    Making s g0 ((a, p) :: given) G res n0 h' ((a, hd) :: done) := by
  -- the argument exists
  have hpa : (h.node p).alive = true := by
    rcases hq : (h.node p).alive with _ | _
    · exfalso
      have : newObj s hcls [s.xname] false false [.link s.xname p] h = (h, .error .attr) := by
        unfold newObj; rw [if_neg (by simp [KW.Old, hq])]
      simp [M.bind, this] at hok
    · rfl
  have hne : n0 < h.next := hm.hG ▸ hm.str.alive_lt hm.ok.liveG
  -- the handle
  have hplain : ∀ kw ∈ (⟨hcls, [s.xname], [.link s.xname p]⟩ : ObjSpec C T).kws, kw.Plain h [s.xname] := by
    intro kw hk; simp only [List.mem_singleton] at hk; subst hk; exact ⟨by simp, hpa⟩
  obtain ⟨e1, _⟩ := newObj_eq (s := s) hm.str ⟨hcls, [s.xname], [.link s.xname p]⟩ hplain
  obtain ⟨b1, b2, b3, b4⟩ := newObj_built (s := s) hm.str ⟨hcls, [s.xname], [.link s.xname p]⟩ hplain
  have hr1 : Reach s ⟨False, True⟩ (newObj s hcls [s.xname] false false [.link s.xname p] h).1 :=
    Reach.step (.new hcls [s.xname] false false [.link s.xname p]) hm.reach ⟨fun h => False.elim h, fun _ => ⟨rfl, rfl⟩⟩
  simp only [step, M.map'] at b1 b2 b3 b4
  dsimp only at e1
  rcases hq1 : newObj s hcls [s.xname] false false [.link s.xname p] h with ⟨h1, r1⟩
  have er1 : r1 = .ok h.next := by rw [hq1] at e1; exact congrArg Prod.snd e1
  subst er1
  rw [hq1] at b1 b2 b3 b4 hr1
  dsimp only at b1 b2 b3 b4 hr1
  simp only [M.bind, hq1] at hok
  -- its registration in the result
  have hresa : (h1.node res).alive = true := by rw [b3]; split <;> first | rfl | exact hm.ok.liveR
  have hset : setObj s res [.link a h.next] h1 = setattr s res none (.link a h.next) h1 := by
    simp only [setObj, setAll, if_pos hresa]
  have hr2 : Reach s ⟨False, True⟩ (setattr s res none (.link a h.next) h1).1 := by
    have := Reach.step (.set res [.link a h.next]) hr1 ⟨fun h => False.elim h, Or.inl (Nat.le_refl 1)⟩
    simpa [step, M.map', hset] using this
  have hpost2 := (setattr_post (s := s) (fr := ⟨False, True⟩) b1 hresa (.link a h.next) (itr := none) (by intro t h; cases h)).1
  rw [hset] at hok
  rcases hq2 : setattr s res none (.link a h.next) h1 with ⟨h2, r2⟩
  rw [hq2] at hok hr2 hpost2
  cases r2 with
  | error e => simp at hok
  | ok u =>
    have hg2 : h2.graph = fun j => if j = res then (h1.graph res).assign (.link a h.next) else h1.graph j := by
      have := setattr_graph (s := s) b1 (i := res) (kw := .link a h.next) trivial (by rw [hq2])
      rw [hq2] at this; exact this
    have hst2 : Str h2 := hpost2.str
    -- the term of the group
    have hGa2 : (h2.node G).alive = true := hpost2.alive _ (by rw [b3]; split <;> first | rfl | exact hm.ok.liveG)
    have hr3 : Reach s ⟨False, True⟩ (addDterm s G a (.link a p) h2).1 := by
      have := Reach.step (.addDterm G a (.link a p)) hr2 (fun h => False.elim h)
      simpa [step, M.map', ifAlive, hGa2] using this
    dsimp only at hok
    obtain ⟨ns, m1, m2, m3⟩ := addDterm_mid (h := h2) G a
    have hadd : addDterm s G a (.link a p) h2 = setattr s G none (.link a p) (h2.modify G (fun n => { n with dnames := ns })) := by
      unfold addDterm; rw [m3]
    have hstn := dnames_str hst2 G ns m1
    have hGan : ((h2.modify G (fun n => { n with dnames := ns })).node G).alive = true := by rw [modify_node_self]; exact hGa2
    have hpostn := (setattr_post (s := s) (fr := ⟨False, True⟩) hstn hGan (.link a p) (itr := none) (by intro t h; cases h)).1
    rw [hadd] at hok hr3
    rcases hq3 : setattr s G none (.link a p) (h2.modify G (fun n => { n with dnames := ns })) with ⟨h3, r3⟩
    rw [hq3] at hok hr3 hpostn
    cases r3 with
    | error e => simp at hok
    | ok u3 =>
      simp only [M.pure, Prod.mk.injEq, Except.ok.injEq] at hok
      obtain ⟨rfl, rfl⟩ := hok
      have hg3 : h3.graph = fun j => if j = G then ((h2.modify G (fun n => { n with dnames := ns })).graph G).assign (.link a p)
          else (h2.modify G (fun n => { n with dnames := ns })).graph j := by
        have := setattr_graph (s := s) hstn (i := G) (kw := .link a p) trivial (by rw [hq3])
        rw [hq3] at this; exact this
      have hGr : G ≠ res := Ne.symm hm.ok.ne
      have hnr : h.next ≠ res := Nat.ne_of_gt (Nat.lt_trans hm.hres hne)
      have hnG : h.next ≠ G := by rw [hm.hG]; exact Nat.ne_of_gt hne
      -- the graph afterwards
      have gG : h3.graph G = { h.graph G with dnames := ns, dterms := fun m => if m = a then some p else (h.graph G).dterms m } := by
        rw [hg3]; dsimp only; rw [if_pos rfl]
        have : (h2.modify G (fun n => { n with dnames := ns })).graph G = { h2.graph G with dnames := ns } := by
          rw [Heap.graph_apply, modify_node_self]; rfl
        rw [this, hg2]; dsimp only; rw [if_neg hGr, b4, if_neg (Ne.symm hnG)]
        rfl
      have goff : ∀ j, j ≠ G → j ≠ res → j ≠ h.next → h3.graph j = h.graph j := by
        intro j j1 j2 j3
        rw [hg3]; dsimp only; rw [if_neg j1]
        have : (h2.modify G (fun n => { n with dnames := ns })).graph j = h2.graph j := by
          rw [Heap.graph_apply, modify_node, if_neg j1]; rfl
        rw [this, hg2]; dsimp only; rw [if_neg j2, b4, if_neg j3]
      have gn : h3.graph h.next = (⟨hcls, [s.xname], [.link s.xname p]⟩ : ObjSpec C T).node := by
        rw [hg3]; dsimp only; rw [if_neg hnG]
        have : (h2.modify G (fun n => { n with dnames := ns })).graph h.next = h2.graph h.next := by
          rw [Heap.graph_apply, modify_node, if_neg hnG]; rfl
        rw [this, hg2]; dsimp only; rw [if_neg hnr, b4, if_pos rfl]
      have gres : ∀ k, (h3.graph res).dterms k = if k = a then some h.next else (h.graph res).dterms k := by
        intro k
        rw [hg3]; dsimp only; rw [if_neg hm.ok.ne]
        have : (h2.modify G (fun n => { n with dnames := ns })).graph res = h2.graph res := by
          rw [Heap.graph_apply, modify_node, if_neg hm.ok.ne]; rfl
        rw [this, hg2]; dsimp only; rw [if_pos rfl, b4, if_neg (Ne.symm hnr)]; rfl
      have gnx : ∀ k, (h3.graph h.next).dterms k = if k = s.xname then some p else none := by
        intro k; rw [gn]; rfl
      have al : ∀ j, (h.node j).alive = true → (h3.node j).alive = true := by
        intro j hj
        refine hpostn.alive j ?_
        have : ((h2.modify G (fun n => { n with dnames := ns })).node j).alive = (h2.node j).alive := by
          rw [modify_node]; split
          · subst_vars; rfl
          · rfl
        rw [this]
        exact hpost2.alive j (by rw [b3]; split <;> first | rfl | exact hj)
      have aln : (h3.node h.next).alive = true := by
        refine hpostn.alive _ ?_
        rw [modify_node, if_neg hnG]
        exact hpost2.alive _ (by rw [b3, if_pos rfl])
      have hnx : h.next < h3.next := hpostn.str.alive_lt aln
      have hpG : p ≠ G := by rw [hm.hG]; exact Nat.ne_of_lt hp
      refine ⟨hr3, hpostn.str, ⟨al _ hm.ok.liveG, al _ hm.ok.liveR, hm.ok.ne, ?_, ?_, ?_, ?_, ?_⟩, ?_, ?_, hm.hG, hm.hres, ?_, ?_, ?_, ?_, ?_⟩
      · intro j k
        by_cases jG : j = G
        · subst jG; rw [gG]; dsimp only; split
          · intro e; cases e; exact hpG rfl
          · exact hm.ok.unused _ k
        · by_cases jr : j = res
          · subst jr; rw [gres]; split
            · intro e; cases e; exact hnG rfl
            · exact hm.ok.unused _ k
          · by_cases jn : j = h.next
            · subst jn; rw [gnx]; split
              · intro e; cases e; exact hpG rfl
              · intro e; cases e
            · rw [goff j jG jr jn]; exact hm.ok.unused j k
      · obtain ⟨u, hu⟩ := hm.ok.body
        exact ⟨u, by dsimp only; rw [gG]; exact hu⟩
      · intro e he
        dsimp only
        rw [gG]
        dsimp only
        rcases List.mem_cons.1 he with rfl | he
        · exact ⟨p, if_pos rfl⟩
        · obtain ⟨q, hq⟩ := hm.ok.arg e he
          split
          · exact ⟨p, rfl⟩
          · exact ⟨q, hq⟩
      · intro e he
        rcases List.mem_cons.1 he with rfl | he
        · refine ⟨aln, hnG, ?_⟩
          dsimp only; rw [gn]; simp [ObjSpec.node, GNode.assign]
        · obtain ⟨h1', h2', h3'⟩ := hm.ok.handle e he
          obtain ⟨l1, l2⟩ := hm.low e he
          refine ⟨al _ h1', h2', ?_⟩
          rw [goff e.2 h2' (Nat.ne_of_gt (Nat.lt_trans hm.hres l1)) (Nat.ne_of_lt l2)]
          exact h3'
      · simp only [List.map_cons, List.nodup_cons]
        refine ⟨fun hmem => ?_, hm.ok.one⟩
        obtain ⟨e, he, q⟩ := List.mem_map.1 hmem
        exact Nat.ne_of_lt (hm.low e he).2 q
      · intro e he
        dsimp only
        rcases List.mem_cons.1 he with rfl | he
        · dsimp only; rw [gG, gnx]; dsimp only; rw [if_pos rfl, if_pos rfl]
        · obtain ⟨l1, l2⟩ := hm.low e he
          obtain ⟨_, h2', _⟩ := hm.ok.handle e he
          rw [goff e.2 h2' (Nat.ne_of_gt (Nat.lt_trans hm.hres l1)) (Nat.ne_of_lt l2), gG]
          dsimp only
          rw [if_neg (fun q => ha (by rw [← q]; exact List.mem_map_of_mem he))]
          exact hm.sync e he
      · intro e he
        rcases List.mem_cons.1 he with rfl | he
        · exact ⟨hne, hnx⟩
        · obtain ⟨l1, l2⟩ := hm.low e he
          exact ⟨l1, Nat.lt_trans l2 hnx⟩
      · intro e he
        rcases List.mem_cons.1 he with rfl | he
        · simp
        · exact List.mem_cons_of_mem _ (hm.names e he)
      · intro e he
        rw [gG]; dsimp only
        rcases List.mem_cons.1 he with rfl | he
        · exact if_pos rfl
        · rw [if_neg (fun q => ha (by rw [← q]; exact hm.names e he))]
          exact hm.has e he
      · intro e he
        rw [gres]
        rcases List.mem_cons.1 he with rfl | he
        · exact if_pos rfl
        · rw [if_neg (fun q => ha (by rw [← q]; exact List.mem_map_of_mem he))]
          exact hm.place e he
      · intro k hk
        simp only [List.map_cons, List.mem_cons, not_or] at hk
        rw [gres, if_neg hk.1]
        exact hm.other k hk.2
      · intro j hj hjr
        rw [goff j (by rw [hm.hG]; exact Nat.ne_of_lt hj) hjr (Nat.ne_of_lt (Nat.lt_trans hj hne))]
        exact hm.off j hj hjr

theorem bind_err {α β : Type} {m : M C T V D α} {k : α → M C T V D β} {h h1 : Heap C T V D} {e : Err} (hq : m h = (h1, .error e)) :
    M.bind m k h = (h1, .error e) := by rw [M.bind, hq]

theorem bind_ok' {α β : Type} {m : M C T V D α} {k : α → M C T V D β} {h h1 : Heap C T V D} {x : α} (hq : m h = (h1, .ok x)) :
    M.bind m k h = k x h1 := by rw [M.bind, hq]

/-- The loop. -/
theorem making_args {g0 : Graph C T} {G res : Id} {n0 : Nat} {hcls : C} (args : List (Name × Id)) :
    ∀ {h h' : Heap C T V D} {given done l : List (Name × Id)}, Making s g0 given G res n0 h done → (∀ e ∈ args, e.2 < n0) → (args.map (·.1)).Nodup → (∀ e ∈ args, e.1 ∉ done.map (·.1)) →
    groupArgs s hcls G res args h = (h', .ok l) → Making s g0 (args.reverse ++ given) G res n0 h' (l.reverse ++ done) ∧ l.map (·.1) = args.map (·.1) := by
  induction args with
  | nil =>
    intro h h' given done l hm _ _ _ hok
    simp only [groupArgs, M.pure, Prod.mk.injEq, Except.ok.injEq] at hok
    obtain ⟨rfl, rfl⟩ := hok
    exact ⟨hm, rfl⟩
  | cons e args ih =>
    intro h h' given done l hm hp hn hd hok
    obtain ⟨a, p⟩ := e
    simp only [List.map_cons, List.nodup_cons] at hn
    have hsplit : groupArgs s hcls G res ((a, p) :: args) h = M.bind (M.bind (newObj s hcls [s.xname] false false [.link s.xname p]) (fun hd =>
      M.bind (setObj s res [.link a hd]) fun _ => M.bind (addDterm s G a (.link a p)) fun _ => M.pure hd))
        (fun hd => M.bind (groupArgs s hcls G res args) fun l => M.pure ((a, hd) :: l)) h := by
      rw [← bind_assoc']
      simp only [groupArgs, M.bind, M.pure]
      rcases newObj s hcls [s.xname] false false [.link s.xname p] h with ⟨h1, r1⟩
      cases r1 with
      | error e => rfl
      | ok hd =>
        dsimp only
        rcases setObj s res [.link a hd] h1 with ⟨h2, r2⟩
        cases r2 with
        | error e => rfl
        | ok u =>
          dsimp only
          rcases addDterm s G a (.link a p) h2 with ⟨h3, r3⟩
          cases r3 <;> rfl
    rw [hsplit] at hok
    rcases hq : M.bind (newObj s hcls [s.xname] false false [.link s.xname p]) (fun hd =>
      M.bind (setObj s res [.link a hd]) fun _ => M.bind (addDterm s G a (.link a p)) fun _ => M.pure hd) h with ⟨h1, r1⟩
    cases r1 with
    | error e => rw [bind_err hq] at hok; simp at hok
    | ok hd1 =>
      rw [bind_ok' hq] at hok
      have hm1 := making_step hm (hp (a, p) (by simp)) (hd (a, p) (by simp)) hq
      rcases hq2 : groupArgs s hcls G res args h1 with ⟨h2, r2⟩
      cases r2 with
      | error e => simp [M.bind, hq2] at hok
      | ok l2 =>
        simp only [M.bind, hq2, M.pure, Prod.mk.injEq, Except.ok.injEq] at hok
        obtain ⟨rfl, rfl⟩ := hok
        obtain ⟨c1, c2⟩ := ih hm1 (fun e he => hp e (by simp [he])) hn.2 (fun e he => by
          simp only [List.map_cons, List.mem_cons, not_or]
          refine ⟨fun q => hn.1 (by rw [← q]; exact List.mem_map_of_mem he), hd e (by simp [he])⟩) hq2
        refine ⟨by simpa using c1, by simp [c2]⟩

/-- `ChGroup(result, args)`, for existing objects and distinct names: if it returns, the group is as it should be. -/
theorem makeGroup_spec {gcls hcls : C} {u : V} (hb : s.computeR gcls = .ret u) {h h' : Heap C T V D} (hr : Reach s ⟨False, True⟩ h) (hs : Str h)
    {res : Id} (hres : (h.node res).alive = true) {args : List (Name × Id)} (ha : ∀ e ∈ args, (h.node e.2).alive = true)
    (hn : (args.map (·.1)).Nodup) {gr : Grp} (hok : makeGroup s gcls hcls res args h = (h', .ok gr)) :
    Reach s ⟨False, True⟩ h' ∧ GroupOk s gr h' ∧ Synced s gr h'.graph ∧ gr.res = res ∧ gr.args.map (·.1) = args.map (·.1) ∧
      (∀ e ∈ args, (h'.graph gr.G).dterms e.1 = some e.2) ∧ (∀ e ∈ gr.args, (h'.graph res).dterms e.1 = some e.2) ∧
      (∀ k, k ∉ args.map (·.1) → (h'.graph res).dterms k = (h.graph res).dterms k) ∧
      ∀ j, (h.node j).alive = true → j ≠ res → h'.graph j = h.graph j := by
  have hplain : ∀ kw ∈ (⟨gcls, [], []⟩ : ObjSpec C T).kws, kw.Plain h ([] : List Name) := by intro kw hk; cases hk
  obtain ⟨e1, _⟩ := newObj_eq (s := s) hs ⟨gcls, [], []⟩ hplain
  obtain ⟨b1, b2, b3, b4⟩ := newObj_built (s := s) hs ⟨gcls, [], []⟩ hplain
  have hr1 : Reach s ⟨False, True⟩ (newObj s gcls [] false false [] h).1 :=
    Reach.step (.new gcls [] false false []) hr ⟨fun h => False.elim h, fun _ => ⟨rfl, rfl⟩⟩
  simp only [step, M.map'] at b1 b2 b3 b4
  dsimp only at e1
  rcases hq1 : newObj s gcls [] false false [] h with ⟨h1, r1⟩
  have er1 : r1 = .ok h.next := by rw [hq1] at e1; exact congrArg Prod.snd e1
  subst er1
  rw [hq1] at b1 b2 b3 b4 hr1
  dsimp only at b1 b2 b3 b4 hr1
  have hlt : res < h.next := hs.alive_lt hres
  have hm : Making s h.graph [] h.next res h.next h1 [] := by
    refine ⟨hr1, b1, ⟨by rw [b3, if_pos rfl], by rw [b3]; split <;> first | rfl | exact hres, fun e => ?_, ?_, ?_, ?_, ?_, ?_⟩, ?_, ?_, rfl, hlt, ?_, ?_, ?_, ?_, ?_⟩
    · exact Nat.ne_of_lt hlt e
    · intro j k
      rw [b4]; split
      · intro e; cases e
      · intro e
        exact Nat.lt_irrefl _ (hs.alive_lt (hs.child_alive e))
    · exact ⟨u, by dsimp only; rw [b4, if_pos rfl]; exact hb⟩
    · intro e he; cases he
    · intro e he; cases he
    · exact List.nodup_nil
    · intro e he; cases he
    · intro e he; cases he
    · intro e he; cases he
    · intro e he; cases he
    · intro e he; cases he
    · intro k _; rw [b4, if_neg (Nat.ne_of_lt hlt)]
    · intro j hj _; rw [b4, if_neg (Nat.ne_of_lt hj)]
  simp only [makeGroup, M.bind, hq1] at hok
  rcases hq2 : groupArgs s hcls h.next res args h1 with ⟨h2, r2⟩
  rw [hq2] at hok
  cases r2 with
  | error e => simp at hok
  | ok l =>
    simp only [M.pure, Prod.mk.injEq, Except.ok.injEq] at hok
    obtain ⟨rfl, rfl⟩ := hok
    obtain ⟨c, cn⟩ := making_args args hm (fun e he => hs.alive_lt (ha e he)) hn (by simp) hq2
    rw [List.append_nil, List.append_nil] at c
    refine ⟨c.reach, ⟨c.ok.liveG, c.ok.liveR, c.ok.ne, c.ok.unused, c.ok.body, fun e he => c.ok.arg e (List.mem_reverse.2 he),
      fun e he => c.ok.handle e (List.mem_reverse.2 he), ?_⟩, fun e he => c.sync e (List.mem_reverse.2 he), rfl, cn, fun e he => c.has e (List.mem_reverse.2 he),
      fun e he => c.place e (List.mem_reverse.2 he), fun k hk => c.other k (by rw [List.map_reverse, List.mem_reverse, cn]; exact hk),
      fun j hj hjr => c.off j (hs.alive_lt hj) hjr⟩
    have := c.ok.one
    simp only [List.map_reverse] at this
    exact (List.pairwise_reverse.1 this).imp Ne.symm

end Chumpy
