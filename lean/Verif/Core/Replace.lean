import Verif.Core.Traverse
import Verif.Core.Iso
import Verif.Core.SameObs
/-!
# `Ch.replace`
-/
namespace Chumpy
variable {C T V D : Type} {s : Sig C T V D}

/-- The loop of `Ch.replace` (ch.py:458-463) over the differentiable terms; `rec c` is `c.replace(old, new)`. -/
def replaceLoop (s : Sig C T V D) (old new : Id) (rec : Id → M C T V D Unit) (i : Id) : List Name → M C T V D Unit
  | [] => M.pure ()
  | k :: ks => fun h =>
    match (h.node i).dterms k with
    | none => replaceLoop s old new rec i ks h
    | some c =>
      if c = old then M.bind (setattr s i none (.link k new)) (fun _ => replaceLoop s old new rec i ks) h
      else M.bind (rec c) (fun _ => replaceLoop s old new rec i ks) h

/-- `i.replace(old, new)` for two `Ch` objects (ch.py:454-464).  Simplifications: the return value `new` is
not modelled; non-differentiable terms never hold `Ch` objects here, so the scan of `self.terms` finds nothing. -/
def replace (s : Sig C T V D) (old new : Id) : Nat → Id → M C T V D Unit
  | 0, _ => M.throw .fuel
  | f + 1, i => fun h => replaceLoop s old new (replace s old new f) i (h.node i).dnames h

/-- Substituting in one object (specification). -/
def GNode.subst (n : GNode C T) (old new : Id) : GNode C T :=
  { n with dterms := fun k => if n.dterms k = some old then some new else n.dterms k }

/-- A link that does not lead to `old`. -/
def UsesBut (old : Id) (g : Graph C T) (i c : Id) : Prop := Uses g i c ∧ c ≠ old

/-- `gt` is `g` with some of the links to `old` redirected to `new`. -/
structure Part (old new : Id) (g gt : Graph C T) : Prop where
  rest : ∀ j, { gt j with dterms := (g j).dterms } = g j
  link : ∀ j k, (gt j).dterms k = (g j).dterms k ∨ ((g j).dterms k = some old ∧ (gt j).dterms k = some new)

theorem Part.refl (old new : Id) (g : Graph C T) : Part old new g g := ⟨fun _ => rfl, fun _ _ => Or.inl rfl⟩

theorem Part.dn {old new : Id} {g gt : Graph C T} (p : Part old new g gt) (j : Id) : (gt j).dnames = (g j).dnames := by
  rw [← p.rest j]

theorem Part.setLink {old new : Id} {g gt : Graph C T} (p : Part old new g gt) {i : Id} {k : Name}
    (hk : (g i).dterms k = some old) : Part old new g (setLink gt i k new) where
  rest j := by
    by_cases h : j = i
    · subst h; simp only [Chumpy.setLink, if_true]; exact p.rest j
    · simp only [Chumpy.setLink, if_neg h]; exact p.rest j
  link j m := by
    by_cases h : j = i
    · subst h
      simp only [Chumpy.setLink, if_true]
      by_cases hm : m = k
      · subst hm; right; exact ⟨hk, by simp⟩
      · simp only [hm, if_false]; exact p.link j m
    · simp only [Chumpy.setLink, if_neg h]; exact p.link j m

/-- One assignment `i.k = c` as a user operation. -/
theorem link_step {h : Heap C T V D} (hs : Str h) {i c : Id} {k : Name} (hi : (h.node i).alive = true)
    (hc : (h.node c).alive = true) (hk : k ∈ (h.node i).dnames) :
    setattr s i none (.link k c) h = ((step s (.set i [.link k c]) h).1, .ok ()) ∧
    Str (step s (.set i [.link k c]) h).1 ∧
    (step s (.set i [.link k c]) h).1.graph = setLink h.graph i k c ∧
    ∀ j, ((step s (.set i [.link k c]) h).1.node j).alive = (h.node j).alive := by
  have he : (step s (.set i [.link k c]) h).1 = (setDterm s i k c none h).1 := by
    simp [step, M.map', setObj, hi, setAll, setattr, hk, hc]
  have hst := step_str hs (.set i [.link k c]) (s := s)
  obtain ⟨hok, h2, w, hpar, hg4⟩ := setDterm_writing (s := s) h hs i k c none hc
  refine ⟨?_, hst, by rw [he, hg4], fun j => by rw [he]; exact w.alive4 j⟩
  rw [he]
  simp only [setattr, hk, hc, and_self, if_true]
  rw [← hok]

/-- Objects in which `replace` has nothing left to do. -/
def Done (old new : Id) (g gt : Graph C T) (j : Id) : Prop := gt j = (g j).subst old new

/-- What a piece of `replace` achieves. -/
structure Piece (s : Sig C T V D) (old new : Id) (g : Graph C T) (vis : Id → Prop) (h h' : Heap C T V D)
    (ops : List (Op C T D)) : Prop where
  run : h' = run s ops h
  ops : ∀ op ∈ ops, ∃ j k, op = .set j [.link k new] ∧ vis j ∧ (g j).dterms k = some old
  str : Str h'
  part : Part old new g h'.graph
  alive : ∀ j, (h'.node j).alive = (h.node j).alive
  frame : ∀ j k, (h'.graph j).dterms k = (h.graph j).dterms k ∨
    (vis j ∧ (g j).dterms k = some old ∧ (h'.graph j).dterms k = some new)

theorem run_append (ops ops' : List (Op C T D)) (h : Heap C T V D) : run s (ops ++ ops') h = run s ops' (run s ops h) := by
  simp [run, List.foldl_append]

theorem Piece.nil {old new : Id} {g : Graph C T} {vis : Id → Prop} {h : Heap C T V D} (hs : Str h)
    (hp : Part old new g h.graph) : Piece s old new g vis h h [] :=
  ⟨rfl, by simp, hs, hp, fun _ => rfl, fun _ _ => Or.inl rfl⟩

theorem Piece.trans {old new : Id} {g : Graph C T} {vis : Id → Prop} {h1 h2 h3 : Heap C T V D} {o1 o2 : List (Op C T D)}
    (a : Piece s old new g vis h1 h2 o1) (b : Piece s old new g vis h2 h3 o2) : Piece s old new g vis h1 h3 (o1 ++ o2) where
  run := by rw [run_append, ← a.run, ← b.run]
  ops op ho := by
    rcases List.mem_append.1 ho with h | h
    · exact a.ops op h
    · exact b.ops op h
  str := b.str
  part := b.part
  alive j := (b.alive j).trans (a.alive j)
  frame j k := by
    rcases b.frame j k with h | h
    · rw [h]; exact a.frame j k
    · exact Or.inr h

theorem Piece.weaken {old new : Id} {g : Graph C T} {vis vis' : Id → Prop} {h1 h2 : Heap C T V D} {o : List (Op C T D)}
    (a : Piece s old new g vis h1 h2 o) (hv : ∀ j k, vis j → (g j).dterms k = some old → vis' j) :
    Piece s old new g vis' h1 h2 o where
  run := a.run
  ops op ho := by obtain ⟨j, k, e, hj, hk⟩ := a.ops op ho; exact ⟨j, k, e, hv j k hj hk, hk⟩
  str := a.str
  part := a.part
  alive := a.alive
  frame j k := (a.frame j k).imp id fun ⟨x, y, z⟩ => ⟨hv j k x y, y, z⟩

/-- One name of one object is settled. -/
def Settled (old new : Id) (g gt : Graph C T) (j : Id) (k : Name) : Prop :=
  (gt j).dterms k = if (g j).dterms k = some old then some new else (g j).dterms k

theorem Piece.settled {old new : Id} {g : Graph C T} {vis : Id → Prop} {h1 h2 : Heap C T V D} {o : List (Op C T D)}
    (a : Piece s old new g vis h1 h2 o) {j : Id} {k : Name} (hd : Settled old new g h1.graph j k) :
    Settled old new g h2.graph j k := by
  unfold Settled at *
  rcases a.frame j k with h | ⟨_, h1, h2⟩
  · rw [h]; exact hd
  · rw [if_pos h1]; exact h2

theorem part_settled {old new : Id} {g gt : Graph C T} (p : Part old new g gt) {j : Id}
    (hd : ∀ k, Settled old new g gt j k) : gt j = (g j).subst old new := by
  have h1 := p.rest j
  have h2 : (gt j).dterms = ((g j).subst old new).dterms := funext fun k => hd k
  cases hgt : gt j with
  | mk a b c d e f =>
    rw [hgt] at h1 h2
    rw [← h1]
    simp only [GNode.subst] at h2 ⊢
    rw [h2]

/-- Everything visited from `i`. -/
abbrev Vis (old : Id) (g : Graph C T) (i j : Id) : Prop := Relation.ReflTransGen (UsesBut old g) i j

theorem vis_reach {old : Id} {g : Graph C T} {i j : Id} (h : Vis old g i j) : Relation.ReflTransGen (Uses g) i j := by
  induction h with
  | refl => exact .refl
  | tail _ h ih => exact ih.tail h.1

/-- The relation along which the recursion goes: links, and links created by the substitution. -/
def Rec (old new : Id) (g : Graph C T) (c i : Id) : Prop := Uses g i c ∨ (Uses g i old ∧ c = new)

theorem acc_rec_new {old new : Id} {g : Graph C T} (hn : ¬ Relation.ReflTransGen (Uses g) new old)
    {x : Id} (ha : Acc (fun c i => Uses g i c) x) (hx : Relation.ReflTransGen (Uses g) new x) : Acc (Rec old new g) x := by
  induction ha with
  | intro x _ ih =>
    refine ⟨x, fun c hc => ?_⟩
    rcases hc with hc | ⟨hc, _⟩
    · exact ih c hc (hx.tail hc)
    · exact absurd (hx.tail hc) hn

theorem acc_rec {old new : Id} {g : Graph C T} (hn : ¬ Relation.ReflTransGen (Uses g) new old)
    (hnew : Acc (fun c i => Uses g i c) new) {x : Id} (ha : Acc (fun c i => Uses g i c) x) : Acc (Rec old new g) x := by
  induction ha with
  | intro x _ ih =>
    refine ⟨x, fun c hc => ?_⟩
    rcases hc with hc | ⟨_, rfl⟩
    · exact ih c hc
    · exact acc_rec_new hn hnew .refl

/-- What `replace` on `i` achieves, in any state that is `g` partly substituted. -/
def Good (s : Sig C T V D) (old new : Id) (g : Graph C T) (F : Nat) (i : Id) : Prop :=
  ∀ f, F ≤ f → ∀ h : Heap C T V D, Str h → Part old new g h.graph → (h.node i).alive = true → (h.node new).alive = true →
    ∃ h' ops, replace s old new f i h = (h', .ok ()) ∧ Piece s old new g (Vis old g i) h h' ops ∧
      ∀ j, Vis old g i j → ∀ k, Settled old new g h'.graph j k

theorem replaceLoop_good {old new : Id} {g : Graph C T} (hdn : ∀ j k c, (g j).dterms k = some c → k ∈ (g j).dnames)
    (hn : ¬ Relation.ReflTransGen (Uses g) new old) {i : Id} {f : Nat}
    (hrec : ∀ c, Rec old new g c i → Good s old new g f c) : ∀ ks : List Name, (∀ k ∈ ks, k ∈ (g i).dnames) →
    ∀ h : Heap C T V D, Str h → Part old new g h.graph → (h.node i).alive = true → (h.node new).alive = true →
    ∃ h' ops, replaceLoop s old new (replace s old new f) i ks h = (h', .ok ()) ∧ Piece s old new g (Vis old g i) h h' ops ∧
      (∀ k ∈ ks, Settled old new g h'.graph i k ∧
        ∀ c, (g i).dterms k = some c → c ≠ old → ∀ j, Vis old g c j → ∀ k', Settled old new g h'.graph j k') := by
  intro ks
  induction ks with
  | nil => intro _ h hs hp _ _; exact ⟨h, [], rfl, .nil hs hp, by simp⟩
  | cons k ks ih =>
    intro hks h hs hp hi hnw
    have hknames : k ∈ (h.node i).dnames := by
      have := hp.dn i
      rw [show (h.node i).dnames = (h.graph i).dnames from rfl, this]; exact hks k (by simp)
    have hks' : ∀ k ∈ ks, k ∈ (g i).dnames := fun x hx => hks x (by simp [hx])
    simp only [replaceLoop]
    cases hd : (h.node i).dterms k with
    | none =>
      have hg : (g i).dterms k = none := by
        rcases hp.link i k with h1 | ⟨_, h1⟩
        · rw [← h1]; exact hd
        · rw [show (h.graph i).dterms k = (h.node i).dterms k from rfl, hd] at h1; cases h1
      obtain ⟨h', ops, e, pc, hset⟩ := ih hks' h hs hp hi hnw
      refine ⟨h', ops, e, pc, fun x hx => ?_⟩
      rcases List.mem_cons.1 hx with rfl | hx
      · refine ⟨pc.settled ?_, fun c hc => by rw [hg] at hc; cases hc⟩
        unfold Settled; rw [hg, if_neg (by simp)]; exact hd
      · exact hset x hx
    | some c =>
      dsimp only
      have hgd : (g i).dterms k = some c ∨ ((g i).dterms k = some old ∧ c = new) := by
        rcases hp.link i k with h1 | ⟨h1, h2⟩
        · left; rw [← h1]; exact hd
        · right; rw [show (h.graph i).dterms k = (h.node i).dterms k from rfl, hd] at h2
          exact ⟨h1, by injection h2⟩
      by_cases hco : c = old
      · -- an assignment
        rw [if_pos hco]
        subst hco
        have hgo : (g i).dterms k = some c := by
          rcases hgd with h1 | ⟨h1, _⟩ <;> exact h1
        obtain ⟨e1, s1, g1, a1⟩ := link_step (s := s) hs hi hnw hknames
        let h1 := (step s (.set i [.link k new]) h).1
        have pc1 : Piece s c new g (Vis c g i) h h1 [.set i [.link k new]] :=
          { run := rfl
            ops := fun op ho => by simp only [List.mem_singleton] at ho; exact ⟨i, k, ho, .refl, hgo⟩
            str := s1
            part := by rw [g1]; exact hp.setLink hgo
            alive := a1
            frame := fun j m => by
              rw [g1]
              simp only [Chumpy.setLink]
              by_cases hj : j = i
              · subst hj
                simp only [if_true]
                by_cases hm : m = k
                · subst hm; right; exact ⟨.refl, hgo, by simp⟩
                · left; simp [hm]
              · left; rw [if_neg hj] }
        obtain ⟨h', ops, e, pc, hset⟩ := ih hks' h1 s1 pc1.part (by rw [a1]; exact hi) (by rw [a1]; exact hnw)
        refine ⟨h', _, ?_, pc1.trans pc, fun x hx => ?_⟩
        · simp only [M.bind, e1]; exact e
        · rcases List.mem_cons.1 hx with rfl | hx
          · refine ⟨pc.settled ?_, fun c' hc' hne => ?_⟩
            · unfold Settled; rw [if_pos hgo, g1]; simp [Chumpy.setLink]
            · rw [hgo] at hc'; injection hc' with hc'; exact absurd hc'.symm hne
          · exact hset x hx
      · -- a recursive call
        rw [if_neg hco]
        have hrc : Rec old new g c i := by
          rcases hgd with h1 | ⟨h1, h2⟩
          · left; exact ⟨k, hks k (by simp), h1⟩
          · right; exact ⟨⟨k, hks k (by simp), h1⟩, h2⟩
        have hca : (h.node c).alive = true := hs.child_alive hd
        obtain ⟨h1, o1, e1, pc1, hv1⟩ := hrec c hrc f (Nat.le_refl _) h hs hp hca hnw
        have pc1' : Piece s old new g (Vis old g i) h h1 o1 := by
          refine pc1.weaken fun j m hj hm => ?_
          rcases hgd with h2 | ⟨_, h2⟩
          · exact .head ⟨⟨k, hks k (by simp), h2⟩, hco⟩ hj
          · subst h2
            exact absurd ((vis_reach hj).tail ⟨m, hdn j m old hm, hm⟩) hn
        obtain ⟨h', ops, e, pc, hset⟩ := ih hks' h1 pc1.str pc1.part (by rw [pc1.alive]; exact hi) (by rw [pc1.alive]; exact hnw)
        refine ⟨h', _, ?_, pc1'.trans pc, fun x hx => ?_⟩
        · simp only [M.bind, e1]; exact e
        · rcases List.mem_cons.1 hx with rfl | hx
          · refine ⟨(pc1'.trans pc).settled ?_, fun c' hc' hne => ?_⟩
            · unfold Settled
              rw [show (h.graph i).dterms x = (h.node i).dterms x from rfl, hd]
              rcases hgd with h2 | ⟨h1, h2⟩
              · rw [h2, if_neg (by intro h; injection h with h; exact hco h)]
              · rw [if_pos h1, h2]
            · rcases hgd with h2 | ⟨h1, h2⟩
              · rw [h2] at hc'; injection hc' with hc'; subst hc'
                intro j hj m
                exact pc.settled (hv1 j hj m)
              · rw [h1] at hc'; injection hc' with hc'; exact absurd hc'.symm hne
          · exact hset x hx

theorem replace_good {old new : Id} {g : Graph C T} (hdn : ∀ j k c, (g j).dterms k = some c → k ∈ (g j).dnames)
    (hn : ¬ Relation.ReflTransGen (Uses g) new old) {i : Id} (ha : Acc (Rec old new g) i) :
    ∃ F, Good s old new g F i := by
  induction ha with
  | intro i _ ih =>
    have hl : ∀ c ∈ new :: (g i).kids, ∃ F, Rec old new g c i → Good s old new g F c := by
      intro c _
      by_cases hc : Rec old new g c i
      · obtain ⟨F, hF⟩ := ih c hc; exact ⟨F, fun _ => hF⟩
      · exact ⟨0, fun h => absurd h hc⟩
    obtain ⟨F, hF⟩ := exists_bound (P := fun c F => Rec old new g c i → Good s old new g F c)
      (fun x a b hab hg hr f hf => hg hr f (Nat.le_trans hab hf)) hl
    have hF' : ∀ c, Rec old new g c i → Good s old new g F c := by
      intro c hc
      refine hF c ?_ hc
      rcases hc with hc | ⟨_, rfl⟩
      · exact List.mem_cons_of_mem _ (mem_kids.2 hc)
      · simp
    refine ⟨F + 1, fun f hf h hs hp hi hnw => ?_⟩
    obtain ⟨f, rfl⟩ : ∃ n, f = n + 1 := ⟨f - 1, by omega⟩
    simp only [replace]
    have hdn' : (h.node i).dnames = (g i).dnames := hp.dn i
    obtain ⟨h', ops, e, pc, hset⟩ := replaceLoop_good (s := s) hdn hn (i := i) (f := f)
      (fun c hc f' hf' => hF' c hc f' (by omega)) (h.node i).dnames (fun k hk => hdn' ▸ hk) h hs hp hi hnw
    refine ⟨h', ops, e, pc, fun j hj k => ?_⟩
    rcases Relation.ReflTransGen.cases_head hj with rfl | ⟨c, ⟨⟨k', hk', hc⟩, hco⟩, hcj⟩
    · by_cases hk : k ∈ (g i).dnames
      · exact (hset k (hdn' ▸ hk)).1
      · have h0 : (g i).dterms k = none := by
          cases h1 : (g i).dterms k with
          | none => rfl
          | some c => exact absurd (hdn i k c h1) hk
        unfold Settled
        rw [h0, if_neg (by simp)]
        rcases pc.part.link i k with h1 | ⟨h1, _⟩
        · rw [h1, h0]
        · rw [h0] at h1; cases h1
    · exact (hset k' (hdn' ▸ hk')).2 c hc hco j hcj k

end Chumpy
