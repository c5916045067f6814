import Verif.Core.Residuals
import Verif.Properties.Structure
import Mathlib.Data.List.Forall2
import Mathlib.Data.List.Nodup
/-!
# `print_labeled_residuals` (C80)
-/
namespace Chumpy
variable {C T V D L E : Type} {s : Sig C T V D} {lab : Id → Option L} {sq : V → E} {g : Graph C T}

/-! ## Specification -/

/-- Going from `i` through the operands named in `p` leads to `j`. -/
inductive Route (g : Graph C T) : Id → List Name → Id → Prop
  | here (i : Id) : Route g i [] i
  | via {i c j : Id} {k : Name} {p : List Name} : k ∈ (g i).dnames → (g i).dterms k = some c → Route g c p j → Route g i (k :: p) j

/-- The piece `x` is what should be written for the object found by going along `p`: its label, and the sum of squares of its value
computed from scratch.  `dec` decimals for the object itself, 2 for the others. -/
def WrittenFor (s : Sig C T V D) (g : Graph C T) (lab : Id → Option L) (sq : V → E) (dec : Nat) (y : Id) (p : List Name) (x : Written L E) : Prop :=
  ∃ j l v, Route g y p j ∧ lab j = some l ∧ Means s g (.r j) (.ok v) ∧ x = .labelled j l (if p = [] then dec else 2) (sq v)

/-- The pieces `xs` are written for the routes `ps`, one for one and in order, and these are all routes to labelled objects. -/
structure Listing (s : Sig C T V D) (g : Graph C T) (lab : Id → Option L) (sq : V → E) (dec : Nat) (y : Id) (ps : List (List Name))
    (xs : List (Written L E)) : Prop where
  once : ps.Nodup
  all : ∀ p, p ∈ ps ↔ ∃ j, Route g y p j ∧ (lab j).isSome = true
  each : List.Forall₂ (WrittenFor s g lab sq dec y) ps xs

/-! ## Lemmas -/

/-- The state is coherent and over the graph `g`. -/
def Fine (s : Sig C T V D) (g : Graph C T) (h : Heap C T V D) : Prop :=
  Coh s (Fresh s) (Wf s ⟨False, False⟩) h ∧ h.graph = g

theorem fine_read {h : Heap C T V D} (hf : Fine s g h) (f : Nat) (q : Req) : Fine s g (read s f q h).1 ∧
    ∀ v, (read s f q h).2 = .ok v → Means s g q (.ok v) := by
  obtain ⟨a, b, c⟩ := read_sim (P := True) (U := Fresh s) (W := Wf s ⟨False, False⟩) f q h hf.1 hf.2
  exact ⟨⟨a, b.graph.trans hf.2⟩, fun v hv => by
    have := (readFresh_of_agree (h := h) (by rw [hf.2]; exact c trivial)).1 v hv
    rwa [hf.2] at this⟩

theorem Route.det {i j j' : Id} {p : List Name} (a : Route g i p j) (b : Route g i p j') : j = j' := by
  induction a with
  | here => cases b; rfl
  | via _ h _ ih => cases b with
    | via _ h' b => rw [h] at h'; cases h'; exact ih b

theorem residualKids_spec {rec : Id → M C T V D (List (Written L E))} {i : Id} (dec : Nat)
    (hrec : ∀ c h, Fine s g h → Fine s g (rec c h).1 ∧ ∀ out, (rec c h).2 = .ok out → ∃ ps, Listing s g lab sq 2 c ps out) :
    ∀ (ks : List Name) (h : Heap C T V D), Fine s g h → ks.Nodup → (∀ k ∈ ks, k ∈ (g i).dnames) →
      Fine s g (residualKids rec i ks h).1 ∧ ∀ out, (residualKids rec i ks h).2 = .ok out →
        ∃ ps : List (List Name), ps.Nodup ∧
          (∀ p, p ∈ ps ↔ ∃ k p' c j, k ∈ ks ∧ (g i).dterms k = some c ∧ p = k :: p' ∧ Route g c p' j ∧ (lab j).isSome = true) ∧
          List.Forall₂ (WrittenFor s g lab sq dec i) ps out
  | [], h, hf, _, _ => ⟨hf, fun out ho => ⟨[], .nil, by simp, by cases ho; exact .nil⟩⟩
  | k :: ks, h, hf, hn, hk => by
    obtain ⟨hn1, hn2⟩ := List.nodup_cons.1 hn
    have hd : (h.node i).dterms k = (g i).dterms k := by rw [← hf.2]; rfl
    cases hc : (g i).dterms k with
    | none =>
      have : residualKids rec i (k :: ks) h = (h, .error .attr) := by
        simp only [residualKids, M.bind, M.node, hd, hc]; rfl
      rw [this]
      exact ⟨hf, fun out ho => by cases ho⟩
    | some c =>
      obtain ⟨f1, l1⟩ := hrec c h hf
      rcases e1 : rec c h with ⟨h1, r1⟩
      rw [e1] at f1 l1
      cases r1 with
      | error e =>
        have : residualKids rec i (k :: ks) h = (h1, .error e) := by
          simp only [residualKids, M.bind, M.node, hd, hc, e1]
        rw [this]
        exact ⟨f1, fun out ho => by cases ho⟩
      | ok a =>
        obtain ⟨f2, l2⟩ := residualKids_spec dec hrec ks h1 f1 hn2 (fun k' hk' => hk k' (List.mem_cons_of_mem _ hk'))
        rcases e2 : residualKids rec i ks h1 with ⟨h2, r2⟩
        rw [e2] at f2 l2
        cases r2 with
        | error e =>
          have : residualKids rec i (k :: ks) h = (h2, .error e) := by
            simp only [residualKids, M.bind, M.node, hd, hc, e1, e2]
          rw [this]
          exact ⟨f2, fun out ho => by cases ho⟩
        | ok b =>
          have : residualKids rec i (k :: ks) h = (h2, .ok (a ++ b)) := by
            simp only [residualKids, M.bind, M.node, hd, hc, e1, e2, M.pure]
          rw [this]
          refine ⟨f2, fun out ho => ?_⟩
          cases ho
          obtain ⟨ps, P⟩ := l1 a rfl
          obtain ⟨qs, q1, q2, q3⟩ := l2 b rfl
          have hkd := hk k (List.mem_cons_self ..)
          refine ⟨ps.map (k :: ·) ++ qs, ?_, ?_, ?_⟩
          · refine List.nodup_append.2 ⟨List.Nodup.map (fun _ _ h => (List.cons.inj h).2) P.once, q1, ?_⟩
            rintro x hx y hy rfl
            obtain ⟨p, _, rfl⟩ := List.mem_map.1 hx
            obtain ⟨k', _, _, _, hk', _, e, _⟩ := (q2 _).1 hy
            exact hn1 ((List.cons.inj e).1 ▸ hk')
          · intro p
            rw [List.mem_append, List.mem_map, q2]
            constructor
            · rintro (⟨p', hp', rfl⟩ | ⟨k', p', c', j, hk', r⟩)
              · obtain ⟨j, hj, hl⟩ := (P.all p').1 hp'
                exact ⟨k, p', c, j, List.mem_cons_self .., hc, rfl, hj, hl⟩
              · exact ⟨k', p', c', j, List.mem_cons_of_mem _ hk', r⟩
            · rintro ⟨k', p', c', j, hk', hc', rfl, hj, hl⟩
              rcases List.mem_cons.1 hk' with rfl | hk'
              · rw [hc] at hc'; cases hc'
                exact Or.inl ⟨p', (P.all p').2 ⟨j, hj, hl⟩, rfl⟩
              · exact Or.inr ⟨k', p', c', j, hk', hc', rfl, hj, hl⟩
          · refine List.rel_append ?_ q3
            rw [List.forall₂_map_left_iff]
            refine P.each.imp ?_
            rintro p x ⟨j, l, v, hj, hl, hv, rfl⟩
            exact ⟨j, l, v, .via hkd hc hj, hl, hv, by simp⟩

theorem printBelow_spec (hnd : ∀ i, (g i).dnames.Nodup) : ∀ (f dec : Nat) (i : Id) (h : Heap C T V D), Fine s g h →
    Fine s g (printBelow s lab sq f dec i h).1 ∧ ∀ out, (printBelow s lab sq f dec i h).2 = .ok out → ∃ ps, Listing s g lab sq dec i ps out
  | 0, _, _, h, hf => ⟨hf, fun out ho => by cases ho⟩
  | f + 1, dec, i, h, hf => by
    have own : Fine s g (residualOwn s lab sq f dec i h).1 ∧ ∀ a, (residualOwn s lab sq f dec i h).2 = .ok a →
        (lab i = none ∧ a = []) ∨ ∃ l v, lab i = some l ∧ Means s g (.r i) (.ok v) ∧ a = [.labelled i l dec (sq v)] := by
      unfold residualOwn
      cases hl : lab i with
      | none => exact ⟨hf, fun a ha => Or.inl ⟨rfl, by cases ha; rfl⟩⟩
      | some l =>
        obtain ⟨f1, m1⟩ := fine_read hf f (.r i)
        simp only [M.bind]
        rcases hr : read s f (.r i) h with ⟨h1, r1⟩
        rw [hr] at f1 m1
        cases r1 with
        | error e => exact ⟨f1, fun a ha => by cases ha⟩
        | ok v => exact ⟨f1, fun a ha => Or.inr ⟨l, v, rfl, m1 v rfl, by cases ha; rfl⟩⟩
    obtain ⟨f1, l1⟩ := own
    simp only [printBelow, M.bind]
    rcases e1 : residualOwn s lab sq f dec i h with ⟨h1, r1⟩
    rw [e1] at f1 l1
    cases r1 with
    | error e => exact ⟨f1, fun out ho => by cases ho⟩
    | ok a =>
      have hdn : (h1.node i).dnames = (g i).dnames := by rw [← f1.2]; rfl
      simp only [M.node, hdn]
      obtain ⟨f2, l2⟩ := residualKids_spec (lab := lab) (sq := sq) (i := i) dec (fun c h hf => printBelow_spec hnd f 2 c h hf) (g i).dnames h1 f1 (hnd i) (fun _ h => h)
      rcases e2 : residualKids (printBelow s lab sq f 2) i (g i).dnames h1 with ⟨h2, r2⟩
      rw [e2] at f2 l2
      cases r2 with
      | error e => exact ⟨f2, fun out ho => by cases ho⟩
      | ok b =>
        refine ⟨f2, fun out ho => ?_⟩
        cases ho
        obtain ⟨qs, q1, q2, q3⟩ := l2 b rfl
        rcases l1 a rfl with ⟨hl, rfl⟩ | ⟨l, v, hl, hv, rfl⟩
        · refine ⟨qs, q1, fun p => ?_, q3⟩
          rw [q2]
          constructor
          · rintro ⟨k, p', c, j, hk, hc, rfl, hj, h⟩
            exact ⟨j, .via hk hc hj, h⟩
          · rintro ⟨j, hj, h⟩
            cases hj with
            | here => rw [hl] at h; cases h
            | via hk hc hj => exact ⟨_, _, _, j, hk, hc, rfl, hj, h⟩
        · refine ⟨[] :: qs, List.nodup_cons.2 ⟨fun h => ?_, q1⟩, fun p => ?_, .cons ⟨i, l, v, .here i, hl, hv, by simp⟩ q3⟩
          · obtain ⟨_, _, _, _, _, _, e, _⟩ := (q2 _).1 h
            cases e
          · rw [List.mem_cons, q2]
            constructor
            · rintro (rfl | ⟨k, p', c, j, hk, hc, rfl, hj, h⟩)
              · exact ⟨i, .here i, by rw [hl]; rfl⟩
              · exact ⟨j, .via hk hc hj, h⟩
            · rintro ⟨j, hj, h⟩
              cases hj with
              | here => exact Or.inl rfl
              | via hk hc hj => exact Or.inr ⟨_, _, _, j, hk, hc, rfl, hj, h⟩

/-! ## Theorems -/

/-- C80, what `print_labeled_residuals` writes, after every history: for every way of going from the object through operands to a labelled
object one piece, with the label and the sum of squares of that object's value computed from scratch; then the sum of squares of the
object's own value.  No object is changed.  Missing: that a labelled object is listed once, and with the number of decimals asked for
(both refuted below). -/
theorem C80_what_is_printed_partial (hp : s.PropsOk) {h : Heap C T V D} (hr : Reach s ⟨False, False⟩ h)
    (hnd : ∀ i, (h.graph i).dnames.Nodup) {f dec : Nat} {y : Id}
    {out : List (Written L E)} (ho : (printResiduals s lab sq f dec y h).2 = .ok out) :
    (printResiduals s lab sq f dec y h).1.graph = h.graph ∧
    ∃ ps xs v, Listing s h.graph lab sq dec y ps xs ∧ Means s h.graph (.r y) (.ok v) ∧ out = xs ++ [.total dec (sq v)] := by
  have hi := reach_inv hp (fun h => False.elim h) hr
  obtain ⟨f1, l1⟩ := printBelow_spec (lab := lab) (sq := sq) hnd f dec y h ⟨hi.coh, rfl⟩
  revert ho
  simp only [printResiduals, M.bind]
  rcases e1 : printBelow s lab sq f dec y h with ⟨h1, r1⟩
  rw [e1] at f1 l1
  cases r1 with
  | error e => intro ho; cases ho
  | ok a =>
    obtain ⟨ps, P⟩ := l1 a rfl
    obtain ⟨f2, m2⟩ := fine_read f1 f (.r y)
    dsimp only
    rcases e2 : read s f (.r y) h1 with ⟨h2, r2⟩
    rw [e2] at f2 m2
    cases r2 with
    | error e => intro ho; cases ho
    | ok v =>
      intro ho
      cases ho
      exact ⟨f2.2, ps, a, v, P, m2 v rfl, rfl⟩

/-- The object a piece is about, if it is not the line end. -/
def Written.subject : Written L E → Option Id
  | .labelled i _ _ _ => some i
  | .total _ _ => none

theorem Route.reaches {i j : Id} {p : List Name} (h : Route g i p j) : Relation.ReflTransGen (Uses g) i j := by
  induction h with
  | here => exact .refl
  | via hk hc _ ih => exact .head ⟨_, hk, hc⟩ ih

theorem Route.of_reaches {i j : Id} (h : Relation.ReflTransGen (Uses g) i j) : ∃ p, Route g i p j := by
  induction h using Relation.ReflTransGen.head_induction_on with
  | refl => exact ⟨[], .here _⟩
  | head h _ ih =>
    obtain ⟨k, hk, hc⟩ := h
    obtain ⟨p, hp⟩ := ih
    exact ⟨k :: p, .via hk hc hp⟩

theorem Listing.subjects {dec : Nat} {y : Id} {ps : List (List Name)} {xs : List (Written L E)} (P : Listing s g lab sq dec y ps xs)
    (huniq : ∀ p p' j, (lab j).isSome = true → Route g y p j → Route g y p' j → p = p') : (xs.filterMap Written.subject).Nodup ∧
    ∀ j, j ∈ xs.filterMap Written.subject ↔ Relation.ReflTransGen (Uses g) y j ∧ (lab j).isSome = true := by
  have key : ∀ {ps : List (List Name)} {xs : List (Written L E)}, List.Forall₂ (WrittenFor s g lab sq dec y) ps xs → ps.Nodup →
      (xs.filterMap Written.subject).Nodup ∧
      ∀ j, j ∈ xs.filterMap Written.subject ↔ ∃ p ∈ ps, Route g y p j ∧ (lab j).isSome = true := by
    intro ps xs h
    induction h with
    | nil => intro _; simp
    | @cons p x ps xs hx _ ih =>
      intro hn
      obtain ⟨j, l, v, hj, hl, _, rfl⟩ := hx
      obtain ⟨h1, h2⟩ := List.nodup_cons.1 hn
      obtain ⟨i1, i2⟩ := ih h2
      have hl' : (lab j).isSome = true := by rw [hl]; rfl
      simp only [List.filterMap_cons, Written.subject]
      refine ⟨List.nodup_cons.2 ⟨fun h => ?_, i1⟩, fun j' => ?_⟩
      · obtain ⟨p', hp', hr, _⟩ := (i2 j).1 h
        exact h1 (huniq _ _ j hl' hj hr ▸ hp')
      · rw [List.mem_cons, i2]
        constructor
        · rintro (rfl | ⟨p', hp', h⟩)
          · exact ⟨p, List.mem_cons_self .., hj, hl'⟩
          · exact ⟨p', List.mem_cons_of_mem _ hp', h⟩
        · rintro ⟨p', hp', hr, h⟩
          rcases List.mem_cons.1 hp' with rfl | hp'
          · exact Or.inl (hr.det hj)
          · exact Or.inr ⟨p', hp', hr, h⟩
  obtain ⟨k1, k2⟩ := key P.each P.once
  refine ⟨k1, fun j => ?_⟩
  rw [k2]
  constructor
  · rintro ⟨p, _, hr, h⟩
    exact ⟨hr.reaches, h⟩
  · rintro ⟨hr, h⟩
    obtain ⟨p, hp⟩ := Route.of_reaches hr
    exact ⟨p, (P.all p).2 ⟨j, hp, h⟩, hp, h⟩

/-- C80: if there is only one way from the object to each labelled object, every labelled object it depends on is listed exactly once, and
no other. -/
theorem C80_each_label_once_partial (hp : s.PropsOk) {h : Heap C T V D} (hr : Reach s ⟨False, False⟩ h)
    (hnd : ∀ i, (h.graph i).dnames.Nodup) {f dec : Nat} {y : Id}
    (huniq : ∀ p p' j, (lab j).isSome = true → Route h.graph y p j → Route h.graph y p' j → p = p')
    {out : List (Written L E)} (ho : (printResiduals s lab sq f dec y h).2 = .ok out) :
    (out.filterMap Written.subject).Nodup ∧
    ∀ j, j ∈ out.filterMap Written.subject ↔ Relation.ReflTransGen (Uses h.graph) y j ∧ (lab j).isSome = true := by
  obtain ⟨_, ps, xs, v, P, _, rfl⟩ := C80_what_is_printed_partial hp hr hnd ho
  have := P.subjects huniq
  have e : (xs ++ [Written.total dec (sq v)]).filterMap Written.subject = xs.filterMap Written.subject := by
    rw [List.filterMap_append]; exact List.append_nil _
  rw [e]; exact this

theorem read_returns {q : Req} {v : V} (hm : Means s g q (.ok v)) : ∃ f₀, ∀ f ≥ f₀, ∀ h, Fine s g h → (read s f q h).2 = .ok v := by
  obtain ⟨_, f₀, h0⟩ := hm
  refine ⟨f₀, fun f hf h hh => ?_⟩
  obtain ⟨_, _, c⟩ := read_sim (P := True) (U := Fresh s) (W := Wf s ⟨False, False⟩) f q h hh.1 hh.2
  have hle := evalReq_mono s g hf q (by rw [h0]; simp)
  have := (c trivial).1 (by dsimp only; rw [hle, h0]; simp)
  rw [this]; dsimp only; rw [hle, h0]

theorem printBelow_returns (hnd : ∀ i, (g i).dnames.Nodup) {y : Id} (hacc : Acc (fun a b => Uses g b a) y)
    (hset : ∀ i, Relation.ReflTransGen (Uses g) y i → ∀ k ∈ (g i).dnames, ((g i).dterms k).isSome = true)
    (hval : ∀ i, Relation.ReflTransGen (Uses g) y i → (lab i).isSome = true → ∃ v, Means s g (.r i) (.ok v)) :
    ∃ f₀, ∀ f ≥ f₀, ∀ dec h, Fine s g h → ∃ out, (printBelow s lab sq f dec y h).2 = .ok out := by
  induction hacc with
  | intro y _ ih =>
    have kids : ∀ ks : List Name, (∀ k ∈ ks, k ∈ (g y).dnames) → ∃ f₀, ∀ f ≥ f₀, ∀ h, Fine s g h →
        ∃ out, (residualKids (printBelow s lab sq f 2) y ks h).2 = .ok out := by
      intro ks
      induction ks with
      | nil => intro _; exact ⟨0, fun _ _ _ _ => ⟨[], rfl⟩⟩
      | cons k ks ihk =>
        intro hks
        obtain ⟨f₁, h1⟩ := ihk fun k' hk' => hks k' (List.mem_cons_of_mem _ hk')
        have hk := hks k (List.mem_cons_self ..)
        obtain ⟨c, hc⟩ := Option.isSome_iff_exists.1 (hset y .refl k hk)
        have hu : Uses g y c := ⟨k, hk, hc⟩
        obtain ⟨f₂, h2⟩ := ih c hu (fun i hi => hset i (.head hu hi)) (fun i hi => hval i (.head hu hi))
        refine ⟨max f₁ f₂, fun f hf h hh => ?_⟩
        have hd : (h.node y).dterms k = (g y).dterms k := by rw [← hh.2]; rfl
        obtain ⟨a, ha⟩ := h2 f (Nat.le_trans (Nat.le_max_right ..) hf) 2 h hh
        have g1 := (printBelow_spec (lab := lab) (sq := sq) hnd f 2 c h hh).1
        rcases e1 : printBelow s lab sq f 2 c h with ⟨h', r1⟩
        rw [e1] at ha g1
        cases ha
        obtain ⟨b, hb⟩ := h1 f (Nat.le_trans (Nat.le_max_left ..) hf) h' g1
        rcases e2 : residualKids (printBelow s lab sq f 2) y ks h' with ⟨h2, r2⟩
        rw [e2] at hb
        cases hb
        exact ⟨a ++ b, by simp only [residualKids, M.bind, M.node, hd, hc, e1, e2, M.pure]⟩
    obtain ⟨f₁, h1⟩ := kids (g y).dnames fun _ h => h
    obtain ⟨f₂, h2⟩ : ∃ f₀, ∀ f ≥ f₀, ∀ dec h, Fine s g h → Fine s g (residualOwn s lab sq f dec y h).1 ∧
        ∃ out, (residualOwn s lab sq f dec y h).2 = .ok out := by
      cases hl : lab y with
      | none => exact ⟨0, fun f _ dec h hh => by simp only [residualOwn, hl]; exact ⟨hh, [], rfl⟩⟩
      | some l =>
        obtain ⟨v, hv⟩ := hval y .refl (by rw [hl]; rfl)
        obtain ⟨f₀, h0⟩ := read_returns hv
        refine ⟨f₀, fun f hf dec h hh => ?_⟩
        have r := h0 f hf h hh
        have g1 := (fine_read hh f (.r y)).1
        rcases e1 : read s f (.r y) h with ⟨h', r1⟩
        rw [e1] at r g1
        cases r
        simp only [residualOwn, hl, M.bind, e1]
        exact ⟨g1, _, rfl⟩
    refine ⟨max f₁ f₂ + 1, fun f hf dec h hh => ?_⟩
    obtain ⟨f, rfl⟩ : ∃ f', f = f' + 1 := ⟨f - 1, by omega⟩
    have hf' : max f₁ f₂ ≤ f := by omega
    obtain ⟨g2, a, ha⟩ := h2 f (Nat.le_trans (Nat.le_max_right ..) hf') dec h hh
    rcases e1 : residualOwn s lab sq f dec y h with ⟨h', r1⟩
    rw [e1] at ha g2
    cases ha
    have hdn : (h'.node y).dnames = (g y).dnames := by rw [← g2.2]; rfl
    obtain ⟨b, hb⟩ := h1 f (Nat.le_trans (Nat.le_max_left ..) hf') h' g2
    rcases e2 : residualKids (printBelow s lab sq f 2) y (g y).dnames h' with ⟨h2, r2⟩
    rw [e2] at hb
    cases hb
    exact ⟨a ++ b, by simp only [printBelow, M.bind, M.node, e1, hdn, e2, M.pure]⟩

/-- C80: it returns, after every history, if no object depends on itself, all operands are set, and the values of the object and of the
labelled objects can be computed. -/
theorem C80_returns (hp : s.PropsOk) {h : Heap C T V D} (hr : Reach s ⟨False, False⟩ h) (hnd : ∀ i, (h.graph i).dnames.Nodup) {y : Id}
    (hacc : Acc (fun a b => Uses h.graph b a) y)
    (hset : ∀ i, Relation.ReflTransGen (Uses h.graph) y i → ∀ k ∈ (h.graph i).dnames, ((h.graph i).dterms k).isSome = true)
    (hval : ∀ i, Relation.ReflTransGen (Uses h.graph) y i → i = y ∨ (lab i).isSome = true → ∃ v, Means s h.graph (.r i) (.ok v)) :
    ∃ f₀, ∀ f ≥ f₀, ∀ dec, ∃ out, (printResiduals s lab sq f dec y h).2 = .ok out := by
  have hi := reach_inv hp (fun h => False.elim h) hr
  obtain ⟨f₁, h1⟩ := printBelow_returns (s := s) (lab := lab) (sq := sq) hnd hacc hset fun i hi hl => hval i hi (Or.inr hl)
  obtain ⟨v, hv⟩ := hval y .refl (Or.inl rfl)
  obtain ⟨f₂, h2⟩ := read_returns hv
  refine ⟨max f₁ f₂, fun f hf dec => ?_⟩
  have hh : Fine s h.graph h := ⟨hi.coh, rfl⟩
  obtain ⟨a, ha⟩ := h1 f (Nat.le_trans (Nat.le_max_left ..) hf) dec h hh
  have g1 := (printBelow_spec (lab := lab) (sq := sq) hnd f dec y h hh).1
  rcases e1 : printBelow s lab sq f dec y h with ⟨h', r1⟩
  rw [e1] at ha g1
  cases ha
  have hb := h2 f (Nat.le_trans (Nat.le_max_right ..) hf) h' g1
  rcases e2 : read s f (.r y) h' with ⟨h2, r2⟩
  rw [e2] at hb
  cases hb
  exact ⟨_, by simp only [printResiduals, M.bind, e1, e2]; rfl⟩

namespace Demo
/-- `np.sum(v**2)`. -/
def sumSq (v : Arr) : Int := (v.map fun x => x * x).sum
/-- The leaf 0 and the object 3 are labelled. -/
def labels : Id → Option String
  | 0 => some "a"
  | 3 => some "y"
  | _ => none

/-- `y = (a + b) * a` with a = 3, b = 4: two ways lead from `y` to `a`. -/
theorem ex16_printed : (printResiduals sig labels sumSq 9 5 3 (hist ex16)).2 =
    .ok [.labelled 3 "y" 5 441, .labelled 0 "a" 2 9, .labelled 0 "a" 2 9, .total 5 441] := by decide +kernel

theorem ex16_blank (k : Nat) : (hist ex16).node (k + 5) = blankNode .leaf := rfl

theorem ex16_nodup (i : Nat) : ((hist ex16).graph i).dnames.Nodup := by
  by_cases h : i < 5
  · have : ∀ i : Fin 5, ((hist ex16).graph i.1).dnames.Nodup := by decide +kernel
    exact this ⟨i, h⟩
  · obtain ⟨k, rfl⟩ : ∃ k, i = k + 5 := ⟨i - 5, by omega⟩
    show ((hist ex16).node (k + 5)).dnames.Nodup
    rw [ex16_blank]; exact List.nodup_nil

theorem ex16_lower {i c : Nat} (h : Uses (hist ex16).graph i c) : c < i := by
  obtain ⟨k, hk, hc⟩ := h
  by_cases hi : i < 5
  · have : ∀ i : Fin 5, ∀ k ∈ ((hist ex16).graph i.1).dnames, ∀ c, ((hist ex16).graph i.1).dterms k = some c → c < i.1 := by
      intro i k hk
      have : ∀ i : Fin 5, ∀ k ∈ ((hist ex16).graph i.1).dnames, ∃ c, ((hist ex16).graph i.1).dterms k = some c ∧ c < i.1 := by
        have h2 : ∀ i : Fin 5, ∀ k ∈ ((hist ex16).graph i.1).dnames,
            (match ((hist ex16).graph i.1).dterms k with | some c => decide (c < i.1) | none => false) = true := by decide +kernel
        intro i k hk
        have := h2 i k hk
        revert this
        cases ((hist ex16).graph i.1).dterms k with
        | none => intro h; cases h
        | some c => intro h; exact ⟨c, rfl, of_decide_eq_true h⟩
      obtain ⟨c, h1, h2⟩ := this i k hk
      intro c' h'
      rw [h1] at h'; cases h'; exact h2
    exact this ⟨i, hi⟩ k hk c hc
  · obtain ⟨m, rfl⟩ : ∃ m, i = m + 5 := ⟨i - 5, by omega⟩
    have hk : k ∈ ((hist ex16).node (m + 5)).dnames := hk
    rw [ex16_blank] at hk; cases hk

theorem ex16_acc (i : Nat) : Acc (fun a b => Uses (hist ex16).graph b a) i := by
  induction i using Nat.strongRecOn with
  | ind i ih => exact ⟨i, fun c hc => ih c (ex16_lower hc)⟩

theorem ex16_below {i : Nat} (h : Relation.ReflTransGen (Uses (hist ex16).graph) 3 i) : i < 4 := by
  have key : ∀ {a b : Nat}, Relation.ReflTransGen (Uses (hist ex16).graph) a b → b ≤ a := by
    intro a b h
    induction h with
    | refl => exact Nat.le_refl _
    | tail _ h ih => exact Nat.le_trans (Nat.le_of_lt (ex16_lower h)) ih
  have := key h
  omega

/-- The conditions of `C80_returns` and of `C80_what_is_printed_partial` hold for it. -/
example : ∃ f₀, ∀ f ≥ f₀, ∀ dec, ∃ out, (printResiduals sig labels sumSq f dec 3 (hist ex16)).2 = .ok out := by
  refine C80_returns propsOk ?_ ex16_nodup (ex16_acc 3) ?_ ?_
  · refine reach_run ex16 .init ⟨⟨?_, ?_⟩, ⟨?_, ?_⟩, ⟨?_, ?_⟩, ⟨?_, ?_⟩, ⟨?_, ?_⟩, trivial⟩
    all_goals exact fun h => False.elim h
  · intro i hi
    have : ∀ i : Fin 4, ∀ k ∈ ((hist ex16).graph i.1).dnames, (((hist ex16).graph i.1).dterms k).isSome = true := by decide +kernel
    exact this ⟨i, ex16_below hi⟩
  · intro i hi _
    have : ∀ i : Fin 4, (match evalReq sig (hist ex16).graph 5 (.r i.1) with | .ok _ => true | .error _ => false) = true := by decide +kernel
    have := this ⟨i, ex16_below hi⟩
    revert this
    cases e : evalReq sig (hist ex16).graph 5 (.r i) with
    | error _ => intro h; simp only [e] at h; cases h
    | ok v => intro _; exact ⟨v, by simp, 5, e⟩

/-- With the label on `b` only, there is one way to each labelled object. -/
example : (printResiduals sig (fun i => if i = 1 then some "b" else none) sumSq 9 5 3 (hist ex16)).2 =
    .ok [.labelled 1 "b" 2 16, .total 5 441] := by decide +kernel

theorem ex16_route {p : List Name} (h : Route (hist ex16).graph 3 p 1) : p = [a, b] := by
  have d3 : ((hist ex16).graph 3).dnames = [a, b] := by decide +kernel
  have d2 : ((hist ex16).graph 2).dnames = [a, b] := by decide +kernel
  have t3a : ((hist ex16).graph 3).dterms a = some 2 := by decide +kernel
  have t3b : ((hist ex16).graph 3).dterms b = some 0 := by decide +kernel
  have t2a : ((hist ex16).graph 2).dterms a = some 0 := by decide +kernel
  have t2b : ((hist ex16).graph 2).dterms b = some 1 := by decide +kernel
  have low : ∀ {i j : Nat} {p}, Route (hist ex16).graph i p j → j ≤ i ∧ (i = j → p = []) := by
    intro i j p h
    induction h with
    | here => exact ⟨Nat.le_refl _, fun _ => rfl⟩
    | @via i c j k p hk hc _ ih =>
      have := ex16_lower ⟨k, hk, hc⟩
      have h1 : j ≤ c := ih.1
      exact ⟨Nat.le_trans h1 (Nat.le_of_lt this), fun h => absurd this (by rw [h]; exact Nat.not_lt.2 h1)⟩
  have from2 : ∀ {p}, Route (hist ex16).graph 2 p 1 → p = [b] := by
    intro p h
    cases h with
    | via hk hc h =>
      rw [d2] at hk
      rcases List.mem_cons.1 hk with rfl | hk
      · rw [t2a] at hc; cases hc; exact absurd (low h).1 (by decide)
      · rw [List.mem_singleton.1 hk, t2b] at hc; cases hc
        rw [(low h).2 rfl, List.mem_singleton.1 hk]
  cases h with
  | via hk hc h =>
    rw [d3] at hk
    rcases List.mem_cons.1 hk with rfl | hk
    · rw [t3a] at hc; cases hc; rw [from2 h]
    · rw [List.mem_singleton.1 hk, t3b] at hc; cases hc; exact absurd (low h).1 (by decide)

/-- The condition of `C80_each_label_once_partial` holds for that label. -/
example : ∀ p p' j, ((fun i => if i = 1 then some "b" else none : Id → Option String) j).isSome = true →
    Route (hist ex16).graph 3 p j → Route (hist ex16).graph 3 p' j → p = p' := by
  intro p p' j hl h h'
  by_cases hj : j = 1
  · subst hj; rw [ex16_route h, ex16_route h']
  · simp [hj] at hl
end Demo

/-- C80 in full: a labelled object is listed at most once, with the number of decimals asked for. -/
def C80_full (s : Sig C T V D) (lab : Id → Option L) (sq : V → E) : Prop :=
  ∀ ops f dec y out, (printResiduals s lab sq f dec y (run s ops (Heap.empty s))).2 = .ok out →
    (out.filterMap Written.subject).Nodup ∧ ∀ i l d e, Written.labelled i l d e ∈ out → d = dec

/-- C80 in full fails on both counts: in `(a + b) * a` the labelled `a` is listed twice, and `num_decimals=5` is not passed on. -/
theorem C80_full_refuted : ¬ C80_full Demo.sig Demo.labels Demo.sumSq := fun h =>
  absurd (h Demo.ex16 9 5 3 _ Demo.ex16_printed).1 (by decide)
theorem C80_decimals_refuted : ¬ ∀ (ops : List (Op Demo.Cls Demo.Arr Demo.Jac)) (f dec y : Nat) (out : List (Written String Int)),
    (printResiduals Demo.sig Demo.labels Demo.sumSq f dec y (Demo.hist ops)).2 = .ok out →
    ∀ i l d e, Written.labelled i l d e ∈ out → d = dec := fun h =>
  absurd (h Demo.ex16 9 5 3 _ Demo.ex16_printed 0 "a" 2 9 (by simp)) (by decide)
end Chumpy
