import Verif.Core.Draw
import Verif.Properties.Structure
/-!
# C85: walking over all operands, and the text behind `show_tree`
-/
namespace Chumpy
variable {C T V D : Type}

/-! ## Specification -/

/-- The object found by following the differentiable terms `p`, starting at `i`. -/
def follow (g : Graph C T) : Id → List Name → Option Id
  | i, [] => some i
  | i, k :: p => if k ∈ (g i).dnames then ((g i).dterms k).bind fun c => follow g c p else none

/-- The arrows that should be drawn for `y`: the direct uses made by the objects `y` depends on, itself included. -/
def ShouldArrow (g : Graph C T) (y s d : Id) : Prop := Relation.ReflTransGen (Uses g) y s ∧ Uses g s d

/-- The captions that should be drawn: `root` for `y` if anything is below it, and for every object below it each name it is used under; the
object's own `label` takes the place of either. -/
def ShouldBox (g : Graph C T) (lab : Id → Option String) (y j : Id) (c : Caption) : Prop :=
  (j = y ∧ (∃ d, Uses g y d) ∧ c = (lab y).elim .root .label) ∨
    ∃ s k, Relation.ReflTransGen (Uses g) y s ∧ k ∈ (g s).dnames ∧ (g s).dterms k = some j ∧ c = (lab j).elim (.term k) .label

/-- The dotted arrows that should be drawn: the cached derivatives larger than the limit, of the objects `y` depends on. -/
def ShouldDotted (h : Heap C T V D) (size : Option D → Nat) (lim : Option Nat) (y s w : Id) (n : Nat) : Prop :=
  Relation.ReflTransGen (Uses h.graph) y s ∧ ∃ m jac, lim = some m ∧ (h.node s).drs w = some jac ∧ n = size jac ∧ m * 1024 * 1024 < n

/-! ## The walk -/

theorem loopKids_mem {rec : Id → Option (List Id)} : ∀ {cs l}, loopKids rec cs = some l →
    (∀ c ∈ cs, ∃ l', rec c = some l') ∧ ∀ j, j ∈ l ↔ ∃ c ∈ cs, ∃ l', rec c = some l' ∧ j ∈ l' := by
  intro cs
  induction cs with
  | nil => intro l h; simp only [loopKids, Option.some.injEq] at h; subst h; simp
  | cons c cs ih =>
    intro l h
    simp only [loopKids] at h
    cases h1 : rec c with
    | none => rw [h1] at h; cases h
    | some l1 =>
      rw [h1] at h; dsimp only at h
      cases h2 : loopKids rec cs with
      | none => rw [h2] at h; cases h
      | some l2 =>
        rw [h2] at h
        simp only [Option.some.injEq] at h
        subst h
        obtain ⟨a, b⟩ := ih h2
        refine ⟨fun c' hc' => ?_, fun j => ?_⟩
        · rcases List.mem_cons.1 hc' with rfl | hc'
          · exact ⟨l1, h1⟩
          · exact a c' hc'
        · rw [List.mem_append, b j]
          constructor
          · rintro (hj | ⟨c', hc', l', e, hj⟩)
            · exact ⟨c, List.mem_cons_self, l1, h1, hj⟩
            · exact ⟨c', List.mem_cons_of_mem _ hc', l', e, hj⟩
          · rintro ⟨c', hc', l', e, hj⟩
            rcases List.mem_cons.1 hc' with rfl | hc'
            · rw [h1] at e; cases e; exact .inl hj
            · exact .inr ⟨c', hc', l', e, hj⟩

theorem loopChildren_mem {g : Graph C T} : ∀ {f i l}, loopChildren g f i = some l → ∀ j, j ∈ l ↔ Relation.ReflTransGen (Uses g) i j := by
  intro f
  induction f with
  | zero => intro i l h; cases h
  | succ f ih =>
    intro i l h j
    simp only [loopChildren] at h
    cases h1 : loopKids (loopChildren g f) (g i).kids with
    | none => rw [h1] at h; cases h
    | some l1 =>
      rw [h1] at h
      simp only [Option.some.injEq] at h
      subst h
      obtain ⟨a, b⟩ := loopKids_mem h1
      rw [List.mem_cons, b j, Relation.ReflTransGen.cases_head_iff]
      constructor
      · rintro (rfl | ⟨c, hc, l', e, hj⟩)
        · exact .inl rfl
        · exact .inr ⟨c, mem_kids.1 hc, (ih e j).1 hj⟩
      · rintro (rfl | ⟨c, hc, hj⟩)
        · exact .inl rfl
        · obtain ⟨l', e⟩ := a c (mem_kids.2 hc)
          exact .inr ⟨c, mem_kids.2 hc, l', e, (ih e j).2 hj⟩

theorem loopKids_total {rec : Id → Option (List Id)} : ∀ {cs}, (∀ c ∈ cs, ∃ l, rec c = some l) → ∃ l, loopKids rec cs = some l := by
  intro cs
  induction cs with
  | nil => intro _; exact ⟨[], rfl⟩
  | cons c cs ih =>
    intro h
    obtain ⟨l, e⟩ := h c List.mem_cons_self
    obtain ⟨l', e'⟩ := ih fun c' hc' => h c' (List.mem_cons_of_mem _ hc')
    exact ⟨l ++ l', by simp only [loopKids, e, e']⟩

/-- A bound for all operands. -/
theorem bound_all {P : Id → Nat → Prop} : ∀ cs : List Id, (∀ c ∈ cs, ∃ f₀, ∀ f ≥ f₀, P c f) → ∃ f₀, ∀ f ≥ f₀, ∀ c ∈ cs, P c f := by
  intro cs
  induction cs with
  | nil => intro _; exact ⟨0, fun _ _ c hc => by cases hc⟩
  | cons c cs ih =>
    intro h
    obtain ⟨f₁, h1⟩ := h c List.mem_cons_self
    obtain ⟨f₂, h2⟩ := ih fun c' hc' => h c' (List.mem_cons_of_mem _ hc')
    refine ⟨max f₁ f₂, fun f hf c' hc' => ?_⟩
    rcases List.mem_cons.1 hc' with rfl | hc'
    · exact h1 f (by omega)
    · exact h2 f (by omega) c' hc'

theorem loopChildren_returns {g : Graph C T} {y : Id} (hacc : Acc (fun c i => Uses g i c) y) :
    ∃ f₀, ∀ f ≥ f₀, ∃ l, loopChildren g f y = some l := by
  induction hacc with
  | intro y _ ih =>
    obtain ⟨f₀, h0⟩ := bound_all (P := fun c f => ∃ l, loopChildren g f c = some l) (g y).kids fun c hc => ih c (mem_kids.1 hc)
    refine ⟨f₀ + 1, fun f hf => ?_⟩
    obtain ⟨n, rfl⟩ : ∃ n, f = n + 1 := ⟨f - 1, by omega⟩
    obtain ⟨l, e⟩ := loopKids_total (h0 n (by omega))
    exact ⟨y :: l, by simp only [loopChildren, e]⟩

theorem loopChildren_step {g : Graph C T} {f : Nat} {i c : Id} {l : List Id} (h : loopChildren g (f + 1) i = some l) (hu : Uses g i c) :
    ∃ l', loopChildren g f c = some l' := by
  simp only [loopChildren] at h
  cases h1 : loopKids (loopChildren g f) (g i).kids with
  | none => rw [h1] at h; cases h
  | some l1 => exact (loopKids_mem h1).1 c (mem_kids.2 hu)

theorem loopChildren_acc {g : Graph C T} : ∀ {f i l}, loopChildren g f i = some l → Acc (fun c i => Uses g i c) i := by
  intro f
  induction f with
  | zero => intro i l h; cases h
  | succ f ih =>
    intro i l h
    exact ⟨_, fun c hc => (loopChildren_step h hc).elim fun l' e => ih e⟩

/-! ## Paths -/

theorem loopKids_paths {g : Graph C T} {rec : Id → Option (List Id)}
    (hrec : ∀ c l, rec c = some l → ∃ ps : List (List Name), ps.Nodup ∧ (∀ p, p ∈ ps ↔ ∃ j, follow g c p = some j) ∧ l.map some = ps.map (follow g c))
    {dt : Name → Option Id} : ∀ {ks : List Name} {l}, ks.Nodup → loopKids rec (ks.filterMap dt) = some l →
    ∃ ps : List (List Name), ps.Nodup ∧ (∀ p, p ∈ ps ↔ ∃ k q c j, p = k :: q ∧ k ∈ ks ∧ dt k = some c ∧ follow g c q = some j) ∧
      l.map some = ps.map fun p => match p with | [] => none | k :: q => (dt k).bind fun c => follow g c q := by
  intro ks
  induction ks with
  | nil =>
    intro l _ h
    simp only [List.filterMap_nil, loopKids, Option.some.injEq] at h
    subst h
    exact ⟨[], List.nodup_nil, by simp, rfl⟩
  | cons k ks ih =>
    intro l hnd h
    obtain ⟨hk, hnd⟩ := List.nodup_cons.1 hnd
    cases hd : dt k with
    | none =>
      rw [List.filterMap_cons_none hd] at h
      obtain ⟨ps, n, m, e⟩ := ih hnd h
      refine ⟨ps, n, fun p => ?_, e⟩
      rw [m p]
      constructor
      · rintro ⟨k', q, c, j, e1, h1, h2, h3⟩; exact ⟨k', q, c, j, e1, List.mem_cons_of_mem _ h1, h2, h3⟩
      · rintro ⟨k', q, c, j, e1, h1, h2, h3⟩
        rcases List.mem_cons.1 h1 with rfl | h1
        · rw [hd] at h2; cases h2
        · exact ⟨k', q, c, j, e1, h1, h2, h3⟩
    | some c =>
      rw [List.filterMap_cons_some hd] at h
      simp only [loopKids] at h
      cases h1 : rec c with
      | none => rw [h1] at h; cases h
      | some l1 =>
        rw [h1] at h; dsimp only at h
        cases h2 : loopKids rec (ks.filterMap dt) with
        | none => rw [h2] at h; cases h
        | some l2 =>
          rw [h2] at h
          simp only [Option.some.injEq] at h
          subst h
          obtain ⟨p1, n1, m1, e1⟩ := hrec c l1 h1
          obtain ⟨p2, n2, m2, e2⟩ := ih hnd h2
          refine ⟨p1.map (k :: ·) ++ p2, ?_, fun p => ?_, ?_⟩
          · rw [List.nodup_append]
            refine ⟨List.Pairwise.map (k :: ·) (fun a b (hab : a ≠ b) => by simpa using hab) n1, n2, ?_⟩
            · rintro a ha b hb rfl
              obtain ⟨q, _, rfl⟩ := List.mem_map.1 ha
              obtain ⟨k', q', c', j, e, hk', _⟩ := (m2 _).1 hb
              cases e; exact hk hk'
          · rw [List.mem_append, List.mem_map, m2 p]
            constructor
            · rintro (⟨q, hq, rfl⟩ | ⟨k', q, c', j, e, h3, h4, h5⟩)
              · obtain ⟨j, hj⟩ := (m1 q).1 hq
                exact ⟨k, q, c, j, rfl, List.mem_cons_self, hd, hj⟩
              · exact ⟨k', q, c', j, e, List.mem_cons_of_mem _ h3, h4, h5⟩
            · rintro ⟨k', q, c', j, e, h3, h4, h5⟩
              rcases List.mem_cons.1 h3 with rfl | h3
              · rw [hd] at h4; cases h4
                exact .inl ⟨q, (m1 q).2 ⟨j, h5⟩, e.symm⟩
              · exact .inr ⟨k', q, c', j, e, h3, h4, h5⟩
          · rw [List.map_append, List.map_append, e1, e2, List.map_map]
            congr 1
            apply List.map_congr_left
            intro q _
            simp [hd]

theorem loopChildren_paths {g : Graph C T} (hnd : ∀ i, (g i).dnames.Nodup) : ∀ {f i l}, loopChildren g f i = some l →
    ∃ ps : List (List Name), ps.Nodup ∧ (∀ p, p ∈ ps ↔ ∃ j, follow g i p = some j) ∧ l.map some = ps.map (follow g i) := by
  intro f
  induction f with
  | zero => intro i l h; cases h
  | succ f ih =>
    intro i l h
    simp only [loopChildren] at h
    cases h1 : loopKids (loopChildren g f) (g i).kids with
    | none => rw [h1] at h; cases h
    | some l1 =>
      rw [h1] at h
      simp only [Option.some.injEq] at h
      subst h
      obtain ⟨ps, n, m, e⟩ := loopKids_paths (g := g) (rec := loopChildren g f) (fun c l hl => ih hl) (hnd i) h1
      refine ⟨[] :: ps, List.nodup_cons.2 ⟨fun h0 => ?_, n⟩, fun p => ?_, ?_⟩
      · obtain ⟨_, _, _, _, e, _⟩ := (m []).1 h0; cases e
      · rw [List.mem_cons, m p]
        cases p with
        | nil => simp [follow]
        | cons k q =>
          simp only [follow]
          constructor
          · rintro (e | ⟨k', q', c, j, e, h3, h4, h5⟩)
            · cases e
            · cases e; exact ⟨j, by rw [if_pos h3, h4]; exact h5⟩
          · rintro ⟨j, hj⟩
            split at hj
            · next hk =>
              obtain ⟨c, hc, hq⟩ := Option.bind_eq_some_iff.1 hj
              exact .inr ⟨k, q, c, j, rfl, hk, hc, hq⟩
            · cases hj
      · rw [List.map_cons, List.map_cons, e]
        congr 1
        apply List.map_congr_left
        intro p hp
        obtain ⟨k, q, c, j, rfl, h3, h4, h5⟩ := (m p).1 hp
        simp only [follow, if_pos h3]

/-! ## The text -/

theorem drawKids_mem {g : Graph C T} {lab : Id → Option String} {rec : Id → Caption → Option (List (DrawLine C))} {i : Id} {mine : Caption} :
    ∀ {ks l}, drawKids g lab rec i mine ks = some l →
    (∀ k ∈ ks, ∀ c, (g i).dterms k = some c → ∃ l', rec c (.term k) = some l') ∧
    ∀ x, x ∈ l ↔ ∃ k ∈ ks, ∃ c, (g i).dterms k = some c ∧
      (x = .arrow i c ∨ x = .box i mine (g i).cls ∨ x = .box c (caption lab c (.term k)) (g c).cls ∨ ∃ l', rec c (.term k) = some l' ∧ x ∈ l') := by
  intro ks
  induction ks with
  | nil => intro l h; simp only [drawKids, Option.some.injEq] at h; subst h; simp
  | cons k ks ih =>
    intro l h
    simp only [drawKids] at h
    cases hd : (g i).dterms k with
    | none =>
      rw [hd] at h
      obtain ⟨a, b⟩ := ih h
      refine ⟨fun k' hk' c hc => ?_, fun x => ?_⟩
      · rcases List.mem_cons.1 hk' with rfl | hk'
        · rw [hd] at hc; cases hc
        · exact a k' hk' c hc
      · rw [b x]
        constructor
        · rintro ⟨k', hk', r⟩; exact ⟨k', List.mem_cons_of_mem _ hk', r⟩
        · rintro ⟨k', hk', c, hc, r⟩
          rcases List.mem_cons.1 hk' with rfl | hk'
          · rw [hd] at hc; cases hc
          · exact ⟨k', hk', c, hc, r⟩
    | some c =>
      rw [hd] at h; dsimp only at h
      cases h1 : rec c (.term k) with
      | none => rw [h1] at h; cases h
      | some l1 =>
        rw [h1] at h; dsimp only at h
        cases h2 : drawKids g lab rec i mine ks with
        | none => rw [h2] at h; cases h
        | some l2 =>
          rw [h2] at h
          simp only [Option.some.injEq] at h
          subst h
          obtain ⟨a, b⟩ := ih h2
          refine ⟨fun k' hk' c' hc => ?_, fun x => ?_⟩
          · rcases List.mem_cons.1 hk' with rfl | hk'
            · rw [hd] at hc; cases hc; exact ⟨l1, h1⟩
            · exact a k' hk' c' hc
          · rw [List.mem_append, List.mem_append, b x]
            constructor
            · rintro ((hx | hx) | ⟨k', hk', r⟩)
              · refine ⟨k, List.mem_cons_self, c, hd, ?_⟩
                simp only [List.mem_cons, List.not_mem_nil, or_false] at hx
                rcases hx with e | e | e
                · exact .inl e
                · exact .inr (.inl e)
                · exact .inr (.inr (.inl e))
              · exact ⟨k, List.mem_cons_self, c, hd, .inr (.inr (.inr ⟨l1, h1, hx⟩))⟩
              · exact ⟨k', List.mem_cons_of_mem _ hk', r⟩
            · rintro ⟨k', hk', c', hc, r⟩
              rcases List.mem_cons.1 hk' with rfl | hk'
              · rw [hd] at hc; cases hc
                rcases r with e | e | e | ⟨l', e, hx⟩
                · exact .inl (.inl (by rw [e]; simp))
                · exact .inl (.inl (by rw [e]; simp))
                · exact .inl (.inl (by rw [e]; simp))
                · rw [h1] at e; cases e; exact .inl (.inr hx)
              · exact .inr ⟨k', hk', c', hc, r⟩

variable {h : Heap C T V D} {lab : Id → Option String} {size : Option D → Nat} {lim : Option Nat}

theorem mem_dottedLines (hb : ∀ i w, h.next ≤ w → (h.node i).drs w = none) {i : Id} {x : DrawLine C} :
    x ∈ dottedLines h size lim i ↔
      ∃ w m jac, lim = some m ∧ (h.node i).drs w = some jac ∧ m * 1024 * 1024 < size jac ∧ x = .dotted i w (size jac) := by
  cases lim with
  | none => simp [dottedLines]
  | some m =>
    simp only [dottedLines, List.mem_filterMap, List.mem_range]
    constructor
    · rintro ⟨w, _, hx⟩
      cases hd : (h.node i).drs w with
      | none => rw [hd] at hx; cases hx
      | some jac =>
        rw [hd] at hx; dsimp only at hx
        split at hx
        · next hs => cases hx; exact ⟨w, m, jac, rfl, hd, hs, rfl⟩
        · cases hx
    · rintro ⟨w, m', jac, e, hd, hs, rfl⟩
      cases e
      refine ⟨w, ?_, ?_⟩
      · refine Nat.lt_of_not_le fun hl => ?_
        rw [hb i w hl] at hd; cases hd
      · rw [hd]; dsimp only; rw [if_pos hs]

/-- All lines of `string_for`. -/
def ShouldDraw (h : Heap C T V D) (lab : Id → Option String) (size : Option D → Nat) (lim : Option Nat) (y : Id) (given : Caption) : DrawLine C → Prop
  | .arrow s d => ShouldArrow h.graph y s d
  | .box j c k => k = (h.graph j).cls ∧ ((j = y ∧ (∃ d, Uses h.graph y d) ∧ c = caption lab y given) ∨
      ∃ s k, Relation.ReflTransGen (Uses h.graph) y s ∧ k ∈ (h.graph s).dnames ∧ (h.graph s).dterms k = some j ∧ c = caption lab j (.term k))
  | .dotted s w n => ShouldDotted h size lim y s w n

theorem drawFor_mem (hb : ∀ i w, h.next ≤ w → (h.node i).drs w = none) : ∀ {f y given l}, drawFor h lab size lim f y given = some l →
    ∀ x, x ∈ l ↔ ShouldDraw h lab size lim y given x := by
  intro f
  induction f with
  | zero => intro y given l e; cases e
  | succ f ih =>
    intro y given l e x
    simp only [drawFor] at e
    cases h1 : drawKids h.graph lab (drawFor h lab size lim f) y (caption lab y given) (h.graph y).dnames with
    | none => rw [h1] at e; cases e
    | some l1 =>
      rw [h1] at e
      simp only [Option.some.injEq] at e
      subst e
      obtain ⟨a, b⟩ := drawKids_mem h1
      rw [List.mem_append, b x, mem_dottedLines hb]
      constructor
      · rintro (⟨k, hk, c, hc, r⟩ | ⟨w, m, jac, e1, e2, e3, rfl⟩)
        · have hu : Uses h.graph y c := ⟨k, hk, hc⟩
          rcases r with rfl | rfl | rfl | ⟨l', e', hx⟩
          · exact ⟨.refl, hu⟩
          · exact ⟨rfl, .inl ⟨rfl, ⟨c, hu⟩, rfl⟩⟩
          · exact ⟨rfl, .inr ⟨y, k, .refl, hk, hc, rfl⟩⟩
          · have := (ih e' x).1 hx
            cases x with
            | arrow s d => exact ⟨.head hu this.1, this.2⟩
            | box j cp cl =>
              obtain ⟨q, ⟨rfl, _, e2⟩ | ⟨s, k', hs, r⟩⟩ := this
              · exact ⟨q, .inr ⟨y, k, .refl, hk, hc, e2⟩⟩
              · exact ⟨q, .inr ⟨s, k', .head hu hs, r⟩⟩
            | dotted s w n => exact ⟨.head hu this.1, this.2⟩
        · exact ⟨.refl, m, jac, e1, e2, rfl, e3⟩
      · intro hx
        cases x with
        | arrow s d =>
          rcases Relation.ReflTransGen.cases_head hx.1 with rfl | ⟨c, ⟨k, hk, hc⟩, hcs⟩
          · obtain ⟨k, hk, hc⟩ := hx.2
            exact .inl ⟨k, hk, d, hc, .inl rfl⟩
          · obtain ⟨l', e'⟩ := a k hk c hc
            exact .inl ⟨k, hk, c, hc, .inr (.inr (.inr ⟨l', e', (ih e' _).2 ⟨hcs, hx.2⟩⟩))⟩
        | box j cp cl =>
          obtain ⟨rfl, ⟨rfl, ⟨d, k, hk, hc⟩, rfl⟩ | ⟨s, k', hs, hk', hj, rfl⟩⟩ := hx
          · exact .inl ⟨k, hk, d, hc, .inr (.inl rfl)⟩
          · rcases Relation.ReflTransGen.cases_head hs with rfl | ⟨c, ⟨k, hk, hc⟩, hcs⟩
            · exact .inl ⟨k', hk', j, hj, .inr (.inr (.inl rfl))⟩
            · obtain ⟨l', e'⟩ := a k hk c hc
              exact .inl ⟨k, hk, c, hc, .inr (.inr (.inr ⟨l', e', (ih e' _).2 ⟨rfl, .inr ⟨s, k', hcs, hk', hj, rfl⟩⟩⟩))⟩
        | dotted s w n =>
          obtain ⟨hs, m, jac, e1, e2, rfl, e3⟩ := hx
          rcases Relation.ReflTransGen.cases_head hs with rfl | ⟨c, ⟨k, hk, hc⟩, hcs⟩
          · exact .inr ⟨w, m, jac, e1, e2, e3, rfl⟩
          · obtain ⟨l', e'⟩ := a k hk c hc
            exact .inl ⟨k, hk, c, hc, .inr (.inr (.inr ⟨l', e', (ih e' _).2 ⟨hcs, m, jac, e1, e2, rfl, e3⟩⟩))⟩

theorem drawKids_total {g : Graph C T} {rec : Id → Caption → Option (List (DrawLine C))} {i : Id} {mine : Caption} :
    ∀ {ks}, (∀ k ∈ ks, ∀ c, (g i).dterms k = some c → ∃ l, rec c (.term k) = some l) → ∃ l, drawKids g lab rec i mine ks = some l := by
  intro ks
  induction ks with
  | nil => intro _; exact ⟨[], rfl⟩
  | cons k ks ih =>
    intro hr
    obtain ⟨l', e'⟩ := ih fun k' hk' => hr k' (List.mem_cons_of_mem _ hk')
    cases hd : (g i).dterms k with
    | none => exact ⟨l', by simp only [drawKids, hd, e']⟩
    | some c =>
      obtain ⟨l, e⟩ := hr k List.mem_cons_self c hd
      exact ⟨_, by simp only [drawKids, hd, e, e']; rfl⟩

/-- The drawing and the walk recurse alike. -/
theorem drawFor_iff_loop : ∀ f y given, (∃ l, drawFor h lab size lim f y given = some l) ↔ ∃ l, loopChildren h.graph f y = some l := by
  intro f
  induction f with
  | zero => intro y given; constructor <;> rintro ⟨l, e⟩ <;> cases e
  | succ f ih =>
    intro y given
    constructor
    · rintro ⟨l, e⟩
      simp only [drawFor] at e
      cases h1 : drawKids h.graph lab (drawFor h lab size lim f) y (caption lab y given) (h.graph y).dnames with
      | none => rw [h1] at e; cases e
      | some l1 =>
        obtain ⟨l', e'⟩ := loopKids_total (rec := loopChildren h.graph f) (cs := (h.graph y).kids) fun c hc => by
          obtain ⟨k, hk, hc⟩ := mem_kids.1 hc
          exact (ih c (.term k)).1 ((drawKids_mem h1).1 k hk c hc)
        exact ⟨y :: l', by simp only [loopChildren, e']⟩
    · rintro ⟨l, e⟩
      obtain ⟨l', e'⟩ := drawKids_total (lab := lab) (g := h.graph) (rec := drawFor h lab size lim f) (i := y) (mine := caption lab y given)
        (ks := (h.graph y).dnames) fun k hk c hc => (ih c _).2 (loopChildren_step e ⟨k, hk, hc⟩)
      exact ⟨_, by simp only [drawFor, e']; rfl⟩

theorem caption_elim {i : Id} {c : Caption} : caption lab i c = (lab i).elim c .label := by
  unfold caption; cases lab i <;> rfl

/-! ## Theorems -/

/-- C85, the walk: if `loop_children_do(fn)` returns, `fn` was called with the object itself first, and with exactly the objects it depends on. -/
theorem C85_loop_reaches {g : Graph C T} {f : Nat} {y : Id} {calls : List Id} (hl : loopChildren g f y = some calls) :
    calls.head? = some y ∧ ∀ j, j ∈ calls ↔ Relation.ReflTransGen (Uses g) y j := by
  refine ⟨?_, loopChildren_mem hl⟩
  cases f with
  | zero => cases hl
  | succ f =>
    simp only [loopChildren] at hl
    split at hl
    · cases hl
    · cases hl; rfl

/-- C85, how often: once for every way of getting there by following names of differentiable terms, when no object lists a name twice. -/
theorem C85_loop_once_per_path {g : Graph C T} (hnd : ∀ i, (g i).dnames.Nodup) {f : Nat} {y : Id} {calls : List Id}
    (hl : loopChildren g f y = some calls) :
    ∃ ps : List (List Name), ps.Nodup ∧ (∀ p, p ∈ ps ↔ ∃ j, follow g y p = some j) ∧ calls.map some = ps.map (follow g y) :=
  loopChildren_paths hnd hl

/-- C85, the cost: an object made by doubling `n` times, `x₁ = x₀ + x₀`, …, leads to `2ⁿ⁺¹ - 1` calls, although there are only `n + 1`
objects. -/
theorem C85_loop_is_exponential {g : Graph C T} {x : Nat → Id} {a b : Name} (h0 : (g (x 0)).kids = [])
    (hs : ∀ n, (g (x (n + 1))).dnames = [a, b] ∧ (g (x (n + 1))).dterms a = some (x n) ∧ (g (x (n + 1))).dterms b = some (x n)) (n : Nat) :
    ∃ calls, loopChildren g (n + 1) (x n) = some calls ∧ calls.length = 2 ^ (n + 1) - 1 := by
  induction n with
  | zero => exact ⟨[x 0], by simp only [loopChildren, h0, loopKids], rfl⟩
  | succ n ih =>
    obtain ⟨l, e, hl⟩ := ih
    have hk : (g (x (n + 1))).kids = [x n, x n] := by simp [GNode.kids, (hs n).1, (hs n).2.1, (hs n).2.2]
    refine ⟨x (n + 1) :: (l ++ (l ++ [])), ?_, ?_⟩
    · rw [loopChildren, hk]; simp only [loopKids, e]
    · have : 0 < 2 ^ n := Nat.two_pow_pos n
      simp only [List.length_cons, List.length_append, List.length_nil, hl, Nat.pow_succ]; omega

/-- C85, the flags: after `loop_children_do(reset_flag)` the flag is off for every object below, and as before for all others. -/
theorem C85_reset {g : Graph C T} {f : Nat} {y : Id} {flag flag' : Id → Bool} (hl : resetFlags g f y flag = some flag') (j : Id) :
    (Relation.ReflTransGen (Uses g) y j → flag' j = false) ∧ (¬ Relation.ReflTransGen (Uses g) y j → flag' j = flag j) := by
  have key : ∀ (l : List Id) (fl : Id → Bool), l.foldl (fun fl j k => if k = j then false else fl k) fl j = (decide (j ∉ l) && fl j) := by
    intro l
    induction l with
    | nil => intro fl; simp
    | cons c l ih =>
      intro fl
      rw [List.foldl_cons, ih]
      by_cases hc : j = c
      · simp [hc]
      · simp [hc]
  simp only [resetFlags, Option.map_eq_some_iff] at hl
  obtain ⟨calls, e, rfl⟩ := hl
  rw [key, ← loopChildren_mem e j]
  constructor
  · intro hj; simp [hj]
  · intro hj; simp [hj]

/-- C85, the picture: the lines drawn are exactly the arrows, boxes and dotted arrows that should be drawn, after every history. -/
theorem C85_show_tree (s : Sig C T V D) (ops : List (Op C T D)) {f : Nat} {y : Id} {lines : List (DrawLine C)} {lab : Id → Option String}
    {size : Option D → Nat} {lim : Option Nat} :
    let h := run s ops (Heap.empty s)
    showTree h lab size lim f y = some lines →
    (∀ i d, .arrow i d ∈ lines ↔ ShouldArrow h.graph y i d) ∧
    (∀ j c k, .box j c k ∈ lines ↔ k = (h.graph j).cls ∧ ShouldBox h.graph lab y j c) ∧
    ∀ i w n, .dotted i w n ∈ lines ↔ ShouldDotted h size lim y i w n := by
  intro h hd
  have hs : Str h := run_str ops
  have hb : ∀ i w, h.next ≤ w → (h.node i).drs w = none := fun i w hw => by
    cases e : (h.node i).drs w with
    | none => rfl
    | some d => exact absurd (hs.alive_lt (hs.keys i w d e)) (Nat.not_lt.2 hw)
  have m := drawFor_mem hb hd
  refine ⟨fun i d => m _, fun j c k => ?_, fun i w n => m _⟩
  rw [m (.box j c k)]
  simp only [ShouldDraw, ShouldBox, caption_elim]

/-- C85: an object with a `label` has one caption only. -/
theorem C85_one_caption (s : Sig C T V D) (ops : List (Op C T D)) {f : Nat} {y : Id} {lines : List (DrawLine C)} {lab : Id → Option String}
    {size : Option D → Nat} {lim : Option Nat} :
    let h := run s ops (Heap.empty s)
    showTree h lab size lim f y = some lines → ∀ j t, lab j = some t → ∀ c k, .box j c k ∈ lines → c = .label t ∧ k = (h.graph j).cls := by
  intro h hd j t ht c k hm
  obtain ⟨e, r⟩ := ((C85_show_tree s ops hd).2.1 j c k).1 hm
  refine ⟨?_, e⟩
  rcases r with ⟨rfl, _, rfl⟩ | ⟨_, _, _, _, _, rfl⟩ <;> rw [ht] <;> rfl

/-- C85: both return under a sufficient recursion limit if and only if no object below uses itself, however indirectly. -/
theorem C85_returns_iff (s : Sig C T V D) (ops : List (Op C T D)) {y : Id} {lab : Id → Option String} {size : Option D → Nat} {lim : Option Nat} :
    let h := run s ops (Heap.empty s)
    ((∃ f lines, showTree h lab size lim f y = some lines) ↔ Acc (fun c i => Uses h.graph i c) y) ∧
    ((∃ f calls, loopChildren h.graph f y = some calls) ↔ Acc (fun c i => Uses h.graph i c) y) ∧
    (Acc (fun c i => Uses h.graph i c) y → ∃ f₀, ∀ f ≥ f₀, (∃ calls, loopChildren h.graph f y = some calls) ∧
      ∃ lines, showTree h lab size lim f y = some lines) := by
  intro h
  have k : Acc (fun c i => Uses h.graph i c) y → ∃ f₀, ∀ f ≥ f₀, (∃ calls, loopChildren h.graph f y = some calls) ∧
      ∃ lines, showTree h lab size lim f y = some lines := fun ha => by
    obtain ⟨f₀, h0⟩ := loopChildren_returns ha
    exact ⟨f₀, fun f hf => ⟨h0 f hf, (drawFor_iff_loop f y .root).2 (h0 f hf)⟩⟩
  refine ⟨⟨?_, fun ha => ?_⟩, ⟨?_, fun ha => ?_⟩, k⟩
  · rintro ⟨f, l, e⟩
    obtain ⟨l', e'⟩ := (drawFor_iff_loop f y .root).1 ⟨l, e⟩
    exact loopChildren_acc e'
  · obtain ⟨f₀, h0⟩ := k ha; exact ⟨f₀, (h0 f₀ (Nat.le_refl _)).2⟩
  · rintro ⟨f, l, e⟩; exact loopChildren_acc e
  · obtain ⟨f₀, h0⟩ := k ha; exact ⟨f₀, (h0 f₀ (Nat.le_refl _)).1⟩

namespace Demo
/-- `y = (a + b) * a`: `a` is visited twice, and has two boxes unless it has a label. -/
example : loopChildren (hist ex16).graph 9 3 = some [3, 2, 0, 1, 0] := by decide +kernel
example : (showTree (hist ex16) (fun _ => none) (fun _ => 0) none 9 3).isSome = true := by decide +kernel
/-- A large cached derivative is drawn, and disappears when the parameter is overwritten. -/
example : ((showTree (hist (ex16 ++ [.readDr 9 3 0])) (fun _ => none) (fun _ => 3000000) (some 2) 9 3).getD []).contains (.dotted 3 0 3000000) = true := by
  decide +kernel
example : ((showTree (hist (ex16 ++ [.readDr 9 3 0, .set 0 [.term x [50]]])) (fun _ => none) (fun _ => 3000000) (some 2) 9 3).getD []).any
    (fun | .dotted _ _ _ => true | _ => false) = false := by decide +kernel
/-- A cycle: `RecursionError`. -/
example : loopChildren (hist (ex16 ++ [.set 2 [.link a 3]])).graph 50 3 = none := by decide +kernel
/-- Doubling twice. -/
def doubling : Graph Unit Unit := fun i =>
  { cls := (), terms := fun _ => none, dnames := if i = 0 then [] else [0, 1], dterms := fun _ => if i = 0 then none else some (i - 1), makeDense := false, makeSparse := false }
example : ∃ calls, loopChildren doubling 11 10 = some calls ∧ calls.length = 2047 :=
  C85_loop_is_exponential (x := fun n => n) (a := 0) (b := 1) rfl (fun n => ⟨rfl, rfl, rfl⟩) 10
end Demo
end Chumpy
