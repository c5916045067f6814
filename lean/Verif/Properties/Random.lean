import Verif.AD.Random
import Verif.Properties.Fresh
import Verif.Properties.Assign
/-!
# C88: random numbers
-/
namespace Chumpy
variable {S A : Type} {G : Rng S A} {h : Heap ClassDef Par Arr Jac} {t : S}

/-! ## Specification -/

/-- What the same calls of numpy's functions return, without any `Ch`; a number is an array with one entry. -/
noncomputable def numpySamples (G : Rng S A) : List (RandOp S A) → S → List (Except Err Arr)
  | [], _ => []
  | .call a :: p, t => (G.draw a t).2.map Arr.atleast1 :: numpySamples G p (G.draw a t).1
  | .seed n :: p, _ => numpySamples G p (G.seed n)
  | .setState t' :: p, _ => numpySamples G p t'
  | .op _ :: p, t => numpySamples G p t

/-- What a user sees: for each call of a wrapped function the exception, or `.r` of the object returned. -/
noncomputable def seenSamples (G : Rng S A) (f : ℕ) : List (RandOp S A) → Heap ClassDef Par Arr Jac × S → List (Except Err Arr)
  | [], _ => []
  | .call a :: p, w =>
    (match stepRand G (.call a) w with
      | (w', .ok (some y)) => (read lib f (.r y) w'.1).2
      | (_, .ok none) => .error .attr
      | (_, .error e) => .error e) :: seenSamples G f p (stepRand G (.call a) w).1
  | o :: p, w => seenSamples G f p (stepRand G o w).1

/-- The calls of the generator in a program. -/
def RandOp.isRandom : RandOp S A → Bool
  | .op _ => false
  | _ => true

/-- The histories of C01: the operations that are no calls of the generator are legal where they occur. -/
def LegalRand (G : Rng S A) : List (RandOp S A) → Heap ClassDef Par Arr Jac × S → Prop
  | [], _ => True
  | .op o :: p, w => Legal lib ⟨False, False⟩ w.1 o ∧ LegalRand G p (stepRand G (.op o) w).1
  | o :: p, w => LegalRand G p (stepRand G o w).1

/-! ## Proofs -/

/-- A wrapped function makes a new `Ch` holding the sample. -/
theorem makeLeaf (hr : Reach lib ⟨False, False⟩ h) (v : Arr) :
    ∃ h', makeSpec (leafO v) h = (h', .ok h.next) ∧ Reach lib ⟨False, False⟩ h' ∧ (h'.node h.next).alive = true ∧ h'.graph h.next = (leafO v).node ∧
      ∀ j, (h.node j).alive = true → (h'.node j).alive = true ∧ h'.graph j = h.graph j := by
  have hs := reach_str hr
  have hk : ∀ kw ∈ (leafO v).kws, kw.Plain h (leafO v).dnames := by
    intro kw hm
    obtain rfl : kw = .term nmX (.arr v) := by simpa [leafO] using hm
    trivial
  obtain ⟨e, _⟩ := newObj_eq (s := lib) hs (leafO v) hk
  obtain ⟨_, _, b3, b4⟩ := newObj_built (s := lib) hs (leafO v) hk
  have hr' := Reach.step (.new (leafO v).cls (leafO v).dnames false false (leafO v).kws) hr ⟨fun h => h.elim, fun h => h.elim⟩
  have e' : (step lib (.new (leafO v).cls (leafO v).dnames false false (leafO v).kws) h).1 = (makeSpec (leafO v) h).1 := by
    simp only [step, M.map', makeSpec, e]
  rw [e'] at b3 b4 hr'
  refine ⟨(makeSpec (leafO v) h).1, Prod.ext rfl (by rw [makeSpec, e]), hr', by rw [b3, if_pos rfl], by rw [b4, if_pos rfl], fun j hj => ?_⟩
  have hne : j ≠ h.next := fun e => by
    rw [e, hs.unborn h.next (Nat.le_refl _)] at hj; cases hj
  rw [b3, b4, if_neg hne, if_neg hne]
  exact ⟨hj, rfl⟩

theorem read_drawn (hr : Reach lib ⟨False, False⟩ h) {y : Id} {v : Arr} (hy : h.graph y = (leafO v).node) (f : ℕ) :
    (read lib (f + 1) (.r y) h).2 = .ok v.atleast1 := by
  have e : evalReq lib h.graph (f + 1) (.r y) = .ok v.atleast1 := by
    have h1 : (h.graph y).cls = chLeaf := by rw [hy]; rfl
    have h2 : (h.graph y).terms nmX = some (.arr v) := by rw [hy]; rfl
    simp [evalReq, h1, chLeaf, evalProg, h2]
  rw [(C01_value_never_stale_partial lib_propsOk hr (f + 1) y).2.2 (by rw [e]; simp), e]

theorem stepRand_reach (hr : Reach lib ⟨False, False⟩ h) (o : RandOp S A) (ho : ∀ o', o = .op o' → Legal lib ⟨False, False⟩ h o') :
    Reach lib ⟨False, False⟩ (stepRand G o (h, t)).1.1 := by
  cases o with
  | call a =>
    simp only [stepRand]
    split
    · exact hr
    · rename_i v _
      obtain ⟨h', e, hr', _⟩ := makeLeaf hr v
      rw [e]
      exact hr'
  | seed n => exact hr
  | setState t => exact hr
  | op o => exact .step o hr (ho o rfl)

theorem LegalRand.cons {o : RandOp S A} {p : List (RandOp S A)} {w : Heap ClassDef Par Arr Jac × S} (hl : LegalRand G (o :: p) w) :
    (∀ o', o = .op o' → Legal lib ⟨False, False⟩ w.1 o') ∧ LegalRand G p (stepRand G o w).1 := by
  cases o with
  | call a => exact ⟨(fun _ e => by cases e), hl⟩
  | seed n => exact ⟨(fun _ e => by cases e), hl⟩
  | setState t => exact ⟨(fun _ e => by cases e), hl⟩
  | op o => exact ⟨(fun _ e => by cases e; exact hl.1), hl.2⟩

/-- C88.  Whatever else a program does in between, the wrapped functions return what numpy's functions return when they alone are called: one sample is drawn
for each call, and building, assigning, reading and differentiating draw none. -/
theorem C88_samples_are_numpys (f : ℕ) : ∀ (p : List (RandOp S A)) {h : Heap ClassDef Par Arr Jac} {t : S}, Reach lib ⟨False, False⟩ h → LegalRand G p (h, t) →
    seenSamples G (f + 1) p (h, t) = numpySamples G p t
  | [], _, _, _, _ => rfl
  | o :: p, h, t, hr, hl => by
    obtain ⟨h1, h2⟩ := hl.cons
    have hr' := stepRand_reach (G := G) (t := t) hr o h1
    have ih := C88_samples_are_numpys f p (h := (stepRand G o (h, t)).1.1) (t := (stepRand G o (h, t)).1.2) hr' h2
    cases o with
    | call a =>
      simp only [seenSamples, numpySamples]
      rw [ih]
      rcases hd : G.draw a t with ⟨t', e | v⟩
      · simp [stepRand, hd, Except.map]
      · obtain ⟨h', e, hr', _, hg, _⟩ := makeLeaf hr v
        simp only [stepRand, hd, e, Except.map]
        rw [read_drawn hr' hg]
    | seed n => exact ih
    | setState t' => exact ih
    | op o => exact ih

theorem numpySamples_filter : ∀ (p : List (RandOp S A)) (t : S), numpySamples G p t = numpySamples G (p.filter RandOp.isRandom) t
  | [], _ => rfl
  | .call a :: p, t => by
    rw [List.filter_cons_of_pos rfl]
    simp only [numpySamples]
    rw [numpySamples_filter p]
  | .seed n :: p, t => by
    rw [List.filter_cons_of_pos rfl]
    exact numpySamples_filter p _
  | .setState t' :: p, t => by
    rw [List.filter_cons_of_pos rfl]
    exact numpySamples_filter p _
  | .op o :: p, t => by
    rw [List.filter_cons_of_neg (by simp [RandOp.isRandom])]
    exact numpySamples_filter p _

/-- C88.  Two programs that set the generator to the same state and then make the same calls of it see the same samples, whatever they did before and whatever
else they do in between. -/
theorem C88_reproducible (f f' : ℕ) {h h' : Heap ClassDef Par Arr Jac} {t t' u : S} {p p' : List (RandOp S A)} (hr : Reach lib ⟨False, False⟩ h)
    (hr' : Reach lib ⟨False, False⟩ h') (hl : LegalRand G (.setState u :: p) (h, t)) (hl' : LegalRand G (.setState u :: p') (h', t'))
    (hp : p.filter RandOp.isRandom = p'.filter RandOp.isRandom) :
    seenSamples G (f + 1) (.setState u :: p) (h, t) = seenSamples G (f' + 1) (.setState u :: p') (h', t') := by
  rw [C88_samples_are_numpys f _ hr hl, C88_samples_are_numpys f' _ hr' hl']
  show numpySamples G p u = numpySamples G p' u
  rw [numpySamples_filter p, numpySamples_filter p', hp]

/-- The same with `seed`. -/
theorem C88_reproducible_seed (f f' : ℕ) {h h' : Heap ClassDef Par Arr Jac} {t t' : S} {n : ℕ} {p p' : List (RandOp S A)} (hr : Reach lib ⟨False, False⟩ h)
    (hr' : Reach lib ⟨False, False⟩ h') (hl : LegalRand G (.seed n :: p) (h, t)) (hl' : LegalRand G (.seed n :: p') (h', t'))
    (hp : p.filter RandOp.isRandom = p'.filter RandOp.isRandom) :
    seenSamples G (f + 1) (.seed n :: p) (h, t) = seenSamples G (f' + 1) (.seed n :: p') (h', t') := by
  rw [C88_samples_are_numpys f _ hr hl, C88_samples_are_numpys f' _ hr' hl']
  show numpySamples G p (G.seed n) = numpySamples G p' (G.seed n)
  rw [numpySamples_filter p, numpySamples_filter p', hp]

theorem runRand_kept : ∀ (p : List (RandOp S A)) {h : Heap ClassDef Par Arr Jac} {t : S} {y : Id}, Reach lib ⟨False, False⟩ h → LegalRand G p (h, t) →
    (h.node y).alive = true → (∀ o, .op o ∈ p → o.Avoids (· = y)) →
    Reach lib ⟨False, False⟩ (runRand G p (h, t)).1 ∧ ((runRand G p (h, t)).1.node y).alive = true ∧ (runRand G p (h, t)).1.graph y = h.graph y
  | [], _, _, _, hr, _, hy, _ => ⟨hr, hy, rfl⟩
  | o :: p, h, t, y, hr, hl, hy, hav => by
    obtain ⟨h1, h2⟩ := hl.cons
    have hr' := stepRand_reach (G := G) (t := t) hr o h1
    have hk : (((stepRand G o (h, t)).1.1).node y).alive = true ∧ ((stepRand G o (h, t)).1.1).graph y = h.graph y := by
      cases o with
      | call a =>
        simp only [stepRand]
        split
        · exact ⟨hy, rfl⟩
        · rename_i v _
          obtain ⟨h', e, _, _, _, hk⟩ := makeLeaf hr v
          rw [e]
          exact hk y hy
      | seed n => exact ⟨hy, rfl⟩
      | setState t => exact ⟨hy, rfl⟩
      | op o =>
        obtain ⟨k1, k2⟩ := step_kept (s := lib) (A := (· = y)) (reach_str hr) (fun j hj => by rw [hj]; exact hy) o (hav o (by simp)) y rfl
        exact ⟨k2 hy, k1⟩
    obtain ⟨i1, i2, i3⟩ := runRand_kept p (h := (stepRand G o (h, t)).1.1) (t := (stepRand G o (h, t)).1.2) hr' h2 hk.1 (fun o ho => hav o (by simp [ho]))
    exact ⟨i1, i2, i3.trans hk.2⟩

/-- C88.  A call of a wrapped function makes a new object, a plain `Ch`, and changes no other; as long as nothing is assigned to it, `.r` is the sample drawn at
the call, however often it is read and whatever else is done, including further draws: it is not drawn again. -/
theorem C88_drawn_once {a : A} {t' : S} {v : Arr} (hr : Reach lib ⟨False, False⟩ h) (hd : G.draw a t = (t', .ok v)) :
    ∃ (h' : Heap ClassDef Par Arr Jac) (y : Id), stepRand G (.call a) (h, t) = ((h', t'), .ok (some y)) ∧ (h.node y).alive = false ∧ (h'.node y).alive = true ∧
      IsLeaf h'.graph y ∧ (∀ j, (h.node j).alive = true → (h'.node j).alive = true ∧ h'.graph j = h.graph j) ∧
      ∀ later, LegalRand G later (h', t') → (∀ o, .op o ∈ later → o.Avoids (· = y)) → ∀ f,
        (read lib (f + 1) (.r y) (runRand G later (h', t')).1).2 = .ok v.atleast1 := by
  obtain ⟨h', e, hr', hal, hg, hk⟩ := makeLeaf hr v
  refine ⟨h', h.next, by simp only [stepRand, hd, e, Except.map], (reach_str hr).unborn _ (Nat.le_refl _), hal, isLeaf_leafO hg, hk, fun later hl hav f => ?_⟩
  obtain ⟨i1, _, i3⟩ := runRand_kept later hr' hl hal hav
  exact read_drawn i1 (i3.trans hg) f

namespace ADDemo
/-- A generator that counts; asking for more than two numbers raises. -/
noncomputable def counter : Rng ℕ ℕ := ⟨fun n t => (t + 1, if n ≤ 2 then .ok ⟨[n], fun _ => t⟩ else .error .attr), fun n => n⟩

/-- `a = rand(2); a.r; a[:] = 0; b = rand(1); rand(5)` after `seed(7)`, and the same calls alone. -/
example : seenSamples counter 1 [.seed 7, .call 2, .op (.readR 5 0), .op (.set 0 [.term nmX (.arr ⟨[2], fun _ => 0⟩)]), .call 1, .call 5] (Heap.empty lib, 0) =
    seenSamples counter 1 [.seed 7, .call 2, .call 1, .call 5] (Heap.empty lib, 3) :=
  C88_reproducible_seed 0 0 .init .init ⟨trivial, ⟨fun h => h.elim, Or.inl (by simp)⟩, trivial⟩ trivial rfl

/-- `a = rand(2)`, read after `b = rand(1)` and an assignment to `b`. -/
example : ∃ (h' : Heap ClassDef Par Arr Jac) (y : Id), stepRand counter (.call 2) (Heap.empty lib, 4) = ((h', 5), .ok (some y)) ∧
    (read lib 1 (.r y) (runRand counter [.call 1, .op (.set (y + 1) [.term nmX (.arr ⟨[1], fun _ => 0⟩)]), .op (.readR 5 y)] (h', 5)).1).2 =
      .ok (Arr.atleast1 ⟨[2], fun _ => ((4 : ℕ) : ℝ)⟩) := by
  obtain ⟨h', y, e, _, _, _, _, H⟩ := C88_drawn_once (G := counter) (a := 2) (t := 4) .init rfl
  refine ⟨h', y, e, H _ ?_ ?_ 0⟩
  · exact ⟨⟨fun h => h.elim, Or.inl (by simp)⟩, trivial, trivial⟩
  intro o ho
  simp at ho
  rcases ho with rfl | rfl
  · exact Nat.succ_ne_self y
  · trivial
end ADDemo
end Chumpy
