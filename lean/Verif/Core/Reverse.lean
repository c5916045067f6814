import Verif.Core.Sim
import Verif.Core.Traverse
/-!
# `lop`, `lmult_wrt` and `dr_wrt(reverse_mode=True)`

The heap code, the cache-free evaluators, and the proof that the former simulate the latter.
-/
namespace Chumpy
variable {C T V D α β : Type}

/-- What distinguishes the two walks `Ch.lop` (ch.py:690-721) and `Ch.lmult_wrt` (ch.py:647-681), which are otherwise the
same code: `keep` is the test on a child, at a recursion limit (nothing in `lop`, line 700; `p.is_dr_wrt(wrt)` in
`lmult_wrt`, line 662); `use` is the test on the direct derivative (`is not None` in `lop`, line 695; `!= None` in
`lmult_wrt`, line 657, which numpy evaluates entry by entry); `post` is applied to every summand (`todense`, lines
706-708, in `lop` only); `missing` is the exception for a declared name that was never set (`getattr`, line 699;
`self.__dict__[k]`, line 660). -/
structure RevStyle (C T D : Type) where
  keep : Graph C T → Nat → Id → Id → Option Bool
  use : D → Except Err Bool
  post : D → D
  missing : Err

/-- Monotone in the recursion limit. -/
def RevStyle.Ok (st : RevStyle C T D) : Prop :=
  ∀ g p w {f f' b}, f ≤ f' → st.keep g f p w = some b → st.keep g f' p w = some b

/-- `Ch.lop` (ch.py:690-721) -/
def lopStyle (todense : D → D) : RevStyle C T D := ⟨fun _ _ _ _ => some true, fun _ => .ok true, todense, .attr⟩

/-- `Ch.lmult_wrt` (ch.py:647-681); `neNone` is `direct_dr != None`. -/
def lmultStyle (s : Sig C T V D) (neNone : D → Except Err Bool) : RevStyle C T D :=
  ⟨fun g f p w => isDrWrt s g f p w, neNone, id, .key⟩

theorem lopStyle_ok {todense : D → D} : (lopStyle (C := C) (T := T) todense).Ok := fun _ _ _ _ _ _ _ h => h
theorem lmultStyle_ok {s : Sig C T V D} {n : D → Except Err Bool} : (lmultStyle s n).Ok :=
  fun g _ _ _ _ _ hf h => isDrWrt_mono s g _ _ hf h

def liftO (e : Err) : Option α → Except Err α
  | none => .error e
  | some a => .ok a

/-- The loop over the differentiable terms in `lop` (ch.py:698-704) and `lmult_wrt` (ch.py:659-670).  `rec p L` is
`p.lop(wrt, L)`.  The Python set of names is traversed in list order; `compute_lop` (ch.py:684-687) is inlined. -/
def leftTerms (s : Sig C T V D) (st : RevStyle C T D) (f : Nat) (i w : Id) (L : D) (rec : Id → D → M C T V D (Option D)) :
    List Name → List D → M C T V D (List D)
  | [], acc => M.pure acc
  | k :: ks, acc =>
    M.bind (fun h => (h, liftO st.missing ((h.node i).dterms k))) fun p =>
    if p = w then leftTerms s st f i w L rec ks acc
    else
      M.bind (fun h => (h, liftO .fuel (st.keep h.graph f p w))) fun b =>
      if b then
        M.bind (drSliced s f i p) fun
          | none => leftTerms s st f i w L rec ks acc
          | some d =>
            M.bind (M.lift (s.superdot L d)) fun L' =>
            M.bind (rec p L') fun
              | none => leftTerms s st f i w L rec ks acc
              | some x => leftTerms s st f i w L rec ks (acc ++ [x])
      else leftTerms s st f i w L rec ks acc

/-- The direct summand (ch.py:694-696, 655-658). -/
def leftDirect (s : Sig C T V D) (st : RevStyle C T D) (L : D) : Option D → Except Err (List D)
  | none => .ok []
  | some d => (st.use d).bind fun b => if b then (s.superdot L d).map fun x => [x] else .ok []

/-- `Ch.lop` / `Ch.lmult_wrt` with a left factor that is not `None`. -/
def leftMul (s : Sig C T V D) (st : RevStyle C T D) : Nat → Id → Id → D → M C T V D (Option D)
  | 0, _, _, _ => M.throw .fuel
  | f + 1, i, w, L =>
    M.bind (callOnChanged i) fun _ =>
    M.bind (drSliced s f i w) fun direct =>
    M.bind (M.lift (leftDirect s st L direct)) fun ds0 =>
    M.bind (fun h => leftTerms s st f i w L (fun p L' => leftMul s st f p w L') (h.node i).dnames ds0 h) fun ds =>
    M.lift (sumD s (ds.map st.post))

/-- `Ch.lop(wrt, lhs)` (ch.py:690-721). -/
def lop (s : Sig C T V D) (todense : D → D) (f : Nat) (i w : Id) (L : D) : M C T V D (Option D) :=
  leftMul s (lopStyle todense) f i w L

/-- `Ch.lmult_wrt(lhs, wrt)` (ch.py:647-681); `lhs is None` gives `None`. -/
def lmultWrt (s : Sig C T V D) (neNone : D → Except Err Bool) (f : Nat) (i w : Id) : Option D → M C T V D (Option D)
  | none => M.pure none
  | some L => leftMul s (lmultStyle s neNone) f i w L

/-- The reverse-mode loop (ch.py:752-778). -/
def revTerms (s : Sig C T V D) (neNone : D → Except Err Bool) (f : Nat) (i w : Id) : List Name → List D → M C T V D (List D)
  | [], acc => M.pure acc
  | k :: ks, acc =>
    M.bind (fun h => (h, .ok ((h.node i).dterms k))) fun
      | none => revTerms s neNone f i w ks acc
      | some p =>
        if p = w then revTerms s neNone f i w ks acc
        else
          M.bind (drSliced s f i p) fun l =>
          M.bind (lmultWrt s neNone f p w l) fun
            | none => revTerms s neNone f i w ks acc
            | some x => revTerms s neNone f i w ks (acc ++ [x])

/-- The summands of `dr_wrt(wrt, reverse_mode=True)` and their sum. -/
def revSum (s : Sig C T V D) (neNone : D → Except Err Bool) (f : Nat) (i w : Id) : M C T V D (Option D) :=
  M.bind (drSliced s f i w) fun direct =>
  M.bind (fun h => revTerms s neNone f i w (h.node i).dnames direct.toList h) fun ds =>
  M.lift (sumD s ds)

/-- `Ch.dr_wrt(wrt, reverse_mode=True)` (ch.py:729-834).  `LinearOperator` is not modelled. -/
def drWrtRev (s : Sig C T V D) (neNone : D → Except Err Bool) : Nat → Id → Id → M C T V D (Option D)
  | 0, _, _ => M.throw .fuel
  | f + 1, i, w =>
    M.bind (callOnChanged i) fun _ => fun h =>
    match (h.node i).drs w with
    | some d => (h, .ok d)
    | none =>
      M.bind (revSum s neNone f i w) (fun r =>
      M.bind (storeDr i w (r.map s.finish)) fun _ => fun h =>
        (h, .ok ((r.map s.finish).map (s.outForm (h.node i).makeDense (h.node i).makeSparse)))) h

/-! ## Cache-free -/

def evalLeftTerms (s : Sig C T V D) (st : RevStyle C T D) (g : Graph C T) (f : Nat) (i w : Id) (L : D)
    (rec : Id → D → Except Err (Option D)) : List Name → List D → Except Err (List D)
  | [], acc => .ok acc
  | k :: ks, acc =>
    (liftO st.missing ((g i).dterms k)).bind fun p =>
    if p = w then evalLeftTerms s st g f i w L rec ks acc
    else
      (liftO .fuel (st.keep g f p w)).bind fun b =>
      if b then
        (evalSliced s g f i p).bind fun
          | none => evalLeftTerms s st g f i w L rec ks acc
          | some d =>
            (s.superdot L d).bind fun L' =>
            (rec p L').bind fun
              | none => evalLeftTerms s st g f i w L rec ks acc
              | some x => evalLeftTerms s st g f i w L rec ks (acc ++ [x])
      else evalLeftTerms s st g f i w L rec ks acc

def evalLeft (s : Sig C T V D) (st : RevStyle C T D) (g : Graph C T) : Nat → Id → Id → D → Except Err (Option D)
  | 0, _, _, _ => .error .fuel
  | f + 1, i, w, L =>
    (evalSliced s g f i w).bind fun direct =>
    (leftDirect s st L direct).bind fun ds0 =>
    (evalLeftTerms s st g f i w L (fun p L' => evalLeft s st g f p w L') (g i).dnames ds0).bind fun ds =>
    sumD s (ds.map st.post)

def evalLmult (s : Sig C T V D) (neNone : D → Except Err Bool) (g : Graph C T) (f : Nat) (i w : Id) : Option D → Except Err (Option D)
  | none => .ok none
  | some L => evalLeft s (lmultStyle s neNone) g f i w L

def evalRevTerms (s : Sig C T V D) (neNone : D → Except Err Bool) (g : Graph C T) (f : Nat) (i w : Id) :
    List Name → List D → Except Err (List D)
  | [], acc => .ok acc
  | k :: ks, acc =>
    match (g i).dterms k with
    | none => evalRevTerms s neNone g f i w ks acc
    | some p =>
      if p = w then evalRevTerms s neNone g f i w ks acc
      else
        (evalSliced s g f i p).bind fun l =>
        (evalLmult s neNone g f p w l).bind fun
          | none => evalRevTerms s neNone g f i w ks acc
          | some x => evalRevTerms s neNone g f i w ks (acc ++ [x])

def evalRevSum (s : Sig C T V D) (neNone : D → Except Err Bool) (g : Graph C T) (f : Nat) (i w : Id) : Except Err (Option D) :=
  (evalSliced s g f i w).bind fun direct =>
  (evalRevTerms s neNone g f i w (g i).dnames direct.toList).bind fun ds =>
  sumD s ds

/-! ## Simulation -/

/-- `m` simulates the monotone family `q` at limit `f`. -/
structure SimM (s : Sig C T V D) (U : Graph C T → Id → Id → Option D → Prop) (W : Graph C T → Id → Prop) (P : Prop) (g : Graph C T)
    (m : M C T V D α) (q : Nat → Except Err α) (f : Nat) : Prop where
  sim : Sim s U W P g m q f
  mono : Mono q

variable {s : Sig C T V D} {U : Graph C T → Id → Id → Option D → Prop} {W : Graph C T → Id → Prop} {P : Prop} {g : Graph C T}

theorem Mono.bind {q : Nat → Except Err α} {qk : Nat → α → Except Err β} (mq : Mono q) (mk : ∀ a, Mono (fun f => qk f a)) :
    Mono (fun f => (q f).bind (qk f)) := by
  intro f f' h
  have h1 := mq h
  dsimp only
  cases h2 : q f with
  | error e =>
    intro hne
    rw [h2] at h1
    rw [h1 (by simpa [Except.bind] using hne)]
    rfl
  | ok a =>
    rw [h2] at h1
    rw [h1 (by simp)]
    exact mk a h

theorem SimM.bind {m : M C T V D α} {k : α → M C T V D β} {q : Nat → Except Err α}
    {qk : Nat → α → Except Err β} {f : Nat} (hm : SimM s U W P g m q f) (hk : ∀ a, SimM s U W P g (k a) (fun f => qk f a) f) :
    SimM s U W P g (M.bind m k) (fun f => (q f).bind (qk f)) f :=
  ⟨Sim.bind hm.sim (fun a => (hk a).sim) hm.mono (fun a => (hk a).mono) (fun f' _ => by cases q f' <;> rfl),
    Mono.bind hm.mono fun a => (hk a).mono⟩

theorem SimM.const {r : Except Err α} {m : M C T V D α} {f : Nat} (hm : ∀ h, m h = (h, r)) : SimM s U W P g m (fun _ => r) f :=
  ⟨Sim.const (by rfl) hm, mono_const r⟩

theorem SimM.graph {m m' : M C T V D α} {q : Nat → Except Err α} {f : Nat} (hm : SimM s U W P g m' q f)
    (he : ∀ h, h.graph = g → m h = m' h) : SimM s U W P g m q f := ⟨hm.sim.graph he, hm.mono⟩

theorem SimM.ofGraph {r : Graph C T → Except Err α} {f : Nat} :
    SimM s U W P g (fun h => (h, r h.graph)) (fun _ => r g) f :=
  (SimM.const (m := fun h => (h, r g)) (fun _ => by rfl)).graph (fun h hg => by rw [hg])

theorem SimM.ofKeep {st : RevStyle C T D} (hst : st.Ok) {p w : Id} {f : Nat} :
    SimM s U W P g (fun h => (h, liftO .fuel (st.keep h.graph f p w))) (fun f => liftO .fuel (st.keep g f p w)) f := by
  refine ⟨?_, ?_⟩
  · intro h hc hg
    refine ⟨hc, Frame.rfl, fun _ => ?_⟩
    dsimp only
    rw [hg]
    exact ⟨fun _ => by rfl, fun _ => ⟨f, by rfl⟩⟩
  · intro f f' hf
    dsimp only
    cases h : st.keep g f p w with
    | none => intro hne; exact absurd (by rfl) hne
    | some b => intro _; rw [hst g p w hf h]

theorem SimM.succ {m : M C T V D α} {q : Nat → Except Err α} {f : Nat} (h0 : q 0 = .error .fuel)
    (hm : SimM s U W P g m (fun f => q (f + 1)) f) : SimM s U W P g m q (f + 1) := by
  refine ⟨?_, ?_⟩
  · intro h hc hg
    obtain ⟨a, b, c⟩ := hm.sim h hc hg
    refine ⟨a, b, fun hP => ⟨(c hP).1, fun hne => ?_⟩⟩
    obtain ⟨f', hf'⟩ := (c hP).2 hne
    exact ⟨f' + 1, hf'⟩
  · intro f f' hf
    cases f with
    | zero => intro hne; exact absurd h0 hne
    | succ f =>
      cases f' with
      | zero => omega
      | succ f' => exact hm.mono (Nat.le_of_succ_le_succ hf)

theorem drSliced_simM (f : Nat) (i w : Id) : SimM s U W P g (drSliced s f i w) (fun f => evalSliced s g f i w) f :=
  ⟨drSliced_sim f i w, mono_evalSliced s g i w⟩

theorem SimM.onChanged {i : Id} {k : Unit → M C T V D α} {q : Nat → Except Err α} {f : Nat} (h : SimM s U W P g (k ()) q f) :
    SimM s U W P g (M.bind (callOnChanged i) k) q f := ⟨Sim.onChanged_bind h.sim, h.mono⟩

theorem leftTerms_simM {st : RevStyle C T D} (hst : st.Ok) (f : Nat) (i w : Id) (L : D) {rec : Id → D → M C T V D (Option D)}
    {ev : Nat → Id → D → Except Err (Option D)} (hrec : ∀ p L, SimM s U W P g (rec p L) (fun f => ev f p L) f)
    (ks : List Name) : ∀ acc, SimM s U W P g (leftTerms s st f i w L rec ks acc)
      (fun f => evalLeftTerms s st g f i w L (ev f) ks acc) f := by
  induction ks with
  | nil => intro acc; exact SimM.const (fun _ => by rfl)
  | cons k ks ih =>
    intro acc
    refine SimM.bind (SimM.ofGraph (r := fun g => liftO st.missing ((g i).dterms k))) fun p => ?_
    by_cases hp : p = w
    · simp only [if_pos hp]; exact ih acc
    · simp only [if_neg hp]
      refine SimM.bind (SimM.ofKeep hst) fun b => ?_
      cases b with
      | false => simp only [Bool.false_eq_true, if_false]; exact ih acc
      | true =>
        simp only [if_true]
        refine SimM.bind (drSliced_simM f i p) fun o => ?_
        cases o with
        | none => exact ih acc
        | some d =>
          refine SimM.bind (SimM.const (r := s.superdot L d) (fun _ => by rfl)) fun L' => ?_
          refine SimM.bind (hrec p L') fun o => ?_
          cases o with
          | none => exact ih acc
          | some x => exact ih _

theorem leftMul_simM {st : RevStyle C T D} (hst : st.Ok) (f : Nat) : ∀ (i w : Id) (L : D),
    SimM s U W P g (leftMul s st f i w L) (fun f => evalLeft s st g f i w L) f := by
  induction f with
  | zero =>
    intro i w L
    refine ⟨Sim.fuel (by rfl), ?_⟩
    suffices h : ∀ (f : Nat) (i : Id) (L : D) (f' : Nat), f ≤ f' → Le (evalLeft s st g f i w L) (evalLeft s st g f' i w L) from
      fun {f f'} hf => h f i L f' hf
    intro f
    induction f with
    | zero => intro i L f' _ hne; exact absurd (by rfl) hne
    | succ f ih =>
      intro i L f' hf
      cases f' with
      | zero => omega
      | succ f' =>
        have hf : f ≤ f' := by omega
        have hb : ∀ {α β : Type} {a a' : Except Err α} {k k' : α → Except Err β}, Le a a' → (∀ x, Le (k x) (k' x)) →
            Le (a.bind k) (a'.bind k') := by
          intro α β a a' k k' h1 h2
          cases a with
          | error e => intro hne; rw [h1 (by simpa [Except.bind] using hne)]; rfl
          | ok x => rw [h1 (by simp)]; exact h2 x
        have ht : ∀ (ks : List Name) (acc : List D),
            Le (evalLeftTerms s st g f i w L (fun p L' => evalLeft s st g f p w L') ks acc)
              (evalLeftTerms s st g f' i w L (fun p L' => evalLeft s st g f' p w L') ks acc) := by
          intro ks
          induction ks with
          | nil => intro acc; exact Le.rfl
          | cons k ks ihk =>
            intro acc
            simp only [evalLeftTerms]
            refine hb Le.rfl fun p => ?_
            by_cases hp : p = w
            · simp only [if_pos hp]; exact ihk acc
            · simp only [if_neg hp]
              refine hb ?_ fun b => ?_
              · exact (SimM.ofKeep (s := s) (U := Fresh s) (W := fun _ _ => True) (P := True) (f := 0) hst).mono hf
              · cases b with
                | false => simp only [Bool.false_eq_true, if_false]; exact ihk acc
                | true =>
                  simp only [if_true]
                  refine hb (evalSliced_mono s g hf i p) fun o => ?_
                  cases o with
                  | none => exact ihk acc
                  | some d =>
                    refine hb Le.rfl fun L' => hb (ih p L' f' hf) fun o => ?_
                    cases o with
                    | none => exact ihk acc
                    | some x => exact ihk _
        simp only [evalLeft]
        exact hb (evalSliced_mono s g hf i w) fun direct => hb Le.rfl fun ds0 => hb (ht _ _) fun ds => Le.rfl
  | succ f ih =>
    intro i w L
    refine SimM.succ (by rfl) ?_
    refine SimM.onChanged ?_
    refine SimM.bind (drSliced_simM f i w) fun direct => ?_
    refine SimM.bind (SimM.const (r := leftDirect s st L direct) (fun _ => by rfl)) fun ds0 => ?_
    refine SimM.bind ?_ fun ds => SimM.const (fun _ => by rfl)
    refine SimM.graph (leftTerms_simM hst f i w L (ev := fun f p L' => evalLeft s st g f p w L') (fun p L' => ih p w L') (g i).dnames ds0) ?_
    intro h hg; rw [← hg]; rfl

theorem lmultWrt_simM {n : D → Except Err Bool} (f : Nat) (i w : Id) (l : Option D) :
    SimM s U W P g (lmultWrt s n f i w l) (fun f => evalLmult s n g f i w l) f := by
  cases l with
  | none => exact SimM.const (fun _ => by rfl)
  | some L => exact leftMul_simM lmultStyle_ok f i w L

theorem revTerms_simM {n : D → Except Err Bool} (f : Nat) (i w : Id) (ks : List Name) : ∀ acc,
    SimM s U W P g (revTerms s n f i w ks acc) (fun f => evalRevTerms s n g f i w ks acc) f := by
  induction ks with
  | nil => intro acc; exact SimM.const (fun _ => by rfl)
  | cons k ks ih =>
    intro acc
    cases hk : (g i).dterms k with
    | none =>
      refine SimM.graph (m' := revTerms s n f i w ks acc) ?_ ?_
      · simp only [evalRevTerms, hk]; exact ih acc
      · intro h hg
        have h2 : (h.node i).dterms = (g i).dterms := by rw [← hg]; rfl
        simp only [revTerms, M.bind, h2, hk]
    | some p =>
      by_cases hp : p = w
      · refine SimM.graph (m' := revTerms s n f i w ks acc) ?_ ?_
        · simp only [evalRevTerms, hk, if_pos hp]; exact ih acc
        · intro h hg
          have h2 : (h.node i).dterms = (g i).dterms := by rw [← hg]; rfl
          simp only [revTerms, M.bind, h2, hk, if_pos hp]
      · refine SimM.graph (m' := M.bind (drSliced s f i p) fun l => M.bind (lmultWrt s n f p w l) fun
            | none => revTerms s n f i w ks acc
            | some x => revTerms s n f i w ks (acc ++ [x])) ?_ ?_
        · simp only [evalRevTerms, hk, if_neg hp]
          refine SimM.bind (drSliced_simM f i p) fun l => SimM.bind (lmultWrt_simM f p w l) fun o => ?_
          cases o with
          | none => exact ih acc
          | some x => exact ih _
        · intro h hg
          have h2 : (h.node i).dterms = (g i).dterms := by rw [← hg]; rfl
          simp only [revTerms]
          show M.bind _ _ h = _
          simp only [M.bind, h2, hk, if_neg hp]

theorem revSum_simM {n : D → Except Err Bool} (f : Nat) (i w : Id) :
    SimM s U W P g (revSum s n f i w) (fun f => evalRevSum s n g f i w) f := by
  refine SimM.bind (drSliced_simM f i w) fun direct => SimM.bind ?_ fun ds => SimM.const (fun _ => by rfl)
  refine SimM.graph (revTerms_simM f i w (g i).dnames direct.toList) ?_
  intro h hg; rw [← hg]; rfl
end Chumpy
