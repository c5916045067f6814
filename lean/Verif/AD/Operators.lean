import Verif.AD.Objective
import Verif.Core.LambdaInv
import Verif.Properties.Elementwise
/-!
# Python's operators on `Ch` objects (ch.py:1133-1162)
-/
namespace Chumpy
open scoped BigOperators Topology

/-! ## The model -/

/-- What stands on one side of an operator: an object, or a number or numpy array (a number is an array without axes). -/
inductive Operand where
  | obj (i : Id)
  | val (x : Arr)

/-- The keyword argument `k=operand` of a constructor: values are wrapped in a `Ch` by `__setattr__` (ch.py:379-381). -/
def Operand.kw (k : Name) : Operand → KW Par
  | .obj i => .link k i
  | .val x => .wrap k (.arr x)

/-- The binary operators. -/
inductive PyOp where
  | add | sub | mul | div | pow | gt | ge | lt | le | ne

/-- `self.__op__(other)` (ch.py:1136, 1139, 1142, 1146, 1149, 1156-1162; in Python 2 `__div__`, ch.py:1145): the class of the object it makes,
whose first operand is `self` and whose second is `other`. -/
noncomputable def PyOp.method : PyOp → ClassDef
  | .add => chAdd
  | .sub => chSub
  | .mul => chMul
  | .div => chDiv
  | .pow => chPow
  | .gt => chCompare fun x y => x > y
  | .ge => chCompare fun x y => x ≥ y
  | .lt => chCompare fun x y => x < y
  | .le => chCompare fun x y => x ≤ y
  | .ne => chCompare fun x y => x ≠ y

/-- The method of the right operand that Python looks for if the left one has none or does not know what to do: for arithmetic `__rop__`
(ch.py:1137, 1140, 1143, 1147, 1150), for `>` the method `__lt__` and so on (ch.py:1156-1162).  The class of the object it makes, and
whether `self`, the right operand, becomes its second operand; `none` if there is no such method.  Python 3 looks for `__rtruediv__`, which does not exist; `__rdiv__` is
what Python 2 looks for. -/
noncomputable def PyOp.reflected (py3 : Bool) : PyOp → Option (ClassDef × Bool)
  | .add => some (chAdd, true)
  | .sub => some (chSub, true)
  | .mul => some (chMul, true)
  | .div => if py3 then none else some (chDiv, true)
  | .pow => some (chPow, true)
  | .gt => some (PyOp.method .lt, false)
  | .ge => some (PyOp.method .le, false)
  | .lt => some (PyOp.method .gt, false)
  | .le => some (PyOp.method .ge, false)
  | .ne => some (PyOp.method .ne, false)

/-- `cls(a, b)`. -/
noncomputable def makeBin (c : ClassDef) (a b : Operand) : M ClassDef Par Arr Jac Id :=
  newObj lib c [nmA, nmB] false false [a.kw nmA, b.kw nmB]

/-- The reflected method of the object `r`, called with `l`; a `TypeError` if there is none. -/
noncomputable def viaRight (py3 : Bool) (op : PyOp) (l : Operand) (r : Id) : M ClassDef Par Arr Jac Id := fun h =>
  match op.reflected py3 with
  | some (c, true) => makeBin c l (.obj r) h
  | some (c, false) => makeBin c (.obj r) l h
  | none => (h, .error (.user 1))

/-- Comparisons. -/
def PyOp.compares : PyOp → Bool
  | .gt | .ge | .lt | .le | .ne => true
  | _ => false

/-- `l op r`.  Numbers do not know about `Ch`, numpy arrays leave the operation to an operand of higher `__array_priority__` (ch.py:74); of two
objects the left one is asked, except that for comparisons Python asks the right one if its class derives from that of the left one (`sub`).
Without an object on either side chumpy is not involved (here an error). -/
noncomputable def binop (py3 sub : Bool) (op : PyOp) (l r : Operand) : M ClassDef Par Arr Jac Id := fun h =>
  match l, r with
  | .obj i, .obj j => if sub && op.compares then viaRight py3 op (.obj i) j h else makeBin op.method (.obj i) (.obj j) h
  | .obj i, .val y => makeBin op.method (.obj i) (.val y) h
  | .val x, .obj j => viaRight py3 op (.val x) j h
  | .val _, .val _ => (h, .error .attr)

/-- The unary operators. -/
inductive PyUn where
  | pos | neg | abs

/-- `+x`, `-x`, `abs(x)` (ch.py:1133, 1134, 1154; `abs` is `absolute`, ch_ops.py:292). -/
noncomputable def unop (op : PyUn) (x : Id) : M ClassDef Par Arr Jac Id :=
  match op with
  | .pos => M.pure x
  | .neg => newObj lib chNegative [nmA] false false [.link nmA x]
  | .abs => newObj lib chAbsolute [nmA] false false [.link nmA x]

/-! ## Wrapping -/

section
variable {C T V D : Type} {s : Sig C T V D}

/-- What `Ch(value)` makes. -/
def leafNode (s : Sig C T V D) (x : T) : GNode C T := GNode.assign ⟨s.base, fun _ => none, [], fun _ => none, false, false⟩ (.term s.xname x)

/-- The state after an object `Ch(x)` has been made and assigned. -/
structure Wrapped (s : Sig C T V D) (h h' : Heap C T V D) (i : Id) (n : GNode C T) (x : T) : Prop where
  str : Str h'
  next : h'.next = h.next + 1
  giter : h'.giter = h.giter
  alive : ∀ j, (h'.node j).alive = if j = h.next then true else (h.node j).alive
  graph : ∀ j, h'.graph j = if j = i then n else if j = h.next then leafNode s x else h.graph j

theorem newLeaf_built {h : Heap C T V D} (hs : Str h) (x : T) :
    (newLeaf s x h).2 = .ok h.next ∧ Str (newLeaf s x h).1 ∧ (newLeaf s x h).1.next = h.next + 1 ∧ (newLeaf s x h).1.giter = h.giter ∧
      (∀ j, ((newLeaf s x h).1.node j).alive = if j = h.next then true else (h.node j).alive) ∧
      ∀ j, (newLeaf s x h).1.graph j = if j = h.next then leafNode s x else h.graph j := by
  have ha := alloc_node (C := C) (T := T) (V := V) (D := D) s.base [] false false h
  have hnn : ((alloc s.base [] false false h).1.node h.next) = freshNode s.base [] false false := by rw [ha, if_pos rfl]
  obtain ⟨h1, a⟩ := setattr_built (s := s) (alloc_str hs s.base [] false false) (i := h.next) (by rw [hnn]; rfl) (kw := .term s.xname x) trivial
    (itr := none) (by intro t h; cases h)
  have e : (newLeaf s x h).1 = (setattr s h.next none (.term s.xname x) (alloc s.base [] false false h).1).1 := rfl
  rw [e]
  refine ⟨rfl, a.str, a.next, a.giter, fun j => ?_, fun j => ?_⟩
  · rw [a.alive, ha]; split <;> rfl
  · rw [a.graph]
    split
    · rw [Heap.graph_apply, hnn]; rfl
    · rename_i hj
      rw [Heap.graph_apply, ha, if_neg hj]; rfl

theorem setattr_wrap {h : Heap C T V D} (hs : Str h) {i : Id} (hi : (h.node i).alive = true) {k : Name} (hk : k ∈ (h.graph i).dnames) (x : T)
    {itr : Option Nat} (ht : ∀ t, itr = some t → t ≤ h.giter ∨ t = 9999) :
    (setattr s i itr (.wrap k x) h).2 = .ok () ∧
      Wrapped s h (setattr s i itr (.wrap k x) h).1 i ((h.graph i).assign (.link k h.next)) x := by
  obtain ⟨l1, l2, l3, l4, l5, l6⟩ := newLeaf_built (s := s) hs x
  have hne : i ≠ h.next := fun e => by subst e; exact absurd (hs.alive_lt hi) (Nat.lt_irrefl _)
  have hgi : (newLeaf s x h).1.graph i = h.graph i := by rw [l6, if_neg hne]
  have hal : ((newLeaf s x h).1.node h.next).alive = true := by rw [l5, if_pos rfl]
  obtain ⟨h1, a⟩ := setattr_built (s := s) l2 (i := i) (by rw [l5, if_neg hne]; exact hi) (kw := .link k h.next) ⟨by rw [hgi]; exact hk, hal⟩
    (itr := itr) (by rw [l4]; exact ht)
  have e : setattr s i itr (.wrap k x) h = setattr s i itr (.link k h.next) (newLeaf s x h).1 := by
    simp only [setattr]
    rw [if_pos (show k ∈ (h.node i).dnames from hk)]
    have : k ∈ ((newLeaf s x h).1.node i).dnames := by
      have : k ∈ ((newLeaf s x h).1.graph i).dnames := by rw [hgi]; exact hk
      exact this
    rw [if_pos ⟨this, hal⟩]
    simp only [M.bind]
    rcases hx : newLeaf s x h with ⟨h', r⟩
    rw [hx] at l1; dsimp only at l1; subst l1; rfl
  rw [e]
  refine ⟨h1, a.str, a.next.trans l3, a.giter.trans l4, fun j => (a.alive j).trans (l5 j), fun j => ?_⟩
  rw [a.graph, hgi]
  split
  · rfl
  · exact l6 j
end

/-! ## The object made by an operator -/

section
variable {h h' : Heap ClassDef Par Arr Jac}

/-- Nothing that was there has changed: the objects are still there, with their values and derivatives. -/
structure AllKept (h h' : Heap ClassDef Par Arr Jac) : Prop where
  alive : ∀ j, (h.node j).alive = true → (h'.node j).alive = true
  same : ∀ j, (h.node j).alive = true → h'.graph j = h.graph j
  value : ∀ j v, (h.node j).alive = true → Means lib h.graph (.r j) (.ok v) → Means lib h'.graph (.r j) (.ok v)
  deriv : ∀ j w d, (h.node j).alive = true → (h.node w).alive = true → MeansDr lib h.graph j w (.ok d) → MeansDr lib h'.graph j w (.ok d)

theorem AllKept.refl (h : Heap ClassDef Par Arr Jac) : AllKept h h := ⟨fun _ h => h, fun _ _ => rfl, fun _ _ _ h => h, fun _ _ _ _ _ h => h⟩

/-- The operand has the value `u`. -/
def Operand.Is (h : Heap ClassDef Par Arr Jac) (u : Arr) : Operand → Prop
  | .obj i => (h.node i).alive = true ∧ Means lib h.graph (.r i) (.ok u)
  | .val x => u = x.atleast1

/-- The operand as an object: itself, or a new plain `Ch`. -/
def Operand.Becomes (h h' : Heap ClassDef Par Arr Jac) (i : Id) : Operand → Prop
  | .obj j => i = j
  | .val _ => (h.node i).alive = false ∧ IsLeaf h'.graph i

theorem not_anc_dead (hs : Str h) {l j : Id} (hl : (h.node l).alive = false) (ha : (h.node j).alive = true) : ¬ Anc h.graph l j := by
  intro hc
  induction hc with
  | refl => rw [hl] at ha; cases ha
  | step k hk _ ih => exact ih (hs.child_alive hk)

/-- Two new objects change nothing else. -/
theorem allKept_two (hs : Str h) {g1 : Graph ClassDef Par} {l i : Id} (hl : (h.node l).alive = false) (hi : (h.node i).alive = false)
    (h1 : SameOff h.graph g1 l) (h2 : SameOff g1 h'.graph i) (ha : ∀ j, (h.node j).alive = true → (h'.node j).alive = true) :
    AllKept h h' := by
  have n1 : ∀ {j : Id}, (h.node j).alive = true → ¬ Anc h.graph l j := fun hj => not_anc_dead hs hl hj
  have n2 : ∀ {j : Id}, (h.node j).alive = true → ¬ Anc g1 i j := fun hj hc =>
    not_anc_dead hs hi hj (Anc.off h1.symm hc fun h3 => n1 hj (h1.symm.anc h3))
  refine ⟨ha, ?_, ?_, ?_⟩
  · intro j hj
    rw [h2 j (by rintro rfl; rw [hi] at hj; cases hj), h1 j (by rintro rfl; rw [hl] at hj; cases hj)]
  · intro j v hj ⟨_, f, hf⟩
    refine ⟨by simp, f, ?_⟩
    rw [(evalReq_off lib h2 f j (n2 hj)).1, (evalReq_off lib h1 f j (n1 hj)).1]; exact hf
  · intro j w d hj hw ⟨_, f, hf⟩
    refine ⟨by simp, f, ?_⟩
    rw [evalDr_off lib h2 (wrtOff_of_not_anc lib h2 (n2 hw)) f j (n2 hj), evalDr_off lib h1 (wrtOff_of_not_anc lib h1 (n1 hw)) f j (n1 hj)]
    exact hf

/-- A new `Ch` has the value it was given, as an array with at least one axis. -/
theorem means_leafNode {g : Graph ClassDef Par} {i : Id} {x : Arr} (h : g i = leafNode lib (.arr x)) :
    Means lib g (.r i) (.ok x.atleast1) ∧ IsLeaf g i := by
  have hc : (g i).cls = chLeaf := by rw [h]; rfl
  have hl : (g i).links = [] := by rw [h]; rfl
  have ht : (g i).terms nmX = some (.arr x) := by rw [h]; rfl
  have hE := exact_leaf (tm := (g i).terms) ht (fun _ => 0)
  exact ⟨(correct_of_exact (g := g) (i := i) (ns := []) (v := fun a => a.elim0) (out := x.atleast1) (P := fun _ => 0) hl (by simp)
    (fun a => a.elim0) (by rw [hc]; exact hE)).1, hc, fun k => by rw [h]; rfl, by rw [h]; rfl⟩

/-- The state after a binary object has been made one of whose operands was wrapped. -/
structure WrappedBin (h h' : Heap ClassDef Par Arr Jac) (c : ClassDef) (a b : Id) (x : Arr) : Prop where
  alive : ∀ j, (h'.node j).alive = if j = h.next ∨ j = h.next + 1 then true else (h.node j).alive
  graph : ∀ j, h'.graph j = if j = h.next then (binO c a b).node else if j = h.next + 1 then leafNode lib (.arr x) else h.graph j

theorem newObj_two (c : ClassDef) (k1 k2 : KW Par) (h1 : k1.Old h = true) (h2 : k2.Old h = true)
    (hh : Heap ClassDef Par Arr Jac) (e1 : setattr lib h.next (some 9999) k1 (alloc c [nmA, nmB] false false h).1 = (hh, .ok ()))
    (e2 : (setattr lib h.next none k2 hh).2 = .ok ()) :
    newObj lib c [nmA, nmB] false false [k1, k2] h = ((setattr lib h.next none k2 hh).1, .ok h.next) := by
  unfold newObj
  rw [if_pos (by simp [h1, h2])]
  have hb : M.bind (alloc c [nmA, nmB] false false) (fun i => orCollect i (setAll lib i [k1, k2])) h =
    orCollect h.next (setAll lib h.next [k1, k2]) (alloc c [nmA, nmB] false false h).1 := rfl
  have e : setAll lib h.next [k1, k2] (alloc c [nmA, nmB] false false h).1 = setattr lib h.next none k2 hh := by
    show M.bind _ _ _ = _
    dsimp only [M.bind]
    rw [e1]
    rfl
  rw [hb, orCollect, e]
  rcases hx : setattr lib h.next none k2 hh with ⟨h', r⟩
  rw [hx] at e2; dsimp only at e2; subst e2; rfl

theorem newObj_wrapLeft (hs : Str h) (c : ClassDef) (x : Arr) {b : Id} (hb : (h.node b).alive = true) :
    ∃ h', newObj lib c [nmA, nmB] false false [.wrap nmA (.arr x), .link nmB b] h = (h', .ok h.next) ∧
      WrappedBin h h' c (h.next + 1) b x := by
  have ha := alloc_node (C := ClassDef) (T := Par) (V := Arr) (D := Jac) c [nmA, nmB] false false h
  have hnn : ((alloc c [nmA, nmB] false false h).1.node h.next) = freshNode c [nmA, nmB] false false := by rw [ha, if_pos rfl]
  have hgn : ((alloc c [nmA, nmB] false false h).1.graph h.next) = ⟨c, fun _ => none, [nmA, nmB], fun _ => none, false, false⟩ := by
    rw [Heap.graph_apply, hnn]; rfl
  obtain ⟨o1, w⟩ := setattr_wrap (s := lib) (alloc_str hs c [nmA, nmB] false false) (i := h.next) (by rw [hnn]; rfl) (k := nmA)
    (by rw [hgn]; simp) (.arr x) (itr := some 9999) (by intro t e; cases e; simp)
  obtain ⟨hh, e1⟩ : ∃ hh, setattr lib h.next (some 9999) (.wrap nmA (.arr x)) (alloc c [nmA, nmB] false false h).1 = (hh, .ok ()) := by
    rcases hx : setattr lib h.next (some 9999) (.wrap nmA (.arr x)) (alloc c [nmA, nmB] false false h).1 with ⟨hh, r⟩
    rw [hx] at o1; dsimp only at o1; subst o1; exact ⟨_, rfl⟩
  rw [e1] at w
  dsimp only at w
  have hnx : (alloc c [nmA, nmB] false false h).1.next = h.next + 1 := rfl
  rw [hnx, hgn] at w
  have hne : h.next ≠ h.next + 1 := Nat.ne_of_lt (Nat.lt_succ_self _)
  have hbn : b < h.next := hs.alive_lt hb
  have hgi : hh.graph h.next = GNode.assign ⟨c, fun _ => none, [nmA, nmB], fun _ => none, false, false⟩ (.link nmA (h.next + 1)) := by
    rw [w.graph, if_pos rfl]
  obtain ⟨o2, B⟩ := setattr_built (s := lib) w.str (i := h.next) (by rw [w.alive, hnx, if_neg hne, hnn]; rfl) (kw := .link nmB b)
    ⟨by rw [hgi]; simp [GNode.assign], by
      rw [w.alive, hnx, if_neg (Nat.ne_of_lt (Nat.lt_succ_of_lt hbn)), ha, if_neg (Nat.ne_of_lt hbn)]; exact hb⟩ (itr := none) (by intro t e; cases e)
  refine ⟨_, newObj_two c (.wrap nmA (.arr x)) (.link nmB b) rfl hb hh e1 o2, ?_, ?_⟩
  · intro j
    rw [B.alive, w.alive, hnx, ha]
    by_cases h1 : j = h.next
    · subst h1; rw [if_neg hne, if_pos rfl, if_pos (Or.inl rfl)]; rfl
    · by_cases h2 : j = h.next + 1
      · rw [if_pos h2, if_pos (Or.inr h2)]
      · rw [if_neg h2, if_neg h1, if_neg (by simp [h1, h2])]
  · intro j
    rw [B.graph]
    by_cases h1 : j = h.next
    · rw [if_pos h1, if_pos h1, hgi]; rfl
    · rw [if_neg h1, if_neg h1, w.graph, if_neg h1, hnx]
      by_cases h2 : j = h.next + 1
      · rw [if_pos h2, if_pos h2]
      · rw [if_neg h2, if_neg h2, Heap.graph_apply, ha, if_neg h1]; rfl

theorem newObj_wrapRight (hs : Str h) (c : ClassDef) (x : Arr) {a : Id} (hal : (h.node a).alive = true) :
    ∃ h', newObj lib c [nmA, nmB] false false [.link nmA a, .wrap nmB (.arr x)] h = (h', .ok h.next) ∧
      WrappedBin h h' c a (h.next + 1) x := by
  have ha := alloc_node (C := ClassDef) (T := Par) (V := Arr) (D := Jac) c [nmA, nmB] false false h
  have hnn : ((alloc c [nmA, nmB] false false h).1.node h.next) = freshNode c [nmA, nmB] false false := by rw [ha, if_pos rfl]
  have hgn : ((alloc c [nmA, nmB] false false h).1.graph h.next) = ⟨c, fun _ => none, [nmA, nmB], fun _ => none, false, false⟩ := by
    rw [Heap.graph_apply, hnn]; rfl
  have han : a < h.next := hs.alive_lt hal
  obtain ⟨o1, B⟩ := setattr_built (s := lib) (alloc_str hs c [nmA, nmB] false false) (i := h.next) (by rw [hnn]; rfl) (kw := .link nmA a)
    ⟨by rw [hgn]; simp, by rw [ha, if_neg (Nat.ne_of_lt han)]; exact hal⟩ (itr := some 9999) (by intro t e; cases e; simp)
  obtain ⟨hh, e1⟩ : ∃ hh, setattr lib h.next (some 9999) (.link nmA a) (alloc c [nmA, nmB] false false h).1 = (hh, .ok ()) := by
    rcases hx : setattr lib h.next (some 9999) (.link nmA a) (alloc c [nmA, nmB] false false h).1 with ⟨hh, r⟩
    rw [hx] at o1; dsimp only at o1; subst o1; exact ⟨_, rfl⟩
  rw [e1] at B
  dsimp only at B
  have hnx : (alloc c [nmA, nmB] false false h).1.next = h.next + 1 := rfl
  rw [hgn] at B
  have hne : h.next ≠ h.next + 1 := Nat.ne_of_lt (Nat.lt_succ_self _)
  have hgi : hh.graph h.next = GNode.assign ⟨c, fun _ => none, [nmA, nmB], fun _ => none, false, false⟩ (.link nmA a) := by
    rw [B.graph, if_pos rfl]
  have hhn : hh.next = h.next + 1 := B.next
  obtain ⟨o2, w⟩ := setattr_wrap (s := lib) B.str (i := h.next) (by rw [B.alive, hnn]; rfl) (k := nmB) (by rw [hgi]; simp [GNode.assign]) (.arr x)
    (itr := none) (by intro t e; cases e)
  rw [hhn] at w
  refine ⟨_, newObj_two c (.link nmA a) (.wrap nmB (.arr x)) hal rfl hh e1 o2, ?_, ?_⟩
  · intro j
    rw [w.alive, B.alive, hhn, ha]
    by_cases h1 : j = h.next
    · subst h1; rw [if_neg hne, if_pos rfl, if_pos (Or.inl rfl)]; rfl
    · by_cases h2 : j = h.next + 1
      · rw [if_pos h2, if_pos (Or.inr h2)]
      · rw [if_neg h2, if_neg h1, if_neg (by simp [h1, h2])]
  · intro j
    rw [w.graph]
    by_cases h1 : j = h.next
    · rw [if_pos h1, if_pos h1, hgi]; rfl
    · rw [if_neg h1, if_neg h1, hhn]
      by_cases h2 : j = h.next + 1
      · rw [if_pos h2, if_pos h2]
      · rw [if_neg h2, if_neg h2, B.graph, if_neg h1, Heap.graph_apply, ha, if_neg h1]; rfl

/-- What an operator makes. -/
structure MadeBin (h h' : Heap ClassDef Par Arr Jac) (c : ClassDef) (l r : Operand) (u v : Arr) (i a b : Id) : Prop where
  reach : Reach lib ⟨False, True⟩ h'
  kept : AllKept h h'
  fresh : (h.node i).alive = false ∧ (h'.node i).alive = true
  isA : IsA h'.graph i c [nmA, nmB] ![a, b]
  left : l.Becomes h h' a
  right : r.Becomes h h' b
  valL : Means lib h'.graph (.r a) (.ok u)
  valR : Means lib h'.graph (.r b) (.ok v)

theorem step_new (hr : Reach lib ⟨False, True⟩ h) {c : ClassDef} {dn : List Name} {kws : List (KW Par)} {i : Id}
    (e : newObj lib c dn false false kws h = (h', .ok i)) : Reach lib ⟨False, True⟩ h' := by
  have : Reach lib ⟨False, True⟩ (step lib (.new c dn false false kws) h).1 := Reach.step _ hr ⟨fun hf => False.elim hf, fun _ => ⟨rfl, rfl⟩⟩
  have es : (step lib (.new c dn false false kws) h).1 = (newObj lib c dn false false kws h).1 := by dsimp only [step, M.map']
  rwa [es, e] at this

theorem isA_binO {g : Graph ClassDef Par} {i a b : Id} {c : ClassDef} (hg : g i = (binO c a b).node) : IsA g i c [nmA, nmB] ![a, b] := isA_bin hg

theorem WrappedBin.kept (hs : Str h) {c : ClassDef} {a b : Id} {x : Arr} (w : WrappedBin h h' c a b x) : AllKept h h' := by
  have d : ∀ n, h.next ≤ n → (h.node n).alive = false := fun n hn => hs.unborn n hn
  refine allKept_two hs (l := h.next + 1) (i := h.next) (d _ (Nat.le_succ _)) (d _ (Nat.le_refl _))
    (g1 := fun j => if j = h.next + 1 then leafNode lib (.arr x) else h.graph j) (fun j hj => if_neg hj) (fun j hj => ?_) ?_
  · rw [w.graph, if_neg hj]
  · intro j hj
    rw [w.alive]; split
    · rfl
    · exact hj

theorem makeBin_made (hr : Reach lib ⟨False, True⟩ h) (c : ClassDef) {l r : Operand} {u v : Arr} (hl : l.Is h u) (hv : r.Is h v)
    (ho : (∃ i, l = .obj i) ∨ ∃ j, r = .obj j) : ∃ h' i a b, makeBin c l r h = (h', .ok i) ∧ MadeBin h h' c l r u v i a b := by
  have hs := reach_str hr
  have d : ∀ n, h.next ≤ n → (h.node n).alive = false := fun n hn => hs.unborn n hn
  have hne : h.next + 1 ≠ h.next := Nat.succ_ne_self _
  cases l with
  | obj a =>
    cases r with
    | obj b =>
      obtain ⟨h', e, hr', hg, _, ha, hv1, hd1⟩ := newObj_all hr (binO c a b) (by
        intro kw hm
        simp only [binO, List.mem_cons, List.not_mem_nil, or_false] at hm
        rcases hm with rfl | rfl
        · exact ⟨by simp [binO], hl.1⟩
        · exact ⟨by simp [binO], hv.1⟩)
      refine ⟨h', h.next, a, b, e, hr', ⟨?_, ?_, hv1, hd1⟩, ⟨d _ (Nat.le_refl _), by rw [ha, if_pos rfl]⟩, isA_binO (by rw [hg, if_pos rfl]), rfl, rfl,
        hv1 _ _ hl.1 hl.2, hv1 _ _ hv.1 hv.2⟩
      · intro j hj; rw [ha]; split
        · rfl
        · exact hj
      · intro j hj
        rw [hg, if_neg (fun e => absurd (hs.alive_lt hj) (by subst e; exact Nat.lt_irrefl _))]
    | val x =>
      obtain ⟨h', e, w⟩ := newObj_wrapRight hs c x hl.1
      have hk := w.kept hs
      have hleaf := means_leafNode (g := h'.graph) (i := h.next + 1) (x := x) (by rw [w.graph, if_neg hne, if_pos rfl])
      exact ⟨h', h.next, a, h.next + 1, e, step_new hr e, hk, ⟨d _ (Nat.le_refl _), by rw [w.alive, if_pos (Or.inl rfl)]⟩,
        isA_binO (by rw [w.graph, if_pos rfl]), rfl, ⟨d _ (Nat.le_succ _), hleaf.2⟩, hk.value _ _ hl.1 hl.2, hv ▸ hleaf.1⟩
  | val x =>
    cases r with
    | obj b =>
      obtain ⟨h', e, w⟩ := newObj_wrapLeft hs c x hv.1
      have hk := w.kept hs
      have hleaf := means_leafNode (g := h'.graph) (i := h.next + 1) (x := x) (by rw [w.graph, if_neg hne, if_pos rfl])
      exact ⟨h', h.next, h.next + 1, b, e, step_new hr e, hk, ⟨d _ (Nat.le_refl _), by rw [w.alive, if_pos (Or.inl rfl)]⟩,
        isA_binO (by rw [w.graph, if_pos rfl]), ⟨d _ (Nat.le_succ _), hleaf.2⟩, rfl, hl ▸ hleaf.1, hk.value _ _ hv.1 hv.2⟩
    | val y => rcases ho with ⟨_, e⟩ | ⟨_, e⟩ <;> cases e
end
end Chumpy
