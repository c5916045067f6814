import Verif.AD.Select
/-!
# Assignment through views (`Ch.__setitem__`, ch.py:506-545)

`y[key] = value` for a basic key.  The value is an array, not a `Ch` (which is refused, ch.py:508-509).
-/
namespace Chumpy
open scoped BigOperators

/-- `while not inner.is_ch_baseclass(): …` (ch.py:527-532): from a chain of reorderings to the `Ch` under it; an exception for a
function of arrays that is not a reordering.  `f` bounds the number of turns. -/
def innerOf (g : Graph ClassDef Par) : ℕ → Id → Except Err Id
  | 0, _ => .error .fuel
  | f + 1, i =>
    if (g i).cls.isBase then .ok i
    else if (g i).cls.permute then
      match (g i).dterms nmA with
      | some a => innerOf g f a
      | none => .error .attr
    else .error (.user 2)

/-- The number of entries of a Jacobian value and its entries in C order, as `.reshape` sees them. -/
def Jac.flat : Jac → ℕ × (ℕ → ℝ)
  | .num c => (1, fun _ => c)
  | .dense m n e => (m * n, fun k => e (k / n) (k % n))
  | .sparse m n e => (m * n, fun k => e (k / n) (k % n))

/-- The new `inner.x` (ch.py:534-545): `x + dr.T·value − dr.T·dr·x`, `d` being the derivative of the slice with respect to `inner`, whose
shape is `sh`.  A vector is a matrix with one column. -/
noncomputable def assigned (d : Jac) (x value : Arr) (sh : List ℕ) : Except Err Arr :=
  match Jac.superdot d.transp (.dense value.size 1 fun i _ => value.vec i), Jac.superdot d (.dense x.size 1 fun i _ => x.vec i) with
  | .ok t1, .ok u =>
    match Jac.superdot d.transp u with
    | .ok t2 =>
      if t1.flat.1 = sh.prod ∧ t2.flat.1 = sh.prod then .ok (Arr.of sh fun k => x.vec k + t1.flat.2 k - t2.flat.2 k) else .error (.user 0)
    | .error e => .error e
  | .error e, _ => .error e
  | .ok _, .error e => .error e

/-- The last position in `idxs` equal to `p`, if any. -/
def lastPos : List ℕ → ℕ → Option ℕ
  | [], _ => none
  | i :: l, p => match lastPos l p with
    | some k => some (k + 1)
    | none => if i = p then some 0 else none

/-- `data = np.atleast_1d(x); data[key] = value` (ch.py:511-512), the positions being `idxs`, of shape `ksh`, and `value` being broadcast
to it. -/
noncomputable def overwritten (x value : Arr) (idxs ksh : List ℕ) : Arr :=
  Arr.of x.atleast1.shape fun p => match lastPos idxs p with
    | some k => value.vec (bidx value.shape ksh k)
    | none => x.vec p

/-- `y.__setitem__(key, value)` (ch.py:506-545) with recursion limit `f`.  Simplified: the array of a `Ch` is replaced by a changed copy,
where the code changes it in place (sharing of buffers is not part of this model); values with more axes than the selection are refused
although numpy drops leading axes of length one. -/
noncomputable def setItem (f : ℕ) (y : Id) (key : List Key) (value : Arr) : M ClassDef Par Arr Jac Unit := fun h =>
  if (h.graph y).cls.isBase then
    match (h.graph y).terms nmX with
    | some (.arr x) =>
      match getitem key x.atleast1.shape with
      | some (idxs, ksh) =>
        if bshape value.shape ksh = some ksh then setObj lib y [.term nmX (.arr (overwritten x value idxs ksh))] h
        else (h, .error (.user 0))
      | none => (h, .error (.user 1))
    | _ => (h, .error (.user 1))
  else
    match innerOf h.graph f y with
    | .error e => (h, .error e)
    | .ok inner =>
      M.bind (read lib f (.r y)) (fun v =>
        match getitem key v.shape with
        | none => M.throw (.user 1)
        | some (idxs, ksh) =>
          M.bind (newObj lib chSelect [nmA] false false [.link nmA y, .term nmP (.nats idxs), .term nmQ (.nats ksh)]) fun s =>
          M.bind (drWrt lib f s inner) fun d =>
          M.bind (read lib f (.r inner)) fun vi => fun h =>
            match d, (h.graph inner).terms nmX with
            | some d, some (.arr x) =>
              match assigned d x value vi.shape with
              | .ok x' => setObj lib inner [.term nmX (.arr x')] h
              | .error e => (h, .error e)
            | _, _ => (h, .error .attr)) h

/-! ## The new array -/

theorem lastPos_some {l : List ℕ} {p k : ℕ} (h : lastPos l p = some k) : k < l.length ∧ l.getD k 0 = p := by
  induction l generalizing k with
  | nil => cases h
  | cons i l ih =>
    simp only [lastPos] at h
    split at h
    · next k' hk' => cases h; obtain ⟨h1, h2⟩ := ih hk'; exact ⟨by simp; omega, by simpa using h2⟩
    · split at h
      · next hi => cases h; exact ⟨by simp, by simpa using hi⟩
      · cases h

theorem lastPos_none {l : List ℕ} {p : ℕ} : lastPos l p = none ↔ p ∉ l := by
  induction l with
  | nil => simp [lastPos]
  | cons i l ih =>
    simp only [lastPos]
    split
    · next k hk =>
      have : p ∈ l := by
        by_contra hn
        rw [ih.2 hn] at hk; cases hk
      simp [this]
    · next hk =>
      have := ih.1 hk
      split
      · next hi => simp [hi]
      · next hi => simp [this]; exact fun e => hi e.symm

theorem Jac.flat_rep {d : Jac} {n : ℕ} {E : Ent} (h : Jac.Rep d n 1 E) : d.flat.1 = n ∧ ∀ k < n, d.flat.2 k = E k 0 := by
  cases d with
  | num c =>
    obtain ⟨rfl, _, hE⟩ := h
    refine ⟨rfl, fun k hk => ?_⟩
    have : k = 0 := by omega
    subst this; exact hE.symm
  | dense m n' e =>
    obtain ⟨rfl, rfl, hE⟩ := h
    refine ⟨by simp [Jac.flat], fun k hk => ?_⟩
    show e (k / 1) (k % 1) = _
    rw [Nat.div_one, Nat.mod_one]; exact hE k hk 0 (by simp)
  | sparse m n' e =>
    obtain ⟨rfl, rfl, hE⟩ := h
    refine ⟨by simp [Jac.flat], fun k hk => ?_⟩
    show e (k / 1) (k % 1) = _
    rw [Nat.div_one, Nat.mod_one]; exact hE k hk 0 (by simp)

/-- What is assigned, for a derivative that selects the positions `σ`. -/
theorem assigned_eq {d : Jac} {x value : Arr} {sh : List ℕ} {k : ℕ} {σ : ℕ → ℕ} (hd : Jac.Rep d k sh.prod (selMat σ fun _ => 1))
    (hx : x.size = sh.prod) (hv : value.size = k) (hσ : ∀ j < k, σ j < sh.prod) :
    ∃ x', assigned d x value sh = .ok x' ∧ x'.shape = sh ∧ ∀ p < sh.prod,
      x'.vec p = x.vec p + (∑ j ∈ Finset.range k, if σ j = p then value.vec j else 0) - ∑ j ∈ Finset.range k, if σ j = p then x.vec (σ j) else 0 := by
  have hT := Jac.transp_rep hd
  obtain ⟨t1, h1, r1⟩ := Jac.superdot_rep hT (e := .dense value.size 1 fun i _ => value.vec i) (p := 1) (B := fun i _ => value.vec i)
    ⟨hv, rfl, Ent.EqOn.refl _⟩
  obtain ⟨u, h2, r2⟩ := Jac.superdot_rep hd (e := .dense x.size 1 fun i _ => x.vec i) (p := 1) (B := fun i _ => x.vec i)
    ⟨hx, rfl, Ent.EqOn.refl _⟩
  obtain ⟨t2, h3, r3⟩ := Jac.superdot_rep hT r2
  obtain ⟨e1, v1⟩ := Jac.flat_rep r1
  obtain ⟨e3, v3⟩ := Jac.flat_rep r3
  refine ⟨Arr.of sh fun k => x.vec k + t1.flat.2 k - t2.flat.2 k, ?_, rfl, fun p hp => ?_⟩
  · unfold assigned
    rw [h1, h2]
    dsimp only
    rw [h3]
    dsimp only
    rw [if_pos ⟨e1, e3⟩]
  · rw [Arr.vec_of _ _ hp, v1 p hp, v3 p hp]
    congr 1
    · congr 1
      refine Finset.sum_congr rfl fun j _ => ?_
      simp [Ent.tr, selMat]
    · refine Finset.sum_congr rfl fun j hj => ?_
      simp only [Ent.tr, selMat, Ent.mul]
      split
      · next e =>
        rw [one_mul, Finset.sum_eq_single (σ j)]
        · simp
        · intro b _ hb; rw [if_neg (Ne.symm hb), zero_mul]
        · intro hn; exact absurd (Finset.mem_range.2 (hσ j (Finset.mem_range.1 hj))) hn
      · simp

/-- With distinct positions: the selected ones get the values, the others keep theirs. -/
theorem assigned_distinct {d : Jac} {x value : Arr} {sh : List ℕ} {k : ℕ} {σ : ℕ → ℕ} (hd : Jac.Rep d k sh.prod (selMat σ fun _ => 1))
    (hx : x.size = sh.prod) (hv : value.size = k) (hσ : ∀ j < k, σ j < sh.prod) (hinj : ∀ i < k, ∀ j < k, σ i = σ j → i = j) :
    ∃ x', assigned d x value sh = .ok x' ∧ x'.shape = sh ∧ (∀ j < k, x'.vec (σ j) = value.vec j) ∧
      ∀ p < sh.prod, (∀ j < k, σ j ≠ p) → x'.vec p = x.vec p := by
  obtain ⟨x', h1, h2, h3⟩ := assigned_eq hd hx hv hσ
  refine ⟨x', h1, h2, fun j hj => ?_, fun p hp hn => ?_⟩
  · rw [h3 _ (hσ j hj), Finset.sum_eq_single j, Finset.sum_eq_single j]
    · simp
    · intro i hi hij; rw [if_neg]; exact fun e => hij (hinj i (Finset.mem_range.1 hi) j hj e)
    · intro hn; exact absurd (Finset.mem_range.2 hj) hn
    · intro i hi hij; rw [if_neg]; exact fun e => hij (hinj i (Finset.mem_range.1 hi) j hj e)
    · intro hn; exact absurd (Finset.mem_range.2 hj) hn
  · rw [h3 p hp, Finset.sum_eq_zero, Finset.sum_eq_zero]
    · simp
    · intro j hj; rw [if_neg (hn j (Finset.mem_range.1 hj))]
    · intro j hj; rw [if_neg (hn j (Finset.mem_range.1 hj))]
end Chumpy
