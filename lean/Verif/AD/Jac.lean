import Verif.AD.Num
/-!
# Jacobian values

Numbers, dense matrices and sparse matrices as `_superdot`, `+` and the end of `dr_wrt` treat them.
Real numbers stand for floats.  Not modelled: `LinearOperator`, arrays that are not two-dimensional, the
difference between `ndarray` and `matrix`.
-/
namespace Chumpy
open scoped BigOperators

/-- A Jacobian value that is not `None`: a number (or zero-dimensional array), a dense `m × n` matrix (`dense 1 1` is also
an array with one entry and one dimension, which all operations below treat alike), a sparse `m × n` matrix. -/
inductive Jac where
  | num (c : ℝ)
  | dense (m n : ℕ) (e : Ent)
  | sparse (m n : ℕ) (e : Ent)

namespace Jac

/-- `if isinstance(lhs, np.ndarray) and lhs.size==1: lhs = lhs.ravel()[0]` (ch.py:610-614). -/
def unwrap : Jac → Jac
  | .dense 1 1 e => .num (e 0 0)
  | d => d

/-- Multiplication by a number. -/
noncomputable def scale (c : ℝ) : Jac → Jac
  | .num b => .num (c * b)
  | .dense m n e => .dense m n fun i j => c * e i j
  | .sparse m n e => .sparse m n fun i j => c * e i j

/-- `lhs.dot(rhs)` of two matrices, or `rhs.T.dot(lhs.T).T` for dense times sparse (ch.py:631-633);
a `ValueError` on a size mismatch.  The result is sparse iff both are.  `convert_inputs_to_sparse_if_necessary`
(utils.py:81-93) never converts, since `sparse_is_desireable` starts with `return False` (utils.py:48). -/
noncomputable def matdot : Jac → Jac → Except Err Jac
  | .dense m n e, .dense n' p e' => if n = n' then .ok (.dense m p (Ent.mul n e e')) else .error (.user 0)
  | .dense m n e, .sparse n' p e' =>
    if n = n' then .ok (.dense m p (Ent.tr (Ent.mul n (Ent.tr e') (Ent.tr e)))) else .error (.user 0)
  | .sparse m n e, .dense n' p e' => if n = n' then .ok (.dense m p (Ent.mul n e e')) else .error (.user 0)
  | .sparse m n e, .sparse n' p e' => if n = n' then .ok (.sparse m p (Ent.mul n e e')) else .error (.user 0)
  | .num _, _ => .error (.user 0)
  | _, .num _ => .error (.user 0)

/-- `Ch._superdot` on two operands that are not `None` (ch.py:602-645). -/
noncomputable def superdot (lhs rhs : Jac) : Except Err Jac :=
  match lhs.unwrap, rhs.unwrap with
  | .num c, r => .ok (scale c r)
  | l, .num c => .ok (scale c l)
  | l, r => matdot l r

/-- `Ch._superdot` (ch.py:602-645). -/
noncomputable def superdotO : Option Jac → Option Jac → Except Err (Option Jac)
  | none, _ => .ok none
  | _, none => .ok none
  | some l, some r => (superdot l r).map some

/-- One dimension of numpy broadcasting: the size of the result. -/
def bdim (m m' : ℕ) : Option ℕ := if m = m' then some m else if m = 1 then some m' else if m' = 1 then some m else none

/-- Position in an operand of size `m`. -/
def bpos (m i : ℕ) : ℕ := if m = 1 then 0 else i

/-- `x + y` on Jacobian values (ch.py:788): numbers broadcast over dense matrices, dense matrices broadcast
against each other and to the size of a sparse matrix, a nonzero number plus a sparse matrix raises
`NotImplementedError`, other sizes raise `ValueError`. -/
noncomputable def add : Jac → Jac → Except Err Jac
  | .num a, .num b => .ok (.num (a + b))
  | .num a, .dense m n e => .ok (.dense m n fun i j => a + e i j)
  | .dense m n e, .num a => .ok (.dense m n fun i j => e i j + a)
  | .num a, .sparse m n e => open Classical in if a = 0 then .ok (.sparse m n e) else .error (.user 0)
  | .sparse m n e, .num a => open Classical in if a = 0 then .ok (.sparse m n e) else .error (.user 0)
  | .dense m n e, .dense m' n' e' =>
    match bdim m m', bdim n n' with
    | some M, some K => .ok (.dense M K fun i j => e (bpos m i) (bpos n j) + e' (bpos m' i) (bpos n' j))
    | _, _ => .error (.user 0)
  | .sparse m n e, .sparse m' n' e' => if m = m' ∧ n = n' then .ok (.sparse m n (e + e')) else .error (.user 0)
  | .dense m n e, .sparse m' n' e' =>
    if (m = m' ∨ m = 1) ∧ (n = n' ∨ n = 1) then .ok (.dense m' n' fun i j => e (bpos m i) (bpos n j) + e' i j) else .error (.user 0)
  | .sparse m n e, .dense m' n' e' =>
    if (m' = m ∨ m' = 1) ∧ (n' = n ∨ n' = 1) then .ok (.dense m n fun i j => e i j + e' (bpos m' i) (bpos n' j)) else .error (.user 0)

/-- `.T`. -/
def transp : Jac → Jac
  | .num c => .num c
  | .dense m n e => .dense n m e.tr
  | .sparse m n e => .sparse n m e.tr

/-- Number of nonzero entries. -/
noncomputable def nnz (m n : ℕ) (e : Ent) : ℕ := open Classical in
  ((Finset.range m ×ˢ Finset.range n).filter fun p => e p.1 p.2 ≠ 0).card

/-- The end of `dr_wrt` (ch.py:792-806): conversion to sparse when at most a tenth of the entries is nonzero,
then `np.atleast_2d`. -/
noncomputable def finish : Jac → Jac
  | .num c => open Classical in if c = 0 then .sparse 1 1 0 else .dense 1 1 fun _ _ => c
  | .dense m n e => if nnz m n e = 0 ∨ 10 * nnz m n e ≤ m * n then .sparse m n e else .dense m n e
  | .sparse m n e => .sparse m n e

/-- `drs[k].todense()` if sparse (ch.py:706-708, 826-827). -/
def todense : Jac → Jac
  | .sparse m n e => .dense m n e
  | d => d

/-- `sp.csc_matrix(result)` unless sparse (ch.py:828-829). -/
def tosparse : Jac → Jac
  | .dense m n e => .sparse m n e
  | .num c => .sparse 1 1 fun _ _ => c
  | d => d

/-- `_make_dense`, `_make_sparse` (ch.py:826-829). -/
def outForm (md ms : Bool) (d : Jac) : Jac :=
  let d := if md then d.todense else d
  if ms then d.tosparse else d

/-- `d` is the `m × n` matrix `E`, a number being a 1×1 matrix. -/
def Rep : Jac → ℕ → ℕ → Ent → Prop
  | .num c, m, n, E => m = 1 ∧ n = 1 ∧ E 0 0 = c
  | .dense m' n' e, m, n, E => m' = m ∧ n' = n ∧ Ent.EqOn m n e E
  | .sparse m' n' e, m, n, E => m' = m ∧ n' = n ∧ Ent.EqOn m n e E

/-- `d` is the `m × n` matrix `E`, a number being a multiple of the identity of any size. -/
def RepI : Jac → ℕ → ℕ → Ent → Prop
  | .num c, m, n, E => m = n ∧ Ent.EqOn m n E fun i j => if i = j then c else 0
  | .dense m' n' e, m, n, E => m' = m ∧ n' = n ∧ Ent.EqOn m n e E
  | .sparse m' n' e, m, n, E => m' = m ∧ n' = n ∧ Ent.EqOn m n e E

theorem rep_congr {d : Jac} {m n : ℕ} {A B : Ent} (h : Ent.EqOn m n A B) (hr : Rep d m n A) : Rep d m n B := by
  cases d with
  | num c => obtain ⟨rfl, rfl, h'⟩ := hr; exact ⟨rfl, rfl, by rw [← h 0 (by simp) 0 (by simp)]; exact h'⟩
  | dense m' n' e => obtain ⟨rfl, rfl, h'⟩ := hr; exact ⟨rfl, rfl, h'.trans h⟩
  | sparse m' n' e => obtain ⟨rfl, rfl, h'⟩ := hr; exact ⟨rfl, rfl, h'.trans h⟩

theorem repI_of_rep {d : Jac} {m n : ℕ} {A : Ent} (h : Rep d m n A) : RepI d m n A := by
  cases d with
  | num c =>
    obtain ⟨rfl, rfl, h'⟩ := h
    refine ⟨rfl, ?_⟩
    intro i hi j hj
    have hi : i = 0 := by omega
    have hj : j = 0 := by omega
    subst hi hj; simpa using h'
  | dense m' n' e => exact h
  | sparse m' n' e => exact h

theorem unwrap_cases (d : Jac) : (∃ e, d = .dense 1 1 e ∧ d.unwrap = .num (e 0 0)) ∨ d.unwrap = d := by
  cases d with
  | num c => exact Or.inr rfl
  | sparse m n e => exact Or.inr rfl
  | dense m n e =>
    rcases m with _ | _ | m
    · exact Or.inr rfl
    · rcases n with _ | _ | n
      · exact Or.inr rfl
      · exact Or.inl ⟨e, rfl, rfl⟩
      · exact Or.inr rfl
    · exact Or.inr rfl

theorem repI_unwrap {d : Jac} {m n : ℕ} {A : Ent} (h : RepI d m n A) : RepI d.unwrap m n A := by
  rcases unwrap_cases d with ⟨e, rfl, h2⟩ | h2
  · rw [h2]
    obtain ⟨rfl, rfl, h'⟩ := h
    refine ⟨rfl, ?_⟩
    intro i hi j hj
    have hi : i = 0 := by omega
    have hj : j = 0 := by omega
    subst hi hj; simpa using (h' 0 (by simp) 0 (by simp)).symm
  · rw [h2]; exact h

theorem rep_unwrap {d : Jac} {m n : ℕ} {A : Ent} (h : Rep d m n A) : Rep d.unwrap m n A := by
  rcases unwrap_cases d with ⟨e, rfl, h2⟩ | h2
  · rw [h2]
    obtain ⟨rfl, rfl, h'⟩ := h
    exact ⟨rfl, rfl, (h' 0 (by simp) 0 (by simp)).symm⟩
  · rw [h2]; exact h

theorem mul_scalar_left {m p : ℕ} {c : ℝ} {A B : Ent} (hA : Ent.EqOn m m A fun i j => if i = j then c else 0) :
    Ent.EqOn m p (fun i j => c * B i j) (Ent.mul m A B) := by
  intro i hi j hj
  simp only [Ent.mul]
  rw [Finset.sum_congr rfl fun k hk => by rw [hA i hi k (Finset.mem_range.1 hk)]]
  simp [hi]

theorem mul_scalar_right {m n : ℕ} {c : ℝ} {A B : Ent} (hB : Ent.EqOn n n B fun i j => if i = j then c else 0) :
    Ent.EqOn m n (fun i j => c * A i j) (Ent.mul n A B) := by
  intro i hi j hj
  simp only [Ent.mul]
  rw [Finset.sum_congr rfl fun k hk => by rw [hB k (Finset.mem_range.1 hk) j hj]]
  simp [hj, mul_comm]

theorem scale_repI_left {r : Jac} {m p : ℕ} {c : ℝ} {A B : Ent} (hA : Ent.EqOn m m A fun i j => if i = j then c else 0)
    (hr : RepI r m p B) : RepI (scale c r) m p (Ent.mul m A B) := by
  cases r with
  | num b =>
    obtain ⟨rfl, hB⟩ := hr
    refine ⟨rfl, ?_⟩
    intro i hi j hj
    rw [← mul_scalar_left hA i hi j hj]; dsimp only; rw [hB i hi j hj]
    simp
  | dense m' n' e =>
    obtain ⟨rfl, rfl, hB⟩ := hr
    refine ⟨rfl, rfl, ?_⟩
    intro i hi j hj
    rw [← mul_scalar_left hA i hi j hj]; dsimp only; rw [hB i hi j hj]
  | sparse m' n' e =>
    obtain ⟨rfl, rfl, hB⟩ := hr
    refine ⟨rfl, rfl, ?_⟩
    intro i hi j hj
    rw [← mul_scalar_left hA i hi j hj]; dsimp only; rw [hB i hi j hj]

theorem scale_repI_right {r : Jac} {m n : ℕ} {c : ℝ} {A B : Ent} (hB : Ent.EqOn n n B fun i j => if i = j then c else 0)
    (hr : RepI r m n A) : RepI (scale c r) m n (Ent.mul n A B) := by
  cases r with
  | num b =>
    obtain ⟨rfl, hA⟩ := hr
    refine ⟨rfl, ?_⟩
    intro i hi j hj
    rw [← mul_scalar_right hB i hi j hj]; dsimp only; rw [hA i hi j hj]
    simp
  | dense m' n' e =>
    obtain ⟨rfl, rfl, hA⟩ := hr
    refine ⟨rfl, rfl, ?_⟩
    intro i hi j hj
    rw [← mul_scalar_right hB i hi j hj]; dsimp only; rw [hA i hi j hj]
  | sparse m' n' e =>
    obtain ⟨rfl, rfl, hA⟩ := hr
    refine ⟨rfl, rfl, ?_⟩
    intro i hi j hj
    rw [← mul_scalar_right hB i hi j hj]; dsimp only; rw [hA i hi j hj]

theorem tr_mul_tr (n : ℕ) (A B : Ent) : Ent.tr (Ent.mul n (Ent.tr B) (Ent.tr A)) = Ent.mul n A B := by
  funext i j; simp [Ent.tr, Ent.mul, mul_comm]

/-- `_superdot` multiplies matrices, whatever forms the operands have. -/
theorem superdot_repI {d e : Jac} {m n p : ℕ} {A B : Ent} (hd : RepI d m n A) (he : RepI e n p B) :
    ∃ x, superdot d e = .ok x ∧ RepI x m p (Ent.mul n A B) := by
  have hd' := repI_unwrap hd
  have he' := repI_unwrap he
  unfold superdot
  generalize d.unwrap = d' at hd'
  generalize e.unwrap = e' at he'
  cases d' with
  | num c => obtain ⟨rfl, hA⟩ := hd'; exact ⟨_, rfl, scale_repI_left hA he'⟩
  | dense m1 n1 e1 =>
    obtain ⟨rfl, rfl, hA⟩ := hd'
    cases e' with
    | num c => obtain ⟨rfl, hB⟩ := he'; exact ⟨_, rfl, scale_repI_right hB ⟨rfl, rfl, hA⟩⟩
    | dense m2 n2 e2 =>
      obtain ⟨rfl, rfl, hB⟩ := he'
      exact ⟨_, by simp only [matdot, if_true]; rfl, by exact ⟨rfl, rfl, Ent.mul_congr hA hB⟩⟩
    | sparse m2 n2 e2 =>
      obtain ⟨rfl, rfl, hB⟩ := he'
      refine ⟨.dense m1 n2 (Ent.tr (Ent.mul m2 (Ent.tr e2) (Ent.tr e1))), by simp [matdot], rfl, rfl, ?_⟩
      rw [tr_mul_tr]; exact Ent.mul_congr hA hB
  | sparse m1 n1 e1 =>
    obtain ⟨rfl, rfl, hA⟩ := hd'
    cases e' with
    | num c => obtain ⟨rfl, hB⟩ := he'; exact ⟨_, rfl, scale_repI_right hB ⟨rfl, rfl, hA⟩⟩
    | dense m2 n2 e2 =>
      obtain ⟨rfl, rfl, hB⟩ := he'
      exact ⟨_, by simp only [matdot, if_true]; rfl, by exact ⟨rfl, rfl, Ent.mul_congr hA hB⟩⟩
    | sparse m2 n2 e2 =>
      obtain ⟨rfl, rfl, hB⟩ := he'
      exact ⟨_, by simp only [matdot, if_true]; rfl, by exact ⟨rfl, rfl, Ent.mul_congr hA hB⟩⟩

theorem scale_rep {r : Jac} {m p : ℕ} {c : ℝ} {B E : Ent} (hr : Rep r m p B)
    (hE : Ent.EqOn m p (fun i j => c * B i j) E) : Rep (scale c r) m p E := by
  cases r with
  | num b =>
    obtain ⟨rfl, rfl, hB⟩ := hr
    refine ⟨rfl, rfl, ?_⟩
    rw [← hE 0 (by simp) 0 (by simp)]; dsimp only; rw [hB]
  | dense m' n' e =>
    obtain ⟨rfl, rfl, hB⟩ := hr
    exact ⟨rfl, rfl, fun i hi j hj => by rw [← hE i hi j hj]; dsimp only; rw [hB i hi j hj]⟩
  | sparse m' n' e =>
    obtain ⟨rfl, rfl, hB⟩ := hr
    exact ⟨rfl, rfl, fun i hi j hj => by rw [← hE i hi j hj]; dsimp only; rw [hB i hi j hj]⟩

/-- With numbers standing for 1×1 matrices only. -/
theorem superdot_rep {d e : Jac} {m n p : ℕ} {A B : Ent} (hd : Rep d m n A) (he : Rep e n p B) :
    ∃ x, superdot d e = .ok x ∧ Rep x m p (Ent.mul n A B) := by
  have hd' := rep_unwrap hd
  have he' := rep_unwrap he
  unfold superdot
  generalize d.unwrap = d' at hd'
  generalize e.unwrap = e' at he'
  cases d' with
  | num c =>
    obtain ⟨rfl, rfl, hA⟩ := hd'
    refine ⟨_, rfl, scale_rep he' ?_⟩
    intro i hi j hj
    have : i = 0 := by omega
    subst this; simp [Ent.mul, hA]
  | dense m1 n1 e1 =>
    have hd2 := hd'
    obtain ⟨rfl, rfl, hA⟩ := hd'
    cases e' with
    | num c =>
      obtain ⟨rfl, rfl, hB⟩ := he'
      refine ⟨_, rfl, scale_rep hd2 ?_⟩
      intro i hi j hj
      have : j = 0 := by omega
      subst this; simp [Ent.mul, hB, mul_comm]
    | dense m2 n2 e2 =>
      obtain ⟨rfl, rfl, hB⟩ := he'
      exact ⟨_, by simp only [matdot, if_true]; rfl, by exact ⟨rfl, rfl, Ent.mul_congr hA hB⟩⟩
    | sparse m2 n2 e2 =>
      obtain ⟨rfl, rfl, hB⟩ := he'
      refine ⟨.dense m1 n2 (Ent.tr (Ent.mul m2 (Ent.tr e2) (Ent.tr e1))), by simp [matdot], rfl, rfl, ?_⟩
      rw [tr_mul_tr]; exact Ent.mul_congr hA hB
  | sparse m1 n1 e1 =>
    have hd2 := hd'
    obtain ⟨rfl, rfl, hA⟩ := hd'
    cases e' with
    | num c =>
      obtain ⟨rfl, rfl, hB⟩ := he'
      refine ⟨_, rfl, scale_rep hd2 ?_⟩
      intro i hi j hj
      have : j = 0 := by omega
      subst this; simp [Ent.mul, hB, mul_comm]
    | dense m2 n2 e2 =>
      obtain ⟨rfl, rfl, hB⟩ := he'
      exact ⟨_, by simp only [matdot, if_true]; rfl, by exact ⟨rfl, rfl, Ent.mul_congr hA hB⟩⟩
    | sparse m2 n2 e2 =>
      obtain ⟨rfl, rfl, hB⟩ := he'
      exact ⟨_, by simp only [matdot, if_true]; rfl, by exact ⟨rfl, rfl, Ent.mul_congr hA hB⟩⟩

/-- `+` adds matrices of the same size, unless it raises. -/
theorem bpos_lt {m i : ℕ} (h : i < m) : bpos m i = i := by
  unfold bpos; split
  · omega
  · rfl

theorem add_rep {d e x : Jac} {m n : ℕ} {A B : Ent} (hd : Rep d m n A) (he : Rep e m n B) (hx : add d e = .ok x) :
    Rep x m n (A + B) := by
  cases d with
  | num a =>
    obtain ⟨rfl, rfl, hA⟩ := hd
    cases e with
    | num b => obtain ⟨_, _, hB⟩ := he; cases hx; exact ⟨rfl, rfl, by simp [hA, hB]⟩
    | dense m' n' e =>
      obtain ⟨rfl, rfl, hB⟩ := he; cases hx
      refine ⟨rfl, rfl, ?_⟩
      intro i hi j hj
      have hi : i = 0 := by omega
      have hj : j = 0 := by omega
      subst hi hj; simp [hA, hB 0 (by simp) 0 (by simp)]
    | sparse m' n' e =>
      obtain ⟨rfl, rfl, hB⟩ := he
      simp only [add] at hx
      split at hx
      · next h0 =>
        cases hx
        refine ⟨rfl, rfl, ?_⟩
        intro i hi j hj
        have hi : i = 0 := by omega
        have hj : j = 0 := by omega
        subst hi hj; simp [hA, h0, hB 0 (by simp) 0 (by simp)]
      · cases hx
  | dense m1 n1 e1 =>
    obtain ⟨rfl, rfl, hA⟩ := hd
    cases e with
    | num b =>
      obtain ⟨rfl, rfl, hB⟩ := he; cases hx
      refine ⟨rfl, rfl, ?_⟩
      intro i hi j hj
      have hi : i = 0 := by omega
      have hj : j = 0 := by omega
      subst hi hj; simp [hA 0 (by simp) 0 (by simp), hB]
    | dense m' n' e =>
      obtain ⟨rfl, rfl, hB⟩ := he
      simp only [add, bdim, if_true] at hx
      cases hx
      refine ⟨rfl, rfl, ?_⟩
      intro i hi j hj
      simp [bpos_lt hi, bpos_lt hj, hA i hi j hj, hB i hi j hj]
    | sparse m' n' e =>
      obtain ⟨rfl, rfl, hB⟩ := he
      simp only [add, true_or, and_self, if_true] at hx
      cases hx
      refine ⟨rfl, rfl, ?_⟩
      intro i hi j hj
      simp [bpos_lt hi, bpos_lt hj, hA i hi j hj, hB i hi j hj]
  | sparse m1 n1 e1 =>
    obtain ⟨rfl, rfl, hA⟩ := hd
    cases e with
    | num b =>
      obtain ⟨rfl, rfl, hB⟩ := he
      simp only [add] at hx
      split at hx
      · next h0 =>
        cases hx
        refine ⟨rfl, rfl, ?_⟩
        intro i hi j hj
        have hi : i = 0 := by omega
        have hj : j = 0 := by omega
        subst hi hj; simp [hB, h0, hA 0 (by simp) 0 (by simp)]
      · cases hx
    | dense m' n' e =>
      obtain ⟨rfl, rfl, hB⟩ := he
      simp only [add, true_or, and_self, if_true] at hx
      cases hx
      refine ⟨rfl, rfl, ?_⟩
      intro i hi j hj
      simp [bpos_lt hi, bpos_lt hj, hA i hi j hj, hB i hi j hj]
    | sparse m' n' e =>
      obtain ⟨rfl, rfl, hB⟩ := he
      simp only [add, and_self, if_true] at hx
      cases hx
      exact ⟨rfl, rfl, hA.add hB⟩

theorem transp_rep {d : Jac} {m n : ℕ} {A : Ent} (h : Rep d m n A) : Rep d.transp n m A.tr := by
  cases d with
  | num c => obtain ⟨rfl, rfl, h⟩ := h; exact ⟨rfl, rfl, h⟩
  | dense m' n' e => obtain ⟨rfl, rfl, h⟩ := h; exact ⟨rfl, rfl, fun i hi j hj => h j hj i hi⟩
  | sparse m' n' e => obtain ⟨rfl, rfl, h⟩ := h; exact ⟨rfl, rfl, fun i hi j hj => h j hj i hi⟩

theorem finish_rep {d : Jac} {m n : ℕ} {A : Ent} (h : Rep d m n A) : Rep d.finish m n A := by
  cases d with
  | num c =>
    obtain ⟨rfl, rfl, h⟩ := h
    simp only [finish]
    split
    · next h0 =>
      refine ⟨rfl, rfl, ?_⟩
      intro i hi j hj
      have hi : i = 0 := by omega
      have hj : j = 0 := by omega
      subst hi hj; simp [h, h0]
    · refine ⟨rfl, rfl, ?_⟩
      intro i hi j hj
      have hi : i = 0 := by omega
      have hj : j = 0 := by omega
      subst hi hj; simp [h]
  | dense m' n' e => simp only [finish]; split <;> exact h
  | sparse m' n' e => exact h

theorem outForm_rep {d : Jac} {m n : ℕ} {A : Ent} (md ms : Bool) (h : Rep d m n A) : Rep (outForm md ms d) m n A := by
  cases d with
  | num c =>
    cases md <;> cases ms <;> simp only [outForm]
    · exact h
    · obtain ⟨rfl, rfl, h⟩ := h
      refine ⟨rfl, rfl, ?_⟩
      intro i hi j hj
      have hi : i = 0 := by omega
      have hj : j = 0 := by omega
      subst hi hj; simp [h]
    · exact h
    · obtain ⟨rfl, rfl, h⟩ := h
      refine ⟨rfl, rfl, ?_⟩
      intro i hi j hj
      have hi : i = 0 := by omega
      have hj : j = 0 := by omega
      subst hi hj; simp [h]
  | dense m' n' e => cases md <;> cases ms <;> exact h
  | sparse m' n' e => cases md <;> cases ms <;> exact h

theorem todense_rep {d : Jac} {m n : ℕ} {A : Ent} (h : Rep d m n A) : Rep d.todense m n A := by
  cases d <;> exact h

/-- After `dr_wrt` the Jacobian is a two-dimensional matrix. -/
def dims : Jac → Option (ℕ × ℕ)
  | .num _ => none
  | .dense m n _ => some (m, n)
  | .sparse m n _ => some (m, n)

theorem dims_finish {d : Jac} {m n : ℕ} {A : Ent} (md ms : Bool) (h : Rep d m n A) :
    (outForm md ms d.finish).dims = some (m, n) := by
  have h1 := finish_rep h
  have h2 : ∀ {d : Jac}, Rep d m n A → (∀ c, d ≠ .num c) → (outForm md ms d).dims = some (m, n) := by
    intro d hd hn
    cases d with
    | num c => exact absurd rfl (hn c)
    | dense m' n' e => obtain ⟨rfl, rfl, _⟩ := hd; cases md <;> cases ms <;> rfl
    | sparse m' n' e => obtain ⟨rfl, rfl, _⟩ := hd; cases md <;> cases ms <;> rfl
  refine h2 h1 ?_
  intro c
  cases d with
  | num c => simp only [finish]; split <;> simp
  | dense m' n' e => simp only [finish]; split <;> simp
  | sparse m' n' e => simp [finish]
end Jac
end Chumpy
