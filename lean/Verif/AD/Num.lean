import Mathlib.Analysis.Calculus.FDeriv.Comp
import Mathlib.Analysis.Calculus.FDeriv.Pi
import Mathlib.Analysis.Calculus.FDeriv.Add
import Mathlib.Analysis.Calculus.FDeriv.Linear
import Mathlib.Analysis.Calculus.FDeriv.Congr
import Mathlib.Topology.Algebra.Module.FiniteDimension
import Mathlib.LinearAlgebra.Matrix.ToLin
import Mathlib.Data.Real.Basic
import Mathlib.Analysis.Normed.Module.FiniteDimension
import Verif.Core.SpecLemmas
/-!
# Numbers: what values and Jacobians stand for

Matrices are given by their entries, functions of row and column; only the entries inside the stated
size matter.
-/
namespace Chumpy
open scoped BigOperators

/-- Entries of a matrix. -/
abbrev Ent := ℕ → ℕ → ℝ

namespace Ent
/-- The product of an `m × n` and an `n × p` matrix. -/
def mul (n : ℕ) (A B : Ent) : Ent := fun i j => ∑ k ∈ Finset.range n, A i k * B k j
/-- The identity. -/
def one : Ent := fun i j => if i = j then 1 else 0
/-- The transpose. -/
def tr (A : Ent) : Ent := fun i j => A j i
/-- Same `m × n` matrix. -/
def EqOn (m n : ℕ) (A B : Ent) : Prop := ∀ i < m, ∀ j < n, A i j = B i j
/-- Zero `m × n` matrix. -/
def IsZero (m n : ℕ) (A : Ent) : Prop := EqOn m n A 0

theorem EqOn.refl {m n : ℕ} (A : Ent) : EqOn m n A A := fun _ _ _ _ => rfl
theorem EqOn.symm {m n : ℕ} {A B : Ent} (h : EqOn m n A B) : EqOn m n B A := fun i hi j hj => (h i hi j hj).symm
theorem EqOn.trans {m n : ℕ} {A B C : Ent} (h : EqOn m n A B) (h' : EqOn m n B C) : EqOn m n A C :=
  fun i hi j hj => (h i hi j hj).trans (h' i hi j hj)

/-- The linear map of an `m × n` matrix. -/
noncomputable def lin (m n : ℕ) (E : Ent) : (Fin n → ℝ) →L[ℝ] (Fin m → ℝ) :=
  LinearMap.toContinuousLinearMap (Matrix.toLin' (Matrix.of fun (i : Fin m) (j : Fin n) => E i j))

theorem lin_apply (m n : ℕ) (E : Ent) (x : Fin n → ℝ) (i : Fin m) : lin m n E x i = ∑ j : Fin n, E i j * x j := by
  simp [lin, Matrix.toLin'_apply, Matrix.mulVec, dotProduct]

theorem lin_congr {m n : ℕ} {A B : Ent} (h : EqOn m n A B) : lin m n A = lin m n B := by
  ext x i
  rw [lin_apply, lin_apply]
  exact Finset.sum_congr rfl fun j _ => by rw [h i i.2 j j.2]

theorem lin_inj {m n : ℕ} {A B : Ent} (h : lin m n A = lin m n B) : EqOn m n A B := by
  intro i hi j hj
  have := congrFun (congrArg (fun L => L (Pi.single (⟨j, hj⟩ : Fin n) 1)) h) ⟨i, hi⟩
  simp only [lin_apply] at this
  simpa [Pi.single_apply] using this

theorem lin_add (m n : ℕ) (A B : Ent) : lin m n (A + B) = lin m n A + lin m n B := by
  ext x i
  simp only [lin_apply, _root_.add_apply, Pi.add_apply, add_mul, Finset.sum_add_distrib]

theorem lin_zero (m n : ℕ) : lin m n 0 = 0 := by
  ext x i; simp [lin_apply]

theorem lin_sum {ι : Type} (m n : ℕ) (S : Finset ι) (A : ι → Ent) : lin m n (∑ a ∈ S, A a) = ∑ a ∈ S, lin m n (A a) := by
  classical
  induction S using Finset.induction_on with
  | empty => simp [lin_zero]
  | insert a S ha ih => rw [Finset.sum_insert ha, Finset.sum_insert ha, lin_add, ih]

theorem lin_one (n : ℕ) : lin n n one = ContinuousLinearMap.id ℝ _ := by
  ext x i
  simp [lin_apply, one, Fin.val_inj]

theorem lin_mul (m n p : ℕ) (A B : Ent) : lin m p (mul n A B) = (lin m n A).comp (lin n p B) := by
  ext x i
  simp only [lin_apply, ContinuousLinearMap.comp_apply, mul, Finset.sum_mul, Finset.mul_sum]
  rw [Finset.sum_comm]
  rw [← Fin.sum_univ_eq_sum_range (fun k => ∑ j : Fin p, A i k * B k j * x j)]
  exact Finset.sum_congr rfl fun k _ => Finset.sum_congr rfl fun j _ => by ring

theorem mul_congr {m n p : ℕ} {A A' B B' : Ent} (h : EqOn m n A A') (h' : EqOn n p B B') :
    EqOn m p (mul n A B) (mul n A' B') := by
  intro i hi j hj
  exact Finset.sum_congr rfl fun k hk => by
    rw [h i hi k (Finset.mem_range.1 hk), h' k (Finset.mem_range.1 hk) j hj]

theorem mul_zero_left (n : ℕ) (B : Ent) : mul n 0 B = 0 := by funext i j; simp [mul]
theorem mul_zero_right (n : ℕ) (A : Ent) : mul n A 0 = 0 := by funext i j; simp [mul]
theorem mul_add (n : ℕ) (A B C : Ent) : mul n A (B + C) = mul n A B + mul n A C := by
  funext i j; simp [mul, _root_.mul_add, Finset.sum_add_distrib]
theorem add_mul (n : ℕ) (A B C : Ent) : mul n (A + B) C = mul n A C + mul n B C := by
  funext i j; simp [mul, _root_.add_mul, Finset.sum_add_distrib]
theorem mul_assoc (n p : ℕ) (A B C : Ent) : mul p (mul n A B) C = mul n A (mul p B C) := by
  funext i j
  simp only [mul, Finset.sum_mul, Finset.mul_sum]
  rw [Finset.sum_comm]
  exact Finset.sum_congr rfl fun k _ => Finset.sum_congr rfl fun l _ => by ring
theorem mul_one {m n : ℕ} (A : Ent) : EqOn m n (mul n A one) A := by
  intro i _ j hj
  simp [mul, one, hj]
theorem one_mul {m n : ℕ} (A : Ent) : EqOn m n (mul m one A) A := by
  intro i hi j _
  simp [mul, one, hi]
theorem EqOn.add {m n : ℕ} {A A' B B' : Ent} (h : EqOn m n A A') (h' : EqOn m n B B') : EqOn m n (A + B) (A' + B') := by
  intro i hi j hj; simp [h i hi j hj, h' i hi j hj]
end Ent

variable {C T V D α : Type}

/-- What array values and Jacobian values stand for.
* `size v` entries, `vec v k` the `k`-th in C order, `put v x` the array of the same shape with entries `x`;
* `Rep d m n E`: the Jacobian value `d` is the `m × n` matrix `E`;
* the operations on Jacobian values used by the chain rule compute what they should, whenever they do not
  raise. -/
structure Num (s : Sig C T V D) where
  size : V → ℕ
  vec : V → ℕ → ℝ
  put : (v : V) → (Fin (size v) → ℝ) → V
  Rep : D → ℕ → ℕ → Ent → Prop
  size_put : ∀ v x, size (put v x) = size v
  vec_put : ∀ v x (k : Fin (size v)), vec (put v x) k = x k
  put_self : ∀ v, put v (fun k => vec v k) = v
  put_put : ∀ v x (e : ℕ → ℝ), put (put v x) (fun k => e k) = put v (fun k => e k)
  rep_congr : ∀ {d m n A B}, Ent.EqOn m n A B → Rep d m n A → Rep d m n B
  superdot : ∀ {d e x m n p A B}, Rep d m n A → Rep e n p B → s.superdot d e = .ok x → Rep x m p (Ent.mul n A B)
  add : ∀ {d e x m n A B}, Rep d m n A → Rep e m n B → s.add d e = .ok x → Rep x m n (A + B)
  transp : ∀ {d m n A}, Rep d m n A → Rep (s.transp d) n m A.tr
  finish : ∀ {d m n A}, Rep d m n A → Rep (s.finish d) m n A
  outForm : ∀ {d m n A} a b, Rep d m n A → Rep (s.outForm a b d) m n A

namespace Num
variable {s : Sig C T V D} (N : Num s)

/-- The entries of a value as a vector. -/
def fn (m : ℕ) (v : V) : Fin m → ℝ := fun k => N.vec v k

/-- `None` stands for the zero matrix. -/
def RepO (d : Option D) (m n : ℕ) (E : Ent) : Prop :=
  match d with
  | none => Ent.IsZero m n E
  | some d => N.Rep d m n E

theorem fn_put (v : V) (x : Fin (N.size v) → ℝ) : N.fn (N.size v) (N.put v x) = x := funext fun k => N.vec_put v x k

theorem repO_congr {d : Option D} {m n : ℕ} {A B : Ent} (h : Ent.EqOn m n A B) (hr : N.RepO d m n A) : N.RepO d m n B := by
  cases d with
  | none => exact h.symm.trans hr
  | some d => exact N.rep_congr h hr
end Num

/-! ## Running a body on given values of the children -/

/-- Run a body: `tm` the parameters, `ρ` the values of the children by name, `pr` the properties, `self` the
own value. -/
def runBody (tm : Name → Option T) (ρ : Name → Option V) (pr : Name → Except Err V) (self : Except Err V) :
    Prog T V α → Except Err α
  | .ret a => .ok a
  | .raise c => .error (.user c)
  | .term n k => runBody tm ρ pr self (k (tm n))
  | .child n k =>
    match ρ n with
    | none => .error .attr
    | some v => runBody tm ρ pr self (k v)
  | .prop p k =>
    match pr p with
    | .ok v => runBody tm ρ pr self (k v)
    | .error e => .error e
  | .selfR k =>
    match self with
    | .ok v => runBody tm ρ pr self (k v)
    | .error e => .error e

/-- A property of an object of class `c`, with recursion limit. -/
def runProp (s : Sig C T V D) (c : C) (tm : Name → Option T) (ρ : Name → Option V) (self : Except Err V) :
    ℕ → Name → Except Err V
  | 0, _ => .error .fuel
  | f + 1, p =>
    match s.propDecl c p with
    | none => .error .attr
    | some d => runBody tm ρ (runProp s c tm ρ self f) self d.2

/-- `compute_r` of class `c` on parameters `tm` and children's values `ρ` returns `v`. -/
def Returns (s : Sig C T V D) (c : C) (tm : Name → Option T) (ρ : Name → Option V) (v : V) : Prop :=
  ∃ f, runBody tm ρ (runProp s c tm ρ (.error .fuel) f) (.error .fuel) (s.computeR c) = .ok v

/-- `compute_dr_wrt` of class `c`, asked about a child stored under the names `ns`, returns `d`. -/
def ReturnsDr (s : Sig C T V D) (c : C) (tm : Name → Option T) (ρ : Name → Option V) (out : V) (ns : List Name)
    (d : Option D) : Prop :=
  ∃ f, runBody tm ρ (runProp s c tm ρ (.ok out) f) (.ok out) (s.computeDr c false ns) = .ok d

theorem runBody_mono {tm : Name → Option T} {ρ : Name → Option V} {pr pr' : Name → Except Err V} {self : Except Err V}
    (h : ∀ p v, pr p = .ok v → pr' p = .ok v) (p : Prog T V α) (a : α) (hp : runBody tm ρ pr self p = .ok a) :
    runBody tm ρ pr' self p = .ok a := by
  induction p with
  | ret b => exact hp
  | raise c => exact hp
  | term n k ih => exact ih _ hp
  | child n k ih =>
    simp only [runBody] at hp ⊢
    cases hn : ρ n with
    | none => rw [hn] at hp; cases hp
    | some v => rw [hn] at hp; exact ih v hp
  | prop q k ih =>
    simp only [runBody] at hp ⊢
    cases hq : pr q with
    | error e => rw [hq] at hp; cases hp
    | ok v => rw [hq] at hp; rw [h q v hq]; exact ih v hp
  | selfR k ih =>
    cases self with
    | error e => cases hp
    | ok v => exact ih v hp

theorem runProp_succ (s : Sig C T V D) (c : C) (tm : Name → Option T) (ρ : Name → Option V) (self : Except Err V)
    (f : ℕ) : ∀ p v, runProp s c tm ρ self f p = .ok v → runProp s c tm ρ self (f + 1) p = .ok v := by
  induction f with
  | zero => intro p v h; cases h
  | succ f ih =>
    intro p v h
    rw [runProp] at h ⊢
    cases hd : s.propDecl c p with
    | none => rw [hd] at h; cases h
    | some d => rw [hd] at h; exact runBody_mono ih _ _ h

theorem runProp_le (s : Sig C T V D) (c : C) (tm : Name → Option T) (ρ : Name → Option V) (self : Except Err V)
    {f f' : ℕ} (hf : f ≤ f') : ∀ p v, runProp s c tm ρ self f p = .ok v → runProp s c tm ρ self f' p = .ok v := by
  induction hf with
  | refl => exact fun _ _ h => h
  | step _ ih => exact fun p v h => runProp_succ s c tm ρ self _ p v (ih p v h)

theorem Returns.unique {s : Sig C T V D} {c : C} {tm : Name → Option T} {ρ : Name → Option V} {v v' : V}
    (h : Returns s c tm ρ v) (h' : Returns s c tm ρ v') : v = v' := by
  obtain ⟨f, hf⟩ := h
  obtain ⟨f', hf'⟩ := h'
  have h1 := runBody_mono (runProp_le s c tm ρ (.error .fuel) (Nat.le_max_left f f')) _ _ hf
  have h2 := runBody_mono (runProp_le s c tm ρ (.error .fuel) (Nat.le_max_right f f')) _ _ hf'
  rw [h1] at h2; cases h2; rfl

/-- The children's values of object `i` when objects have the values `φ`. -/
def kidVals (g : Graph C T) (φ : Id → V) (i : Id) : Name → Option V := fun k => ((g i).dterms k).map φ

/-- Evaluation from scratch agrees with running the body on the values. -/
theorem runBody_of_eval {s : Sig C T V D} {g : Graph C T} {φ : Id → V} {i : Id} {f f' : ℕ} {out : V}
    (hkid : ∀ k c, (g i).dterms k = some c → Means s g (.r c) (.ok (φ c)))
    (hself : Means s g (.r i) (.ok out))
    (hpr : ∀ p v, evalReq s g f (.prop i p) = .ok v → runProp s (g i).cls (g i).terms (kidVals g φ i) (.ok out) f' p = .ok v)
    (p : Prog T V α) (a : α) (h : evalProg g (evalReq s g f) i p = .ok a) :
    runBody (g i).terms (kidVals g φ i) (runProp s (g i).cls (g i).terms (kidVals g φ i) (.ok out) f') (.ok out) p = .ok a := by
  induction p with
  | ret b => exact h
  | raise c => exact h
  | term n k ih => exact ih _ h
  | child n k ih =>
    simp only [evalProg] at h
    simp only [runBody, kidVals]
    cases hn : (g i).dterms n with
    | none => rw [hn] at h; cases h
    | some c =>
      rw [hn] at h; dsimp only at h
      cases hc : evalReq s g f (.r c) with
      | error e => rw [hc] at h; cases h
      | ok v =>
        rw [hc] at h
        have : v = φ c := by
          have := Means.unique (⟨by simp, f, hc⟩ : Means s g (.r c) (.ok v)) (hkid n c hn)
          cases this; rfl
        subst this
        exact ih _ h
  | prop q k ih =>
    simp only [evalProg] at h
    simp only [runBody]
    cases hq : evalReq s g f (.prop i q) with
    | error e => rw [hq] at h; cases h
    | ok v => rw [hq] at h; rw [hpr q v hq]; exact ih v h
  | selfR k ih =>
    simp only [evalProg] at h
    simp only [runBody]
    cases hc : evalReq s g f (.r i) with
    | error e => rw [hc] at h; cases h
    | ok v =>
      rw [hc] at h
      have : v = out := by
        have := Means.unique (⟨by simp, f, hc⟩ : Means s g (.r i) (.ok v)) hself
        cases this; rfl
      subst this
      exact ih _ h

theorem runProp_of_eval {s : Sig C T V D} {g : Graph C T} {φ : Id → V} {i : Id} {out : V}
    (hkid : ∀ k c, (g i).dterms k = some c → Means s g (.r c) (.ok (φ c)))
    (hself : Means s g (.r i) (.ok out)) (f : ℕ) :
    ∀ p v, evalReq s g f (.prop i p) = .ok v → runProp s (g i).cls (g i).terms (kidVals g φ i) (.ok out) f p = .ok v := by
  induction f with
  | zero => intro p v h; cases h
  | succ f ih =>
    intro p v h
    simp only [evalReq] at h
    simp only [runProp]
    cases hd : s.propDecl (g i).cls p with
    | none => rw [hd] at h; cases h
    | some d => rw [hd] at h; exact runBody_of_eval hkid hself ih _ _ h

theorem returnsDr_of_eval {s : Sig C T V D} {g : Graph C T} {φ : Id → V} {i w : Id} {out : V} (hw : i ≠ w)
    (hkid : ∀ k c, (g i).dterms k = some c → Means s g (.r c) (.ok (φ c)))
    (hself : Means s g (.r i) (.ok out)) {f : ℕ} {d : Option D} (h : evalCompDr s g f i w = .ok d) :
    ReturnsDr s (g i).cls (g i).terms (kidVals g φ i) out ((g i).namesOf w) d := by
  have hb : (i == w) = false := by simpa using hw
  unfold evalCompDr at h
  rw [hb] at h
  exact ⟨f, runBody_of_eval hkid hself (runProp_of_eval hkid hself f) _ _ h⟩

/-- Running a body on values that mean something can be done by evaluation. -/
theorem evalProg_of_runBody {s : Sig C T V D} {g : Graph C T} {i : Id} {ρ : Name → Option V} {pr : Name → Except Err V}
    {self : Except Err V} (hself : ∀ v, self = .ok v → Means s g (.r i) (.ok v))
    (hkid : ∀ k v, ρ k = some v → ∃ c, (g i).dterms k = some c ∧ Means s g (.r c) (.ok v))
    (hpr : ∀ p v, pr p = .ok v → Means s g (.prop i p) (.ok v)) (p : Prog T V α) (a : α)
    (h : runBody (g i).terms ρ pr self p = .ok a) : ∃ f, evalProg g (evalReq s g f) i p = .ok a := by
  have lift : ∀ {f f' : ℕ} {q : Req} {v : V}, f ≤ f' → evalReq s g f q = .ok v → evalReq s g f' q = .ok v := by
    intro f f' q v hf h
    have := evalReq_mono s g hf q
    rw [Le, h] at this
    exact this (by simp)
  have liftP : ∀ {f f' : ℕ} (p : Prog T V α) {a : α}, f ≤ f' → evalProg g (evalReq s g f) i p = .ok a →
      evalProg g (evalReq s g f') i p = .ok a := by
    intro f f' p a hf h
    have := evalProg_mono g (fun q => evalReq_mono s g hf q) i p
    rw [Le, h] at this
    exact this (by simp)
  induction p with
  | ret b => exact ⟨0, h⟩
  | raise c => cases h
  | term n k ih => exact ih _ h
  | child n k ih =>
    simp only [runBody] at h
    cases hn : ρ n with
    | none => rw [hn] at h; cases h
    | some v =>
      rw [hn] at h
      obtain ⟨c, hc, _, f1, h1⟩ := hkid n v hn
      obtain ⟨f2, h2⟩ := ih v h
      refine ⟨max f1 f2, ?_⟩
      simp only [evalProg, hc]
      rw [lift (Nat.le_max_left f1 f2) h1]
      exact liftP _ (Nat.le_max_right f1 f2) h2
  | prop q k ih =>
    simp only [runBody] at h
    cases hq : pr q with
    | error e => rw [hq] at h; cases h
    | ok v =>
      rw [hq] at h
      obtain ⟨_, f1, h1⟩ := hpr q v hq
      obtain ⟨f2, h2⟩ := ih v h
      refine ⟨max f1 f2, ?_⟩
      simp only [evalProg]
      rw [lift (Nat.le_max_left f1 f2) h1]
      exact liftP _ (Nat.le_max_right f1 f2) h2
  | selfR k ih =>
    cases self with
    | error e => cases h
    | ok v =>
      obtain ⟨_, f1, h1⟩ := hself v rfl
      obtain ⟨f2, h2⟩ := ih v h
      refine ⟨max f1 f2, ?_⟩
      simp only [evalProg]
      rw [lift (Nat.le_max_left f1 f2) h1]
      exact liftP _ (Nat.le_max_right f1 f2) h2

theorem means_prop_of_runProp {s : Sig C T V D} {g : Graph C T} {i : Id} {ρ : Name → Option V}
    {self : Except Err V} (hself : ∀ v, self = .ok v → Means s g (.r i) (.ok v))
    (hkid : ∀ k v, ρ k = some v → ∃ c, (g i).dterms k = some c ∧ Means s g (.r c) (.ok v)) (f : ℕ) :
    ∀ p v, runProp s (g i).cls (g i).terms ρ self f p = .ok v → Means s g (.prop i p) (.ok v) := by
  induction f with
  | zero => intro p v h; cases h
  | succ f ih =>
    intro p v h
    simp only [runProp] at h
    cases hd : s.propDecl (g i).cls p with
    | none => rw [hd] at h; cases h
    | some d =>
      rw [hd] at h
      obtain ⟨f', hf'⟩ := evalProg_of_runBody hself hkid ih d.2 v h
      exact ⟨by simp, f' + 1, by simp only [evalReq, hd]; exact hf'⟩

/-- What the body returns on the children's values is the object's value. -/
theorem means_of_returns {s : Sig C T V D} {g : Graph C T} {i : Id} {ρ : Name → Option V} {v : V}
    (hkid : ∀ k v, ρ k = some v → ∃ c, (g i).dterms k = some c ∧ Means s g (.r c) (.ok v))
    (h : Returns s (g i).cls (g i).terms ρ v) : Means s g (.r i) (.ok v) := by
  obtain ⟨f, hf⟩ := h
  have hno : ∀ v : V, (Except.error Err.fuel : Except Err V) = .ok v → Means s g (.r i) (.ok v) := fun _ h => by cases h
  obtain ⟨f', hf'⟩ := evalProg_of_runBody hno hkid (means_prop_of_runProp hno hkid f) _ v hf
  exact ⟨by simp, f' + 1, hf'⟩

/-- What `compute_dr_wrt` returns on the children's values, evaluation returns. -/
theorem evalCompDr_of_returnsDr {s : Sig C T V D} {g : Graph C T} {i w : Id} {ρ : Name → Option V} {out : V} {d : Option D}
    (hw : i ≠ w) (hself : Means s g (.r i) (.ok out))
    (hkid : ∀ k v, ρ k = some v → ∃ c, (g i).dterms k = some c ∧ Means s g (.r c) (.ok v))
    (h : ReturnsDr s (g i).cls (g i).terms ρ out ((g i).namesOf w) d) : ∃ f, evalCompDr s g f i w = .ok d := by
  obtain ⟨f, hf⟩ := h
  have hs : ∀ v : V, (Except.ok out : Except Err V) = .ok v → Means s g (.r i) (.ok v) := fun v h => by
    injection h with h; subst h; exact hself
  obtain ⟨f', hf'⟩ := evalProg_of_runBody hs hkid (means_prop_of_runProp hs hkid f) _ d hf
  refine ⟨f', ?_⟩
  have hb : (i == w) = false := by simpa using hw
  unfold evalCompDr; rw [hb]; exact hf'

/-- Evaluation in a graph that agrees except at `w`, where the value is the same. -/
theorem evalProg_other {s : Sig C T V D} {g g' : Graph C T} {i : Id} {ev : Req → Except Err V} (hi : g' i = g i)
    (hr : ∀ c v, ev (.r c) = .ok v → Means s g' (.r c) (.ok v))
    (hp : ∀ p v, ev (.prop i p) = .ok v → Means s g' (.prop i p) (.ok v)) (p : Prog T V α) (a : α)
    (h : evalProg g ev i p = .ok a) : ∃ f, evalProg g' (evalReq s g' f) i p = .ok a := by
  have lift : ∀ {f f' : ℕ} {q : Req} {v : V}, f ≤ f' → evalReq s g' f q = .ok v → evalReq s g' f' q = .ok v := by
    intro f f' q v hf h
    have := evalReq_mono s g' hf q
    rw [Le, h] at this
    exact this (by simp)
  have liftP : ∀ {f f' : ℕ} (p : Prog T V α) {a : α}, f ≤ f' → evalProg g' (evalReq s g' f) i p = .ok a →
      evalProg g' (evalReq s g' f') i p = .ok a := by
    intro f f' p a hf h
    have := evalProg_mono g' (fun q => evalReq_mono s g' hf q) i p
    rw [Le, h] at this
    exact this (by simp)
  have step : ∀ {q : Req} {k : V → Prog T V α}, (∀ v, ev q = .ok v → Means s g' q (.ok v)) →
      (∀ v, evalProg g ev i (k v) = .ok a → ∃ f, evalProg g' (evalReq s g' f) i (k v) = .ok a) →
      (match ev q with | .ok v => evalProg g ev i (k v) | .error e => .error e) = .ok a →
      ∃ f, (match evalReq s g' f q with | .ok v => evalProg g' (evalReq s g' f) i (k v) | .error e => .error e) = .ok a := by
    intro q k hq ih h
    cases hv : ev q with
    | error e => rw [hv] at h; cases h
    | ok v =>
      rw [hv] at h
      obtain ⟨_, f1, h1⟩ := hq v hv
      obtain ⟨f2, h2⟩ := ih v h
      refine ⟨max f1 f2, ?_⟩
      rw [lift (Nat.le_max_left f1 f2) h1]
      exact liftP _ (Nat.le_max_right f1 f2) h2
  induction p with
  | ret b => exact ⟨0, h⟩
  | raise c => cases h
  | term n k ih => simp only [evalProg] at h ⊢; rw [hi]; exact ih _ h
  | child n k ih =>
    simp only [evalProg] at h ⊢
    rw [hi]
    cases hn : (g i).dterms n with
    | none => rw [hn] at h; cases h
    | some c => rw [hn] at h; exact step (hr c) ih h
  | prop q k ih => simp only [evalProg] at h ⊢; exact step (hp q) ih h
  | selfR k ih => simp only [evalProg] at h ⊢; exact step (hr i) ih h

theorem means_other {s : Sig C T V D} {g g' : Graph C T} {w : Id} {vw : V} (hg : ∀ i, i ≠ w → g' i = g i)
    (hw : Means s g (.r w) (.ok vw)) (hw' : Means s g' (.r w) (.ok vw)) {i : Id} {v : V} (h : Means s g (.r i) (.ok v)) :
    Means s g' (.r i) (.ok v) := by
  have key : ∀ f, (∀ i v, evalReq s g f (.r i) = .ok v → Means s g' (.r i) (.ok v)) ∧
      (∀ i p v, i ≠ w → evalReq s g f (.prop i p) = .ok v → Means s g' (.prop i p) (.ok v)) := by
    intro f
    induction f with
    | zero => exact ⟨fun _ _ h => (by cases h), fun _ _ _ _ h => (by cases h)⟩
    | succ f ih =>
      refine ⟨fun i v h => ?_, fun i p v hi h => ?_⟩
      · by_cases hi : i = w
        · subst hi
          have := Means.unique (⟨by simp, f + 1, h⟩ : Means s g (.r i) (.ok v)) hw
          cases this; exact hw'
        · simp only [evalReq] at h
          obtain ⟨f', hf'⟩ := evalProg_other (s := s) (hg i hi) (fun c v h => ih.1 c v h) (fun p v h => ih.2 i p v hi h) _ v h
          exact ⟨by simp, f' + 1, by simp only [evalReq]; rw [hg i hi]; exact hf'⟩
      · simp only [evalReq] at h
        cases hd : s.propDecl (g i).cls p with
        | none => rw [hd] at h; cases h
        | some d =>
          rw [hd] at h
          obtain ⟨f', hf'⟩ := evalProg_other (s := s) (hg i hi) (fun c v h => ih.1 c v h) (fun p v h => ih.2 i p v hi h) _ v h
          exact ⟨by simp, f' + 1, by simp only [evalReq]; rw [hg i hi, hd]; exact hf'⟩
  obtain ⟨_, f, hf⟩ := h
  exact (key f).1 i v hf
end Chumpy
