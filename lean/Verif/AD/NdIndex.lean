import Mathlib.Data.List.GetD
import Mathlib.Data.List.Forall2
import Mathlib.Algebra.BigOperators.Group.List.Basic
import Mathlib.Tactic.Ring
import Mathlib.Tactic.Linarith
import Verif.AD.Lib
/-!
# Coordinates and flat positions

C order: the last axis varies fastest.
-/
namespace Chumpy

/-- Flat position of the coordinates `c` in an array of shape `sh`. -/
def ravel : List ℕ → List ℕ → ℕ
  | _ :: sh, c :: cs => c * sh.prod + ravel sh cs
  | _, _ => 0

/-- Coordinates of flat position `k`. -/
def unravel : List ℕ → ℕ → List ℕ
  | [], _ => []
  | _ :: sh, k => (k / sh.prod) :: unravel sh (k % sh.prod)

/-- The coordinates `c` are those of an entry of an array of shape `sh`. -/
def InB (sh c : List ℕ) : Prop := List.Forall₂ (fun i n => i < n) c sh

theorem InB.length {sh c : List ℕ} (h : InB sh c) : c.length = sh.length := List.Forall₂.length_eq h

theorem ravel_lt {sh c : List ℕ} (h : InB sh c) : ravel sh c < sh.prod := by
  induction h with
  | nil => simp [ravel]
  | cons hi _ ih =>
    simp only [ravel, List.prod_cons]
    calc _ < _ * _ + _ := Nat.add_lt_add_left ih _
      _ = (_ + 1) * _ := by rw [Nat.succ_mul]
      _ ≤ _ := Nat.mul_le_mul_right _ hi

theorem unravel_inB {sh : List ℕ} {k : ℕ} (h : k < sh.prod) : InB sh (unravel sh k) := by
  induction sh generalizing k with
  | nil => exact .nil
  | cons n sh ih =>
    rw [List.prod_cons] at h
    have hp : 0 < sh.prod := by
      rcases Nat.eq_zero_or_pos sh.prod with e | e
      · rw [e, Nat.mul_zero] at h; exact absurd h (Nat.not_lt_zero _)
      · exact e
    exact .cons (Nat.div_lt_of_lt_mul (by rw [Nat.mul_comm]; exact h)) (ih (Nat.mod_lt _ hp))

theorem ravel_unravel {sh : List ℕ} {k : ℕ} (h : k < sh.prod) : ravel sh (unravel sh k) = k := by
  induction sh generalizing k with
  | nil => simp at h; subst h; rfl
  | cons n sh ih =>
    rw [List.prod_cons] at h
    have hp : 0 < sh.prod := by
      rcases Nat.eq_zero_or_pos sh.prod with e | e
      · rw [e, Nat.mul_zero] at h; exact absurd h (Nat.not_lt_zero _)
      · exact e
    simp only [unravel, ravel]
    rw [ih (Nat.mod_lt _ hp)]
    exact Nat.div_add_mod' k sh.prod

theorem unravel_ravel {sh c : List ℕ} (h : InB sh c) : unravel sh (ravel sh c) = c := by
  induction h with
  | nil => rfl
  | cons hi hs ih =>
    have hp := ravel_lt hs
    simp only [ravel, unravel]
    rw [Nat.mul_comm, Nat.mul_add_div (Nat.zero_lt_of_lt hp), Nat.div_eq_of_lt hp, Nat.add_zero, Nat.mul_add_mod, Nat.mod_eq_of_lt hp, ih]

theorem ravel_inj {sh c c' : List ℕ} (h : InB sh c) (h' : InB sh c') (e : ravel sh c = ravel sh c') : c = c' := by
  rw [← unravel_ravel h, ← unravel_ravel h', e]

/-- The entry of an array at given coordinates. -/
noncomputable def Arr.at (v : Arr) (c : List ℕ) : ℝ := v.vec (ravel v.shape c)

/-- Two arrays of one shape with the same entries are the same. -/
theorem Arr.ext_at {u v : Arr} (hs : u.shape = v.shape) (h : ∀ c, InB u.shape c → u.at c = v.at c) : u = v := by
  refine Arr.ext_vec hs fun k hk => ?_
  have := h _ (unravel_inB hk)
  unfold Arr.at at this
  rw [← hs, ravel_unravel hk] at this
  exact this

theorem inB_iff {sh c : List ℕ} : InB sh c ↔ c.length = sh.length ∧ ∀ j < sh.length, c.getD j 0 < sh.getD j 0 := by
  unfold InB
  rw [List.forall₂_iff_get]
  constructor
  · rintro ⟨h1, h2⟩
    refine ⟨h1, fun j hj => ?_⟩
    rw [List.getD_eq_getElem _ _ hj, List.getD_eq_getElem _ _ (by omega)]
    exact h2 j (by omega) hj
  · rintro ⟨h1, h2⟩
    refine ⟨h1, fun j hj hj' => ?_⟩
    have := h2 j hj'
    rwa [List.getD_eq_getElem _ _ hj', List.getD_eq_getElem _ _ hj] at this
end Chumpy
