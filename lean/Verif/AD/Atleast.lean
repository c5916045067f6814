import Verif.AD.Lib
/-!
# `atleast_1d`, `atleast_2d`, `atleast_3d`
-/
namespace Chumpy

/-- The shape numpy's `atleast_1d/2d/3d` give. -/
def atleastShape : ℕ → List ℕ → List ℕ
  | 2, [] => [1, 1]
  | 2, [n] => [1, n]
  | 3, [] => [1, 1, 1]
  | 3, [n] => [1, n, 1]
  | 3, [m, n] => [m, n, 1]
  | _, [] => [1]
  | _, s => s

theorem atleastShape_prod (d : ℕ) (s : List ℕ) : (atleastShape d s).prod = s.prod := by
  unfold atleastShape
  split <;> simp

/-- Name of the term `ndims`. -/
abbrev nmNdims : Name := 3

/-- `AtleastNd` (reordering.py:305-324); the child, called `x` there, is called `a` here.  The derivative is the number 1. -/
noncomputable def chAtleast : ClassDef where
  r := .child nmA fun v => .term nmNdims fun
    | some (.nat d) => if d = 1 ∨ d = 2 ∨ d = 3 then .ret (Arr.of (atleastShape d v.shape) v.vec) else .raise 1
    | _ => .raise 1
  dr := fun _ S => if nmA ∈ S then .ret (some (.num 1)) else .ret none
  dr_none := rfl
end Chumpy
