import Verif.Core.Heap
/-!
# `print_labeled_residuals` (ch.py:253-267)
-/
namespace Chumpy
variable {C T V D L E : Type}

/-- What is written: `label: 1.23e+04 | ` for an object with a label (ch.py:257-258), and the line end `1.23e+04` (ch.py:263-264).
`dec` is the number of decimals in the format; the number itself is kept unformatted.  Not in the text, but kept for the statements:
the object a piece is about. -/
inductive Written (L E : Type) where
  | labelled (i : Id) (l : L) (dec : Nat) (e : E)
  | total (dec : Nat) (e : E)
  deriving DecidableEq, Repr

/-- The loop over `self.dterms` (ch.py:259-262); `rec` is the call for an operand.  An operand that is not set raises `AttributeError`.
Every operand is a `Ch` object and has `dterms`. -/
def residualKids (rec : Id → M C T V D (List (Written L E))) (i : Id) : List Name → M C T V D (List (Written L E))
  | [] => M.pure []
  | k :: ks => M.bind (M.node i) fun n =>
    match n.dterms k with
    | none => M.throw .attr
    | some c => M.bind (rec c) fun a => M.bind (residualKids rec i ks) fun b => M.pure (a ++ b)

/-- `if hasattr(self, 'label')` and the write after it (ch.py:257-258); `sq v` is `np.sum(v**2)`. -/
def residualOwn (s : Sig C T V D) (lab : Id → Option L) (sq : V → E) (f dec : Nat) (i : Id) : M C T V D (List (Written L E)) :=
  match lab i with
  | none => M.pure []
  | some l => M.bind (read s f (.r i)) fun v => M.pure [.labelled i l dec (sq v)]

/-- `print_labeled_residuals(print_newline=False, num_decimals=dec)` (ch.py:253-262).  The recursive call does not pass `num_decimals`, so
that its default 2 applies (line 262).  What had been written when an exception is raised is not modelled. -/
def printBelow (s : Sig C T V D) (lab : Id → Option L) (sq : V → E) : Nat → Nat → Id → M C T V D (List (Written L E))
  | 0, _, _ => M.throw .fuel
  | f + 1, dec, i => M.bind (residualOwn s lab sq f dec i) fun a => M.bind (M.node i) fun n =>
      M.bind (residualKids (printBelow s lab sq f 2) i n.dnames) fun b => M.pure (a ++ b)

/-- `print_labeled_residuals(num_decimals=dec)` (ch.py:253-264). -/
def printResiduals (s : Sig C T V D) (lab : Id → Option L) (sq : V → E) (f dec : Nat) (y : Id) : M C T V D (List (Written L E)) :=
  M.bind (printBelow s lab sq f dec y) fun a => M.bind (read s f (.r y)) fun v => M.pure (a ++ [.total dec (sq v)])
end Chumpy
