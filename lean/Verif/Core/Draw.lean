import Verif.Core.Traverse
import Verif.Core.Heap
/-!
# Walking over all operands, and the text behind `show_tree` (ch.py:843-861, 1004-1084)
-/
namespace Chumpy
variable {C T V D : Type}

/-- The `for dterm in self.dterms` loop of `loop_children_do` (ch.py:854-859): the calls made for the operands, in order. -/
def loopKids (rec : Id → Option (List Id)) : List Id → Option (List Id)
  | [] => some []
  | c :: cs =>
    match rec c with
    | none => none
    | some l =>
      match loopKids rec cs with
      | none => none
      | some l' => some (l ++ l')

/-- `Ch.loop_children_do(fn)` (ch.py:852-859): the objects `fn` is called with, in order; `none` is `RecursionError`.
Simplification: `fn` is assumed to return and not to change the expression. -/
def loopChildren (g : Graph C T) : Nat → Id → Option (List Id)
  | 0, _ => none
  | f + 1, i =>
    match loopKids (loopChildren g f) (g i).kids with
    | none => none
    | some l => some (i :: l)

/-- `self.loop_children_do(self.reset_flag)` (ch.py:846-850, 957): the flags `called_dr_wrt` before and after. -/
def resetFlags (g : Graph C T) (f : Nat) (i : Id) (flag : Id → Bool) : Option (Id → Bool) :=
  (loopChildren g f i).map fun calls => calls.foldl (fun fl j k => if k = j then false else fl k) flag

/-- The text written in a box before the class name: the object's `label`, the name it is used under, or `root` (ch.py:1012-1014, 1022). -/
inductive Caption where
  | label (s : String)
  | term (k : Name)
  | root
  deriving DecidableEq

/-- A line of the file: an arrow, a box, a dotted arrow with the size of a cached derivative (ch.py:1026-1028, 1046). -/
inductive DrawLine (C : Type) where
  | arrow (src dst : Id)
  | box (i : Id) (c : Caption) (cls : C)
  | dotted (src dst : Id) (sz : Nat)
  deriving DecidableEq

/-- `getattr(dtval, 'label') if hasattr(dtval, 'label') else dterm` (ch.py:1012-1013, 1022); `lab` are the attributes `label`. -/
def caption (lab : Id → Option String) (i : Id) (given : Caption) : Caption :=
  match lab i with
  | some s => .label s
  | none => given

/-- The dotted arrows of one object (ch.py:1031-1046); `size` is `sys.getsizeof(pickle.dumps(jac, -1))`, or 0 if that raises, and `lim` the
argument `cachelim` in megabytes, `none` for infinity.  Simplifications: `cachelim` is a whole number; the objects of the dictionary are
visited in the order they were made (the lines end up in a set). -/
def dottedLines (h : Heap C T V D) (size : Option D → Nat) (lim : Option Nat) (i : Id) : List (DrawLine C) :=
  match lim with
  | none => []
  | some m => (List.range h.next).filterMap fun w =>
      match (h.node i).drs w with
      | none => none
      | some jac => if size jac > m * 1024 * 1024 then some (.dotted i w (size jac)) else none

/-- The loop over the operands in `string_for` (ch.py:1018-1029). -/
def drawKids (g : Graph C T) (lab : Id → Option String) (rec : Id → Caption → Option (List (DrawLine C))) (i : Id) (mine : Caption) :
    List Name → Option (List (DrawLine C))
  | [] => some []
  | k :: ks =>
    match (g i).dterms k with
    | none => drawKids g lab rec i mine ks
    | some c =>
      match rec c (.term k) with
      | none => none
      | some l =>
        match drawKids g lab rec i mine ks with
        | none => none
        | some l' => some ([.arrow i c, .box i mine (g i).cls, .box c (caption lab c (.term k)) (g c).cls] ++ l ++ l')

/-- `string_for(self, my_name)` (ch.py:1011-1053). -/
def drawFor (h : Heap C T V D) (lab : Id → Option String) (size : Option D → Nat) (lim : Option Nat) : Nat → Id → Caption → Option (List (DrawLine C))
  | 0, _, _ => none
  | f + 1, i, given =>
    match drawKids h.graph lab (drawFor h lab size lim f) i (caption lab i given) (h.graph i).dnames with
    | none => none
    | some l => some (l ++ dottedLines h size lim i)

/-- The lines between the braces of the file `show_tree` draws (ch.py:1004-1055): `set(string_for(self, 'root'))`.  Not modelled: the assertion
`DEBUG`, replacing the sizes by colours (ch.py:1056-1077), running `dot` and opening the picture. -/
def showTree (h : Heap C T V D) (lab : Id → Option String) (size : Option D → Nat) (lim : Option Nat) (f : Nat) (i : Id) : Option (List (DrawLine C)) :=
  drawFor h lab size lim f i .root
end Chumpy
