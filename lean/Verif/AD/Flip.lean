import Verif.AD.Select
/-!
# `fliplr` and `flipud`
-/
namespace Chumpy

/-- The slice `:`. -/
def Key.all : Key := .slice none none none
/-- The slice `::-1`. -/
def Key.back : Key := .slice none none (some (-1))

/-- `fliplr(m)` is `m[:,::-1]` (reordering.py:351-353): the parameters of the `Select` object made. -/
def fliplr (sh : List ℕ) : Option (List ℕ × List ℕ) := getitem [.all, .back] sh

/-- `flipud(m)` is `m[::-1,...]` (reordering.py:355-356).  The trailing `...` stands for the axes without a key. -/
def flipud (sh : List ℕ) : Option (List ℕ × List ℕ) := getitem [.back] sh
end Chumpy
