import Mathlib.Data.List.Sort
import Mathlib.Data.Prod.Lex
import Mathlib.Order.Lattice.Nat
import Mathlib.Data.List.Lex

/-!
# Model of `_default_sort_key`, by which the variables of a structural equation model are put in order

Names are lists of code points.  `\d` matches further digits of Unicode in Python; only `0` to `9` are modelled.
-/

namespace Verif.Sem

/-- `[a-zA-Z]`. -/
def isLetter (c : ℕ) : Bool := (65 ≤ c && c ≤ 90) || (97 ≤ c && c ≤ 122)

/-- `\d`. -/
def isDig (c : ℕ) : Bool := 48 ≤ c && c ≤ 57

/-- `int(match.group(2))`. -/
def toNum (d : List ℕ) : ℕ := d.foldl (fun a c => 10 * a + (c - 48)) 0

/-- `_default_sort_key` — pysem2/sort_key.py 6-14; the same in pysem/formula.py 9-17 and pysem/param_table.py 20-28.  `re.match`
looks for letters followed by digits at the beginning of the name. -/
def sortKey (s : List ℕ) : List ℕ × ℕ :=
  let a := s.takeWhile isLetter
  let d := (s.dropWhile isLetter).takeWhile isDig
  if a ≠ [] ∧ d ≠ [] then (a, toNum d) else (s, 0)

/-- Python's order on the keys: tuples and strings are compared lexicographically. -/
def keyLe (s t : List ℕ) : Prop := toLex (sortKey s) ≤ toLex (sortKey t)

instance : DecidableRel keyLe := fun s t => inferInstanceAs (Decidable (toLex (sortKey s) ≤ toLex (sortKey t)))

/-- `sorted(names, key=_default_sort_key)`, a stable sort of the names in the order in which the set is run through
— pysem2/variable_ordering.py 185. -/
def sortNames (names : List (List ℕ)) : List (List ℕ) := names.insertionSort keyLe

end Verif.Sem
