import Verif.Gam.Formula

/-!
# Model of `parse_random_effects`, `utilities/formula.py`, and of `to_lme4_formula`, `pylmm/sim_lmm2.py`

Strings are lists of characters; a search is a scan with a number of characters still to skip.  `remove` (`str.replace` by nothing)
and `collapse` (runs of operators become their last) are those of `Gam/Formula.lean`.
-/

namespace Verif.Lmm

open Verif.Gam

/-- `[^)]`. -/
def notClose (c : Char) : Bool := c != ')'

/-- The two groups of `([^)]+)\|([^)]+)` on a text without `)`: the first is greedy, so the last bar with something after it counts. -/
def splitBar : List Char → Option (List Char × List Char)
  | [] => none
  | c :: l => match splitBar l with
    | some (a, b) => some (c :: a, b)
    | none => if c = '|' ∧ l ≠ [] then some ([], l) else none

/-- The groups, if the first is not empty. -/
def groupsOf (seg : List Char) : Option (List Char × List Char) :=
  match splitBar seg with
  | some (a, b) => if a = [] then none else some (a, b)
  | none => none

/-- The inside of the match of `\([^)]+[|][^)]+\)` at the beginning of a string. -/
def matchR : List Char → Option (List Char)
  | '(' :: l =>
    let seg := l.takeWhile notClose
    match l.dropWhile notClose with
    | ')' :: _ => if (groupsOf seg).isSome then some seg else none
    | _ => none
  | _ => none

/-- `re.findall("\([^)]+[|][^)]+\)", formula)` without the parentheses — utilities/formula.py 27. -/
def findR : ℕ → List Char → List (List Char)
  | _, [] => []
  | k + 1, _ :: l => findR k l
  | 0, c :: l => match matchR (c :: l) with
    | some seg => seg :: findR (seg.length + 1) l
    | none => findR 0 l

/-- `s.strip()`. -/
def strip (l : List Char) : List Char := ((l.dropWhile Char.isWhitespace).reverse.dropWhile Char.isWhitespace).reverse

/-- `re.sub(r"[+\s]+$", "", s)` — line 35. -/
def trimPlus (l : List Char) : List Char := (l.reverse.dropWhile fun c => c == '+' || c.isWhitespace).reverse

/-- `re.split("[~]", s)` unpacked into two — line 34. -/
def splitTilde (l : List Char) : Option (List Char × List Char) :=
  if l.count '~' = 1 then some (l.takeWhile (· != '~'), (l.dropWhile (· != '~')).tail) else none

/-- `re.split` at a character. -/
def splitAt (s : Char) : List Char → List (List Char)
  | [] => [[]]
  | c :: l => if c = s then [] :: splitAt s l else match splitAt s l with
    | w :: ws => (c :: w) :: ws
    | [] => [[c]]

/-- The entries of `model_info` which are used. -/
structure Info where
  yVars : List (List Char)
  feForm : List Char
  reTerms : List (List Char × List Char)
  xVars : List (List Char)
  deriving DecidableEq

/-- `parse_random_effects` — utilities/formula.py 26-48.  Without random effects `list(zip(*re_terms))` is empty and unpacking it raises. -/
def parseRanef (formula : List Char) : Option Info := do
  let segs := findR 0 formula
  let reTerms ← segs.mapM fun s => (groupsOf s).map fun g => (strip g.1, strip g.2)
  let frm := segs.foldl (fun f s => remove ('(' :: (s ++ [')'])) 0 f) formula
  let (y, fe) ← splitTilde (collapse frm)
  let fe := strip (trimPlus fe)
  let yVars := (splitAt ',' (y.filter fun c => c != '(' && c != ')')).map strip
  if reTerms = [] then none
  else
    let xVars := splitAt '+' fe ++ reTerms.flatMap fun t => splitAt '+' t.1
    let xVars := xVars.eraseDups
    some ⟨yVars, fe, reTerms, xVars.filter fun x => x ≠ ['0'] ∧ x ≠ ['1']⟩

/-- `to_lme4_formula` — sim_lmm2.py 186-190. -/
def toFormula (response fe : List Char) (terms : List (List Char × List Char)) : List Char :=
  response ++ " ~ ".toList ++ fe ++ terms.flatMap fun t => " + (".toList ++ t.1 ++ " | ".toList ++ t.2 ++ ")".toList

end Verif.Lmm
