import Mathlib.Data.List.Basic
import Mathlib.Data.List.Infix
/-!
# Model of `pystatsm/pysem2/formula.py`

Python strings are `List Char`.  `float(mod)` is the parameter `pyFloat` (`none` = `ValueError`).
An equation whose relation symbol does not split it in two raises (`none`).
-/
namespace Verif.Sem

/-- ASCII whitespace of `str.strip` and of `\s`. -/
def isWs (c : Char) : Bool :=
  c == ' ' || c == '\t' || c == '\n' || c == '\r' || c == '\x0b' || c == '\x0c'

/-- `str.strip()`. -/
def strip (s : List Char) : List Char :=
  ((s.dropWhile isWs).reverse.dropWhile isWs).reverse

/-- `str.split(sep)` for a non-empty separator: left-to-right scan, `skip` characters of a matched
separator still to be passed over, `acc` the current piece in reverse. -/
def splitAux (sep : List Char) : List Char → ℕ → List Char → List (List Char)
  | [], _, acc => [acc.reverse]
  | _ :: cs, skip + 1, acc => splitAux sep cs skip acc
  | c :: cs, 0, acc =>
    if sep.isPrefixOf (c :: cs) then acc.reverse :: splitAux sep cs (sep.length - 1) []
    else splitAux sep cs 0 (c :: acc)

/-- `str.split(sep)`. -/
def splitOn (sep s : List Char) : List (List Char) := splitAux sep s 0 []

/-- `sub in s`. -/
def containsStr (sub s : List Char) : Bool := s.tails.any fun t => sub.isPrefixOf t

/-- `re.sub(r'\s*#.*', '', s)` — formula.py 41: at each position, if a (possibly empty) run of
whitespace followed by `#` starts here, drop it and everything up to the end of the line. -/
def stripCommentsAux : List Char → ℕ → List Char
  | [], _ => []
  | _ :: cs, skip + 1 => stripCommentsAux cs skip
  | c :: cs, 0 =>
    let w := (c :: cs).takeWhile isWs
    let rest := (c :: cs).dropWhile isWs
    if ['#'].isPrefixOf rest then
      stripCommentsAux cs (w.length + (rest.takeWhile fun d => d != '\n').length - 1)
    else c :: stripCommentsAux cs 0

def stripComments (s : List Char) : List Char := stripCommentsAux s 0

/-- A row of `param_df` as built by `_get_var_pair`; `fixedval = none` is `np.inf`. -/
structure PRow (V : Type) where
  lhs : List Char
  rel : List Char
  rhs : List Char
  mod : Option (List Char)
  label : Option (List Char)
  fixedval : Option V
  fixed : Bool
  dummy : Bool
  deriving DecidableEq

/-- `_get_var_pair(left_side, right_side, rel)` — formula.py 50-77.  `comps[2:]` is ignored. -/
def getVarPair {V : Type} (pyFloat : List Char → Option V) (left right rel : List Char) : PRow V :=
  let comps := splitOn ['*'] (strip right)
  let left := strip left
  match comps with
  | m :: n :: _ =>
    let mod := strip m
    let name := strip n
    match pyFloat mod with
    | some v => PRow.mk left rel name (some mod) none (some v) true false
    | none => PRow.mk left rel name (some mod) (some mod) none false false
  | [n] => PRow.mk left rel (strip n) none none none false false
  | [] => PRow.mk left rel [] none none none false false

/-- The relation chosen by `unpack_equation` — formula.py 91-96. -/
def findRel (eqn : List Char) : List Char :=
  if containsStr ['=', '~'] eqn then ['=', '~']
  else if containsStr ['~', '~'] eqn then ['~', '~']
  else ['~']

/-- `unpack_equation(equation)` — formula.py 79-100: the rows appended to `_param_list`. -/
def unpackEquation {V : Type} (pyFloat : List Char → Option V) (eqn : List Char) :
    Option (List (PRow V)) :=
  let rel := findRel eqn
  match splitOn rel eqn with
  | [lhss, rhss] =>
    some ((splitOn ['+'] lhss).flatMap fun l => (splitOn ['+'] rhss).map fun r =>
      getVarPair pyFloat l r rel)
  | _ => none

/-- `_parse_formula(formulas)` — formula.py 30-47: the parameter list. -/
def parseFormula {V : Type} (pyFloat : List Char → Option V) (s : List Char) :
    Option (List (PRow V)) :=
  let s := stripComments s
  let equations := splitOn ['\n'] (strip s)
  ((equations.filter fun e => !(strip e).isEmpty).mapM (unpackEquation pyFloat)).map List.flatten

/-! ## `classify_variables` — formula.py 102-146

Sets of names are predicates; `d` is the parameter table. -/

section classify
variable {V : Type} (d : List (PRow V))

/-- `set(param_df[["lhs","rhs"]]) - {"1"}`. -/
def isAll (v : List Char) : Prop := (∃ r ∈ d, r.lhs = v ∨ r.rhs = v) ∧ v ≠ ['1']
/-- latent ("not observed"): left sides of `=~`. -/
def isNob (v : List Char) : Prop := ∃ r ∈ d, r.rel = ['=', '~'] ∧ r.lhs = v
def isObs (v : List Char) : Prop := isAll d v ∧ ¬ isNob d v
def isInd (v : List Char) : Prop := ∃ r ∈ d, r.rel = ['=', '~'] ∧ r.rhs = v
def isEnd (v : List Char) : Prop := ∃ r ∈ d, (r.rel = ['~'] ∧ r.rhs ≠ ['1']) ∧ r.lhs = v
def isExo (v : List Char) : Prop :=
  (∃ r ∈ d, (r.rel = ['~'] ∧ r.rhs ≠ ['1']) ∧ r.rhs = v) ∧ v ≠ ['1']
def isReg (v : List Char) : Prop := isEnd d v ∨ isExo d v
/-- observed variables that need a dummy latent. -/
def isLvo (v : List Char) : Prop := isReg d v ∧ ¬ isNob d v
/-- all "latent" variables, true or dummy. -/
def isLav (v : List Char) : Prop := isLvo d v ∨ isNob d v
def isLox (v : List Char) : Prop := isLav d v ∧ ¬ (isNob d v ∨ isEnd d v ∨ isInd d v)
def isLoy (v : List Char) : Prop := isLav d v ∧ ¬ (isNob d v ∨ isExo d v ∨ isInd d v)
def isLvx (v : List Char) : Prop := isNob d v ∧ ¬ (isInd d v ∨ isEnd d v)
def isEnx (v : List Char) : Prop := isEnd d v ∧ ¬ isExo d v
def isOnx (v : List Char) : Prop := isObs d v ∧ ¬ isLox d v

instance (v : List Char) : Decidable (isAll d v) := by unfold isAll; infer_instance
instance (v : List Char) : Decidable (isNob d v) := by unfold isNob; infer_instance
instance (v : List Char) : Decidable (isObs d v) := by unfold isObs; infer_instance
instance (v : List Char) : Decidable (isInd d v) := by unfold isInd; infer_instance
instance (v : List Char) : Decidable (isEnd d v) := by unfold isEnd; infer_instance
instance (v : List Char) : Decidable (isExo d v) := by unfold isExo; infer_instance
instance (v : List Char) : Decidable (isReg d v) := by unfold isReg; infer_instance
instance (v : List Char) : Decidable (isLvo d v) := by unfold isLvo; infer_instance
instance (v : List Char) : Decidable (isLav d v) := by unfold isLav; infer_instance
instance (v : List Char) : Decidable (isLox d v) := by unfold isLox; infer_instance

end classify

end Verif.Sem
