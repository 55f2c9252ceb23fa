import Verif.Gam.Setup

/-!
Model of `get_parametric_formula` and of the search for terms in `parse_smooths`
(`pystatsm/pygam/smooth_setup.py`, lines 15-56).  Strings are lists of characters; a regular
expression search is a scan with a number of characters still to skip.
-/

namespace Verif.Gam

/-- Neither parenthesis: `[^()]`. -/
def inner (c : Char) : Bool := c != '(' && c != ')'

/-- `[+\-]`. -/
def isOp (c : Char) : Bool := c == '+' || c == '-'

/-- The match of `s\([^()]*\)` at the beginning of a string. -/
def matchS : List Char → Option (List Char)
  | 's' :: '(' :: l =>
    let i := l.takeWhile inner
    match l.dropWhile inner with
    | ')' :: _ => some ('s' :: '(' :: (i ++ [')']))
    | _ => none
  | _ => none

/-- `re.findall(r"s\([^()]*\)", frm)` (line 47). -/
def findS : ℕ → List Char → List (List Char)
  | _, [] => []
  | k + 1, _ :: l => findS k l
  | 0, c :: l => match matchS (c :: l) with
    | some m => m :: findS (m.length - 1) l
    | none => findS 0 l

/-- `frm.replace(x, "")` for a nonempty `x` (line 48). -/
def remove (x : List Char) : ℕ → List Char → List Char
  | _, [] => []
  | k + 1, _ :: l => remove x k l
  | 0, c :: l => if x.isPrefixOf (c :: l) then remove x (x.length - 1) l else c :: remove x 0 l

/-- `re.sub(r"[+\-]{2,}", lambda m: m.group()[-1], frm)` (line 49): a run of operators becomes its last. -/
def collapse : List Char → List Char
  | [] => []
  | [c] => [c]
  | c :: d :: l => if isOp c && isOp d then collapse (d :: l) else c :: collapse (d :: l)

/-- `re.sub(r"~[+\-]+", "~", frm)` (line 50); the flag says that a run after `~` is being removed. -/
def afterTilde : Bool → List Char → List Char
  | _, [] => []
  | b, c :: l => if b && isOp c then afterTilde true l else c :: afterTilde (c == '~') l

/-- `re.sub(r"[+\-]+$", "", frm)` (line 51). -/
def trimEnd (l : List Char) : List Char := (l.reverse.dropWhile isOp).reverse

/-- Lines 52-55: `1` when nothing follows the tilde. -/
def finish (l : List Char) : List Char := if l.getLast? = some '~' then l ++ ['1'] else l

/-- `get_parametric_formula` (lines 45-56). -/
def parametric (formula : List Char) : List Char :=
  let frm := formula.filter fun c => !c.isWhitespace
  let frm := (findS 0 frm).foldl (fun f x => remove x 0 f) frm
  finish (trimEnd (afterTilde false (collapse frm)))

/-- The texts found by `re.findall("(?<=s[(])(.*?)(?=[)])", formula)` (line 17): `a`, `b` are the two
characters before. -/
def findArgs : ℕ → Char → Char → List Char → List (List Char)
  | _, _, _, [] => []
  | k + 1, _, b, c :: l => findArgs k b c l
  | 0, a, b, c :: l =>
    if a = 's' ∧ b = '(' ∧ ')' ∈ c :: l then
      let m := (c :: l).takeWhile (· != ')')
      m :: findArgs (m.length - 1) b c l
    else findArgs 0 b c l

/-- `smooths[var] = smooth_info` for the terms in order (line 42); the values are the rest of the arguments. -/
def smoothDict (terms : List (String × String)) : List (String × String) := terms.foldl (fun d t => dset d t.1 t.2) []

end Verif.Gam
