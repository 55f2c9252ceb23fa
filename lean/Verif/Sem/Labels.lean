import Mathlib.Data.Nat.Digits.Defs
import Mathlib.Data.Nat.Digits.Lemmas
import Mathlib.Data.List.Lex
import Mathlib.Data.Char
import Verif.Sem.Share

/-!
Model of the labels by which `reduce_parameters` decides what is shared between groups: pysem2/model_base.py 427-441, the same code in
pysem/param_table.py 501-523 and in `add_matrix_equalities` of pysem/multigroup.py 196-212.  Texts are lists of characters.
-/

namespace Verif.Sem.Labels

/-- A row of the table of free parameters: the text before `*` in the formula, the matrix, the group and the three names. -/
structure LRow where
  mod : Option (List Char)
  mat : ℕ
  group : ℕ
  lhs : List Char
  rel : List Char
  rhs : List Char

/-- `astype(str)` of a group number. -/
def natText (n : ℕ) : List Char := if n = 0 then ['0'] else (Nat.digits 10 n).reverse.map Nat.digitChar

/-- `agg(' '.join, axis=1)`. -/
def joinSp : List (List Char) → List Char
  | [] => []
  | [w] => w
  | w :: v :: l => w ++ ' ' :: joinSp (v :: l)

/-- Step `i` of the loop for one row with its present label — model_base.py 433-441. -/
def stepLabel (shared : ℕ → Bool) (i : ℕ) (r : LRow) (lab : Option (List Char)) : Option (List Char) :=
  if r.mat = i then
    let lab' := if shared i then lab else lab.map fun m => joinSp [natText r.group, m]
    let text := if shared i then joinSp [r.lhs, r.rel, r.rhs] else joinSp [natText r.group, r.lhs, r.rel, r.rhs]
    some (lab'.getD text)
  else lab

/-- The column `label` after the loop — model_base.py 431-441. -/
def labelCol (shared : ℕ → Bool) (rows : List LRow) : List (Option (List Char)) :=
  (List.range 6).foldl (fun col i => List.zipWith (stepLabel shared i) rows col) (rows.map LRow.mod)

/-- The labels as texts. -/
def labelTexts (shared : ℕ → Bool) (rows : List LRow) : List (List Char) := (labelCol shared rows).map (Option.getD · [])

end Verif.Sem.Labels
