import Mathlib.Analysis.SpecialFunctions.Pow.Real
/-!
# Model of the Cholesky row updates — linalg_operations.py 249-284, pyglmnet/lars.py 25-51
-/
namespace Verif.Lin
open Real Finset

/-- `scipy.linalg.solve_triangular(L[:i,:i], x, lower=True)` by forward substitution: the entry
`r` of the result from the earlier ones. `none` stands for `LinAlgError` (a zero pivot). -/
noncomputable def solveLower (L : ℕ → ℕ → ℝ) (x : ℕ → ℝ) : ℕ → Option (ℕ → ℝ)
  | 0 => some fun _ => 0
  | i + 1 => do
    let b ← solveLower L x i
    if L i i = 0 then none
    else some fun r => if r = i then (x i - ∑ c ∈ range i, L i c * b c) / L i i else b r

/-- `add_chol_row(A, L, i)` (249-260). `sqrt` of a negative number is a NaN: `none`. -/
noncomputable def addCholRow (A L : ℕ → ℕ → ℝ) (i : ℕ) : Option (ℕ → ℕ → ℝ) := do
  let b ← solveLower L (A i) i
  let L1 : ℕ → ℕ → ℝ := fun r c => if r = i ∧ c < i then b c else L r c
  let s := ∑ c ∈ range i, b c * b c
  if A i i - s < 0 then none
  else some fun r c => if r = i ∧ c = i then sqrt (A i i - s) else L1 r c

/-- `chol_update(L, xtx, x, i)` of lars.py (25-35). -/
noncomputable def lnCholUpdate (L : ℕ → ℕ → ℝ) (xtx : ℝ) (x : ℕ → ℝ) (i : ℕ) :
    Option (ℕ → ℕ → ℝ) :=
  if 0 < i then do
    let r ← solveLower L x i
    let q := xtx - ∑ c ∈ range i, (r c) ^ 2
    if q < 0 then none
    else
      let rpp := sqrt q
      let L1 : ℕ → ℕ → ℝ := fun a c => if a = i ∧ c < i then r c else L a c
      some fun a c => if a = i ∧ c = i then rpp else L1 a c
  else if xtx < 0 then none
  else some fun a c => if a = i ∧ c = i then sqrt xtx else L a c

/-- One pass of the loop of `chol_downdate` (269-279). The function is compiled by numba, whose
scalar division raises `ZeroDivisionError`: `none`. -/
noncomputable def downStep (n : ℕ) (L1 : ℕ → ℕ → ℝ) (t : ℕ) : Option (ℕ → ℕ → ℝ) :=
  let a := L1 t t
  let b := L1 t (t + 1)
  let v := sqrt (a ^ 2 + b ^ 2)
  if v = 0 then none else
    let c := a / v
    let s := b / v
    let L2 : ℕ → ℕ → ℝ := fun i j =>
      if t ≤ i ∧ i < n - 1 ∧ j = t then c * L1 i t + s * L1 i (t + 1)
      else if t ≤ i ∧ i < n - 1 ∧ j = t + 1 then c * L1 i (t + 1) - s * L1 i t
      else L1 i j
    some fun i j => if i = t ∧ j = t then v else if i = t ∧ j = t + 1 then 0 else L2 i j

/-- The row selection `L.copy()[np.arange(n) != k]`. -/
def skip (k i : ℕ) : ℕ := if i < k then i else i + 1

/-- `chol_downdate(L, k)` (264-284), `k < n`. -/
noncomputable def cholDowndate (n : ℕ) (L : ℕ → ℕ → ℝ) (k : ℕ) : Option (ℕ → ℕ → ℝ) := do
  let L1 ← (List.range' k (n - 1 - k)).foldlM (downStep n) (fun i j => L (skip k i) j)
  some fun i j => if i < n - 1 ∧ j < n - 1 then L1 i j else L i j

end Verif.Lin
