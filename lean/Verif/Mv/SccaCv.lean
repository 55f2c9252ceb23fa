import Mathlib.Analysis.SpecialFunctions.Sqrt
import Mathlib.Algebra.BigOperators.Field
import Mathlib.Algebra.Order.BigOperators.Ring.Finset
import Mathlib.Data.Fintype.BigOperators
import Verif.Eln.Fold

/-!
Model of the cross-validation of pyscca/scca.py: `kfold_indices` (41-60), `crossval_mats` (63-113) and `_corr` (117-137), with the standardisation
and the starting matrix of the constructor `SCCA.__init__` (387-396).  A column is a function of the row; `none` is a column of nan.
-/

namespace Verif.Mv.SccaCv

variable {n : ℕ}

/-- `x.mean(axis=0)` of a column. -/
noncomputable def cmean (x : Fin n → ℝ) : ℝ := (∑ i, x i) / n

/-- `x.std(axis=0)` of a column. -/
noncomputable def cstd (x : Fin n → ℝ) : ℝ := √((∑ i, (x i - cmean x) ^ 2) / n)

/-- `x -= x.mean(axis=0); x /= x.std(axis=0)` — 99-108; 132-135; 387-388. -/
noncomputable def stdize (x : Fin n → ℝ) : Option (Fin n → ℝ) :=
  let c := fun i => x i - cmean x
  if cstd c = 0 then none else some fun i => c i / cstd c

/-- An entry of `_corr` — 132-136. -/
noncomputable def corrCol (x y : Fin n → ℝ) : Option ℝ := do
  let a ← stdize x
  let b ← stdize y
  some ((∑ i, a i * b i) / n)

/-- The rows of a fold: `X[ix]`. -/
def rowsOf {m : ℕ} (ix : Fin m → Fin n) (x : Fin n → ℝ) : Fin m → ℝ := fun i => x (ix i)

/-- `Xt[j].dot(wx)` for the columns of a standardised fold — 99-108, 499. -/
noncomputable def foldScore {p : ℕ} (X : Fin p → Fin n → ℝ) (w : Fin p → ℝ) : Option (Fin n → ℝ) :=
  if ∀ j, (stdize (X j)).isSome then some fun i => ∑ j, ((stdize (X j)).getD 0) i * w j else none

/-- `_corr(Xt[j].dot(wx), Yt[j].dot(wy))` for one pair of weights — 499. -/
noncomputable def testCorr {p q : ℕ} (X : Fin p → Fin n → ℝ) (Y : Fin q → Fin n → ℝ) (wx : Fin p → ℝ) (wy : Fin q → ℝ) : Option ℝ := do
  let a ← foldScore X wx
  let b ← foldScore Y wy
  corrCol a b

/-- `self.S = X.T.dot(Y)`: the arguments, not the standardised columns — 392. -/
def startS {p q : ℕ} (X : Fin p → Fin n → ℝ) (Y : Fin q → Fin n → ℝ) (j : Fin p) (k : Fin q) : ℝ := ∑ i, X j i * Y k i

/-- `kfold_indices(n, k)` — 55-60. -/
def folds (n k : ℕ) : Option (List (List ℕ × List ℕ)) := do
  let s ← Verif.Eln.arraySplit (List.range n) k
  Verif.Eln.foldPairs k s

end Verif.Mv.SccaCv
