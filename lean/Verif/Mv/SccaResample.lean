import Verif.Mv.SccaCv
import Verif.Eln.Path

/-!
Model of the penalties and resampling schemes of `pystatsm/pyscca/scca.py`: `make_lambdas` (lines 17-38), the starts and permutations of
`permutation_test` (511-527) and the data of `crossval_mc` (563-565).  The draws are parameters.  Floating point has `1.0 - 1e-16 < 1`; `eps` is the
distance.
-/

namespace Verif.Mv.SccaCv
open Finset

/-- `make_lambdas` — 35-37; `tiny` is `1e-16`. -/
noncomputable def sccaLambdas (tiny eps : ℝ) (num : ℕ) (lmin lmax : ℝ) : List ℝ :=
  (Verif.Eln.linspace (Real.log (max lmin tiny)) (Real.log (min lmax (1 - eps))) num).map Real.exp

/-- `wx` and `wy` — 511-514 and 524-527: the second divisor is computed from the new `wx`. -/
noncomputable def permStart {p q : ℕ} (gx : Fin p → ℝ) (gy : Fin q → ℝ) : (Fin p → ℝ) × (Fin q → ℝ) :=
  let wx := fun j => gx j / √(∑ l, gx l ^ 2)
  let wy := fun k => gy k / √(∑ l, wx l ^ 2)
  (wx, wy)

/-- A column of `X_p` or `Y_p` — 518: rows in the order of a permutation. -/
def permCol {n : ℕ} (s : Equiv.Perm (Fin n)) (x : Fin n → ℝ) : Fin n → ℝ := fun i => x (s i)

/-- The observations that a fold is fitted to and tested on — 563-565: `ix` is the resample, the folds are those of its places. -/
def mcFold (ix : ℕ → ℕ) (f : List ℕ × List ℕ) : List ℕ × List ℕ := (f.1.map ix, f.2.map ix)

end Verif.Mv.SccaCv
