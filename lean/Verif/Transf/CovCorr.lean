import Verif.Vec.Model
import Mathlib.Analysis.SpecialFunctions.Log.Basic
import Mathlib.Analysis.SpecialFunctions.Pow.Real
/-!
# Model of `CovCorr` and `LogScale` — param_transforms.py 605-747 (same code in cov_transform.py)

Arrays are functions of the index; index arrays that are only indexed elementwise are functions,
index arrays produced by `np.where` and permutation lists are lists.
-/
namespace Verif.Transf
open Verif.Np Verif.Vec Real

/-- `row_inds` of `hv_indices((n, n))`: `_vech` of `np.indices`. -/
def hvRow (n p : ℕ) : ℕ := (vech (fun i _ => i) n).getD p 0

/-- `col_inds`. -/
def hvCol (n p : ℕ) : ℕ := (vech (fun _ j => j) n).getD p 0

/-- `diag_inds, = np.where(row_inds == col_inds)`. -/
def diagInds (n : ℕ) : List ℕ :=
  (List.range (matSizeToHvSize n)).filter fun p => decide (hvRow n p = hvCol n p)

/-- `tril_inds, = np.where(row_inds != col_inds)`. -/
def trilInds (n : ℕ) : List ℕ :=
  (List.range (matSizeToHvSize n)).filter fun p => decide (hvRow n p ≠ hvCol n p)

/-- `row_diag_inds = diag_inds[row_inds]`. -/
def rowDiag (n p : ℕ) : ℕ := (diagInds n).getD (hvRow n p) 0

/-- `col_diag_inds = diag_inds[col_inds]`. -/
def colDiag (n p : ℕ) : ℕ := (diagInds n).getD (hvCol n p) 0

/-- Positions selected by the mask `ii = row_diag_inds != col_diag_inds`. -/
def offInds (n : ℕ) : List ℕ :=
  (List.range (matSizeToHvSize n)).filter fun p => decide (rowDiag n p ≠ colDiag n p)

/-- `np.vstack((a, b)).T[ii].flatten()`. -/
def stackOff {α : Type*} (n : ℕ) (a b : ℕ → α) : List α := (offInds n).flatMap fun p => [a p, b p]

/-- `dr_perm`. -/
def drPerm (n : ℕ) : List ℕ := stackOff n (colDiag n) (rowDiag n)

/-- `dc_perm = np.repeat(tril_inds, 2)`. -/
def dcPerm (n : ℕ) : List ℕ := (trilInds n).flatMap fun p => [p, p]

/-- `CovCorr._fwd`. -/
noncomputable def ccFwd (n : ℕ) (x : ℕ → ℝ) : ℕ → ℝ := fun p =>
  let sj := sqrt (x (rowDiag n p))
  let sk := sqrt (x (colDiag n p))
  if p ∈ diagInds n then x p else x p / (sj * sk)

/-- `CovCorr._rvs`. -/
noncomputable def ccRvs (n : ℕ) (y : ℕ → ℝ) : ℕ → ℝ := fun p =>
  let sj := sqrt (y (rowDiag n p))
  let sk := sqrt (y (colDiag n p))
  if p ∈ diagInds n then y p else y p * sj * sk

/-- The three fancy assignments shared by the two Jacobians. -/
def ccJac (n : ℕ) (t1 t2 t3 : ℕ → ℝ) : ℕ → ℕ → ℝ :=
  let t := stackOff n t3 t2
  let d : ℕ → ℕ → ℝ := fun _ _ => 0
  let d := scatter2 d ((diagInds n).zip (diagInds n)) ((diagInds n).map fun _ => 1)
  let d := scatter2 d ((trilInds n).zip (trilInds n)) ((trilInds n).map t1)
  scatter2 d ((dcPerm n).zip (drPerm n)) t

/-- `CovCorr._jac_fwd`. -/
noncomputable def ccJacFwd (n : ℕ) (x : ℕ → ℝ) : ℕ → ℕ → ℝ :=
  let sj := fun p => sqrt (x (rowDiag n p))
  let sk := fun p => sqrt (x (colDiag n p))
  ccJac n (fun p => 1 / (sj p * sk p)) (fun p => -1 / 2 * x p / (sj p ^ 3 * sk p))
    (fun p => -1 / 2 * x p / (sk p ^ 3 * sj p))

/-- `CovCorr._jac_rvs`. -/
noncomputable def ccJacRvs (n : ℕ) (y : ℕ → ℝ) : ℕ → ℕ → ℝ :=
  let sj := fun p => sqrt (y (rowDiag n p))
  let sk := fun p => sqrt (y (colDiag n p))
  ccJac n (fun p => sj p * sk p) (fun p => 1 / 2 * y p * sk p / sj p)
    (fun p => 1 / 2 * y p * sj p / sk p)

/-- `H[a, b, c] = v`. -/
def put3 (H : ℕ → ℕ → ℕ → ℝ) (a b c : ℕ) (v : ℝ) : ℕ → ℕ → ℕ → ℝ :=
  fun a' b' c' => if a' = a ∧ b' = b ∧ c' = c then v else H a' b' c'

/-- Body of the Hessian loops: the five second derivatives of component `i` are functions of the
three values at `i`, `j = row_diag_inds[i]` and `k = col_diag_inds[i]`. -/
def ccHessStep (n : ℕ) (x : ℕ → ℝ) (dij dik djj djk dkk : ℝ → ℝ → ℝ → ℝ)
    (H : ℕ → ℕ → ℕ → ℝ) (i : ℕ) : ℕ → ℕ → ℕ → ℝ :=
  let j := rowDiag n i
  let k := colDiag n i
  if j ≠ k then
    let xi := x i
    let xj := x j
    let xk := x k
    let H := put3 H i i j (dij xi xj xk)
    let H := put3 H i j i (dij xi xj xk)
    let H := put3 H i i k (dik xi xj xk)
    let H := put3 H i k i (dik xi xj xk)
    let H := put3 H i j j (djj xi xj xk)
    let H := put3 H i j k (djk xi xj xk)
    let H := put3 H i k j (djk xi xj xk)
    put3 H i k k (dkk xi xj xk)
  else H

/-- The loop shared by the two Hessians. -/
def ccHess (n : ℕ) (x : ℕ → ℝ) (dij dik djj djk dkk : ℝ → ℝ → ℝ → ℝ) : ℕ → ℕ → ℕ → ℝ :=
  (List.range (matSizeToHvSize n)).foldl (ccHessStep n x dij dik djj djk dkk) fun _ _ _ => 0

/-- `CovCorr._hess_fwd`. -/
noncomputable def ccHessFwd (n : ℕ) (x : ℕ → ℝ) : ℕ → ℕ → ℕ → ℝ :=
  ccHess n x
    (fun _ xj xk => - xk / (2 * sqrt (xj * xk) ^ 3))
    (fun _ xj xk => - xj / (2 * sqrt (xj * xk) ^ 3))
    (fun xi xj xk => 3 * xi * xk ^ 2 / (4 * sqrt (xj * xk) ^ 5))
    (fun xi xj xk => 3 * xi * xj * xk / (4 * sqrt (xj * xk) ^ 5) - xi / (2 * sqrt (xj * xk) ^ 3))
    (fun xi xj xk => 3 * xi * xj ^ 2 / (4 * sqrt (xj * xk) ^ 5))

/-- `CovCorr._hess_rvs`. -/
noncomputable def ccHessRvs (n : ℕ) (y : ℕ → ℝ) : ℕ → ℕ → ℕ → ℝ :=
  ccHess n y
    (fun _ yj yk => sqrt yk / (2 * sqrt yj))
    (fun _ yj yk => sqrt yj / (2 * sqrt yk))
    (fun yi yj yk => (- yi * sqrt yk) / (4 * sqrt yj ^ 3))
    (fun yi yj yk => yi / (4 * sqrt (yj * yk)))
    (fun yi yj yk => (- yi * sqrt yj) / (4 * sqrt yk ^ 3))

/-- `LogScale._fwd`. -/
noncomputable def lsFwd (n : ℕ) (x : ℕ → ℝ) : ℕ → ℝ :=
  fun p => if p ∈ diagInds n then log (x p) else x p

/-- `LogScale._rvs`. -/
noncomputable def lsRvs (n : ℕ) (y : ℕ → ℝ) : ℕ → ℝ :=
  fun p => if p ∈ diagInds n then exp (y p) else y p

/-- `LogScale._jac_fwd`: identity with the diagonal positions overwritten. -/
noncomputable def lsJacFwd (n : ℕ) (x : ℕ → ℝ) : ℕ → ℕ → ℝ :=
  scatter2 (fun p q => if p = q then 1 else 0) ((diagInds n).zip (diagInds n))
    ((diagInds n).map fun p => 1 / x p)

/-- `LogScale._jac_rvs`. -/
noncomputable def lsJacRvs (n : ℕ) (y : ℕ → ℝ) : ℕ → ℕ → ℝ :=
  scatter2 (fun p q => if p = q then 1 else 0) ((diagInds n).zip (diagInds n))
    ((diagInds n).map fun p => exp (y p))

/-- `H[ix, ix, ix] = v[ix]`. -/
def put3s (l : List ℕ) (v : ℕ → ℝ) : ℕ → ℕ → ℕ → ℝ :=
  l.foldl (fun H p => put3 H p p p (v p)) fun _ _ _ => 0

/-- `LogScale._hess_fwd`. -/
noncomputable def lsHessFwd (n : ℕ) (x : ℕ → ℝ) : ℕ → ℕ → ℕ → ℝ :=
  put3s (diagInds n) fun p => -1 / x p ^ 2

/-- `LogScale._hess_rvs`. -/
noncomputable def lsHessRvs (n : ℕ) (y : ℕ → ℝ) : ℕ → ℕ → ℕ → ℝ :=
  put3s (diagInds n) fun p => exp (y p)

end Verif.Transf
