import Verif.Transf.CorrChol
import Verif.Transf.CovCorr
import Verif.Lin.Dchol
/-!
# Model of the derivatives of `CorrCholesky` — param_transforms.py 784-810

`np.linalg.inv` is a parameter (`none` for the `LinAlgError`).  The elimination matrix `E = lmat(n)`
has a single one per row, in column `lmatCols n`, so `E.dot(A)` selects rows of `A`, and
`E.tocoo().col` is that list (the columns increase with the row).
-/
namespace Verif.Transf
open Verif.Np Verif.Vec Verif.Index Verif.Lin Real

/-- An array of length `m` as a list. -/
def listN (m : ℕ) (x : ℕ → ℝ) : List ℝ := (List.range m).map x

/-- `unit_matrices(n)[0]`. -/
def unitM (n : ℕ) : ℕ → ℕ → ℕ → ℝ := unitMat (trilIndices n 0 true)

/-- `CorrCholesky._jac_fwd` (784-789). -/
noncomputable def corrJacFwd (n : ℕ) (x : List ℝ) : Option (ℕ → ℕ → ℝ) := do
  let M ← invecl x
  let s ← dchol 1 n (matSizeToHvSize n) M.2 (unitM n) fun _ _ _ _ => 0
  let dL := fun f q => s.dL (f % n) (f / n) q
  let EdL := fun p q => dL ((lmatCols n).getD p 0) q
  return fun a b => EdL ((trilInds n).getD a 0) ((trilInds n).getD b 0)

/-- `CorrCholesky._hess_fwd` (796-803). -/
noncomputable def corrHessFwd (n : ℕ) (x : List ℝ) : Option (ℕ → ℕ → ℕ → ℝ) := do
  let M ← invecl x
  let s ← dchol 2 n (matSizeToHvSize n) M.2 (unitM n) fun _ _ _ _ => 0
  let d2L := fun f p q => s.d2L (f % n) (f / n) p q
  let d2L := fun r p q => d2L ((lmatCols n).getD r 0) p q
  return fun a b c => d2L ((trilInds n).getD a 0) ((trilInds n).getD b 0) ((trilInds n).getD c 0)

/-- `CorrCholesky._jac_rvs` (791-794). -/
noncomputable def corrJacRvs (inv : ℕ → (ℕ → ℕ → ℝ) → Option (ℕ → ℕ → ℝ)) (n : ℕ) (y : List ℝ) :
    Option (ℕ → ℕ → ℝ) := do
  let x ← corrRvs y
  let J ← corrJacFwd n x
  inv (trilInds n).length J

/-- `CorrCholesky._hess_rvs` (805-810). -/
noncomputable def corrHessRvs (inv : ℕ → (ℕ → ℕ → ℝ) → Option (ℕ → ℕ → ℝ)) (n : ℕ) (y : List ℝ) :
    Option (ℕ → ℕ → ℕ → ℝ) := do
  let x ← corrRvs y
  let H ← corrHessFwd n x
  let G ← corrJacRvs inv n y
  let R := Finset.range (trilInds n).length
  return fun i j k => ∑ r ∈ R, ∑ s ∈ R, ∑ t ∈ R, -H r s t * G i r * G s j * G t k

end Verif.Transf
