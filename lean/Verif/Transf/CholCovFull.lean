import Verif.Transf.CorrCholDeriv
import Verif.Transf.CholCov
import Verif.Transf.Compose
import Verif.Transf.Ordered
/-!
# Model of `CholeskyCov` as a `ComposedTransform` of six-method stages — param_transforms.py 861-881

The two methods that can raise (`np.linalg.cholesky`, `np.linalg.inv`) are totalised with zero arrays
here; the theorems show they do not raise on the domain.
-/
namespace Verif.Transf

/-- `_fwd` of `CorrCholesky` on packed arrays. -/
noncomputable def fwdV (chol : ℕ → (ℕ → ℕ → ℝ) → Option (ℕ → ℕ → ℝ)) (n : ℕ) (x : ℕ → ℝ) : ℕ → ℝ :=
  fun k => ((corrFwd chol (listN (trilInds n).length x)).getD []).getD k 0

/-- `_rvs` of `CorrCholesky`. -/
noncomputable def rvsV (n : ℕ) (y : ℕ → ℝ) : ℕ → ℝ :=
  fun k => ((corrRvs (listN (trilInds n).length y)).getD []).getD k 0

/-- `_jac_fwd` of `CorrCholesky`. -/
noncomputable def jacFwdV (n : ℕ) (x : ℕ → ℝ) : ℕ → ℕ → ℝ :=
  (corrJacFwd n (listN (trilInds n).length x)).getD fun _ _ => 0

/-- `_hess_fwd` of `CorrCholesky`. -/
noncomputable def hessFwdV (n : ℕ) (x : ℕ → ℝ) : ℕ → ℕ → ℕ → ℝ :=
  (corrHessFwd n (listN (trilInds n).length x)).getD fun _ _ _ => 0

/-- `_jac_rvs` of `CorrCholesky`. -/
noncomputable def jacRvsV (inv : ℕ → (ℕ → ℕ → ℝ) → Option (ℕ → ℕ → ℝ)) (n : ℕ) (y : ℕ → ℝ) :
    ℕ → ℕ → ℝ := (corrJacRvs inv n (listN (trilInds n).length y)).getD fun _ _ => 0

/-- `_hess_rvs` of `CorrCholesky`. -/
noncomputable def hessRvsV (inv : ℕ → (ℕ → ℕ → ℝ) → Option (ℕ → ℕ → ℝ)) (n : ℕ) (y : ℕ → ℝ) :
    ℕ → ℕ → ℕ → ℝ := (corrHessRvs inv n (listN (trilInds n).length y)).getD fun _ _ _ => 0

/-- `OffDiagMask(transform)` (814-857). -/
def odTr (n : ℕ) (t : Tr) : Tr where
  fwd := odMap n t.fwd
  rvs := odMap n t.rvs
  jacF := odJac n t.jacF
  jacR := odJac n t.jacR
  hessF := odHess n t.hessF
  hessR := odHess n t.hessR

/-- `CovCorr(n)`. -/
noncomputable def ccTr (n : ℕ) : Tr where
  fwd := ccFwd n
  rvs := ccRvs n
  jacF := ccJacFwd n
  jacR := ccJacRvs n
  hessF := ccHessFwd n
  hessR := ccHessRvs n

/-- `CorrCholesky(n)`. -/
noncomputable def corrTr (chol inv : ℕ → (ℕ → ℕ → ℝ) → Option (ℕ → ℕ → ℝ)) (n : ℕ) : Tr where
  fwd := fwdV chol n
  rvs := rvsV n
  jacF := jacFwdV n
  jacR := jacRvsV inv n
  hessF := hessFwdV n
  hessR := hessRvsV inv n

/-- `UnconstrainedCholeskyCorr(n)`, with `m` the packed length. -/
noncomputable def ucTr (m : ℕ) : Tr where
  fwd := ucFwdN m
  rvs := ucRvsN m
  jacF x k p := ucJacFwd m (zArr x) k p
  jacR x k p := ucJacRvs m (zArr x) k p
  hessF x k p q := ucHessFwd m (zArr x) k p q
  hessR x k p q := ucHessRvs m (zArr x) k p q

/-- `TanhTransform()` on arrays of length `m`. -/
noncomputable def tanhTr (m : ℕ) : Tr where
  fwd := tanhFwd
  rvs := tanhRvs
  jacF := tanhJacFwd m
  jacR := tanhJacRvs m
  hessF := tanhHessFwd m
  hessR := tanhHessRvs m

/-- `LogScale(n)`. -/
noncomputable def lsTr (n : ℕ) : Tr where
  fwd := lsFwd n
  rvs := lsRvs n
  jacF := lsJacFwd n
  jacR := lsJacRvs n
  hessF := lsHessFwd n
  hessR := lsHessRvs n

/-- The stage list of `CholeskyCov.__init__` (871-878). -/
noncomputable def cholCovTs (chol inv : ℕ → (ℕ → ℕ → ℝ) → Option (ℕ → ℕ → ℝ)) (n : ℕ) : List Tr :=
  [ccTr n, odTr n (corrTr chol inv n), odTr n (ucTr (trilInds n).length),
    odTr n (tanhTr (trilInds n).length), lsTr n]

end Verif.Transf
