import Verif.Transf.CovCorr
import Verif.Transf.CorrChol
import Verif.Transf.Uchol
import Mathlib.Analysis.SpecialFunctions.Artanh
/-!
# Model of `OffDiagMask`, `TanhTransform` and `CholeskyCov` — param_transforms.py 505-545, 815-881

Assignment through an index array without repetitions, `y[ij] = v`, is written with the position of
`p` in `ij`.
-/
namespace Verif.Transf
open Real

/-- `x[ij]`. -/
def gatherN (ij : List ℕ) (x : ℕ → ℝ) : ℕ → ℝ := fun k => x (ij.getD k 0)

/-- `y = x.copy(); y[ij] = v`. -/
def maskSet (ij : List ℕ) (x v : ℕ → ℝ) : ℕ → ℝ := fun p => if p ∈ ij then v (ij.idxOf p) else x p

/-- `OffDiagMask._fwd` / `_rvs` around the method `f` of the inner transform. -/
def odMap (n : ℕ) (f : (ℕ → ℝ) → ℕ → ℝ) (x : ℕ → ℝ) : ℕ → ℝ :=
  maskSet (trilInds n) x (f (gatherN (trilInds n) x))

/-- `A[np.ix_(l, l)] = v`. -/
def ixSet2 (l : List ℕ) (A v : ℕ → ℕ → ℝ) : ℕ → ℕ → ℝ :=
  fun p q => if p ∈ l ∧ q ∈ l then v (l.idxOf p) (l.idxOf q) else A p q

/-- `OffDiagMask._jac_fwd` / `_jac_rvs`. -/
def odJac (n : ℕ) (J : (ℕ → ℝ) → ℕ → ℕ → ℝ) (x : ℕ → ℝ) : ℕ → ℕ → ℝ :=
  let ii := diagInds n
  let ij := trilInds n
  let d := ixSet2 ij (fun _ _ => 0) (J (gatherN ij x))
  ixSet2 ii d fun a b => if a = b then 1 else 0

/-- `OffDiagMask._hess_fwd` / `_hess_rvs`. -/
def odHess (n : ℕ) (H : (ℕ → ℝ) → ℕ → ℕ → ℕ → ℝ) (x : ℕ → ℝ) : ℕ → ℕ → ℕ → ℝ :=
  let ij := trilInds n
  fun p q r => if p ∈ ij ∧ q ∈ ij ∧ r ∈ ij then
    H (gatherN ij x) (ij.idxOf p) (ij.idxOf q) (ij.idxOf r) else 0

/-- `OffDiagMask` around a method on lists that may raise (the correlation Cholesky). -/
def odMapO (n : ℕ) (f : List ℝ → Option (List ℝ)) (x : ℕ → ℝ) : Option (ℕ → ℝ) := do
  let v ← f ((trilInds n).map x)
  return maskSet (trilInds n) x fun k => v.getD k 0

/-- `TanhTransform._fwd`: `np.arctanh`. -/
noncomputable def tanhFwd (x : ℕ → ℝ) : ℕ → ℝ := fun k => artanh (x k)

/-- `TanhTransform._rvs`. -/
noncomputable def tanhRvs (y : ℕ → ℝ) : ℕ → ℝ := fun k => tanh (y k)

/-- An array as an integer-indexed one. -/
def zArr (x : ℕ → ℝ) : ℤ → ℝ := fun k => x k.toNat

/-- `unconstrained_chol.fwd` on an array of length `m`. -/
noncomputable def ucFwdN (m : ℕ) (x : ℕ → ℝ) : ℕ → ℝ := fun k => ucFwd m (zArr x) k

/-- `unconstrained_chol.rvs`. -/
noncomputable def ucRvsN (m : ℕ) (x : ℕ → ℝ) : ℕ → ℝ := fun k => ucRvs m (zArr x) k

/-- `CholeskyCov._fwd`: the composition of 861-881. -/
noncomputable def cholCovFwd (chol : ℕ → (ℕ → ℕ → ℝ) → Option (ℕ → ℕ → ℝ)) (n : ℕ) (x : ℕ → ℝ) :
    Option (ℕ → ℝ) := do
  let m := (trilInds n).length
  let y := ccFwd n x
  let z ← odMapO n (corrFwd chol) y
  let w := odMap n (ucFwdN m) z
  let v := odMap n tanhFwd w
  return lsFwd n v

/-- `CholeskyCov._rvs`. -/
noncomputable def cholCovRvs (n : ℕ) (u : ℕ → ℝ) : Option (ℕ → ℝ) := do
  let m := (trilInds n).length
  let v := lsRvs n u
  let w := odMap n tanhRvs v
  let z := odMap n (ucRvsN m) w
  let y ← odMapO n corrRvs z
  return ccRvs n y

end Verif.Transf
