import Verif.Transf.CovCorr
import Verif.Transf.CholCov
/-!
# Model of the scalar transforms — param_transforms.py 57-97, 256-575

`OrderedTransform`, `LogTransform`, `TanhTransform`, `IdentityTransform` on one-dimensional arrays,
and the vectorising wrapper `_apply_method`.  `OrderedTransform` on an empty array raises (it reads
`x[0]`), so lengths are at least one in the theorems.
-/
namespace Verif.Transf
open Verif.Np Verif.Index Real

/-- `np.cumsum(v)[k]`. -/
noncomputable def cumsumN (v : ℕ → ℝ) : ℕ → ℝ
  | 0 => v 0
  | k + 1 => cumsumN v k + v (k + 1)

/-- `OrderedTransform._rvs`. -/
noncomputable def ordRvs (q : ℕ) (y : ℕ → ℝ) : ℕ → ℝ := fun i =>
  if 1 ≤ i ∧ i < q then cumsumN (fun k => exp (y (k + 1))) (i - 1) + y 0 else y i

/-- `OrderedTransform._fwd`. -/
noncomputable def ordFwd (q : ℕ) (x : ℕ → ℝ) : ℕ → ℝ := fun i =>
  if 1 ≤ i ∧ i < q then log (x i - x (i - 1)) else x i

/-- `np.repeat(v, c)` with counts. -/
def repeatL {α : Type*} (v : List α) (c : List ℕ) : List α :=
  (v.zip c).flatMap fun p => List.replicate p.2 p.1

/-- `OrderedTransform._jac_rvs`. -/
noncomputable def ordJacRvs (q : ℕ) (y : ℕ → ℝ) : ℕ → ℕ → ℝ :=
  let inds := trilIndices q 0 true
  let vals := repeatL (1 :: (List.range' 1 (q - 1)).map fun i => exp (y i))
    ((List.range q).map fun k => q - k)
  scatter2 (fun _ _ => 0) inds vals

/-- `OrderedTransform._hess_rvs`. -/
noncomputable def ordHessRvs (q : ℕ) (y : ℕ → ℝ) : ℕ → ℕ → ℕ → ℝ :=
  let z := fun k => exp (y k)
  (List.range' 1 (q - 1)).foldl (fun H i =>
    (List.range' 1 i).foldl (fun H j => put3 H i j j (z j)) H) fun _ _ _ => 0

/-- `OrderedTransform._jac_fwd`. -/
noncomputable def ordJacFwd (q : ℕ) (x : ℕ → ℝ) : ℕ → ℕ → ℝ :=
  let d := scatter2 (fun _ _ => 0) [(0, 0)] [1]
  let ii := List.range' 1 (q - 1)
  let d := scatter2 d (ii.map fun i => (i, i)) (ii.map fun i => 1 / (x i - x (i - 1)))
  scatter2 d (ii.map fun i => (i, i - 1)) (ii.map fun i => -1 / (x i - x (i - 1)))

/-- Body of the loop of `OrderedTransform._hess_fwd`. -/
noncomputable def ordHessStep (x : ℕ → ℝ) (H : ℕ → ℕ → ℕ → ℝ) (i : ℕ) : ℕ → ℕ → ℕ → ℝ :=
  let H := put3 H i i i (-1 / (x i - x (i - 1)) ^ 2)
  let H := put3 H i (i - 1) (i - 1) (-1 / (x i - x (i - 1)) ^ 2)
  let H := put3 H i i (i - 1) (1 / (x i - x (i - 1)) ^ 2)
  put3 H i (i - 1) i (H i i (i - 1))

/-- `OrderedTransform._hess_fwd`. -/
noncomputable def ordHessFwd (q : ℕ) (x : ℕ → ℝ) : ℕ → ℕ → ℕ → ℝ :=
  (List.range' 1 (q - 1)).foldl (ordHessStep x) fun _ _ _ => 0

/-- `np.diag(v)` of an array of length `n`. -/
def npDiag (n : ℕ) (v : ℕ → ℝ) : ℕ → ℕ → ℝ := fun i j => if i = j ∧ i < n then v i else 0

/-- `hess[arange(n), arange(n), arange(n)] = v`. -/
def hessDiag (n : ℕ) (v : ℕ → ℝ) : ℕ → ℕ → ℕ → ℝ := put3s (List.range n) v

noncomputable def logFwd (x : ℕ → ℝ) : ℕ → ℝ := fun k => log (x k)
noncomputable def logRvs (y : ℕ → ℝ) : ℕ → ℝ := fun k => exp (y k)
noncomputable def logJacFwd (n : ℕ) (x : ℕ → ℝ) := npDiag n fun k => 1 / x k
noncomputable def logJacRvs (n : ℕ) (y : ℕ → ℝ) := npDiag n fun k => exp (y k)
noncomputable def logHessFwd (n : ℕ) (x : ℕ → ℝ) := hessDiag n fun k => -1 / x k ^ 2
noncomputable def logHessRvs (n : ℕ) (y : ℕ → ℝ) := hessDiag n fun k => exp (y k)

noncomputable def tanhJacRvs (n : ℕ) (y : ℕ → ℝ) := npDiag n fun k => 1 - tanh (y k) ^ 2
noncomputable def tanhJacFwd (n : ℕ) (x : ℕ → ℝ) := npDiag n fun k => 1 / (1 - x k ^ 2)
noncomputable def tanhHessRvs (n : ℕ) (y : ℕ → ℝ) :=
  hessDiag n fun k => -2 * tanh (y k) * (1 - tanh (y k) ^ 2)
noncomputable def tanhHessFwd (n : ℕ) (x : ℕ → ℝ) :=
  hessDiag n fun k => 2 * x k / (1 - x k ^ 2) ^ 2

def idFwd (x : ℕ → ℝ) : ℕ → ℝ := x
def idJac (n : ℕ) (_ : ℕ → ℝ) : ℕ → ℕ → ℝ := npDiag n fun _ => 1
def idHess (_ : ℕ → ℝ) : ℕ → ℕ → ℕ → ℝ := fun _ _ _ => 0

/-! ## the wrapper -/

/-- Element types of numpy arrays that matter here. -/
inductive DType
  | float
  | int
  deriving DecidableEq

/-- Storing a real number into an array: floats are kept, integer arrays truncate towards zero. -/
noncomputable def DType.store : DType → ℝ → ℝ
  | .float, v => v
  | .int, v => if 0 ≤ v then (⌊v⌋ : ℝ) else (⌈v⌉ : ℝ)

/-- `_apply_method` on a one-dimensional array: `res = np.empty(shape, dtype=x.dtype)`, then
`res[...] = out`. -/
noncomputable def apply1 (dt : DType) (func : (ℕ → ℝ) → ℕ → ℝ) (x : ℕ → ℝ) : ℕ → ℝ :=
  fun k => dt.store (func x k)

/-- `_apply_method` on a two-dimensional array with `r` rows: the shape is found from the first row,
so an array without rows raises. -/
noncomputable def apply2 (dt : DType) (func : (ℕ → ℝ) → ℕ → ℝ) (r : ℕ) (x : ℕ → ℕ → ℝ) :
    Option (ℕ → ℕ → ℝ) :=
  if r = 0 then none else
  some ((List.range r).foldl (fun res i => fun a k => if a = i then dt.store (func (x i) k) else res a k)
    fun _ _ => 0)

end Verif.Transf
