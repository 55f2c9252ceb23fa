import Mathlib.Analysis.SpecialFunctions.Log.Basic
import Mathlib.Analysis.SpecialFunctions.Exp
import Mathlib.Data.Real.Sqrt
import Mathlib.Data.Real.Sign
import Mathlib.LinearAlgebra.Matrix.Determinant.Basic

/-!
Model of `scalar_truncnorm`, `multivariate_t` and `_special_ortho` in `pystatsm/utilities/random.py`.

The draws are arguments.  A rejection loop is the search for the first accepted pair `(e, u)` of raw draws: `e` is the standard normal, the
standard exponential or the standard uniform draw of the proposal, `u` the standard exponential draw of the acceptance step.
`np.random.normal(m, s)` is `m + s * e` and `np.random.uniform(a, b)` is `a + (b - a) * e`.
-/

namespace Verif.Rand

/-- The first accepted proposal. -/
noncomputable def firstOk (prop : ℝ → ℝ) (acc : ℝ → ℝ → Prop) : List (ℝ × ℝ) → Option ℝ
  | [] => none
  | (e, u) :: l => open Classical in if acc (prop e) u then some (prop e) else firstOk prop acc l

/-- `alpha` (line 143). -/
noncomputable def trAlpha (tr : ℝ) : ℝ := (tr + √(tr * tr + 4)) / 2

/-- `pz` of the exponential proposal (line 146). -/
noncomputable def pzExp (alpha z : ℝ) : ℝ := -((alpha - z) * (alpha - z) / 2)

/-- `pz` of the uniform proposal (lines 164-170). -/
noncomputable def pzUnif (sl su z : ℝ) : ℝ :=
  open Classical in
  if sl ≤ 0 ∧ 0 ≤ su then -z * z / 2 else if su < 0 then (su * su - z * z) / 2 else (sl * sl - z * z) / 2

/-- `tr` of the one-sided case (lines 133-136). -/
noncomputable def oneTr (mu sd lb ub : ℝ) : ℝ := open Classical in if 1e16 < ub then (lb - mu) / sd else (mu - ub) / sd

/-- `z` (lines 128-173); `cdf` is `norm_cdf`. -/
noncomputable def truncZ (cdf : ℝ → ℝ) (mu sd lb ub : ℝ) (draws : List (ℝ × ℝ)) : Option ℝ :=
  open Classical in
  if lb < -1e16 ∨ 1e16 < ub then
    if lb < -1e16 ∧ 1e16 < ub then firstOk (fun e => mu + sd * e) (fun _ _ => True) draws
    else
      let tr := oneTr mu sd lb ub
      if tr < 0 then firstOk id (fun z _ => tr < z) draws
      else
        let alpha := trAlpha tr
        firstOk (fun e => 1 / alpha * e + tr) (fun z u => -u ≤ pzExp alpha z) draws
  else
    let sl := (lb - mu) / sd
    let su := (ub - mu) / sd
    let tr := cdf su - cdf sl
    if 0.5 < tr then firstOk id (fun z _ => sl < z ∧ z < su) draws
    else firstOk (fun e => sl + (su - sl) * e) (fun z u => -u < pzUnif sl su z) draws

/-- `scalar_truncnorm(mu, sd, lb, ub)` (lines 127-177). -/
noncomputable def scalarTrunc (cdf : ℝ → ℝ) (mu sd lb ub : ℝ) (draws : List (ℝ × ℝ)) : Option ℝ := do
  let z ← truncZ cdf mu sd lb ub draws
  pure (open Classical in if lb < -1e16 then mu - z * sd else z * sd + mu)

/-- A row of `multivariate_t` (lines 197-202): `u` is the root of `nu` over the chi-square draw and `e` the centred normal draw, so that
`multivariate_normal` gives `mean + e`. -/
def multT (mean e : ℕ → ℝ) (u : ℝ) (j : ℕ) : ℝ := mean j + u * (mean j + e j)

section
open Matrix
variable {dim : ℕ}

/-- `x` after line 262: the first entry is shifted by the signed length; `m` is the length of `x`. -/
noncomputable def houseVec (m : ℕ) (x : ℕ → ℝ) (k : ℕ) : ℝ :=
  if k = 0 then x 0 - Real.sign (x 0) * √(∑ i ∈ Finset.range m, x i * x i) else x k

/-- `mat` (lines 263-265) for `n = n0 + 1`: the reflection `Hx` in the lower right block. -/
noncomputable def houseMat (dim n0 : ℕ) (x : ℕ → ℝ) : Matrix (Fin dim) (Fin dim) ℝ :=
  let v := houseVec (dim - n0) x
  let ss := ∑ k ∈ Finset.range (dim - n0), v k * v k
  of fun i j => if n0 ≤ (i : ℕ) ∧ n0 ≤ (j : ℕ) then (if i = j then 1 else 0) - 2 * (v (i - n0) * v (j - n0)) / ss
    else if i = j then 1 else 0

/-- `H` after the loop over the first `m` values of `n` (lines 257-266). -/
noncomputable def houseProd (dim : ℕ) (x : ℕ → ℕ → ℝ) : ℕ → Matrix (Fin dim) (Fin dim) ℝ
  | 0 => 1
  | m + 1 => houseProd dim x m * houseMat dim m (x m)

/-- `D` (lines 258, 261, 267). -/
noncomputable def signD (dim : ℕ) (x : ℕ → ℕ → ℝ) (i : ℕ) : ℝ :=
  let D0 : ℕ → ℝ := fun i => if i < dim - 1 then Real.sign (x i 0) else 1
  if i = dim - 1 then (-1) ^ (1 - dim % 2) * ∏ k ∈ Finset.range dim, D0 k else D0 i

/-- `_special_ortho(dim)` (lines 255-269). -/
noncomputable def specialOrtho (dim : ℕ) (x : ℕ → ℕ → ℝ) : Matrix (Fin dim) (Fin dim) ℝ :=
  let H := houseProd dim x (dim - 1)
  of fun i j => signD dim x i * H i j

end

end Verif.Rand
