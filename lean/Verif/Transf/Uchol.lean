import Verif.Vec.Model
import Mathlib.Analysis.SpecialFunctions.Pow.Real
/-!
# Model of the stick-breaking transform of Cholesky rows — unconstrained_chol.py 42-229

An array of length `m` is a function on `ℤ` of which only the cells `0, ..., m-1` are used.
All six functions share one loop structure: row `i` from 1, first its cell `(i, 0)`, then the cells
`(i, j)` with a running state; every cell is written once, by its own iteration.  `triLoop` is that
structure, with the value written at a cell and the state update as parameters.  Divisions by `u`
are real divisions (`u > 0` on the domain).  `0.5` is the exact `1/2`.
-/
namespace Verif.Transf
open Verif.Vec Verif.Index Real

/-- `A[k] = v`. -/
def store {α : Type*} (A : ℤ → α) (k : ℤ) (v : α) : ℤ → α := fun p => if p = k then v else A p

/-- The loop `for i in range(1, n)`: cell `(i, 0)`, then `for j in range(1, i)`. -/
def triLoop {α σ : Type*} (n : ℕ) (v0 : ℤ → α) (a0 : ℤ → σ) (val : σ → ℤ → α)
    (next : σ → ℤ → σ) (A : ℤ → α) : ℤ → α :=
  (List.range' 1 (n - 1)).foldl (fun A (i : ℕ) =>
    let k1 := veclIndsForwards i 0 n
    let A := store A k1 (v0 k1)
    ((List.range' 1 (i - 1)).foldl (fun (st : (ℤ → α) × σ) (j : ℕ) =>
      let k2 := veclIndsForwards i j n
      (store st.1 k2 (val st.2 k2), next st.2 k2)) (A, a0 k1)).1) A

/-- `rvs(x)` (50-64). -/
noncomputable def ucRvs (m : ℕ) (x : ℤ → ℝ) : ℤ → ℝ :=
  triLoop (lhvSizeToMatSize m) (fun k => x k) (fun k => x k ^ 2)
    (fun s k => x k * sqrt (1 - s)) (fun s k => s + (x k * sqrt (1 - s)) ^ 2) (fun _ => 0)

/-- `fwd(y)` (142-154). -/
noncomputable def ucFwd (m : ℕ) (y : ℤ → ℝ) : ℤ → ℝ :=
  triLoop (lhvSizeToMatSize m) (fun k => y k) (fun k => y k ^ 2)
    (fun s k => y k / sqrt (1 - s)) (fun s k => s + y k ^ 2) (fun _ => 0)

/-- State of the Jacobian loops: `s` and its gradient. -/
structure JSt where
  s : ℝ
  ds : ℤ → ℝ

/-- Row `J[k2]` in `jac_rvs` (84-88). -/
noncomputable def rvsJRow (x : ℤ → ℝ) (st : JSt) (k : ℤ) : ℤ → ℝ :=
  let t := 1 - st.s
  let u := sqrt t
  let dt := fun q => - st.ds q
  let du := fun q => 1 / 2 * (1 / u) * dt q
  let row := fun q => x k * du q
  fun q => if q = k then row q + u else row q

/-- Unit first row and initial state (77-80). -/
def rowUnit (k : ℤ) : ℤ → ℝ := fun q => if q = k then 1 else 0

noncomputable def jInit (x : ℤ → ℝ) (k : ℤ) : JSt where
  s := x k ^ 2
  ds := fun q => if q = k then 2 * x k else 0

/-- `jac_rvs(x)` (67-93), with `y = rvs(x)`. -/
noncomputable def ucJacRvs (m : ℕ) (x : ℤ → ℝ) : ℤ → ℤ → ℝ :=
  let y := ucRvs m x
  triLoop (lhvSizeToMatSize m) rowUnit (jInit x) (rvsJRow x)
    (fun st k => { s := st.s + y k ^ 2
                   ds := fun q => st.ds q + 2 * y k * rvsJRow x st k q }) (fun _ _ => 0)

/-- Row `J[k2]` in `jac_fwd` (170-175). -/
noncomputable def fwdJRow (y : ℤ → ℝ) (st : JSt) (k : ℤ) : ℤ → ℝ :=
  let t := 1 - st.s
  let u := sqrt t
  let dt := fun q => - st.ds q
  let du := fun q => 1 / 2 * (1 / u) * dt q
  let row := fun q => - y k * du q / u ^ 2
  fun q => if q = k then row q + 1 / u else row q

/-- `jac_fwd(y)` (156-179). -/
noncomputable def ucJacFwd (m : ℕ) (y : ℤ → ℝ) : ℤ → ℤ → ℝ :=
  triLoop (lhvSizeToMatSize m) rowUnit (jInit y) (fwdJRow y)
    (fun st k => { s := st.s + y k ^ 2
                   ds := fun q => if q = k then st.ds q + 2 * y k else st.ds q }) (fun _ _ => 0)

/-- State of the Hessian loops. -/
structure HSt where
  s : ℝ
  ds : ℤ → ℝ
  d2s : ℤ → ℤ → ℝ

noncomputable def hInit (x : ℤ → ℝ) (k : ℤ) : HSt where
  s := x k ^ 2
  ds := fun q => if q = k then 2 * x k else 0
  d2s := fun p q => if p = k ∧ q = k then 2 else 0

/-- Slice `H[k2]` in `hess_rvs` (113-131). -/
noncomputable def rvsHRow (x : ℤ → ℝ) (st : HSt) (k : ℤ) : ℤ → ℤ → ℝ :=
  let t := 1 - st.s
  let u := sqrt t
  let w := 1 / u
  let du_dt := 1 / (2 * u)
  let dw_du := -1 / u ^ 2
  let dw_dt := dw_du * du_dt
  let dt := fun q => - st.ds q
  let dw := fun q => dw_dt * dt q
  let d2t := fun p q => - st.d2s p q
  let du := fun q => 1 / 2 * w * dt q
  let d2u := fun p q => 1 / 2 * (dw p * dt q) + 1 / 2 * w * d2t p q
  let H := fun p q => x k * d2u p q
  let H := fun p q => if p = k then H p q + du q else H p q
  let H := fun p q => if q = k then H p q + du p else H p q
  fun p q => if p = k ∧ q = k then H p q + du k * 2 else H p q

/-- `hess_rvs(x)` (96-139). The rows `J[k2]` are those of `jac_rvs`. -/
noncomputable def ucHessRvs (m : ℕ) (x : ℤ → ℝ) : ℤ → ℤ → ℤ → ℝ :=
  let y := ucRvs m x
  triLoop (lhvSizeToMatSize m) (fun _ _ _ => 0) (hInit x) (rvsHRow x)
    (fun st k =>
      let J := rvsJRow x { s := st.s, ds := st.ds } k
      let H := rvsHRow x st k
      { s := st.s + y k ^ 2
        ds := fun q => st.ds q + 2 * y k * J q
        d2s := fun p q => st.d2s p q + (2 * (J p * J q) + 2 * y k * H p q) }) (fun _ _ _ => 0)

/-- Slice `H[k2]` in `hess_fwd` (199-225). -/
noncomputable def fwdHRow (y : ℤ → ℝ) (st : HSt) (k : ℤ) : ℤ → ℤ → ℝ :=
  let t := 1 - st.s
  let u := sqrt t
  let w := 1 / u
  let a := w ^ 2
  let b := - y k * a
  let du_dt := 1 / (2 * u)
  let dt := fun q => -1 * st.ds q
  let du := fun q => du_dt * dt q
  let dw_du := -1 / u ^ 2
  let dw_dt := dw_du * du_dt
  let dw := fun q => dw_dt * dt q
  let da := fun q => 2 * w * dw q
  let db := fun q => - y k * da q
  let db := fun q => if q = k then db q - a else db q
  let d2u_dt2 := -1 / (4 * u ^ 3)
  let d2t := fun p q => -1 * st.d2s p q
  let d2u := fun p q => d2u_dt2 * (dt p * dt q) + du_dt * d2t p q
  let H := fun p q => d2u p q * b + du p * db q
  fun p q => if p = k then H p q + dw q else H p q

/-- `hess_fwd(y)` (182-229). -/
noncomputable def ucHessFwd (m : ℕ) (y : ℤ → ℝ) : ℤ → ℤ → ℤ → ℝ :=
  triLoop (lhvSizeToMatSize m) (fun _ _ _ => 0) (hInit y) (fwdHRow y)
    (fun st k => { s := st.s + y k ^ 2
                   ds := fun q => if q = k then st.ds q + 2 * y k else st.ds q
                   d2s := fun p q => if p = k ∧ q = k then st.d2s p q + 2 else st.d2s p q })
    (fun _ _ _ => 0)

end Verif.Transf
