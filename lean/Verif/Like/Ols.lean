import Verif.Like.Leverage
import Verif.Fa.Rotation
/-!
# Model of `pyglm2/ols.py`

Lines without a file name are of `pystatsm/pyglm2/ols.py`.  Vectors are functions; the last parameter (the logarithm of the error variance) is kept apart from the coefficients.  Triangular
systems are solved with the inverse, which exists in the same cases.
-/
namespace Verif.Like.Ols
open Matrix Verif.Fa
variable {n p k : ℕ}

/-- The number of observations the likelihood uses — 77, 126. -/
def neff (n p : ℕ) (reml : Bool) : ℝ := if reml then n - p else n

/-- `_loglike` — 73-83: minus the log likelihood. -/
noncomputable def loglike (X : Mat n p) (y : Fin n → ℝ) (reml : Bool) (b : Fin p → ℝ) (lv : ℝ) : ℝ :=
  let tau := Real.exp (-lv)
  let const := (-(neff n p reml) / 2) * (Real.log (2 * Real.pi) + lv)
  let resid := y - X *ᵥ b
  let sse := resid ⬝ᵥ resid
  let ll := const - tau * sse / 2
  (-ll)

/-- `_gradient` — 122-132. -/
noncomputable def gradient (X : Mat n p) (y : Fin n → ℝ) (reml : Bool) (b : Fin p → ℝ) (lv : ℝ) : (Fin p → ℝ) × ℝ :=
  let tau := Real.exp (-lv)
  let resid := y - X *ᵥ b
  let g1 := tau • (resid ᵥ* X)
  let g2 := -(neff n p reml) / 2 + tau * (resid ⬝ᵥ resid) / 2
  (-g1, -g2)

/-- `_hessian` — 172-182. -/
noncomputable def hessian (X : Mat n p) (y : Fin n → ℝ) (b : Fin p → ℝ) (lv : ℝ) : Matrix (Fin p ⊕ Fin 1) (Fin p ⊕ Fin 1) ℝ :=
  let tau := Real.exp (-lv)
  let resid := y - X *ᵥ b
  let c := (-tau) • (Xᵀ *ᵥ resid)
  (-(fromBlocks ((-tau) • (Xᵀ * X)) (of fun i _ => c i) (of fun _ i => c i) (of fun _ _ => -(tau * (resid ⬝ᵥ resid)) / 2)))

structure Fit (p : ℕ) where
  G : Mat p p
  Ginv : Mat p p
  L : Mat p p
  Linv : Mat p p
  sse : ℝ
  beta : Fin p → ℝ
  lv : ℝ

/-- `_fit1` — 223-236. -/
noncomputable def fit1 (chol : Mat p p → Option (Mat p p)) (X : Mat n p) (y : Fin n → ℝ) (reml : Bool) : Option (Fit p) := do
  let G := Xᵀ * X
  let c := Xᵀ *ᵥ y
  let L ← chol G
  let S ← inv? L
  let w := S *ᵥ c
  let sse := y ⬝ᵥ y - w ⬝ᵥ w
  let T ← inv? Lᵀ
  let beta := T *ᵥ w
  let Linv ← inv? L
  let Ginv := Linvᵀ * Linv
  return ⟨G, Ginv, L, Linv, sse, beta, Real.log (sse / neff n p reml)⟩

/-- `_fit2` — 257-270. -/
noncomputable def fit2 (chol : Mat p p → Option (Mat p p)) (X : Mat n p) (y : Fin n → ℝ) (reml : Bool) : Option (Fit p) := do
  let G := Xᵀ * X
  let c := Xᵀ *ᵥ y
  let L ← chol G
  let Linv ← inv? L
  let w := Linv *ᵥ c
  let sse := y ⬝ᵥ y - w ⬝ᵥ w
  let beta := Linvᵀ *ᵥ w
  let Ginv := Linvᵀ * Linv
  return ⟨G, Ginv, L, Linv, sse, beta, Real.log (sse / neff n p reml)⟩

/-- `_fit` — 288-296: the weights of the model are not used. -/
noncomputable def fit (chol : Mat p p → Option (Mat p p)) (X : Mat n p) (y _weights : Fin n → ℝ) (reml : Bool) : Option (Fit p) :=
  fit2 chol X y reml

/-- `scale`, `scale_ml` and `scale_unbiased` — 292-294. -/
noncomputable def scales (n : ℕ) (f : Fit p) : ℝ × ℝ × ℝ := (Real.exp (f.lv / 2), √(f.sse / n), √(f.sse / ((n : ℝ) - p)))

/-- `params_cov` — 297-298. -/
noncomputable def paramsCov (X : Mat n p) (y : Fin n → ℝ) (f : Fit p) : Option (Matrix (Fin p ⊕ Fin 1) (Fin p ⊕ Fin 1) ℝ) :=
  open Classical in
  if IsUnit (hessian X y f.beta f.lv).det then some (hessian X y f.beta f.lv)⁻¹ else none

/-- Sums of squares of `fit` — 308-317. -/
noncomputable def ssq (X : Mat n p) (y : Fin n → ℝ) (b : Fin p → ℝ) : ℝ × ℝ × ℝ :=
  let yhat := X *ᵥ b
  let ymean := (∑ i, y i) / n
  (∑ i, (y i - yhat i) ^ 2, ∑ i, (yhat i - ymean) ^ 2, ∑ i, (y i - ymean) ^ 2)

/-- `rsquared`, `rsquared_adj` and `fvalue` — 311-313, 319-326. -/
noncomputable def sumstats (X : Mat n p) (y : Fin n → ℝ) (b : Fin p → ℝ) : ℝ × ℝ × ℝ :=
  let (ssr, ssm, sst) := ssq X y b
  let msr := ssr / ((n : ℝ) - p)
  let msm := ssm / ((p : ℝ) - 1)
  let mst := sst / ((n : ℝ) - 1)
  (1 - ssr / sst, 1 - msr / mst, msm / msr)

/-- `_get_coef_constrained` — 376-383: `Q`, `R` are what `np.linalg.qr` returns for at most `p` restrictions. -/
noncomputable def constrained (qr : Mat p k → Mat p k × Mat k k) (Linv : Mat p p) (b : Fin p → ℝ) (sse : ℝ) (C : Mat k p) (d : Fin k → ℝ) :
    Option ((Fin p → ℝ) × ℝ) := do
  let G := Linv * Cᵀ
  let (Q, R) := qr G
  let Cb := C *ᵥ b
  let S ← inv? Rᵀ
  let w := S *ᵥ (Cb - d)
  return (b - Linvᵀ *ᵥ (Q *ᵥ w), sse + w ⬝ᵥ w)

/-- One row of `_bootstrap` — 409-415 — for the resample `ix`; without a factor another resample is drawn (419-420). -/
noncomputable def bootRow (chol : Mat p p → Option (Mat p p)) (X : Mat n p) (y : Fin n → ℝ) (ix : Fin n → Fin n) : Option ((Fin p → ℝ) × ℝ) := do
  let Xb : Mat n p := X.submatrix ix id
  let yb := y ∘ ix
  let G := Xbᵀ * Xb
  let c := Xbᵀ *ᵥ yb
  let L ← chol G
  let S ← inv? L
  let w := S *ᵥ c
  let T ← inv? Lᵀ
  return (T *ᵥ w, yb ⬝ᵥ yb - w ⬝ᵥ w)

/-- One round of `_permutation_test` — 512, 525-528: the permuted response and the error variance. -/
noncomputable def permS2 (chol : Mat p p → Option (Mat p p)) (X : Mat n p) (y u r : Fin n → ℝ) (perm : Equiv.Perm (Fin n)) :
    Option ((Fin n → ℝ) × ℝ) := do
  let L ← chol (Xᵀ * X)
  let S ← inv? L
  let z := u + fun i => r (perm i)
  let w := S *ᵥ (Xᵀ *ᵥ z)
  return (z, (y ⬝ᵥ y - w ⬝ᵥ w) / ((n : ℝ) - p))

/-- The tallies of `_permutation_test` — 504-505, 524, 532-533: `ts` holds the absolute statistics of the rounds. -/
noncomputable def tallies {m : ℕ} (abst : Fin m → ℝ) (ts : List (Fin m → ℝ)) (j : Fin m) : ℝ × ℝ :=
  open Classical in
  ts.foldl (fun a t => (a.1 + (if ∃ l, abst j < t l then 1 else 0) / ts.length, a.2 + (if abst j < t j then 1 else 0) / ts.length)) (0, 0)

end Verif.Like.Ols
