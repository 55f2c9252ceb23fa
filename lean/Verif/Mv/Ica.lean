import Mathlib.Analysis.SpecialFunctions.Trigonometric.DerivHyp
import Verif.Mv.Cca

/-!
Independent component analysis, /repo/pystatsm/pyica/ica.py.

Simplifications: real arithmetic; `np.linalg.eigh` and `np.linalg.pinv` are parameters with contracts; the histories
of the objective and the pandas labels are omitted; a zero eigenvalue, for which the code divides by zero, is excluded
by the hypotheses of the theorems.
-/

open Matrix

namespace Verif.Mv

/-- `symmetric_decorr` — ica.py 24-27. -/
noncomputable def symDecorr {k : ℕ} (eigh : Matrix (Fin k) (Fin k) ℝ → (Fin k → ℝ) × Matrix (Fin k) (Fin k) ℝ) (W : Matrix (Fin k) (Fin k) ℝ) :
    Matrix (Fin k) (Fin k) ℝ :=
  W * ((eigh (Wᵀ * W)).2 * diagonal (fun i => √(1 / (eigh (Wᵀ * W)).1 i)) * (eigh (Wᵀ * W)).2ᵀ)

/-- `np.mean(dGy, axis=0)` with `dGy = 1 - tanh(Y)**2` — ica.py 20-21, 54-55. -/
noncomputable def meanDg {n k : ℕ} (Y : Matrix (Fin n) (Fin k) ℝ) (j : Fin k) : ℝ := (∑ a, (1 - Real.tanh (Y a j) ^ 2)) / n

/-- `Gy` of `gfunc` — ica.py 19-22. -/
noncomputable def gY {n k : ℕ} (Y : Matrix (Fin n) (Fin k) ℝ) : Matrix (Fin n) (Fin k) ℝ := fun a j => Real.tanh (Y a j)

/-- `E_XtGY - (E_dGy).dot(W)` — ica.py 54-56; `cov` of ica.py 30-34 does not centre. -/
noncomputable def icaRaw {n k : ℕ} (X : Matrix (Fin n) (Fin k) ℝ) (W : Matrix (Fin k) (Fin k) ℝ) : Matrix (Fin k) (Fin k) ℝ :=
  cross X (gY (X * W)) - diagonal (meanDg (X * W)) * W

/-- `W + (A.dot(B+EGYYt)).dot(W)` — ica.py 72-78. -/
noncomputable def icaRaw2 {n k : ℕ} (X : Matrix (Fin n) (Fin k) ℝ) (W : Matrix (Fin k) (Fin k) ℝ) : Matrix (Fin k) (Fin k) ℝ :=
  let E := cross (X * W) (gY (X * W))
  W + diagonal (fun j => -1 / (E j j + meanDg (X * W) j)) * (diagonal (fun j => E j j) + E) * W

/-- `convergence_check` — ica.py 36-46: row by row. -/
noncomputable def convCheck {k : ℕ} [NeZero k] (Wn Wo : Matrix (Fin k) (Fin k) ℝ) : ℝ :=
  Finset.univ.sup' ⟨0, Finset.mem_univ _⟩ fun i => |(|∑ j, Wn i j * Wo i j| - 1)|

/-- The loop of `_fast_ica` and `_fast_ica2` — ica.py 53-63, 71-85: the unmixing matrix; `Y` is `Xw.dot(W)` throughout.
On convergence the matrix before the last step is returned. -/
noncomputable def icaLoop {k : ℕ} [NeZero k] (step : Matrix (Fin k) (Fin k) ℝ → Matrix (Fin k) (Fin k) ℝ) :
    ℕ → Matrix (Fin k) (Fin k) ℝ → Matrix (Fin k) (Fin k) ℝ
  | 0, W => W
  | m + 1, W => if convCheck (step W) W < 1e-6 then W else icaLoop step m (step W)

/-- `_fast_ica` — ica.py 48-63. -/
noncomputable def fastIca {n k : ℕ} [NeZero k] (eigh : Matrix (Fin k) (Fin k) ℝ → (Fin k → ℝ) × Matrix (Fin k) (Fin k) ℝ)
    (raw : Matrix (Fin n) (Fin k) ℝ → Matrix (Fin k) (Fin k) ℝ → Matrix (Fin k) (Fin k) ℝ) (X : Matrix (Fin n) (Fin k) ℝ)
    (W0 : Matrix (Fin k) (Fin k) ℝ) (maxiters : ℕ) : Matrix (Fin k) (Fin k) ℝ × Matrix (Fin n) (Fin k) ℝ :=
  let W := icaLoop (fun W => symDecorr eigh (raw X W)) maxiters (symDecorr eigh W0)
  (W, X * W)

/-- `Vs` — ica.py 104-108; the order of the eigenvalues is part of `eigh`. -/
noncomputable def icaVs {p k : ℕ} (eigh : Matrix (Fin p) (Fin p) ℝ → (Fin p → ℝ) × Matrix (Fin p) (Fin p) ℝ) (S : Matrix (Fin p) (Fin p) ℝ) (hk : k ≤ p) :
    Matrix (Fin p) (Fin k) ℝ :=
  (eigh S).2.submatrix id (Fin.castLE hk) * diagonal fun i => √(1 / (eigh S).1 (Fin.castLE hk i))

/-- `X - np.mean(X, axis=0)` — ica.py 100. -/
noncomputable def centerM {n p : ℕ} (X : Matrix (Fin n) (Fin p) ℝ) : Matrix (Fin n) (Fin p) ℝ := fun a j => X a j - colMean X j

end Verif.Mv
