import Verif.Sim.Linear
import Verif.Mv.Mvols
import Mathlib.LinearAlgebra.Matrix.Rank

/-!
Model of the data of `pystatsm/pyglm2/sim_mvols.py`: `_make_x`, `_make_beta_slope`, `_make_residual_cov`, `_scale_to_target_r2`, `_draw_residuals`
and `generate_mmr_data` (lines 59-156).  The draws are parameters: `Z`, `U`, `V`, `W`, `G` are normal or t variates, `T` uniform ones, `D` the weights
of line 74.  Cholesky factors are parameters with their equation as contract.
-/

namespace Verif.Sim
open Finset Matrix

variable {n p q r : ℕ}

/-- `np.dot(Z, L.T)` — the last line of `_make_x` (67) and of `_draw_residuals` (115). -/
def mmrColour (Z : Matrix (Fin n) (Fin p) ℝ) (L : Matrix (Fin p) (Fin p) ℝ) : Matrix (Fin n) (Fin p) ℝ := Z * Lᵀ

/-- `sparse` — 77-78 and 81-82. -/
noncomputable def mmrSparse (W T : Matrix (Fin p) (Fin q) ℝ) (s : ℝ) : Matrix (Fin p) (Fin q) ℝ :=
  of fun i j => W i j * (if T i j < s then 1 else 0)

/-- `low` — 76. -/
def mmrLow (U : Matrix (Fin p) (Fin r) ℝ) (D : Fin r → ℝ) (V : Matrix (Fin q) (Fin r) ℝ) : Matrix (Fin p) (Fin q) ℝ :=
  (of fun i k => U i k * D k) * Vᵀ

inductive BetaKind | lowRankPlusSparse | sparse | dense

/-- `_make_beta_slope` — 71-85. -/
noncomputable def mmrSlope (k : BetaKind) (U : Matrix (Fin p) (Fin r) ℝ) (D : Fin r → ℝ) (V : Matrix (Fin q) (Fin r) ℝ)
    (W T : Matrix (Fin p) (Fin q) ℝ) (s : ℝ) : Matrix (Fin p) (Fin q) ℝ :=
  match k with
  | .lowRankPlusSparse => mmrLow U D V + mmrSparse W T s
  | .sparse => mmrSparse W T s
  | .dense => W

/-- `X_design` with an intercept — 139. -/
def mmrDesign (X : Matrix (Fin n) (Fin p) ℝ) : Matrix (Fin n) (Fin (p + 1)) ℝ := of fun i => Fin.cons 1 (X i)

/-- `B` with an intercept — 138. -/
def mmrCoef (a : Fin q → ℝ) (B : Matrix (Fin p) (Fin q) ℝ) : Matrix (Fin (p + 1)) (Fin q) ℝ := of (Fin.cons a B)

/-- `M` — 144. -/
def mmrSignal (X : Matrix (Fin n) (Fin p) ℝ) (a : Fin q → ℝ) (B : Matrix (Fin p) (Fin q) ℝ) : Matrix (Fin n) (Fin q) ℝ :=
  mmrDesign X * mmrCoef a B

/-- `v_signal` — 97-98. -/
noncomputable def mmrVar (M : Matrix (Fin n) (Fin q) ℝ) : ℝ :=
  let Mc : Matrix (Fin n) (Fin q) ℝ := of fun i j => M i j - (∑ l, M l j) / n
  trace (Mcᵀ * Mc) / n

/-- `_scale_to_target_r2` — 96-103. -/
noncomputable def mmrSigma (M : Matrix (Fin n) (Fin q) ℝ) (base : Matrix (Fin q) (Fin q) ℝ) (t : ℝ) : Matrix (Fin q) (Fin q) ℝ :=
  targetScale (mmrVar M) (trace base) t • base

/-- The divisor of the t variates — 111-112. -/
noncomputable def mmrTScale (df : ℝ) : ℝ := √(df / (df - 2))

/-- `Y` — 149. -/
def mmrY (M : Matrix (Fin n) (Fin q) ℝ) (G : Matrix (Fin n) (Fin q) ℝ) (C : Matrix (Fin q) (Fin q) ℝ) : Matrix (Fin n) (Fin q) ℝ :=
  M + mmrColour G C

/-- `theta_true` — 151-156: the factor of the precision. -/
noncomputable def mmrTheta (B : Matrix (Fin p) (Fin q) ℝ) (L : Matrix (Fin q) (Fin q) ℝ) : Verif.Mv.Mvols.Ix p q → ℝ := Verif.Mv.Mvols.pack B L

end Verif.Sim
