import Verif.Fa.Rotation
import Mathlib.LinearAlgebra.Matrix.PosDef
import Mathlib.Analysis.SpecialFunctions.Pow.Real
/-!
# Model of the leverages, sandwich weights, influence diagnostics and weighted least squares

`np.linalg.cholesky` raises when the matrix is not positive definite: its result is an `Option`.  `np.linalg.qr` and
`np.linalg.svd` are parameters; the theorems assume of their result on the given input what the routines document.
Triangular solvers raise on a singular matrix: `solve?`.
-/
namespace Verif.Like
open Matrix Verif.Fa
variable {n p : ℕ}

abbrev Mat (n p : ℕ) := Matrix (Fin n) (Fin p) ℝ

/-- `np.linalg.qr(X)` for at least as many rows as columns: orthonormal columns times an upper triangle. -/
structure IsQR (X Q : Mat n p) (R : Mat p p) : Prop where
  mul : Q * R = X
  orth : Qᵀ * Q = 1
  upper : ∀ i j, j < i → R i j = 0

/-- `np.linalg.cholesky(G)`: the lower factor with positive diagonal, or an exception. -/
structure CholOk (chol : Mat p p → Option (Mat p p)) : Prop where
  ok : ∀ G L, chol G = some L → L * Lᵀ = G ∧ (∀ i j, i < j → L i j = 0) ∧ ∀ i, 0 < L i i
  total : ∀ G : Mat p p, Matrix.PosDef G → ∃ L, chol G = some L

/-- `_compute_leverage_cholesky(WX)` — regression_model.py 472-477. -/
noncomputable def levChol (chol : Mat p p → Option (Mat p p)) (WX : Mat n p) : Option (Fin n → ℝ) := do
  let G := WXᵀ * WX
  let L ← chol G
  let Linv ← inv? L
  let Q := Linv * WXᵀ
  pure fun i => ∑ a, Q a i ^ 2

/-- `_compute_leverage_qr(WX)` — 497-499. -/
def levQr (qr : Mat n p → Mat n p × Mat p p) (WX : Mat n p) : Fin n → ℝ :=
  let Q := (qr WX).1
  fun i => ∑ a, Q i a ^ 2

/-- `omega` of `sandwich_cov` — 437-449; `none` for an unbound `omega` or arithmetic on `None`. -/
noncomputable def hcOmega (w : Fin n → ℝ) (p : ℕ) (h : Option (Fin n → ℝ)) (kind : String) : Option (Fin n → ℝ) :=
  let w2 := fun i => w i ^ 2
  if kind = "HC0" then some w2
  else if kind = "HC1" then some fun i => w2 i * n / (n - p)
  else if kind = "HC2" then h.map fun h i => w2 i / (1 - h i)
  else if kind = "HC3" then h.map fun h i => w2 i / (1 - h i) ^ 2
  else if kind = "HC4" then h.map fun h i => w2 i / (1 - h i) ^ (min 4 (h i / ((∑ j, h j) / n)) : ℝ)
  else none

/-- `sandwich_cov` — 450-451. -/
noncomputable def sandwichCov (w : Fin n → ℝ) (X : Mat n p) (h : Option (Fin n → ℝ)) (kind : String) :
    Option (Mat p p) := do
  let omega ← hcOmega w p h kind
  pure ((Matrix.of fun i j => X i j * omega i)ᵀ * X)

/-- `_one_step_approx` — glm.py 414-417. -/
noncomputable def oneStep (WX : Mat n p) (h rp : Fin n → ℝ) : Option (Mat n p) := do
  let y := fun i => rp i / √(1 - h i)
  let M ← inv? (WXᵀ * WX)
  pure (Matrix.of fun i j => (WX * M) i j * y i)

/-- The one-step branch of `_jacknife` — glm.py 489-496 — given the working weights `get_ehw`. -/
noncomputable def jackOneStep (qr : Mat n p → Mat n p × Mat p p) (X : Mat n p) (w rp : Fin n → ℝ) (params : Fin p → ℝ) :
    Option (Mat n p) := do
  let WX : Mat n p := Matrix.of fun i j => X i j * w i
  let h := levQr qr WX
  let db ← oneStep WX h rp
  pure (Matrix.of fun i j => params j - db i j)

/-- `resid_pearson_sst` — glm.py 335-336. -/
noncomputable def pearsonSst (phi : ℝ) (h rp : Fin n → ℝ) : Fin n → ℝ := fun i => rp i / √phi / √(1 - h i)

/-- `cooks_distance` — glm.py 343-344. -/
noncomputable def cooks (p : ℕ) (h sst : Fin n → ℝ) : Fin n → ℝ := fun i => h i * sst i ^ 2 / (p * (1 - h i))

/-- `resid_likelihood` — glm.py 340-342; `np.sign` of the raw residual. -/
noncomputable def residLik (h raw psst dsst : Fin n → ℝ) : Fin n → ℝ := fun i =>
  (if 0 < raw i then 1 else if raw i < 0 then -1 else 0) * √(h i * psst i ^ 2 + (1 - h i) * dsst i ^ 2)

/-- A triangular solve. -/
noncomputable def solve? (R : Mat p p) (c : Fin p → ℝ) : Option (Fin p → ℝ) := (inv? R).map (· *ᵥ c)

/-- `wls_chol` — linalg_operations.py 417-422. -/
noncomputable def wlsChol (chol : Mat p p → Option (Mat p p)) (X : Mat n p) (y w : Fin n → ℝ) :
    Option (Fin p → ℝ) := do
  let Xwt : Mat p n := Matrix.of fun j i => X i j * w i
  let L ← chol (Xwt * X)
  let c ← solve? L (Xwt *ᵥ y)
  solve? Lᵀ c

/-- `wls_qr` — 424-429. -/
noncomputable def wlsQr (qr : Mat n p → Mat n p × Mat p p) (X : Mat n p) (y w : Fin n → ℝ) :
    Option (Fin p → ℝ) :=
  let wsqr := fun i => √(w i)
  let QR := qr (Matrix.of fun i j => X i j * wsqr i)
  let c := QR.1ᵀ *ᵥ fun i => wsqr i * y i
  solve? QR.2 c

/-- `nwls` — 431-446; `svd` returns `(U, s, Vt)`. -/
noncomputable def nwls (qr : Mat n p → Mat n p × Mat p p) (svd : Mat n p → Mat n p × (Fin p → ℝ) × Mat p p)
    (X : Mat n p) (y w : Fin n → ℝ) : Option (Fin p → ℝ) :=
  let w_sqr := fun i => √|w i|
  let QR := qr (Matrix.of fun i j => X i j * w_sqr i)
  let Q := QR.1
  let usv := svd (Matrix.of fun i j => Q i j * if w i ≤ 0 then 1 else 0)
  let neg := fun i => if w i < 0 then (-1 : ℝ) else 1
  let Qtz := Qᵀ *ᵥ fun i => w_sqr i * neg i * y i
  let a := fun k => 1 / (1 - 2 * usv.2.1 k ^ 2)
  let c := usv.2.2ᵀ *ᵥ fun k => a k * (usv.2.2 *ᵥ Qtz) k
  solve? QR.2 c

/-- `np.linalg.svd(M, full_matrices=False)` for at least as many rows as columns. -/
structure IsSvd (M U : Mat n p) (s : Fin p → ℝ) (Vt : Mat p p) : Prop where
  mul : U * diagonal s * Vt = M
  u : Uᵀ * U = 1
  v : Vt * Vtᵀ = 1

end Verif.Like
