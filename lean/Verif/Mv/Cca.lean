import Mathlib.LinearAlgebra.Matrix.NonsingularInverse
import Verif.Cov.Psd
import Verif.Data.Model

/-!
Canonical correlation analysis, /repo/pystatsm/pyscca/base_cca.py.

Simplifications: real arithmetic; `np.linalg.eigh`, `np.linalg.svd(.., full_matrices=False)` and `np.linalg.pinv` are
parameters with contracts; labels and indices of the pandas output are omitted except for the number of columns.
-/

open Matrix

namespace Verif.Mv

/-- The contract of the thin singular value decomposition with `r = min(p, q)` components. -/
structure SvdThin {p q r : ℕ} (svd : Matrix (Fin p) (Fin q) ℝ → Matrix (Fin p) (Fin r) ℝ × (Fin r → ℝ) × Matrix (Fin r) (Fin q) ℝ) : Prop where
  rank : r = min p q
  eq : ∀ A, (svd A).1 * diagonal (svd A).2.1 * (svd A).2.2 = A
  u : ∀ A, (svd A).1ᵀ * (svd A).1 = 1
  v : ∀ A, (svd A).2.2 * (svd A).2.2ᵀ = 1
  nonneg : ∀ A i, 0 ≤ (svd A).2.1 i
  anti : ∀ A i j, i ≤ j → (svd A).2.1 j ≤ (svd A).2.1 i

/-- `u_isq` of `_eig_isq` — base_cca.py 21-23: entries that are not above `1e-16` are left as they are. -/
noncomputable def uIsq (u : ℝ) : ℝ := if 1e-16 < u then 1 / √u else u

/-- `S_isq` of `_eig_isq` — base_cca.py 19-25.  `eighs` reverses the order of the eigenvalues, which is part of `eigh`. -/
noncomputable def eigIsq {p : ℕ} (eigh : Matrix (Fin p) (Fin p) ℝ → (Fin p → ℝ) × Matrix (Fin p) (Fin p) ℝ) (S : Matrix (Fin p) (Fin p) ℝ) :
    Matrix (Fin p) (Fin p) ℝ :=
  (eigh S).2 * diagonal (fun i => uIsq ((eigh S).1 i)) * (eigh S).2ᵀ

/-- `_cca_svd` — base_cca.py 29-33. -/
noncomputable def ccaSvd {p q r : ℕ} (svd : Matrix (Fin p) (Fin q) ℝ → Matrix (Fin p) (Fin r) ℝ × (Fin r → ℝ) × Matrix (Fin r) (Fin q) ℝ)
    (Sxy : Matrix (Fin p) (Fin q) ℝ) (Sx : Matrix (Fin p) (Fin p) ℝ) (Sy : Matrix (Fin q) (Fin q) ℝ) :
    Matrix (Fin p) (Fin r) ℝ × Matrix (Fin q) (Fin r) ℝ × (Fin r → ℝ) :=
  (Sx * (svd (Sx * Sxy * Sy)).1, Sy * (svd (Sx * Sxy * Sy)).2.2ᵀ, (svd (Sx * Sxy * Sy)).2.1)

/-- `np.dot(X.T, Y) / n` — base_cca.py 46-48. -/
noncomputable def cross {n p q : ℕ} (X : Matrix (Fin n) (Fin p) ℝ) (Y : Matrix (Fin n) (Fin q) ℝ) : Matrix (Fin p) (Fin q) ℝ :=
  fun i j => (∑ a, X a i * Y a j) / n

/-- The column means. -/
noncomputable def colMean {n p : ℕ} (X : Matrix (Fin n) (Fin p) ℝ) (j : Fin p) : ℝ := (∑ a, X a j) / n

/-- `_csd` — utilities/data_utils.py 72-81. -/
noncomputable def csd {n p : ℕ} (X : Matrix (Fin n) (Fin p) ℝ) : Matrix (Fin n) (Fin p) ℝ := fun a j =>
  (X a j - colMean X j) / √((∑ b, (X b j - colMean X j) * (X b j - colMean X j)) / n)

/-- The number of columns of the coefficient matrices against the number of column labels — base_cca.py 73-81: the
coefficients have `min(n_comps, r)` columns and `n_comps` labels; pandas raises when they differ.  `none` for `n_comps`
is the default `p`. -/
def fitCols (p q : ℕ) (nComps : Option ℕ) : Option ℕ :=
  let k := nComps.getD p
  if min k (min p q) = k then some k else none

/-- The results of `_fit` — base_cca.py 72-95 — for `k` components: coefficients, loadings, correlations and
canonical variates. -/
structure CcaFit (n p q r k : ℕ) where
  Wx : Matrix (Fin p) (Fin k) ℝ
  Wy : Matrix (Fin q) (Fin k) ℝ
  Lx : Matrix (Fin p) (Fin k) ℝ
  Ly : Matrix (Fin q) (Fin k) ℝ
  rhos : Fin r → ℝ
  Zx : Matrix (Fin n) (Fin k) ℝ
  Zy : Matrix (Fin n) (Fin k) ℝ

/-- `CCA(X, Y)._fit(k)` with `k ≤ r` — base_cca.py 35-95. -/
noncomputable def ccaFit {n p q r k : ℕ} (eigp : Matrix (Fin p) (Fin p) ℝ → (Fin p → ℝ) × Matrix (Fin p) (Fin p) ℝ)
    (eigq : Matrix (Fin q) (Fin q) ℝ → (Fin q → ℝ) × Matrix (Fin q) (Fin q) ℝ)
    (svd : Matrix (Fin p) (Fin q) ℝ → Matrix (Fin p) (Fin r) ℝ × (Fin r → ℝ) × Matrix (Fin r) (Fin q) ℝ)
    (X : Matrix (Fin n) (Fin p) ℝ) (Y : Matrix (Fin n) (Fin q) ℝ) (hk : k ≤ r) : CcaFit n p q r k :=
  let X' := csd X
  let Y' := csd Y
  let Sxx := cross X' X'
  let Syy := cross Y' Y'
  let Sxy := cross X' Y'
  let w := ccaSvd svd Sxy (eigIsq eigp Sxx) (eigIsq eigq Syy)
  let Wx := w.1.submatrix id (Fin.castLE hk)
  let Wy := w.2.1.submatrix id (Fin.castLE hk)
  { Wx := Wx, Wy := Wy, Lx := Sxx * Wx, Ly := Syy * Wy, rhos := w.2.2, Zx := X' * Wx, Zy := Y' * Wy }

end Verif.Mv
