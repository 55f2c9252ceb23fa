import Mathlib.LinearAlgebra.Matrix.Notation
import Mathlib.Analysis.Real.Sqrt
import Mathlib.Data.Sign.Defs
/-!
# Model of the factor model simulators and of the older alignment

`np.linalg.lstsq` and `np.argmax` are parameters with their contracts.
-/
namespace Verif.Sim
open Matrix

variable {m k : ℕ}

/-- Contract of `np.linalg.lstsq(A, Y)`: the normal equations. -/
def IsLstsq (A Y : Matrix (Fin m) (Fin k) ℝ) (B : Matrix (Fin k) (Fin k) ℝ) : Prop :=
  Aᵀ * A * B = Aᵀ * Y

/-- Contract of `np.argmax(np.abs(B), axis=1)`: the first largest entry of each row. -/
def IsArgmax (B : Matrix (Fin k) (Fin k) ℝ) (j : Fin k → Fin k) : Prop :=
  ∀ r, (∀ c, |B r c| ≤ |B r (j r)|) ∧ ∀ c, c < j r → |B r c| < |B r (j r)|

/-- The signs of `get_loadings_permutation` — pyfa/align_loadings.py 15: `np.sign` of the diagonal of
`B[:, j]`. -/
noncomputable def permSigns (B : Matrix (Fin k) (Fin k) ℝ) (j : Fin k → Fin k) (r : Fin k) : ℝ :=
  ((SignType.sign (B r (j r)) : SignType) : ℝ)

/-- `L_aligned` — align_loadings.py 23. -/
def alignL (L : Matrix (Fin m) (Fin k) ℝ) (j : Fin k → Fin k) (s : Fin k → ℝ) :
    Matrix (Fin m) (Fin k) ℝ := fun i r => L i (j r) * s r

/-- `Phi_aligned` — align_loadings.py 25. -/
def alignPhi (Phi : Matrix (Fin k) (Fin k) ℝ) (j : Fin k → Fin k) (s : Fin k → ℝ) :
    Matrix (Fin k) (Fin k) ℝ := fun a b => s b * Phi (j a) (j b) * s a

/-- `L_se_aligned` and `Phi_se_aligned` — align_loadings.py 24, 26. -/
def alignLse (L : Matrix (Fin m) (Fin k) ℝ) (j : Fin k → Fin k) : Matrix (Fin m) (Fin k) ℝ :=
  fun i r => L i (j r)

def alignPhise (Phi : Matrix (Fin k) (Fin k) ℝ) (j : Fin k → Fin k) : Matrix (Fin k) (Fin k) ℝ :=
  fun a b => Phi (j a) (j b)

/-- First row of block `j` of `np.array_split(np.arange(p), m)`: the first `p % m` blocks have one row
more. -/
def splitStart (p m j : ℕ) : ℕ := j * (p / m) + min j (p % m)

/-- `np.linspace(a, b, n)[t]`. -/
noncomputable def linspace (a b : ℝ) (n t : ℕ) : ℝ :=
  if n ≤ 1 then a else a + t * ((b - a) / ((n - 1 : ℕ) : ℝ))

/-- `generate_loadings`, not random — pyfa2/simulation.py 21-30, pyfa/simulate_factor_model.py 31-45
with limits 1 and 0.4. -/
noncomputable def genLoadings (p m : ℕ) (low high : ℝ) (i j : ℕ) : ℝ :=
  if splitStart p m j ≤ i ∧ i < splitStart p m (j + 1) then
    linspace high low (splitStart p m (j + 1) - splitStart p m j) (i - splitStart p m j)
  else 0

/-- `sp.linalg.toeplitz(np.arange(m))`. -/
def lag (i j : ℕ) : ℕ := max i j - min i j

/-- `generate_factor_corr`, not random — pyfa2/simulation.py 36-38, pyfa/simulate_factor_model.py
54-56. -/
def genCorr (m : ℕ) (rho : ℝ) : Matrix (Fin m) (Fin m) ℝ :=
  fun i j => (-1) ^ (i : ℕ) * rho ^ lag i j * (-1) ^ (j : ℕ)

/-- `FactorModel.Sigma` — pyfa2/simulation.py 13-14, pyfa/simulate_factor_model.py 80. -/
def modelSigma (L : Matrix (Fin m) (Fin k) ℝ) (Phi : Matrix (Fin k) (Fin k) ℝ) (psi : Fin m → ℝ) :
    Matrix (Fin m) (Fin m) ℝ := L * Phi * Lᵀ + diagonal psi

/-- `simulate_data` — pyfa/simulate_factor_model.py 88: `X = Z[:, :k] Lᵀ + Z[:, k:]`. -/
def simX {n : ℕ} (Z1 : Matrix (Fin n) (Fin k) ℝ) (Z2 : Matrix (Fin n) (Fin m) ℝ)
    (L : Matrix (Fin m) (Fin k) ℝ) : Matrix (Fin n) (Fin m) ℝ := Z1 * Lᵀ + Z2

/-- The shape of `r_lkj(n=1, dim=m)` — utilities/random.py 207-208, 244-251. -/
def lkjShape (m : ℕ) : List ℕ := [1, 1, m, m]

/-- `np.matmul` of a matrix and an array of any shape, shapes only: batch axes are kept. -/
def matmulShape (a b : List ℕ) : Option (List ℕ) :=
  match a.reverse, b.reverse with
  | r :: p :: [], c :: r' :: bs => if r = r' then some (bs.reverse ++ [p, c]) else none
  | r :: p :: as, c :: r' :: [] => if r = r' then some (as.reverse ++ [p, c]) else none
  | _, _ => none

/-- The constructor of `FactorModel` on shapes — pyfa2/simulation.py 8-14: `Sigma[diag_indices(p)] +=
psi` indexes the first two axes with `0..p-1`. -/
def factorModelShape (p m : ℕ) (phi : List ℕ) : Option (List ℕ) := do
  let a ← matmulShape [p, m] phi
  let s ← matmulShape a [m, p]
  if (s.take 2).all (fun d => p ≤ d) then some s else none

/-- `np.matmul` needs two operands: its call with `k` positional arguments. -/
def matmulCall (k : ℕ) : Option Unit := if 2 ≤ k then some () else none

/-- The loop of `run` over the replications — pyfa2/sim_factor_model.py 69-91: line 90 calls
`np.matmul(np.matmul(M, V, M.T))`. -/
def runLoop (nRep : ℕ) : Option Unit :=
  (List.range nRep).foldlM (fun _ _ => do let _ ← matmulCall 3; matmulCall 1) ()

end Verif.Sim
