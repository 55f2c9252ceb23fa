import Verif.Lv.Sample
import Verif.Index.Ordered
import Mathlib.LinearAlgebra.Matrix.NonsingularInverse

/-!
Model of the asymptotic covariance of the two-step correlations, `_build_g_W`, `get_acov` and `get_acov_loop` of
`pystatsm/pylvcorr/polychoric2.py` (lines 425-491).  `cdf` is `func_utils.norm_cdf`, `F` is `binorm_cdf`.
-/

namespace Verif.Lv
open Matrix

/-- `Ai` (lines 437-441): the derivative of the category probabilities in the thresholds `tau`. -/
noncomputable def thrA (m : ℕ) (tau : ℕ → ℝ) : Matrix (Fin (m + 1)) (Fin m) ℝ := .of fun i k => Pair.step i k (normPdf (tau (k + 1)))

/-- `p` (line 442). -/
def thrP (cdf : ℝ → ℝ) (m : ℕ) (tau : ℕ → ℝ) : Fin (m + 1) → ℝ := fun i => cdf (tau (i + 1)) - cdf (tau i)

/-- `ADAi` (line 444). -/
noncomputable def thrADA (cdf : ℝ → ℝ) (m : ℕ) (tau : ℕ → ℝ) : Matrix (Fin m) (Fin m) ℝ :=
  (.of fun k i => thrA m tau i k / thrP cdf m tau i : Matrix (Fin m) (Fin (m + 1)) ℝ) * thrA m tau

open Classical in
/-- `Bi` (line 445); `np.linalg.solve` raises on a singular matrix. -/
noncomputable def thrB (cdf : ℝ → ℝ) (m : ℕ) (tau : ℕ → ℝ) : Option (Matrix (Fin m) (Fin (m + 1)) ℝ) :=
  if IsUnit (thrADA cdf m tau).det then
    some ((thrADA cdf m tau)⁻¹ * (.of fun k i => thrA m tau i k / thrP cdf m tau i : Matrix (Fin m) (Fin (m + 1)) ℝ))
  else none

namespace Pair
variable (P : Pair)

/-- `alpha` (line 458) for probabilities that are not clamped (line 450). -/
noncomputable def alpha (F : ℝ → ℝ → ℝ → ℝ) (erf : ℝ → ℝ) (x : ℕ → ℝ) (i j : ℕ) : ℝ :=
  P.dprob erf x i j (P.m1 + P.m2) / cell F (P.t1 x) (P.t2 x) (P.rho x) i j

/-- `bi1` and `bi2` (lines 455-456): position `k` of the parameters. -/
noncomputable def bvec (F : ℝ → ℝ → ℝ → ℝ) (erf : ℝ → ℝ) (x : ℕ → ℝ) (k : ℕ) : ℝ :=
  -∑ i : Fin (P.m1 + 1), ∑ j : Fin (P.m2 + 1), P.alpha F erf x i j * P.dprob erf x i j k

/-- `D` (line 459). -/
noncomputable def bigD (F : ℝ → ℝ → ℝ → ℝ) (erf : ℝ → ℝ) (x : ℕ → ℝ) : ℝ :=
  ∑ i : Fin (P.m1 + 1), ∑ j : Fin (P.m2 + 1), P.dprob erf x i j (P.m1 + P.m2) ^ 2 / cell F (P.t1 x) (P.t2 x) (P.rho x) i j

/-- `G` (lines 460-461). -/
noncomputable def G (F : ℝ → ℝ → ℝ → ℝ) (erf : ℝ → ℝ) (x : ℕ → ℝ) (B1 : Matrix (Fin P.m1) (Fin (P.m1 + 1)) ℝ)
    (B2 : Matrix (Fin P.m2) (Fin (P.m2 + 1)) ℝ) (i : Fin (P.m1 + 1)) (j : Fin (P.m2 + 1)) : ℝ :=
  (P.alpha F erf x i j + ∑ k : Fin P.m1, P.bvec F erf x k * B1 k i + ∑ k : Fin P.m2, P.bvec F erf x (P.m1 + k) * B2 k j) / P.bigD F erf x

end Pair

/-! ### Sums over observations -/

/-- A value of a column as an index, `X - np.min(X)` (line 64). -/
def code (x : List ℤ) (v : ℤ) : ℕ := (v - x.min?.getD 0).toNat

/-- `G[X[:, i1], X[:, i2]]` (line 476): an index beyond the shape raises. -/
def gObs {R : Type*} (g : ℕ → ℕ → R) (x y : List ℤ) : Option (List R) :=
  (x.zip y).mapM fun v => if code x v.1 < ncat x ∧ code y v.2 < ncat y then some (g (code x v.1) (code y v.2)) else none

/-- `W_arr[counter]` (line 462). -/
def wSum {R : Type*} [Semiring R] (g : ℕ → ℕ → R) (x y : List ℤ) : R :=
  ∑ i ∈ Finset.range (ncat x), ∑ j ∈ Finset.range (ncat y), g i j * (crosstab x y i j : R)

/-- `np.dot` of two rows. -/
def dotL {R : Type*} [Semiring R] (a b : List R) : R := (List.zipWith (· * ·) a b).sum

/-- An entry of the matrix of `get_acov` (lines 477-478) from the rows of `g_obs`. -/
def acovEntry {R : Type*} [Field R] (n : ℕ) (a b : List R) (wa wb : R) : R := (dotL a b / n - wa * wb) / n

/-- `get_acov` (lines 466-478): `cols` are the columns of the data, `pairs` is `inds1`, `g` are the matrices `G_mats`. -/
def getAcov {R : Type*} [Field R] (cols : ℕ → List ℤ) (n : ℕ) (pairs : List (ℕ × ℕ)) (g : ℕ → ℕ → ℕ → R) : Option (ℕ → ℕ → R) :=
  let row := fun k => let q := pairs.getD k (0, 0); gObs (g k) (cols q.1) (cols q.2)
  let w := fun k => let q := pairs.getD k (0, 0); wSum (g k) (cols q.1) (cols q.2)
  ((List.range pairs.length).mapM row).map fun rows => fun k l => acovEntry n (rows.getD k []) (rows.getD l []) (w k) (w l)

/-- An assignment of an entry and of its mirror image. -/
def setSym {R : Type*} (M : ℕ → ℕ → R) (a b : ℕ) (v : R) : ℕ → ℕ → R :=
  fun i j => if (i = b ∧ j = a) ∨ (i = a ∧ j = b) then v else M i j

/-- `get_acov_loop` (lines 480-491): the loop over `inds2`. -/
def getAcovLoop {R : Type*} [Field R] (cols : ℕ → List ℤ) (n : ℕ) (pairs : List (ℕ × ℕ)) (g : ℕ → ℕ → ℕ → R) : Option (ℕ → ℕ → R) :=
  let row := fun k => let q := pairs.getD k (0, 0); gObs (g k) (cols q.1) (cols q.2)
  let w := fun k => let q := pairs.getD k (0, 0); wSum (g k) (cols q.1) (cols q.2)
  let inds2 := (Verif.Index.generateIndices [pairs.length, pairs.length] false false false).map Verif.Index.toPair
  let body := fun (M : ℕ → ℕ → R) (t : ℕ × ℕ) =>
    match row t.1, row t.2 with
    | some a, some b => some (setSym M t.1 t.2 (dotL a b / n - w t.1 * w t.2))
    | _, _ => none
  (inds2.foldlM body fun _ _ => 0).map fun M => fun i j => M i j / n

end Verif.Lv
