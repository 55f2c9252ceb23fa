import Verif.Vec.Model
import Mathlib.Analysis.SpecialFunctions.Sqrt

/-!
Model of the asymptotic covariance matrices of `pystatsm/utilities/cov_utils.py` (lines 333-402) and of the pattern
matrices of `pystatsm/utilities/special_mats.py` (lines 83-87 and 104-150) they use.  Arrays of size `p * p` are indexed by the position
in `vec`, `column * p + row`; sparse matrices are lists of triplets (`Verif.Vec.cooEntry`).  Floating point is replaced
by the reals.
-/

namespace Verif.Cov
open Verif.Vec

/-- `A.dot(B)` with `n` columns in `A`. -/
def mm (n : ℕ) (A B : ℕ → ℕ → ℝ) (i j : ℕ) : ℝ := ∑ k ∈ Finset.range n, A i k * B k j

/-- `A.T`. -/
def tr (A : ℕ → ℕ → ℝ) (i j : ℕ) : ℝ := A j i

/-- `np.eye`. -/
def eyeM (i j : ℕ) : ℝ := if i = j then 1 else 0

/-- `np.kron(A, B)` for `B` with `p` rows and columns. -/
def kronM (p : ℕ) (A B : ℕ → ℕ → ℝ) (i j : ℕ) : ℝ := A (i / p) (j / p) * B (i % p) (j % p)

/-- `vec(S)` (linalg_operations.py 324-325) at a position. -/
def vecAt (p : ℕ) (S : ℕ → ℕ → ℝ) (k : ℕ) : ℝ := S (k % p) (k / p)

/-- `nmat(p)` (special_mats.py 83-87). -/
def nmatM (p i j : ℕ) : ℝ := cooEntry (kmat p p) i j + eyeM i j

/-- `flat_mgrid(n, n, n, n)`, up to the order. -/
def grid4 (p : ℕ) : List (ℕ × ℕ × ℕ × ℕ) := (List.range p) ×ˢ (List.range p) ×ˢ (List.range p) ×ˢ (List.range p)

/-- `pattern_mat_d(p)` (special_mats.py 117-127). -/
def patD (p : ℕ) : List (ℝ × ℕ × ℕ) :=
  ((grid4 p).filter fun t => t.1 = t.2.1 ∧ t.2.1 = t.2.2.1 ∧ t.2.2.1 = t.2.2.2).map fun t => (1, t.1 + t.2.1 * p, t.2.2.1 + t.2.2.2 * p)

/-- `pattern_mat_s(p)` (special_mats.py 129-142). -/
noncomputable def patS (p : ℕ) : List (ℝ × ℕ × ℕ) :=
  let ix1 : ℕ × ℕ × ℕ × ℕ → Bool := fun t => t.1 = t.2.1 ∧ t.2.1 = t.2.2.1 ∧ t.2.2.1 = t.2.2.2
  let ix2 : ℕ × ℕ × ℕ × ℕ → Bool := fun t => ((t.1 = t.2.2.1 ∧ t.2.2.2 = t.2.1) ∨ (t.1 = t.2.2.2 ∧ t.2.1 = t.2.2.1)) ∧ ix1 t = false
  (((grid4 p).filter ix1).map fun t => (1, t.1 + t.2.1 * p, t.2.2.1 + t.2.2.2 * p)) ++
  ((grid4 p).filter ix2).map fun t => (1 / 2, t.1 + t.2.1 * p, t.2.2.1 + t.2.2.2 * p)

/-- `pattern_mat_k(p)` (special_mats.py 144-150). -/
def patK (p : ℕ) : List (ℝ × ℕ × ℕ) := (List.range p).map fun n => (1, n * (p + 1), n)

/-- `scale_diag(A, s)` (data_utils.py 129-133). -/
def scaleDiag (A : ℕ → ℕ → ℝ) (s : ℕ → ℝ) (i j : ℕ) : ℝ := s j * A i j * s i

/-- `1 / np.sqrt(np.diag(S))`. -/
noncomputable def wts (S : ℕ → ℕ → ℝ) (i : ℕ) : ℝ := 1 / √(S i i)

/-- The matrix `A` of `corr_acov_neudecker` (lines 369-380). -/
noncomputable def neuA (p : ℕ) (S : ℕ → ℕ → ℝ) : ℕ → ℕ → ℝ :=
  let w := wts S
  let ww := fun k => w (k / p) * w (k % p)
  let R := scaleDiag S w
  let Ms := fun i j => nmatM p i j / 2
  let Md := cooEntry (patD p)
  let MsIoR := mm (p * p) Ms (kronM p eyeM R)
  fun i j => (eyeM i j - tr (mm (p * p) (tr Md) (tr MsIoR)) i j) * ww j

/-- `corr_acov_neudecker` (lines 369-383). -/
noncomputable def neudecker (p : ℕ) (S : ℕ → ℕ → ℝ) : ℕ → ℕ → ℝ :=
  let A := neuA p S
  let V := fun i j => 2 * mm (p * p) (fun i j => nmatM p i j / 2) (kronM p S S) i j + vecAt p S i * vecAt p S j
  mm (p * p) (mm (p * p) A V) (tr A)

/-- `corr_acov_browne` (lines 385-402). -/
noncomputable def browne (p : ℕ) (S : ℕ → ℕ → ℝ) (kurt : ℝ) : ℕ → ℕ → ℝ :=
  let R := scaleDiag S (wts S)
  let vS := vecAt p R
  let Ms := cooEntry (patS p)
  let Kd := cooEntry (patK p)
  let A := mm (p * p) Ms (kronM p R eyeM)
  let A := tr (mm (p * p) (tr Kd) (tr A))
  let G := fun i j => 2 * mm (p * p) Ms (kronM p R R) i j
  let G := fun i j => kurt * G i j + (kurt - 1) * (vS i * vS j)
  let B := tr (mm (p * p) (tr Kd) (tr G))
  let C := mm (p * p) (tr Kd) B
  let ABt := mm p A (tr B)
  fun i j => G i j - ABt i j - tr ABt i j + mm p (mm p A C) (tr A) i j

/-- `cov_sample_cov(S=S, kurt=kurt)` (lines 339-365). -/
noncomputable def covSampleCov (p : ℕ) (S : ℕ → ℕ → ℝ) (kurt : ℕ → ℝ) : ℕ → ℕ → ℝ :=
  let D := cooEntry (dpmat (R := ℝ) p)
  let u := fun i => √(kurt i)
  let C := fun i j => (1 / 2 * (u j + u i)) * S i j
  let v : ℕ → ℕ → ℝ := fun i c => if c = 0 then (vech C p).getD i 0 else (vech S p).getD i 0
  let M : ℕ → ℕ → ℝ := fun i j => if i = 1 ∧ j = 1 then -1 else eyeM i j
  let tmp := mm (p ^ 2) D (kronM p C C)
  fun i j => 2 * tr (mm (p ^ 2) D (tr tmp)) i j + mm 2 (mm 2 v M) (tr v) i j

end Verif.Cov
