import Verif.Vec.Model
import Mathlib.Data.Real.Basic
import Mathlib.Data.List.Sort
/-!
# Random-effect terms of the class `LMM`

Code: pylmm/ranef_terms.py 93-146 (`RandomEffectTerm`), 205-284 (`RandomEffects`), 286-301 (`get_u_indices`),
utilities/data_utils.py 246-257 (`_dummy_encode`), pylmm/lmm.py 106-125 (`update_gmat`, `update_lmat`).

A sparse matrix is its list of positions and its list of data.  Levels of a factor are natural numbers, a missing one is
`none` and equal to nothing; `patsy.dmatrix` drops the rows with a missing value.  The design of a term is a list of rows.
-/
namespace Verif.Lmm.ReTerms
open Verif.Np Verif.Vec

/-! ## One term -/

/-- `np.unique(x)`; missing values count as one more level — data_utils.py 247-248. -/
def cats (x : List (Option ℕ)) : List ℕ := (x.filterMap id).dedup.insertionSort (· ≤ ·)
def nLev (x : List (Option ℕ)) : ℕ := (cats x).length + if none ∈ x then 1 else 0

/-- `_dummy_encode(x)`: rows and columns — data_utils.py 250-256. -/
def dummyPairs (x : List (Option ℕ)) : List (ℕ × ℕ) :=
  (cats x).zipIdx.flatMap fun ci => ((List.range x.length).filter fun r => x[r]? = some (some ci.1)).map fun r => (r, ci.2)

/-- `j_cols[np.argsort(j_rows)]` — ranef_terms.py 104-108, 114. -/
def levels (x : List (Option ℕ)) : List ℕ := ((dummyPairs x).insertionSort fun a b => a.1 ≤ b.1).map Prod.snd

/-- What is kept of a term. -/
structure RTerm where
  n : ℕ
  p : ℕ
  q : ℕ
  lev : ℕ → ℕ
  X : ℕ → ℕ → ℝ

/-- The rows `patsy.dmatrix` keeps, for the formula `0 + x`. -/
def dmatrix1 (col : List (Option ℝ)) : List ℝ := col.filterMap id

/-- `RandomEffectTerm` with one column — ranef_terms.py 100-114: the two halves of `z_cols` must have one length. -/
def mkTerm1 (x : List (Option ℕ)) (col : List (Option ℝ)) : Option RTerm :=
  let Xi := dmatrix1 col
  if (levels x).length = Xi.length then
    some ⟨Xi.length, 1, nLev x, fun i => (levels x).getD i 0, fun i _ => Xi.getD i 0⟩
  else none

/-- Positions and data of `Z` of one term, with its offset — ranef_terms.py 113-114, 215-218. -/
def zPos (t : RTerm) (off : ℕ) : List (ℕ × ℕ) :=
  (List.range (t.n * t.p)).map fun s => (s / t.p, t.lev (s / t.p) * t.p + s % t.p + off)
def zDat (t : RTerm) : List ℝ := (List.range (t.n * t.p)).map fun s => t.X (s / t.p) (s % t.p)

/-- Positions of `G` of one term — ranef_terms.py 116-117, 223. -/
def gPos (p q off : ℕ) : List (ℕ × ℕ) := (List.range (q * (p * p))).map fun s => (s / (p * p) * p + s % p + off, s / p + off)

/-- `np.tile(S.reshape(-1, order='F'), q)` — 126-127, 228; lmm.py 111-114. -/
def gDat (p q : ℕ) (S : ℕ → ℕ → ℝ) : List ℝ := (List.range (q * (p * p))).map fun s => S (s % (p * p) % p) (s % (p * p) / p)

/-- Positions of `L` — 118-119, 230. -/
def lPos (p q off : ℕ) : List (ℕ × ℕ) := ((gPos p q 0).filter fun e => e.2 ≤ e.1).map fun e => (e.1 + off, e.2 + off)

/-- `np.tile(vech(S), q)` — 128, 234; lmm.py 121-124. -/
def lDat (p q : ℕ) (S : ℕ → ℕ → ℝ) : List ℝ := (List.replicate q (vech S p)).flatten

/-! ## All terms -/

/-- `z_rows`, `z_cols`, `z_data` — 214-218, 238. -/
def zAll : ℕ → List RTerm → List (ℕ × ℕ) × List ℝ
  | _, [] => ([], [])
  | off, t :: ts => (zPos t off ++ (zAll (off + t.p * t.q) ts).1, zDat t ++ (zAll (off + t.p * t.q) ts).2)

/-- Number of columns — 238, 247. -/
def nCols (ts : List (ℕ × ℕ × (ℕ → ℕ → ℝ))) : ℕ := (ts.map fun t => t.1 * t.2.1).sum

/-- `g_rows`, `g_cols`, and the data for covariances `S` — 220-228, 242. -/
def gAllPos : ℕ → List (ℕ × ℕ × (ℕ → ℕ → ℝ)) → List (ℕ × ℕ)
  | _, [] => []
  | off, t :: ts => gPos t.1 t.2.1 off ++ gAllPos (off + t.1 * t.2.1) ts
def gAllDat : List (ℕ × ℕ × (ℕ → ℕ → ℝ)) → List ℝ
  | [] => []
  | t :: ts => gDat t.1 t.2.1 t.2.2 ++ gAllDat ts

/-- `l_rows`, `l_cols` and data — 230-234, 242. -/
def lAllPos : ℕ → List (ℕ × ℕ × (ℕ → ℕ → ℝ)) → List (ℕ × ℕ)
  | _, [] => []
  | off, t :: ts => lPos t.1 t.2.1 off ++ lAllPos (off + t.1 * t.2.1) ts
def lAllDat : List (ℕ × ℕ × (ℕ → ℕ → ℝ)) → List ℝ
  | [] => []
  | t :: ts => lDat t.1 t.2.1 t.2.2 ++ lAllDat ts

/-- `update_gmat` — lmm.py 106-115: `G.data[g_inds[i]] = tile(...)` for one term after another. -/
def gWrite : ℕ → List (ℕ × ℕ × (ℕ → ℕ → ℝ)) → List ℝ → List ℝ
  | _, [], d => d
  | off, t :: ts, d => gWrite (off + t.1 * t.1 * t.2.1) ts (sliceAssign d off (gDat t.1 t.2.1 t.2.2))

/-- Entry of `sps.csc_matrix((data, (rows, cols)))`. -/
def entry (pos : List (ℕ × ℕ)) (dat : List ℝ) (r c : ℕ) : ℝ :=
  (((pos.zip dat).filter fun e => decide (e.1.1 = r ∧ e.1.2 = c)).map fun e => e.2).sum

/-- `get_u_indices()` and `jac_inds`: first index and length — 286-301, 219. -/
def uInds : ℕ → List (ℕ × ℕ) → List (ℕ × ℕ)
  | _, [] => []
  | start, t :: ts => (start, t.2 * t.1) :: uInds (start + t.2 * t.1) ts

end Verif.Lmm.ReTerms
