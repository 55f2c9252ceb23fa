import Verif.Sparse.Model
import Mathlib.Algebra.Field.Defs
/-!
# Model of the sparse storage of `pylmm/re_mod.py`

The dense model of `Lmm/Model.lean` says which matrices are meant; this file says how they are stored.  Sorting the
indices of a matrix whose columns are already sorted, `sp.sparse.hstack` and `sp.sparse.block_diag` are left out: one term.
-/
namespace Verif.Lmm
open Verif.Sparse

variable {R : Type*}

/-- `np.repeat(x, n)[t]`. -/
def rep (x : ℕ → ℕ) (n t : ℕ) : ℕ := x (t / n)

/-- `np.tile(x, reps)[t]`, `x` of length `n`. -/
def til (x : ℕ → ℕ) (n t : ℕ) : ℕ := x (t % n)

/-- `make_zinds` — 60-63. -/
def zRows (nrv : ℕ) : ℕ → ℕ := rep id nrv
def zCols (nrv : ℕ) (cols : ℕ → ℕ) (t : ℕ) : ℕ := rep (fun i => cols i * nrv) nrv t + til id nrv t

/-- `_make_z_matrix` — 398-402; also `make_remod_mat` — 65-73. `cols` are the level numbers. -/
def zmat [Zero R] (nob nrv nlv : ℕ) (cols : ℕ → ℕ) (arr : ℕ → ℕ → R) : Csc R :=
  cooToCsc (nlv * nrv) (nob * nrv) (zRows nrv) (zCols nrv cols) fun t => arr (t / nrv) (t % nrv)

/-- `make_ginds_bdiag` — 48-52, `KronIG._make_initial_matrix` — 237-238. -/
def gRows (nrv : ℕ) (t : ℕ) : ℕ := rep (fun l => l * nrv) (nrv * nrv) t + til id nrv t
def gCols (nrv : ℕ) : ℕ → ℕ := rep id nrv

/-- `G0.reshape(-1, order='F')`. -/
def vecF (nrv : ℕ) (G0 : ℕ → ℕ → R) (k : ℕ) : R := G0 (k % nrv) (k / nrv)

/-- `KronIG._make_initial_matrix` — 232-243. -/
def gInit [CommRing R] (nrv nlv : ℕ) : Csc R :=
  cooToCsc (nlv * nrv) (nlv * nrv * nrv) (gRows nrv) (gCols nrv)
    (tileNested (vecF nrv fun a b => if a = b then 1 else 0) (nrv * nrv) nlv fun _ => 0)

/-- `KronIG._update_gdata` — 245-247; `G0` is the covariance or its inverse. -/
def gUpdate [CommRing R] (nrv nlv : ℕ) (G0 : ℕ → ℕ → R) (G : Csc R) : Csc R :=
  { G with x := tileNested (vecF nrv G0) (nrv * nrv) nlv G.x }

/-- `KronAG._make_initial_matrix` — 309-313. -/
def agInit [CommRing R] (A : Csc R) (nlv nrv : ℕ) : Csc R :=
  sparseDenseKron A nlv (vecF nrv fun a b => if a = b then 1 else 0) nrv nrv

/-- `KronAG._update_gdata` — 315-317; `A` is `a_inv` or `a_cov`. -/
def agUpdate [CommRing R] (A : Csc R) (nlv nrv : ℕ) (G0 : ℕ → ℕ → R) (G : Csc R) : Csc R :=
  { G with x := kronSDInplace A nlv (vecF nrv G0) nrv nrv G.x }

/-- The nonzero entries of column `c` of the sum. -/
def sumCol [CommRing R] [DecidableEq R] (A B : Csc R) (nr c : ℕ) : List (ℕ × R) :=
  ((List.range nr).filter fun r => A.entry r c + B.entry r c ≠ 0).map fun r => (r, A.entry r c + B.entry r c)

/-- `A + B` of two compressed matrices: scipy keeps only the nonzero sums. -/
def scipyAdd [CommRing R] [DecidableEq R] (A B : Csc R) (nr nc : ℕ) : Csc R :=
  let L := (List.range nc).flatMap (sumCol A B nr)
  { p := fun c => ((List.range c).flatMap (sumCol A B nr)).length,
    i := fun k => (L.getD k (0, 0)).1, x := fun k => (L.getD k (0, 0)).2 }

/-- `self.C` after `update_chol` — 658 and 728-729: the pattern comes from the sum at the start. -/
def cUpdate [CommRing R] [DecidableEq R] (ZtRZ0 G0 ZtRZ Ginv : Csc R) (n : ℕ) : Csc R :=
  csAdd ZtRZ Ginv 1 1 (scipyAdd ZtRZ0 G0 n n) n

/-- `in_term[k]` — 274-276: `searchsorted` counts the row numbers below `offset`. -/
def inTerm (M : Csc R) (offset c : ℕ) : ℕ :=
  M.p c + ((loopRange (M.p c) (M.p (c + 1))).filter fun k => M.i k < offset).length

/-- `_zr_index_map[l, a, b]` — 277-278. -/
def zrMap (M : Csc R) (offset nv l a b : ℕ) : ℕ := inTerm M offset (offset + (l * nv + b)) + a

/-- `ZtRZ.data[self._zr_index_map].sum(axis=0)` — 283: an index beyond the data raises. -/
def ztrzSum [AddCommMonoid R] (M : Csc R) (nnz offset ng nv : ℕ) : Option (ℕ → ℕ → R) :=
  if ∀ l < ng, ∀ a < nv, ∀ b < nv, zrMap M offset nv l a b < nnz then
    some fun a b => ∑ l ∈ Finset.range ng, M.x (zrMap M offset nv l a b)
  else none

end Verif.Lmm
