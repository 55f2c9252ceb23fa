import Mathlib.Algebra.Order.Floor.Ring
import Mathlib.Data.Real.Basic
import Mathlib.Data.Real.Archimedean
/-!
# Model of `utilities/splines.py`: B-splines, difference matrices

`scipy.interpolate.splev` is modelled on FITPACK: it looks for the interval of the argument among the intervals between knot
`degree` and knot `len(knots) - degree - 1` and evaluates the polynomial that the spline is on that interval, also
outside of it. The polynomial comes from the recurrence of Cox and de Boor. Arithmetic is exact.
-/
namespace Verif.Spl

/-- The polynomial that the B-spline of degree `p` and index `i` is on interval `l`. -/
noncomputable def bp (t : ℕ → ℝ) (l : ℕ) : ℕ → ℕ → ℝ → ℝ
  | 0, i, _ => if i = l then 1 else 0
  | p + 1, i, x => (x - t i) / (t (i + p + 1) - t i) * bp t l p i x +
      (t (i + p + 2) - x) / (t (i + p + 2) - t (i + 1)) * bp t l p (i + 1) x

open Classical in
/-- The search for the interval in `splev`: from `l`, while the argument is not below the next knot and `l + 1 < q`. -/
noncomputable def splevIdx (t : ℕ → ℝ) (q : ℕ) (x : ℝ) : ℕ → ℕ → ℕ
  | 0, l => l
  | fuel + 1, l => if t (l + 1) ≤ x ∧ l + 1 ≠ q then splevIdx t q x fuel (l + 1) else l

/-- `splev(x, (knots, u, degree))` with `u` the unit vector `i`: `N` knots, `q = N - degree - 1` functions. -/
noncomputable def splev (t : ℕ → ℝ) (N p i : ℕ) (x : ℝ) : ℝ :=
  let q := N - (p + 1)
  bp t (splevIdx t q x q p) p i x

/-- `bspline_basis` with `deriv = 0` — 123-133: entry `i` of a row and the number of columns. -/
noncomputable def bsplineBasis (t : ℕ → ℝ) (N p : ℕ) (x : ℝ) : (ℕ → ℝ) × ℕ := (fun i => splev t N p i x, N - (p + 1))

/-- `_bspline` with `deriv = 0` — 65-78: it raises if there are not enough knots; the first column is dropped. -/
noncomputable def bspline (t : ℕ → ℝ) (N p : ℕ) (x : ℝ) : Option ((ℕ → ℝ) × ℕ) :=
  if N ≤ p + 1 then none else some (fun i => splev t N p (i + 1) x, N - (p + 1) - 1)

/-- `equispaced_knots` — 55-63: the knots of `np.arange` and their number (`xl`, `xr` are the least and the largest value). -/
noncomputable def equispaced (xl xr : ℝ) (degree ndx : ℕ) : (ℕ → ℝ) × ℕ :=
  let dx := (xr - xl) / ndx
  let order : ℝ := (degree + 1 : ℕ)
  (fun i => (xl - order * dx) + i * dx, ⌈((xr + order * dx) - (xl - order * dx)) / dx⌉₊)

/-- `bspline_knots` — 96-104: all knots of `np.linspace` and their number, and the range of the inner knots. -/
noncomputable def bsplineKnots (xmin xmax : ℝ) (df degree : ℕ) : (ℕ → ℝ) × ℕ × ℕ × ℕ :=
  let nk := df - degree + 1
  let xr := xmax - xmin
  let xl := xmin - xr * 0.001
  let xu := xmax + xr * 0.001
  let dx := (xu - xl) / ((nk : ℝ) - 1)
  let lo := xl - dx * degree
  let hi := xu + dx * degree
  let N := nk + 2 * degree
  (fun i => lo + i * ((hi - lo) / ((N : ℝ) - 1)), N, degree, if degree = 0 then 0 else N - degree)

/-- `np.diff(a, axis=0)`. -/
def diffRows (a : ℕ → ℕ → ℝ) : ℕ → ℕ → ℝ := fun i j => a (i + 1) j - a i j

/-- `difference_mat` — 51-53: the array and its number of rows. -/
def differenceMat (k order : ℕ) : (ℕ → ℕ → ℝ) × ℕ := (diffRows^[order] fun i j => if i = j then 1 else 0, k - order)

/-! ## Calls -/

/-- A Python signature: parameters without default, then parameters with default. -/
structure Sig where
  req : List String
  opt : List String

/-- Binding of `npos` positional arguments and of keywords: it fails (`TypeError`) if there are too many positional
arguments, an unknown keyword, a keyword for a parameter already bound, or a parameter without default left over. -/
def Sig.binds (s : Sig) (npos : ℕ) (kw : List String) : Bool :=
  let ps := s.req ++ s.opt
  npos ≤ ps.length && kw.all (fun w => w ∈ ps && w ∉ ps.take npos) && s.req.all (fun r => r ∈ ps.take npos || r ∈ kw)

/-- `def bspline_penalty(all_knots, knots, degree, penalty=2, intercept=False)` — 165. -/
def penaltySig : Sig := ⟨["all_knots", "knots", "degree"], ["penalty", "intercept"]⟩

/-- `def bspline_basis(x, knots, deriv=0, degree=3)` — 120. -/
def basisSig : Sig := ⟨["x", "knots"], ["deriv", "degree"]⟩

/-- `def crspline_penalty(knots, ret_s=True)` — 211; `def crspline_basis(x, knots, F)` — 135. -/
def crPenaltySig : Sig := ⟨["knots"], ["ret_s"]⟩
/-- See above. -/
def crBasisSig : Sig := ⟨["x", "knots", "F"], []⟩
/-- `def bspline_knots(x, df, degree=3)` — 92. -/
def knotsSig : Sig := ⟨["x", "df"], ["degree"]⟩

/-- Every call that `bspline_penalty` makes to `bspline_basis` binds — 169. -/
def penaltyBodyOk : Bool := basisSig.binds 3 ["deriv", "intercept"]

/-- The calls of `_get_bsplines` bind — 237-242. -/
def getBsplinesOk : Bool := knotsSig.binds 2 [] && penaltySig.binds 2 [] && penaltyBodyOk && basisSig.binds 2 ["deriv"]

/-- The calls of `_get_crsplines` bind — 230-235. -/
def getCrsplinesOk : Bool := crPenaltySig.binds 1 [] && crBasisSig.binds 3 []

end Verif.Spl
