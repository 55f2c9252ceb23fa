import Verif.Lv.Polychor
import Mathlib.Data.List.Sort
import Mathlib.Data.List.Dedup

/-!
Model of `process_data` and of the table of `_xtabs` in `Polychor` of `pystatsm/pylvcorr/polychoric2.py` (also `polychoric.py`), for columns of
integers.  `ndtri` is `scipy.special.ndtri`.
-/

namespace Verif.Lv

/-- `uniq[i]` of `process_data` (line 83): the sorted values of a column. -/
def uniq (x : List ℤ) : List ℤ := x.dedup.insertionSort (· ≤ ·)

/-- `catt[i]` (line 83). -/
def catt (x : List ℤ) : List ℕ := (uniq x).map fun u => x.count u

/-- `ncat[i]` (line 87). -/
def ncat (x : List ℤ) : ℕ := (catt x).length

/-- `np.cumsum`, starting from `s`. -/
def cumsum : ℕ → List ℕ → List ℕ
  | _, [] => []
  | s, c :: l => (s + c) :: cumsum (s + c) l

/-- `cprp[i]` (line 84). -/
def cprp (x : List ℤ) : List ℚ := ((cumsum 0 (catt x)).map fun c : ℕ => (c : ℚ) / ((catt x).sum : ℚ)).dropLast

/-- `tauc[i]` (line 85). -/
noncomputable def tauc (ndtri : ℝ → ℝ) (x : List ℤ) : List ℝ := (cprp x).map fun q : ℚ => ndtri (q : ℝ)

/-- `tauo[i]` (line 86), as a function of the position. -/
noncomputable def tauo (ndtri : ℝ → ℝ) (x : List ℤ) : ℕ → ℝ := pad (-10 ^ 10) (10 ^ 10) (ncat x - 1) fun k => (tauc ndtri x).getD k 0

/-- `sp.stats.contingency.crosstab(x, y)` (line 118): the counts at the positions of the sorted values. -/
def crosstab (x y : List ℤ) (i j : ℕ) : ℕ := (x.zip y).count ((uniq x).getD i 0, (uniq y).getD j 0)

/-- The pair of two columns. -/
noncomputable def samplePair (x y : List ℤ) : Pair := ⟨ncat x - 1, ncat y - 1, fun i j => (crosstab x y i j : ℝ)⟩

end Verif.Lv
