import Verif.Lv.Serial

/-!
Model of `random_thresholds` and of the categories of `PolycoricSim` and `LVCorrSim` in `pystatsm/pylvcorr/sim_lvcorr.py` (the first two are also in
`polychoric2.py`).  The draws of the generator are arguments.
-/

namespace Verif.Lv

/-- `ndtri`, which is infinite at zero and one. -/
noncomputable def ndtriE (ndtri : ℝ → ℝ) (q : ℝ) : Ext :=
  open Classical in if q = 1 then .top else if q = 0 then .bot else .fin (ndtri q)

/-- `np.cumsum` of numbers. -/
def cumsumR : ℝ → List ℝ → List ℝ
  | _, [] => []
  | s, c :: l => (s + c) :: cumsumR (s + c) l

/-- The choices of `ncat[i]` (line 52 of sim_lvcorr.py). -/
def ncatChoices (minCat maxCat : ℕ) : List ℕ := (List.range (maxCat + 2)).drop (minCat + 2)

/-- The number of weights `dirichlet` draws (line 58). -/
def nWeights (ncat : ℕ) : ℕ := ncat - 2

/-- `q` (lines 58-59) for the weights `d`. -/
def quantiles (d : List ℝ) : List ℝ := (0 :: cumsumR 0 d).dropLast ++ [1]

/-- `taus[i]` (line 61). -/
noncomputable def simTaus (ndtri : ℝ → ℝ) (d : List ℝ) : List Ext := (quantiles d).map (ndtriE ndtri)

/-- `np.digitize(z, taus)` (line 78) for increasing thresholds: the number of thresholds not above `z`. -/
noncomputable def digitizeE (taus : List Ext) (z : ℝ) : ℕ := by
  classical exact taus.countP fun t => decide (match t with | .bot => True | .top => False | .fin t => t ≤ z)

/-- `cat_sizes` (line 72). -/
def catSize (taus : List Ext) : ℕ := taus.length

/-- `x_bins` for an integer (lines 18-19), used as quantiles: `np.linspace(0, 1, n + 1, endpoint=False)[1:]`. -/
def binsInt (n : ℕ) : List ℚ := ((List.range (n + 1)).map fun k : ℕ => (k : ℚ) / ((n + 1 : ℕ) : ℚ)).tail

end Verif.Lv
