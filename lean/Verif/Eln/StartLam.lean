import Verif.Eln.Path
import Mathlib.Algebra.BigOperators.Fin

/-!
Model of `get_start_param` of `pystatsm/pyglmnet/glmen2.py` (lines 193-207): the path of penalties and the point it starts from.
-/
namespace Verif.Eln
open Finset

variable {n p : ℕ}

/-- `ymean` — 195. -/
def gsMean (y w : Fin n → ℝ) : ℝ := ∑ i, w i * y i

/-- `np.abs(g)[j]` — 196-203. -/
noncomputable def gsAbs (link dinv var : ℝ → ℝ) (X : Fin n → Fin p → ℝ) (y w : Fin n → ℝ) (al alMin : ℝ) (j : Fin p) : ℝ :=
  let m := gsMean y w
  |(∑ i, X i j * ((y i - m) / var m * dinv (link m) * w i)) / max al alMin|

/-- `lmax` — 204; without variables the maximum of nothing raises. -/
noncomputable def gsLmax (link dinv var : ℝ → ℝ) (X : Fin n → Fin p → ℝ) (y w : Fin n → ℝ) (al alMin : ℝ) : Option ℝ :=
  ((List.finRange p).map (gsAbs link dinv var X y w al alMin)).max?

/-- `lambdas` — 205; with `lmax = 0` the logarithms are infinite and their differences nan (`none`). -/
noncomputable def gsLambdas (link dinv var : ℝ → ℝ) (X : Fin n → Fin p → ℝ) (y w : Fin n → ℝ) (al alMin ratio : ℝ) (nl : ℕ) : Option (List ℝ) :=
  open Classical in
  (gsLmax link dinv var X y w al alMin).bind fun L => if L = 0 then none else some (lambdaPath L ratio none nl)

end Verif.Eln
