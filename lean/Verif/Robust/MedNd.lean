import Verif.Robust.Disp

/-!
Model of `_median_nd` of `pystatsm/pyrobust/dispersion_estimators.py` (lines 144-158) for matrices with at least one row and one column.
-/
namespace Verif.Robust

variable {R : Type} [Field R] [LinearOrder R] {r c : ℕ}

/-- The lines of a matrix along an axis: the columns along axis 0, the rows along axis 1. -/
def linesAlong (one : Bool) (a : Fin r → Fin c → R) : List (List R) :=
  if one then List.ofFn fun i => List.ofFn (a i) else List.ofFn fun j => List.ofFn fun i => a i j

/-- `k` — 148-151. -/
def medIdx (high : Bool) (n : ℕ) : ℕ := if high then n / 2 else (n + 1) / 2 - 1

/-- `_median_nd` — 144-158; `axis = none` is None, `some false` and `some true` are 0 and 1.  `np.partition` raises if `k` is not an index of the lines. -/
def medianNd (high : Bool) (axis : Option Bool) (a : Fin r → Fin c → R) : Option (List R) :=
  let n := match axis with
    | none => r * c
    | some false => r
    | some true => c
  (linesAlong (axis.getD false) a).mapM fun l => kth l (medIdx high n)

end Verif.Robust
