import Verif.Lmm.Profile
/-!
Model of `profile` of pystatsm/pylmm/prf.py (lines 109-153), the older profile likelihood.  The refit with one parameter held (lines 135-143) is a
parameter: the function that gives the minimised objective for each held value.
-/

namespace Verif.Lmm

/-- `lb` and `ub` — 128-132: `isVar` says that the lower bound of the parameter is zero. -/
noncomputable def oprfBounds (tb se mle : ℝ) (isVar : Bool) : ℝ × ℝ :=
  (if isVar then max (1 / 100) (mle - tb * se) else mle - tb * se, mle + tb * se)

/-- `tspace[k]` — 133. -/
noncomputable def oprfPoint (tb se mle : ℝ) (isVar : Bool) (n k : ℕ) : ℝ :=
  let b := oprfBounds tb se mle isVar
  profGrid b.1 b.2 n k

/-- `zeta` — 144-145; the root of a negative number is nan (`none`). -/
noncomputable def oprfZeta (D : ℝ → ℝ) (llmax mle t0 : ℝ) : Option ℝ :=
  let LR := D t0 - llmax
  if LR < 0 then none else some (√LR * Real.sign (t0 - mle))

/-- The parameter and the held value of each row of `thetas` and `zetas`, in the order of the two loops — 124-148; `pts i` is `tspace`. -/
def oprfRows (nTheta n : ℕ) (pts : ℕ → ℕ → ℝ) : List (ℕ × ℝ) :=
  (List.range nTheta).flatMap fun i => (List.range n).map fun k => (i, pts i k)

/-- `ix` — 152. -/
def oprfIx (nTheta n : ℕ) : List ℕ := (List.range nTheta).flatMap fun i => List.replicate n i

end Verif.Lmm
