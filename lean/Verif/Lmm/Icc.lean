import Mathlib.Data.Real.Basic

/-!
Model of `pystatsm/misc/icc.py`: intraclass correlations from the variance components of a two-way layout.  The three copies of the formulas are
modelled one by one; the p-values and the fit of the mixed model are left out, and `np.nan` is `none`.
-/

namespace Verif.Lmm

/-- The table of intraclass correlations: values, `F` and degrees of freedom, in the order ICC1, ICC2, ICC3, ICC1k, ICC2k, ICC3k. -/
structure IccTable where
  icc : List ℝ
  f : List ℝ
  df1 : List ℝ
  df2 : List ℝ

/-- The rows `df`, `ssq`, `ms` and `f` of the analysis of variance for subjects, judges and residuals. -/
structure AnovaTable where
  df : List ℝ
  ssq : List ℝ
  ms : List (Option ℝ)
  f : List (Option ℝ)

/-- `icc_from_summary_stats` (lines 15-65). -/
noncomputable def iccSummary (subject rater resid nSub nRat : ℝ) : AnovaTable × IccTable × List ℝ :=
  let total := subject + rater + resid
  let msbs := nRat * subject + resid
  let msbr := nSub * rater + resid
  let msws := rater + resid
  let msrs := resid
  let dfbs := nSub - 1
  let dfbr := nRat - 1
  let dfws := nSub * dfbr
  let dfrs := dfbs * dfbr
  let fbs := msbs / msrs
  let fbr := msbr / msrs
  let icc1 := (msbs - msws) / (msbs + dfbr * msws)
  let icc2 := (msbs - msrs) / (msbs + dfbr * msrs + nRat / nSub * (msbr - msrs))
  let icc3 := (msbs - msrs) / (msbs + dfbr * msrs)
  let icc12 := (msbs - msws) / msbs
  let icc22 := (msbs - msrs) / (msbs + (msbr - msrs) / nSub)
  let icc32 := (msbs - msrs) / msbs
  let f11 := msbs / msws
  let f21 := msbs / msrs
  (⟨[dfbs, dfbr, dfrs], [msbs * dfbs, msbr * dfbr, msrs * dfrs], [some msbs, some msbr, some msrs], [some fbs, some fbr, none]⟩,
   ⟨[icc1, icc2, icc3, icc12, icc22, icc32], [f11, f21, f21, f11, f21, f21], [dfbs, dfbs, dfbs, dfbs, dfbs, dfbs],
    [dfws, dfrs, dfrs, dfws, dfrs, dfrs]⟩,
   [subject / total, rater / total, resid / total, total / total])

/-- `ICC.__init__` after the fit (lines 83-131): `msId`, `msIt`, `mse` are the fitted variances and `nj`, `nobs` the numbers of raters and
subjects. -/
noncomputable def iccClass (msId msIt mse nj nobs : ℝ) : AnovaTable × IccTable :=
  let msb := nj * msId + mse
  let msj := nobs * msIt + mse
  let msw := msIt + mse
  let dfb := nobs - 1
  let dfj := nj - 1
  let dfe := dfb * dfj
  let fb := msb / mse
  let fj := msj / mse
  let icc1 := (msb - msw) / (msb + dfj * msw)
  let icc2 := (msb - mse) / (msb + dfj * mse + nj / nobs * (msj - mse))
  let icc3 := (msb - mse) / (msb + dfj * mse)
  let icc12 := (msb - msw) / msb
  let icc22 := (msb - mse) / (msb + (msj - mse) / nobs)
  let icc32 := (msb - mse) / msb
  let f11 := msb / msw
  let f21 := msb / mse
  let dfd := nobs * dfj
  (⟨[dfb, dfj, dfe], [msb * dfb, msj * dfj, mse * dfe], [some msb, some msj, some mse], [some fb, some fj, none]⟩,
   ⟨[icc1, icc2, icc3, icc12, icc22, icc32], [f11, f21, f21, f11, f21, f21], [dfb, dfb, dfb, dfb, dfb, dfb], [dfd, dfe, dfe, dfd, dfe, dfe]⟩)

/-- `icc` (lines 134-170). -/
noncomputable def iccFun (subject rater resid nSub nRat : ℝ) : AnovaTable × IccTable :=
  let msSubject := nRat * subject + resid
  let msRater := nSub * rater + resid
  let msWithin := rater + resid
  let dfSubject := nSub - 1
  let dfRater := nRat - 1
  let dfResidual := dfSubject * dfRater
  let fSubject := msSubject / resid
  let fRater := msRater / resid
  let icc1 := (msSubject - msWithin) / (msSubject + dfRater * msWithin)
  let icc2 := (msSubject - resid) / (msSubject + dfRater * resid + nRat / nSub * (msRater - resid))
  let icc3 := (msSubject - resid) / (msSubject + dfRater * resid)
  let icc12 := (msSubject - msWithin) / msSubject
  let icc22 := (msSubject - resid) / (msSubject + (msRater - resid) / nSub)
  let icc32 := (msSubject - resid) / msSubject
  let f11 := msSubject / msWithin
  let f21 := msSubject / resid
  let dfd := nSub * dfRater
  (⟨[dfSubject, dfRater, dfResidual], [msSubject * dfSubject, msRater * dfRater, resid * dfResidual], [some fSubject, some fRater, none],
    [some 0, some 0, some 0]⟩,
   ⟨[icc1, icc2, icc3, icc12, icc22, icc32], [f11, f21, f21, f11, f21, f21], [dfSubject, dfSubject, dfSubject, dfSubject, dfSubject, dfSubject],
    [dfd, dfResidual, dfResidual, dfd, dfResidual, dfResidual]⟩)

end Verif.Lmm
