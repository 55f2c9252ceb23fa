import Verif.Like.Clm
import Mathlib.Data.List.Sort
/-!
# Model of the older cumulative link model `pyglm/clm.py`

Sizes as in `Verif.Like.Clm`: `n` rows, `q` thresholds (so `q + 1` categories), `p` predictors.  `cat` gives the index of
a row's response among the sorted distinct responses.
-/
namespace Verif.Like
open Real Verif.Transf

/-- The arrays of `CLM.__init__` — clm.py 28-40: `Y`, `W`, `A1`, `A2`, `o1`, `o2`, `ix`, `B1`, `B2`. -/
noncomputable def oclmData (q : ℕ) (cat : ℕ → ℕ) (X : ℕ → ℕ → ℝ) : ClmData :=
  let Y : ℕ → ℕ → ℝ := fun i c => if cat i = c then 1 else 0
  let o1 := fun i => Y i q * 30e1
  { B1 := fun i j => if j < q then Y i j else -X i (j - q)
    B2 := fun i j => if j < q then Y i (j + 1) else -X i (j - q)
    o1 := o1
    o2 := fun i => Y i 0 * -10e5
    o1ix := fun i => decide (o1 i ≠ 0)
    w := fun _ => 1 }

/-- `B1_intercept`, `B2_intercept` — 42-44. -/
noncomputable def oclmNull (q : ℕ) (cat : ℕ → ℕ) : ClmData := oclmData q cat fun _ _ => 1

/-- `constraints` — 32-35.  The list comprehension makes `n_cats - 2 = q - 1` functions; each looks the variable `i` up
when it is called, and by then the comprehension has left it at its last value `q - 2`. -/
def oclmConstraints (q : ℕ) : List ((ℕ → ℝ) → ℝ) :=
  let m := q - 1
  let i := m - 1
  (List.range m).map fun _ => fun params => params (i + 1) - params i

/-- `Yprops` — 48. -/
noncomputable def oclmProps (n q : ℕ) (cat : ℕ → ℕ) (c : ℕ) : ℝ :=
  let Y : ℕ → ℕ → ℝ := fun i c => if cat i = c then 1 else 0
  let col := fun c => ∑ i ∈ Finset.range n, Y i c
  (∑ j ∈ Finset.range (c + 1), col j) / ∑ i ∈ Finset.range n, ∑ j ∈ Finset.range (q + 1), Y i j

/-- `theta_init` — 49, for a quantile function. -/
noncomputable def oclmInit (ppf : ℝ → ℝ) (n q : ℕ) (cat : ℕ → ℕ) (c : ℕ) : ℝ := ppf (oclmProps n q cat c)

section
variable (l : CLink) (d : ClmData) (n k : ℕ)

/-- `loglike` — 53-65. -/
noncomputable def oclmLoglike (th : ℕ → ℝ) : ℝ :=
  let nu1 := fun i => dotN k (d.B1 i) th + d.o1 i
  let nu2 := fun i => dotN k (d.B2 i) th + d.o2 i
  let pr := fun i => l.F (nu1 i) - l.F (nu2 i);
  -∑ i ∈ Finset.range n, d.w i * log (pr i)

/-- `Pi` of the derivatives — 76, 82-84: no offset in the first predictor, `Gamma_1[ix] = 1.0`. -/
noncomputable def oclmPi (th : ℕ → ℝ) (i : ℕ) : ℝ :=
  let g1 := if d.o1ix i then 1 else l.F (dotN k (d.B1 i) th)
  g1 - l.F (dotN k (d.B2 i) th + d.o2 i)

/-- `dPi` — 77-81. -/
noncomputable def oclmDpi (th : ℕ → ℝ) (i j : ℕ) : ℝ :=
  let phi11 := if d.o1ix i then 0 else l.F1 (dotN k (d.B1 i) th)
  let phi12 := l.F1 (dotN k (d.B2 i) th + d.o2 i)
  d.B1 i j * phi11 - d.B2 i j * phi12

/-- `gradient` — 67-86. -/
noncomputable def oclmGrad (th : ℕ → ℝ) (j : ℕ) : ℝ :=
  -∑ i ∈ Finset.range n, oclmDpi l d k th i j * (d.w i / oclmPi l d k th i)

/-- `hessian` — 88-119. -/
noncomputable def oclmHess (th : ℕ → ℝ) (j c : ℕ) : ℝ :=
  let phi21 := fun i => if d.o1ix i then 0 else l.F2 (dotN k (d.B1 i) th)
  let phi22 := fun i => l.F2 (dotN k (d.B2 i) th + d.o2 i)
  let pr := oclmPi l d k th
  let dpi := oclmDpi l d k th
  let T0 := ∑ i ∈ Finset.range n, d.B1 i j * phi21 i / pr i * d.B1 i c
  let T1 := ∑ i ∈ Finset.range n, d.B2 i j * phi22 i / pr i * d.B2 i c
  let T2 := ∑ i ∈ Finset.range n, dpi i j * (dpi i c * (d.w i / pr i ^ 2));
  -(T0 - T1 - T2)

end

/-! ## Summary statistics and predictions -/

/-- The statistics of `_summarystats`. -/
structure OclmStats where
  llr : ℝ
  df : ℕ
  pvalue : ℝ
  coxsnell : ℝ
  mcfadden : ℝ
  mcfaddenAdj : ℝ
  nagelkerke : ℝ

/-- `_summarystats` — 152-179, from the two values of `loglike`; `chi2sf df x` is `sp.stats.chi2(df).sf(x)`. -/
noncomputable def oclmSummary (chi2sf : ℕ → ℝ → ℝ) (q p n : ℕ) (LLf LL0 : ℝ) : OclmStats :=
  let degf := q + p
  let degr := q + 1
  let df := degf - degr
  let llr := LL0 - LLf
  let rmax := 1 - exp (-2.0 / n * LL0)
  let cs := 1 - exp (2.0 / n * (LLf - LL0))
  { llr := llr
    df := df
    pvalue := chi2sf df llr
    coxsnell := cs
    mcfadden := 1 - LLf / LL0
    mcfaddenAdj := 1 - (LLf - p) / LL0
    nagelkerke := cs / rmax }

/-- `pd.cut(x, bins).codes`: unordered or repeated bins raise `ValueError`; a value in `(b_k, b_{k+1}]` has code `k`, a
value outside all bins `-1`. -/
noncomputable def pdCut (bins : List ℝ) (x : ℝ) : Option ℤ :=
  if bins.Pairwise (· < ·) then
    let ids := (bins.filter (· < x)).length
    some (if ids = 0 ∨ ids = bins.length then -1 else (ids : ℤ) - 1)
  else none

/-- `predict` — 197-205, for one row with linear predictor `eta`. -/
noncomputable def oclmPredict (theta : List ℝ) (eta : ℝ) : Option ℤ :=
  pdCut ([-1e6] ++ theta ++ [1e6]) eta

end Verif.Like
