import Mathlib.Analysis.SpecialFunctions.Log.Basic
import Verif.Eln.Model
/-!
# Model of the binomial elastic net of `pyglmnet/binomial_eln.py`

The arrays `active` and `xv` are mutated in place by the inner cycle: both are part of the state, and the caller sees
the changes whatever `nr_ent` says.  `X` has at least one column (`np.max` of an empty array raises).
-/
namespace Verif.Eln
open Verif.Func

/-- The mutable variables of `binom_glm_cd`. -/
structure BSt where
  b : ℕ → ℝ
  b0 : ℝ
  r : ℕ → ℝ
  active : ℕ → Bool
  xv : ℕ → ℝ

/-- The body of `for j in active_vars` — binomial_eln.py 176-188. -/
noncomputable def bStep (n : ℕ) (X Xsq : ℕ → ℕ → ℝ) (w : ℕ → ℝ) (la dla : ℝ) (s : BSt) (j : ℕ) : BSt :=
  let xwx := (∑ i ∈ Finset.range n, w i * Xsq i j) / n
  let g := (∑ i ∈ Finset.range n, s.r i * X i j) / n
  let u := g + xwx * s.b j
  let bj := softThreshold u la / (xwx + dla)
  let d := bj - s.b j
  let xv := Function.update s.xv j (d ^ 2 * xwx)
  let small := |bj| ≤ 1 / 10 ^ 12
  let b := Function.update s.b j (if small then 0 else bj)
  let active := if small then Function.update s.active j false else s.active
  let r : ℕ → ℝ := if |d| > 0 then fun i => s.r i - d * w i * X i j else s.r
  ⟨b, s.b0, r, active, xv⟩

/-- The update of the intercept — 189-191. -/
noncomputable def bIntercept (n : ℕ) (w : ℕ → ℝ) (s : BSt) : BSt :=
  let d := (∑ i ∈ Finset.range n, s.r i) / ∑ i ∈ Finset.range n, w i
  { s with b0 := s.b0 + d, r := fun i => s.r i - d * w i }

/-- `binom_glm_cd` — 112-192. -/
noncomputable def bCycle (n p : ℕ) (X Xsq : ℕ → ℕ → ℝ) (w : ℕ → ℝ) (la dla : ℝ) (s : BSt) : BSt :=
  bIntercept n w (((List.range p).filter s.active).foldl (bStep n X Xsq w la dla) s)

/-- `inv_logit` — 34-48. -/
noncomputable def invLogit (x : ℝ) : ℝ := Real.exp x / (Real.exp x + 1)

/-- `eta` after clipping — 267-268. -/
noncomputable def clipEta (lb ub eta : ℝ) : ℝ :=
  let e := if eta < lb then lb else eta
  if e > ub then ub else e

/-- The linear predictors `X.dot(b) + b0 * intercept`. -/
noncomputable def linPred (p : ℕ) (X : ℕ → ℕ → ℝ) (b : ℕ → ℝ) (b0 ic : ℝ) (i : ℕ) : ℝ :=
  ∑ j ∈ Finset.range p, X i j * b j + b0 * ic

/-- The arguments of `_binom_glmnet` that stay fixed; `ub = log(1/pmin - 1)`. -/
structure BArgs where
  n : ℕ
  p : ℕ
  X : ℕ → ℕ → ℝ
  y : ℕ → ℝ
  la : ℝ
  dla : ℝ
  btol : ℝ
  dtol : ℝ
  ub : ℝ
  ic : ℝ
  nrEnt : Bool

/-- `mu` — 266-269. -/
noncomputable def BArgs.mu (a : BArgs) (b : ℕ → ℝ) (b0 : ℝ) (i : ℕ) : ℝ :=
  invLogit (clipEta (-a.ub) a.ub (linPred a.p a.X b b0 a.ic i))

/-- `fvals[i]` — 273. -/
noncomputable def BArgs.dev (a : BArgs) (b : ℕ → ℝ) (b0 : ℝ) : ℝ :=
  -2 * (∑ i ∈ Finset.range a.n, (a.y i * Real.log (a.mu b b0 i) + Real.log (1 - a.mu b b0 i) * (1 - a.y i))) / a.n

/-- The call of the inner cycle — 266-275. -/
noncomputable def BArgs.cycle (a : BArgs) (b : ℕ → ℝ) (b0 : ℝ) (acs : ℕ → Bool) (xv : ℕ → ℝ) : BSt :=
  let mu := a.mu b b0
  bCycle a.n a.p a.X (fun i j => a.X i j ^ 2) (fun i => mu i * (1 - mu i)) a.la a.dla
    ⟨b, b0, fun i => a.y i - mu i, acs, xv⟩

/-- The loop of `_binom_glmnet` with `k` iterations left — 265-285; `prev` is `fvals[i-1]` (`none` for `i = 0`).  The
recorded values are returned in full; the code drops the last one.  `acs = acs_new` changes nothing: it is the same
array. -/
noncomputable def bLoop (a : BArgs) : ℕ → (ℕ → ℝ) → ℝ → (ℕ → Bool) → (ℕ → ℝ) → Option ℝ →
    (ℕ → ℝ) × ℝ × (ℕ → Bool) × List ℝ
  | 0, b, b0, acs, _, _ => (b, b0, acs, [])
  | k + 1, b, b0, acs, xv, prev =>
    let f := a.dev b b0
    let s := a.cycle b b0 acs xv
    open Classical in
    if ∀ j, j < a.p → s.xv j < a.btol then (b, s.b0, s.active, [f])
    else if ∃ fp, prev = some fp ∧ 0 < fp - f ∧ fp - f < a.dtol then (b, s.b0, s.active, [f])
    else
      let acs := if a.nrEnt then s.active else s.active
      let t := bLoop a k s.b s.b0 acs s.xv (some f)
      (t.1, t.2.1, t.2.2.1, f :: t.2.2.2)

/-- `binom_eval` — 75-109: minus twice the mean log-likelihood, the penalty and the penalised objective. -/
noncomputable def binomEval (n p : ℕ) (y eta b : ℕ → ℝ) (al lam : ℝ) : ℝ × ℝ × ℝ :=
  let P := ((∑ j ∈ Finset.range p, |b j|) * al + (∑ j ∈ Finset.range p, b j ^ 2) * (1 - al) / 2) * lam
  let mu := fun i => invLogit (eta i)
  let ll := (∑ i ∈ Finset.range n, y i * Real.log (mu i) + ∑ i ∈ Finset.range n, (1 - y i) * Real.log (1 - mu i)) / n
  (-2 * ll, P, P - ll)

/-- The evaluation on the validation set in `cv_binom_glmnet` — 495. -/
noncomputable def cvEval (n p : ℕ) (X : ℕ → ℕ → ℝ) (y b : ℕ → ℝ) (_b0 al lam : ℝ) : ℝ × ℝ × ℝ :=
  binomEval n p y (fun i => ∑ j ∈ Finset.range p, X i j * b j) b al lam

/-- `lambda_max` of `cv_binom_glmnet` — 455-459. -/
noncomputable def bLambdaMax (n p : ℕ) (X : ℕ → ℕ → ℝ) (y : ℕ → ℝ) (al : ℝ) : Option ℝ :=
  (((List.range p).map fun j => |(∑ i ∈ Finset.range n,
    X i j * (y i - Real.log (mean n y / (1 - mean n y)))) / n|).max?).map (· / al)

/-- The screening rule of `cv_binom_glmnet` for `i > 0` — 487-488; `b` are the coefficients two fits ago. -/
noncomputable def bScreen (n p : ℕ) (X : ℕ → ℕ → ℝ) (y b : ℕ → ℝ) (al lam lamMax : ℝ) (j : ℕ) : Prop :=
  |∑ i ∈ Finset.range n, X i j * (y i - ∑ k ∈ Finset.range p, X i k * b k)| > 2 * al * (lam - lamMax)

end Verif.Eln
