import Mathlib.Algebra.BigOperators.Group.Finset.Basic
import Verif.Func.Model
/-!
# Model of the Gaussian elastic net of `pyglmnet/gaussian_eln.py`

`X` is `n × p`, all arrays are functions.  The numbers are an arbitrary ordered field, so that the definitions can be
run on rationals.  The arrays `b`, `active` (mutated in place by `eln_cd`) are part of the state.
-/
namespace Verif.Eln
open Verif.Func
variable {α : Type*} [Field α] [LinearOrder α]

/-- `elnet_penalty` — gaussian_eln.py 23-25. -/
def penalty (p : ℕ) (b : ℕ → α) (al lam : α) : α :=
  ((∑ j ∈ Finset.range p, b j ^ 2) * (1 - al) / 2 + al * ∑ j ∈ Finset.range p, |b j|) * lam

/-- `y - X.dot(b)`. -/
def resid (p : ℕ) (X : ℕ → ℕ → α) (y b : ℕ → α) (i : ℕ) : α := y i - ∑ j ∈ Finset.range p, X i j * b j

/-- `np.sum(r**2) / (2.0 * n)`. -/
def msr (n : ℕ) (r : ℕ → α) : α := (∑ i ∈ Finset.range n, r i ^ 2) / (2 * n)

/-- `elnet_loglike` — 29-35. -/
def loglike (n p : ℕ) (X : ℕ → ℕ → α) (y b : ℕ → α) (al lam : α) : α × α × α :=
  let m := msr n (resid p X y b)
  let pen := penalty p b al lam
  (m, pen, m + pen)

/-- The mutable arrays of `eln_cd`. -/
structure St (α : Type*) where
  b : ℕ → α
  r : ℕ → α
  active : ℕ → Bool

/-- The body of `for j in active_vars` — 76-84. -/
def cdStep (n : ℕ) (X : ℕ → ℕ → α) (Xsq : ℕ → α) (la dla : α) (s : St α) (j : ℕ) : St α :=
  let r1 : ℕ → α := fun i => s.r i + X i j * s.b j
  let u := ∑ i ∈ Finset.range n, X i j * r1 i
  let bj := softThreshold u la / (Xsq j + dla)
  let b' := Function.update s.b j bj
  if bj ≠ 0 then ⟨b', fun i => r1 i - X i j * bj, s.active⟩
  else ⟨b', r1, Function.update s.active j false⟩

/-- `active_vars = index[active]` and the loop over it — 74-84. -/
def sweep (n p : ℕ) (X : ℕ → ℕ → α) (Xsq : ℕ → α) (la dla : α) (s : St α) : St α :=
  ((List.range p).filter s.active).foldl (cdStep n X Xsq la dla) s

/-- The loop over `i`, with `k` iterations left — 73-93.  The last row of `fvals[:i+2]` keeps the zeros it was
initialised with when the iterations are used up. -/
def cdLoop (n p : ℕ) (X : ℕ → ℕ → α) (Xsq : ℕ → α) (al lam la dla dtol : α) :
    ℕ → ℕ → St α → α × α × α → St α × List (α × α × α) × ℕ
  | 0, i, s, _ => (s, [(0, 0, 0)], i - 1)
  | k + 1, i, s, f =>
    let s' := sweep n p X Xsq la dla s
    let m := msr n s'.r
    let pen := penalty p s'.b al lam
    let fNew := m + pen
    if f.2.2 - fNew < dtol then (s', [f, (m, pen, fNew)], i)
    else
      let t := cdLoop n p X Xsq al lam la dla dtol k (i + 1) s' (m, pen, fNew)
      (t.1, f :: t.2.1, t.2.2)

/-- `eln_cd` — 62-94.  `none`: no iterations, `i` is unbound. -/
def elnCd (n p : ℕ) (X : ℕ → ℕ → α) (y Xsq : ℕ → α) (al lam : α) (b : ℕ → α) (active : ℕ → Bool) (iters : ℕ)
    (dtol : α) : Option (St α × List (α × α × α) × ℕ) :=
  let r := resid p X y b
  let la := lam * al * n
  let dla := (1 - al) * lam * n
  let m := msr n r
  let pen := penalty p b al lam
  if iters = 0 then none
  else some (cdLoop n p X Xsq al lam la dla dtol iters 0 ⟨b, r, active⟩ (m, pen, m + pen))

/-- `y.mean()`. -/
def mean (n : ℕ) (y : ℕ → α) : α := (∑ i ∈ Finset.range n, y i) / n

/-- `X.T.dot(y) / X.shape[0]`. -/
def xty (n : ℕ) (X : ℕ → ℕ → α) (y : ℕ → α) (j : ℕ) : α := (∑ i ∈ Finset.range n, X i j * y i) / n

/-- `elnet` — 98-109. -/
def elnet (n p : ℕ) (X : ℕ → ℕ → α) (y : ℕ → α) (lam al : α) (b : Option (ℕ → α)) (active : Option (ℕ → Bool))
    (iters : ℕ) (dtol : α) (intercept : Bool) : Option (St α × List (α × α × α) × ℕ) :=
  let b := b.getD (xty n X y)
  let active := active.getD fun _ => true
  let y := if intercept then fun i => y i - mean n y else y
  let Xsq : ℕ → α := fun j => ∑ i ∈ Finset.range n, X i j ^ 2
  elnCd n p X y Xsq al lam b active iters dtol

/-- `elnet_grad` — 111-115. -/
def elnetGrad (n p : ℕ) (X : ℕ → ℕ → α) (y b : ℕ → α) (lam al : α) (j : ℕ) : α :=
  -1 / n * (∑ i ∈ Finset.range n, X i j * resid p X y b i) + lam * (1 - al) * b j + lam * al

/-- `lambda_max` of `cv_glmnet` — 128-129; the maximum over an empty array raises. -/
def lambdaMax (n p : ℕ) (X : ℕ → ℕ → α) (y : ℕ → α) (al : α) : Option α :=
  ((List.range p).map fun j => |(∑ i ∈ Finset.range n, X i j * (y i - mean n y)) / (n * al)|).max?

/-- The screening rule of `cv_glmnet` for `i > 0` — 149-150, 175-176: `lams` are the penalties, `r` the residuals. -/
def screen (n : ℕ) (X : ℕ → ℕ → α) (r : ℕ → α) (al lam lamMax : α) (j : ℕ) : Bool :=
  decide (|∑ i ∈ Finset.range n, X i j * r i| > 2 * al * (lam - lamMax))

/-- `GLMEN.predict` — glmen.py 97-101. -/
def predict (n p : ℕ) (X : ℕ → ℕ → α) (b y : ℕ → α) (intercept : Bool) (i : ℕ) : α :=
  ∑ j ∈ Finset.range p, X i j * b j + (if intercept then 1 else 0) * mean n y

end Verif.Eln
