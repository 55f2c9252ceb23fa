import Verif.Eln.Binom
import Mathlib.Algebra.Module.Defs
/-!
# Model of the second binomial elastic net, `pyglmnet/binom_eln2.py`

`active` is mutated in place and is part of the state.  `expit` is `invLogit`.
-/
namespace Verif.Eln
open Verif.Func

/-- The body of `for j in active_vars` — binom_eln2.py 66-80; the second component is `dlx`. -/
noncomputable def w2Step (n : ℕ) (X : ℕ → ℕ → ℝ) (w : ℕ → ℝ) (la dla : ℝ) (s : BSt × ℝ) (j : ℕ) : BSt × ℝ :=
  let xwx := (∑ i ∈ Finset.range n, w i * X i j ^ 2) / n
  let g := (∑ i ∈ Finset.range n, s.1.r i * X i j) / n
  let u := g + xwx * s.1.b j
  let bj := softThreshold u la / (xwx + dla)
  let d := bj - s.1.b j
  let b := Function.update s.1.b j bj
  let active := if bj = 0 then Function.update s.1.active j false else s.1.active
  if bj ≠ s.1.b j then
    (⟨b, s.1.b0, fun i => s.1.r i - d * w i * X i j, active, Function.update s.1.xv j (d ^ 2 * xwx)⟩,
      max (d ^ 2 * xwx * d ^ 2) s.2)
  else (⟨b, s.1.b0, s.1.r, active, s.1.xv⟩, s.2)

/-- The iterations of `_welnet_cd` — 64-88: `L` are the variables visited, taken anew from `active`
after the first iteration only. -/
noncomputable def w2Loop (n p : ℕ) (X : ℕ → ℕ → ℝ) (w : ℕ → ℝ) (la dla dtol : ℝ) :
    ℕ → List ℕ → Bool → BSt → BSt
  | 0, _, _, s => s
  | k + 1, L, first, s =>
    let t := L.foldl (w2Step n X w la dla) (s, 0)
    let L' := if first then (List.range p).filter t.1.active else L
    let u := bIntercept n w t.1
    let d := (∑ i ∈ Finset.range n, t.1.r i) / ∑ i ∈ Finset.range n, w i
    if |max t.2 ((∑ i ∈ Finset.range n, w i) * d ^ 2)| < dtol then u
    else w2Loop n p X w la dla dtol k L' false u

/-- `_welnet_cd` — 54-89. -/
noncomputable def welnetCd (n p : ℕ) (X : ℕ → ℕ → ℝ) (w : ℕ → ℝ) (la dla dtol : ℝ) (iters : ℕ) (s : BSt) : BSt :=
  w2Loop n p X w la dla dtol iters ((List.range p).filter s.active) true s

/-- An entry of `binomial_deviance` without its factor `2*weights` — 24-33. -/
noncomputable def binDev (y mu : ℝ) : ℝ :=
  if y = 0 then -Real.log (1 - mu)
  else if y = 1 then -Real.log mu
  else y * Real.log (y / mu) + (1 - y) * Real.log ((1 - y) / (1 - mu))

/-- `objective_function` at the fitted means — 47-51 with `penalty_func` 18-20 and `get_eta_mu` 118-122. -/
noncomputable def b2Obj (n p : ℕ) (X : ℕ → ℕ → ℝ) (y wt : ℕ → ℝ) (al lam : ℝ) (b : ℕ → ℝ) (b0 : ℝ) : ℝ :=
  (∑ i ∈ Finset.range n, 2 * wt i * binDev (y i) (invLogit (∑ j ∈ Finset.range p, X i j * b j + b0))) / 2 +
    lam * (al * ∑ j ∈ Finset.range p, |b j| + (1 - al) / 2 * ∑ j ∈ Finset.range p, b j * b j)

/-- The state with which `_binom_elnet_cd` calls `_welnet_cd` — 135-137, 140-143. -/
noncomputable def b2State (p : ℕ) (X : ℕ → ℕ → ℝ) (y b : ℕ → ℝ) (b0 : ℝ) (active : ℕ → Bool) : BSt :=
  ⟨b, b0, fun i => y i - invLogit (∑ j ∈ Finset.range p, X i j * b j + b0), active, fun _ => 0⟩

/-- The working weights — 121. -/
noncomputable def b2Work (p : ℕ) (X : ℕ → ℕ → ℝ) (b : ℕ → ℝ) (b0 : ℝ) (i : ℕ) : ℝ :=
  let mu := invLogit (∑ j ∈ Finset.range p, X i j * b j + b0)
  mu * (1 - mu)

variable {V : Type*} [AddCommGroup V] [Module ℝ V]

/-- The step halving — 145-155, with at most `k` halvings. -/
noncomputable def halve (f : V → ℝ) (prev : ℝ) (b : V) : ℕ → V → V
  | 0, x => x
  | k + 1, x => if f x > prev + 1 / 10 ^ 7 then halve f prev b k ((1 / 2 : ℝ) • (b + x)) else x

/-- The iterations of `_binom_elnet_cd` — 139-166: the coefficients and the values recorded. -/
noncomputable def b2Outer {A : Type*} (f : V → ℝ) (inner : V → A → V × A) (ftol : ℝ) :
    ℕ → V → A → ℝ → V × List ℝ
  | 0, b, _, _ => (b, [])
  | k + 1, b, a, prev =>
    let x := inner b a
    let b' := halve f prev b 50 x.1
    if |f b' - prev| / (|f b'| + 1 / 10) < ftol then (b', [f b'])
    else
      let t := b2Outer f inner ftol k b' x.2 (f b')
      (t.1, f b' :: t.2)

/-- One pass of the loop of `binom_elnet_path` — 219-222: `betas[i]` is passed as a view, and
`_binom_elnet_cd` writes its result into it (159) before it is copied to the next row. -/
def pathStep {W : Type*} (fit : ℝ → W → W) (zero : W) (rows : List W) (il : ℕ × ℝ) : List W :=
  let r := fit il.2 (rows.getD il.1 zero)
  (rows.set il.1 r).set (il.1 + 1) r

/-- `betas` after the loop of `binom_elnet_path`. -/
def pathRows {W : Type*} (fit : ℝ → W → W) (zero start : W) (lams : List ℝ) : List W :=
  ((List.range lams.length).zip lams).foldl (pathStep fit zero)
    (start :: List.replicate lams.length zero)

/-- `betas[1:]`, the value returned — 228. -/
def pathBetas {W : Type*} (fit : ℝ → W → W) (zero start : W) (lams : List ℝ) : List W :=
  (pathRows fit zero start lams).tail

/-- `lambda_max` of `get_lambdas` — 100-110: `None` when there is no variable. -/
noncomputable def b2LambdaMax (n p : ℕ) (X : ℕ → ℕ → ℝ) (y wt : ℕ → ℝ) (al : ℝ) : Option ℝ :=
  let sw := ∑ i ∈ Finset.range n, wt i
  let m := (∑ i ∈ Finset.range n, wt i * y i) / sw
  let eta := Real.log (m / (1 - m))
  let dmu := Real.exp eta / (1 + Real.exp eta) ^ 2
  (((List.range p).map fun j =>
    |∑ i ∈ Finset.range n, X i j * ((y i - m) / (m * (1 - m)) * dmu * (wt i / sw))|).max?).map (· / al)

/-- A standardised column — 200. -/
noncomputable def b2Std (n : ℕ) (X : ℕ → ℕ → ℝ) (i j : ℕ) : ℝ :=
  let m := (∑ k ∈ Finset.range n, X k j) / n
  (X i j - m) / Real.sqrt ((∑ k ∈ Finset.range n, (X k j - m) ^ 2) / n)

/-- The linear predictor of `cv_dev` — 40, with the raw validation rows (258, 263). -/
noncomputable def b2CvEta (p : ℕ) (Xt : ℕ → ℕ → ℝ) (b : ℕ → ℝ) (b0 : ℝ) (i : ℕ) : ℝ :=
  ∑ j ∈ Finset.range p, Xt i j * b j + b0

/-- The observation weights of the path — 208. -/
def b2PathWeights (_wt : ℕ → ℝ) : ℕ → ℝ := fun _ => 1

end Verif.Eln
