import Mathlib.Analysis.SpecialFunctions.Log.Basic
import Mathlib.Analysis.SpecialFunctions.Trigonometric.Basic
import Mathlib.LinearAlgebra.Matrix.NonsingularInverse
import Mathlib.Data.Matrix.Block

/-!
Model of `pystatsm/pygam/gauls.py` (class `GauLS`): a Gaussian response whose mean and inverse standard deviation both follow
additive predictors.  The coefficients `beta` are indexed by the coefficients of the location followed by those of the scale
(`beta[ixm]`, `beta[ixs]`), and the smoothing parameters likewise.  `np.linalg.inv` and `np.linalg.solve` fail on singular matrices.
The routines that call `beta_rho` take the coefficients as an argument.  `deriv_order` only saves work and is left out.
-/

namespace Verif.Gam.Gauls
open Matrix

/-- The methods of a link that the class calls. -/
structure Lnk where
  link : ℝ → ℝ
  inv : ℝ → ℝ
  dinv : ℝ → ℝ
  d2 : ℝ → ℝ
  d3 : ℝ → ℝ
  d4 : ℝ → ℝ

/-- `LogbLink(b)` (lines 22-49): the constructor sets `self.b` to `0.01` whatever `b`. -/
noncomputable def logb (_b : ℝ) : Lnk :=
  let b : ℝ := 1 / 100
  { link := fun mu => Real.log (1 / mu - b)
    inv := fun eta => 1 / (Real.exp eta + b)
    dinv := fun eta => let u := Real.exp eta; -u / (u + b) ^ 2
    d2 := fun mu => let u := 1 - mu * b; (2 * u - 1) / (mu * u) ^ 2
    d3 := fun mu => let u := 1 - mu * b; ((1 - u) * u * 6 - 2) / (mu * u) ^ 3
    d4 := fun mu => let u := 1 - mu * b; (((24 * u - 36) * u + 24) * u - 6) / (mu * u) ^ 4 }

/-- `IdentityLink` (`pystatsm/pyglm/links.py`). -/
def identity : Lnk := ⟨id, id, fun _ => 1, fun _ => 0, fun _ => 0, fun _ => 0⟩

/-- The columns of `L1`, `L2`, `L3`, `L4` at one observation. -/
structure D4 where
  m : ℝ
  s : ℝ
  mm : ℝ
  ms : ℝ
  ss : ℝ
  mmm : ℝ
  mms : ℝ
  mss : ℝ
  sss : ℝ
  mmmm : ℝ
  mmms : ℝ
  mmss : ℝ
  msss : ℝ
  ssss : ℝ

/-- The log likelihood of one observation (lines 181-183). -/
noncomputable def lik (y mu tau : ℝ) : ℝ :=
  let r := y - mu
  let r2 := r ^ 2
  let t2 := tau ^ 2
  (-(1 / 2)) * r2 * t2 - 1 / 2 * Real.log (2 * Real.pi) + Real.log tau

/-- The derivatives in `mu` and `tau` (lines 241-260). -/
noncomputable def muTau (y mu tau : ℝ) : D4 :=
  let r := y - mu
  let r2 := r ^ 2
  let t2 := tau ^ 2
  { m := t2 * r
    s := 1 / tau - tau * r2
    mm := -t2
    ms := 2 * tau * r
    ss := -r2 - 1 / t2
    mmm := 0
    mms := -2 * tau
    mss := 2 * r
    sss := 2 / (t2 * tau)
    mmmm := 0
    mmms := 0
    mmss := 0 + -2
    msss := 0
    ssss := -6 / t2 ^ 2 }

/-- The derivatives in the predictors (lines 262-308). -/
noncomputable def toEta (l : D4) (g1m g2m g3m g4m g1s g2s g3s g4s : ℝ) : D4 where
  m := l.m * g1m
  s := l.s * g1s
  mm := (l.mm - l.m * g2m * g1m) * g1m ^ 2
  ms := l.ms * g1s * g1m
  ss := (l.ss - l.s * g2s * g1s) * g1s ^ 2
  mmm := (l.mmm - 3 * l.mm * g2m * g1m + l.m * (3 * g2m ^ 2 * g1m ^ 2 - g3m * g1m)) * g1m ^ 3
  mms := (l.mms - l.ms * g2m * g1m) * g1s * g1m ^ 2
  mss := (l.mss - l.ms * g2s * g1s) * g1m * g1s ^ 2
  sss := (l.sss - 3 * l.ss * g2s * g1s + l.s * (3 * g2s ^ 2 * g1s ^ 2 - g3s * g1s)) * g1s ^ 3
  mmmm := (l.mmmm - 6 * l.mmm * g2m * g1m + l.mm * (15 * g2m ^ 2 * g1m ^ 2 - 4 * g3m * g1m) -
    l.m * (15 * g2m ^ 3 * g1m ^ 3 - 10 * g2m * g3m * g1m ^ 2 + g4m * g1m)) * g1m ^ 4
  mmms := (l.mmms - 3 * l.mms * g2m * g1m + l.ms * (3 * g2m ^ 2 * g1m ^ 2 - g3m * g1m)) * g1s * g1m ^ 3
  mmss := (l.mmss - l.mss * g2m * g1m - l.mms * g2s * g1s + l.ms * g2m * g2s * g1m * g1s) * g1m ^ 2 * g1s ^ 2
  msss := (l.msss - 3 * l.mss * g2s * g1s + l.ms * (3 * g2s ^ 2 * g1s ^ 2 - g3s * g1s)) * g1m * g1s ^ 3
  ssss := (l.ssss - 6 * l.sss * g2s * g1s + l.ss * (15 * g2s ^ 2 * g1s ^ 2 - 4 * g3s * g1s) -
    l.s * (15 * g2s ^ 3 * g1s ^ 3 - 10 * g2s * g3s * g1s ^ 2 + g4s * g1s)) * g1s ^ 4

/-- A row of `ll_eta_derivs` before weighting (lines 239-308) at the predictors `a` and `b`. -/
noncomputable def etaD (lm ls : Lnk) (y a b : ℝ) : D4 :=
  let mu := lm.inv a
  let tau := ls.inv b
  toEta (muTau y mu tau) (lm.dinv a) (lm.d2 mu) (lm.d3 mu) (lm.d4 mu) (ls.dinv b) (ls.d2 tau) (ls.d3 tau) (ls.d4 tau)

variable {n p q s r : ℕ}

/-- The weights of the constructor (lines 121-127): `none` inside for no weights, `none` outside for an exception or for the
division by a zero sum; `given` are the weights as supplied, of any length. -/
noncomputable def weights (n : ℕ) (given : Option (List ℝ)) (normalize : Bool) : Option (Option (List ℝ)) :=
  open Classical in
  match given with
  | none => some none
  | some w =>
    if w.length ≠ n then none
    else if ∃ x ∈ w, x < 0 then none
    else if normalize then
      if w.sum = 0 then none else some (some (w.map fun x => x * (w.length / w.sum)))
    else some (some w)

/-- What the constructor stores: `s` smooths of the location, `r` of the scale. -/
structure Ls (n p q s r : ℕ) where
  lm : Lnk
  ls : Lnk
  Xm : Matrix (Fin n) (Fin p) ℝ
  Xs : Matrix (Fin n) (Fin q) ℝ
  y : Fin n → ℝ
  w : Option (Fin n → ℝ)
  Sm : Fin s → Matrix (Fin p) (Fin p) ℝ
  Ss : Fin r → Matrix (Fin q) (Fin q) ℝ
  rm : Fin s → ℝ
  rs : Fin r → ℝ
  ldm : Fin s → ℝ
  lds : Fin r → ℝ

/-- Coefficients. -/
abbrev Cf (p q : ℕ) := Fin p ⊕ Fin q

/-- Square matrices over the coefficients. -/
abbrev CM (p q : ℕ) := Matrix (Cf p q) (Cf p q) ℝ

variable (g : Ls n p q s r)

/-- `self.S` (lines 139-154): the penalties padded with zeros. -/
def Ls.S : Fin s ⊕ Fin r → CM p q
  | .inl i => fromBlocks (g.Sm i) 0 0 0
  | .inr j => fromBlocks 0 0 0 (g.Ss j)

/-- `self.ranks` (line 157). -/
def Ls.ranks : Fin s ⊕ Fin r → ℝ := Sum.elim g.rm g.rs

/-- `self.mp` (lines 70, 156). -/
def Ls.mp : ℝ := (p - ∑ i, g.rm i) + (q - ∑ j, g.rs j)

/-- Weighting of a term of observation `k` (lines 184-185, 309-314). -/
def Ls.wt (k : Fin n) (x : ℝ) : ℝ :=
  match g.w with
  | none => x
  | some w => w k * x

/-- `etam` (line 179). -/
def Ls.etam (b : Cf p q → ℝ) : Fin n → ℝ := g.Xm *ᵥ fun i => b (.inl i)

/-- `etas` (line 179). -/
def Ls.etas (b : Cf p q → ℝ) : Fin n → ℝ := g.Xs *ᵥ fun j => b (.inr j)

/-- `loglike` (lines 166-187): the negative log likelihood. -/
noncomputable def Ls.loglike (b : Cf p q → ℝ) : ℝ :=
  -∑ k, g.wt k (lik (g.y k) (g.lm.inv (g.etam b k)) (g.ls.inv (g.etas b k)))

/-- `penalized_loglike` (lines 189-209). -/
noncomputable def Ls.pll (b : Cf p q → ℝ) (S : CM p q) : ℝ := g.loglike b + b ⬝ᵥ (S *ᵥ b) / 2

/-- The row of observation `k` of `ll_eta_derivs` before weighting. -/
noncomputable def Ls.D (b : Cf p q → ℝ) (k : Fin n) : D4 := etaD g.lm g.ls (g.y k) (g.etam b k) (g.etas b k)

/-- `grad_ll_beta` (lines 317-338). -/
noncomputable def Ls.grad (b : Cf p q → ℝ) : Cf p q → ℝ :=
  -Sum.elim (g.Xmᵀ *ᵥ fun k => g.wt k (g.D b k).m) (g.Xsᵀ *ᵥ fun k => g.wt k (g.D b k).s)

/-- `grad_pll_beta` (lines 340-358). -/
noncomputable def Ls.gradP (b : Cf p q → ℝ) (S : CM p q) : Cf p q → ℝ := g.grad b + S *ᵥ b

/-- The blocks of lines 380-386, 558-562 and 603-607, for three columns of weights. -/
def Ls.blocks (v1 v2 v3 : Fin n → ℝ) : CM p q :=
  let Hmm := g.Xmᵀ * diagonal v1 * g.Xm
  let Hms := g.Xmᵀ * diagonal v2 * g.Xs
  let Hss := g.Xsᵀ * diagonal v3 * g.Xs
  (-fromBlocks Hmm Hms Hmsᵀ Hss)

/-- `hess_ll_beta` (lines 361-387). -/
noncomputable def Ls.hess (b : Cf p q → ℝ) : CM p q :=
  g.blocks (fun k => g.wt k (g.D b k).mm) (fun k => g.wt k (g.D b k).ms) (fun k => g.wt k (g.D b k).ss)

/-- `hess_pll_beta` (lines 389-407). -/
noncomputable def Ls.hessP (b : Cf p q → ℝ) (S : CM p q) : CM p q := g.hess b + S

/-- `get_penalty_mat` (lines 409-423). -/
def Ls.pen (lam : Fin s ⊕ Fin r → ℝ) : CM p q := ∑ i, lam i • g.S i

open Classical in
/-- `np.linalg.inv`. -/
noncomputable def inv? {ι : Type} [Fintype ι] [DecidableEq ι] (T : Matrix ι ι ℝ) : Option (Matrix ι ι ℝ) :=
  if IsUnit T.det then some T⁻¹ else none

/-- `grad_beta_rho` (lines 506-529): column `i`. -/
noncomputable def Ls.gradBeta (b : Cf p q → ℝ) (lam : Fin s ⊕ Fin r → ℝ) : Option (Fin s ⊕ Fin r → Cf p q → ℝ) :=
  (inv? (g.hess b + g.pen lam)).map fun Hp => fun i => (-lam i) • (Hp *ᵥ (g.S i *ᵥ b))

/-- One slice of `dhess` (lines 550-562) for the direction `v` of the coefficients. -/
noncomputable def Ls.dH (b v : Cf p q → ℝ) : CM p q :=
  let D := g.D b
  let em := g.etam v
  let es := g.etas v
  g.blocks (fun k => g.wt k (D k).mmm * em k + g.wt k (D k).mms * es k)
    (fun k => g.wt k (D k).mms * em k + g.wt k (D k).mss * es k)
    (fun k => g.wt k (D k).mss * em k + g.wt k (D k).sss * es k)

/-- `dhess` (lines 532-563). -/
noncomputable def Ls.dhess (b : Cf p q → ℝ) (lam : Fin s ⊕ Fin r → ℝ) : Option (Fin s ⊕ Fin r → CM p q) :=
  (g.gradBeta b lam).map fun b1 => fun i => g.dH b (b1 i)

/-- `hess_beta_rho` (lines 611-641); the entries below the diagonal are copied from those above. -/
noncomputable def Ls.hessBeta (b : Cf p q → ℝ) (lam : Fin s ⊕ Fin r → ℝ) : Option (Fin s ⊕ Fin r → Fin s ⊕ Fin r → Cf p q → ℝ) := do
  let b1 ← g.gradBeta b lam
  let Hp ← inv? (g.hess b + g.pen lam)
  let dH ← g.dhess b lam
  let up : Fin s ⊕ Fin r → Fin s ⊕ Fin r → Cf p q → ℝ := fun i j =>
    let u := dH i *ᵥ b1 j + lam i • (g.S i *ᵥ b1 j) + lam j • (g.S j *ᵥ b1 i)
    (if i = j then b1 i else 0) - Hp *ᵥ u
  return fun i j => if finSumFinEquiv i ≤ finSumFinEquiv j then up i j else up j i

/-- One slice of `d2hess` (lines 584-607) for directions `u`, `v` and the second derivative `z` of the coefficients. -/
noncomputable def Ls.d2H (b u v z : Cf p q → ℝ) : CM p q :=
  let D := g.D b
  let mi := g.etam u
  let si := g.etas u
  let mj := g.etam v
  let sj := g.etas v
  let mij := g.etam z
  let sij := g.etas z
  g.blocks
    (fun k => g.wt k (D k).mmmm * mi k * mj k + g.wt k (D k).mmms * mi k * sj k + g.wt k (D k).mmms * si k * mj k +
      g.wt k (D k).mmss * si k * sj k + g.wt k (D k).mmm * mij k + g.wt k (D k).mms * sij k)
    (fun k => g.wt k (D k).mmms * mi k * mj k + g.wt k (D k).mmss * mi k * sj k + g.wt k (D k).mmss * si k * mj k +
      g.wt k (D k).msss * si k * sj k + g.wt k (D k).mms * mij k + g.wt k (D k).mss * sij k)
    (fun k => g.wt k (D k).mmss * mi k * mj k + g.wt k (D k).msss * mi k * sj k + g.wt k (D k).msss * si k * mj k +
      g.wt k (D k).ssss * si k * sj k + g.wt k (D k).mss * mij k + g.wt k (D k).sss * sij k)

/-- `d2hess` (lines 565-608). -/
noncomputable def Ls.d2hess (b : Cf p q → ℝ) (lam : Fin s ⊕ Fin r → ℝ) : Option (Fin s ⊕ Fin r → Fin s ⊕ Fin r → CM p q) := do
  let b1 ← g.gradBeta b lam
  let b2 ← g.hessBeta b lam
  return fun i j => if finSumFinEquiv i ≤ finSumFinEquiv j then g.d2H b (b1 i) (b1 j) (b2 i j) else g.d2H b (b1 j) (b1 i) (b2 j i)

/-- `logdetS` (lines 648-665).  The second loop uses the last index of the first, which does not exist when the location has no
smooths. -/
def Ls.logdetS (rho : Fin s ⊕ Fin r → ℝ) : Option ℝ :=
  if s = 0 ∧ r ≠ 0 then none else
  some (∑ i, (g.rm i * rho (.inl i) + g.ldm i) + ∑ j, (g.rs j * rho (.inr j) + g.lds j))

/-- `np.exp(rho)`. -/
noncomputable def expv {ι : Type} (rho : ι → ℝ) (i : ι) : ℝ := Real.exp (rho i)

/-- `reml` (lines 667-688) at the coefficients `b`. -/
noncomputable def Ls.reml (b : Cf p q → ℝ) (rho : Fin s ⊕ Fin r → ℝ) : Option ℝ := do
  let S := g.pen (expv rho)
  let H := g.hess b
  let ldetS ← g.logdetS rho
  let ldetH := Real.log |(H + S).det|
  let ll := g.pll b S
  return -(-ll + ldetS / 2 - ldetH / 2 + g.mp * Real.log (2 * Real.pi) / 2)

/-- `gradient` (lines 690-720) at the coefficients `b`. -/
noncomputable def Ls.gradient (b : Cf p q → ℝ) (rho : Fin s ⊕ Fin r → ℝ) : Option (Fin s ⊕ Fin r → ℝ) := do
  let lam := expv rho
  let dH ← g.dhess b lam
  let A ← inv? (g.hess b + g.pen lam)
  return fun i => (b ⬝ᵥ (g.S i *ᵥ b)) * lam i / 2 - g.ranks i / 2 + (A * (lam i • g.S i + dH i)).trace / 2

/-- `hessian` (lines 722-757) at the coefficients `b`. -/
noncomputable def Ls.hessian (b : Cf p q → ℝ) (rho : Fin s ⊕ Fin r → ℝ) : Option (Matrix (Fin s ⊕ Fin r) (Fin s ⊕ Fin r) ℝ) := do
  let lam := expv rho
  let dH ← g.dhess b lam
  let d2H ← g.d2hess b lam
  let b1 ← g.gradBeta b lam
  let Hp := g.hess b + g.pen lam
  let A ← inv? Hp
  let up : Fin s ⊕ Fin r → Fin s ⊕ Fin r → ℝ := fun i j =>
    let d : ℝ := if i = j then 1 else 0
    let ldh2 := -((A * (dH i + lam i • g.S i) * A * (dH j + lam j • g.S j)).trace - (A * (d2H i j + (d * lam i) • g.S i)).trace)
    let t1 := d * lam i / 2 * (b ⬝ᵥ (g.S i *ᵥ b))
    let t2 := -(b1 i ⬝ᵥ (Hp *ᵥ b1 j))
    t1 + t2 + ldh2 / 2
  return fun i j => if finSumFinEquiv i ≤ finSumFinEquiv j then up i j else up j i

/-! ### `outer_step` -/

/-- The eigenvalues lifted above `etol` (lines 464-465). -/
noncomputable def lift (etol u : ℝ) : ℝ := open Classical in if u < etol then |u| + etol else u

variable (eigh : CM p q → (Cf p q → ℝ) × CM p q)

/-- The step `d` (lines 462-467). -/
noncomputable def Ls.dir (etol : ℝ) (S : CM p q) (b : Cf p q → ℝ) : Option (Cf p q → ℝ) :=
  let H := g.hess b + S
  let gr := g.grad b + S *ᵥ b
  let (u, V) := eigh H
  (inv? (V * diagonal (fun i => lift etol (u i)) * Vᵀ)).map fun Hi => Hi *ᵥ gr

open Classical in
/-- The loop of lines 476-480 with `j` halvings left: the step and the halvings left. -/
noncomputable def Ls.halve (S : CM p q) (b : Cf p q → ℝ) (prev : ℝ) : ℕ → (Cf p q → ℝ) → (Cf p q → ℝ) × ℕ
  | 0, d => (d, 0)
  | j + 1, d => if prev < g.pll (b - d) S then Ls.halve S b prev j ((1 / 2 : ℝ) • d) else (d, j + 1)

open Classical in
/-- The loop of `outer_step` (lines 458-486) with `k` iterations left: the coefficients and `convergence`. -/
noncomputable def Ls.outer (etol tol : ℝ) (S : CM p q) : ℕ → (Cf p q → ℝ) → Option ((Cf p q → ℝ) × Bool)
  | 0, b => some (b, false)
  | k + 1, b => do
    let d ← g.dir eigh etol S b
    let prev := g.pll b S
    let curr := g.pll (b - d) S
    let fcond := |curr - prev| < (|prev| + 1 / 10 ^ 6) * tol
    let gcond := ∀ i, |g.gradP b S i| < 1 / 10 ^ 9
    if fcond ∨ gcond then some (b - d, true)
    else if prev < curr then
      match g.halve S b prev 15 d with
      | (_, 0) => some (b, false)
      | (d', _) => Ls.outer etol tol S k (b - d')
    else Ls.outer etol tol S k (b - d)

/-- `beta_rho` (lines 488-504) for positive `n_iters`. -/
noncomputable def Ls.betaRho (etol tol : ℝ) (nIters : ℕ) (rho : Fin s ⊕ Fin r → ℝ) : Option ((Cf p q → ℝ) × Bool) :=
  g.outer eigh etol tol (g.pen (expv rho)) nIters 0

/-! ### The report -/

/-- `Vb`, `Vs`, `F` and `edf` of `optimize_penalty` (lines 1025-1038). -/
noncomputable def Ls.post (b : Cf p q → ℝ) (lam : Fin s ⊕ Fin r → ℝ) : Option (CM p q × CM p q × CM p q × ℝ) := do
  let H := g.hess b
  let Vb ← inv? (H + g.pen lam)
  let F := Vb * H
  return (Vb, Vb * H * Vb, F, F.trace)

/-- `Tr` of the test of a smooth (lines 1049-1055): `R` from the QR decomposition of its columns; the pseudo-inverse is the inverse where
there is one. -/
noncomputable def wald {k : ℕ} (R Vb : Matrix (Fin k) (Fin k) ℝ) (b : Fin k → ℝ) : Option ℝ :=
  let Rb := R *ᵥ b
  (inv? (R * Vb * Rᵀ)).map fun W => Rb ⬝ᵥ (W *ᵥ Rb)

/-- The p-value of a row of the table (lines 1090-1091). -/
noncomputable def pval (sf : ℝ → ℝ) (b se : ℝ) : ℝ := sf |b / se|

/-- `aic` (line 1109). -/
def aic (nll edf : ℝ) : ℝ := 2 * nll + 2 + edf * 2

/-- `rsquared` (lines 1096-1099, 1107): `yhat` is the linear predictor. -/
noncomputable def Ls.rsquared (b : Cf p q → ℝ) : ℝ :=
  let yhat := g.etam b
  let ybar := (∑ k, g.y k) / n
  1 - (∑ k, (g.y k - yhat k) ^ 2) / ∑ k, (g.y k - ybar) ^ 2

/-- `model_deviance` (lines 1100-1104). -/
noncomputable def Ls.deviance (b : Cf p q → ℝ) : ℝ :=
  ∑ k, ((g.y k - g.lm.inv (g.etam b k)) * g.ls.inv (g.etas b k)) ^ 2

/-- The mean and standard deviation of `predict_component` (lines 896-925) at one point: `um` and `us` are the values of the smooth in
the two predictors, zero where the predictor does not have it; `im` and `is` the two intercepts where there are any. -/
noncomputable def predict (lm ls : Lnk) (um us : ℝ) (im is : Option ℝ) : Option (ℝ × ℝ) :=
  match im with
  | some cm => match is with
    | some cs => some (lm.inv (um + cm), 1 / ls.inv (us + cs))
    | none => none
  | none => some (lm.inv um, 1 / ls.inv us)

end Verif.Gam.Gauls
