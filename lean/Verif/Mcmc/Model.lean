import Verif.Lmm.Lm
import Verif.Rand.Mvn
import Verif.Rand.Trunc
import Mathlib.Analysis.SpecialFunctions.Gamma.Basic
/-!
# Model of the sampler `MixedMCMC` of `pylmm/glmm_mcmc.py`

Draws of the generators are arguments.  Random effects and covariance parameters are addressed as in `Verif.Lmm.Model`.
Updates that act on every observation alone are given for one observation.  `np.random.gamma` is the draw `g` of the gamma
distribution with rate one.
-/
namespace Verif.Mcmc
open Matrix Verif.Lmm Verif.Lmm.Lm Verif.Rand
variable {T : Terms} {n p : ℕ}

/-- A factorisation of a positive definite matrix, up to the order of the rows. -/
abbrev Fac (ι : Type) := Matrix ι ι ℝ → Option (Matrix ι ι ℝ)

/-- `sample_location(theta, x1, x2, y)` — glmm_mcmc.py 277-294: `cG` factors the inverse covariance in natural order, `cM` the
coefficient matrix, dense or sparse. -/
noncomputable def sampleLocation (cG : Fac T.RE) (cM : Fac (Ix T p)) (m : Mme T n p) (th : T.Par → ℝ) (s2 : ℝ)
    (x1 : T.RE → ℝ) (x2 y : Fin n → ℝ) : Option (Ix T p → ℝ) := do
  let s := Real.sqrt s2
  let W := fromCols m.X m.Z
  let Gi ← T.ginv? th
  let M := (1 / s2) • (Wᵀ * W) + fromBlocks 0 0 0 Gi
  let L ← cG Gi
  let a := (Lᵀ)⁻¹ *ᵥ x1
  let yz := y - (m.Z *ᵥ a + s • x2)
  let ofs := Sum.elim (0 : Fin p → ℝ) a
  let u := (1 / s2) • (Wᵀ *ᵥ yz)
  let LM ← cM M
  return ofs + (LMᵀ)⁻¹ *ᵥ (LM⁻¹ *ᵥ u)

/-- `U_i.T.dot(U_i)` — 337-339: `u` by level and variable. -/
def gCross {q k : ℕ} (u : Fin q → Fin k → ℝ) : Matrix (Fin k) (Fin k) ℝ := of fun a b => ∑ g, u g a * u g b

/-- The degrees of freedom passed to `r_invwishart` — 340 and ranef_terms.py 315-320. -/
def gDf (q k : ℕ) (nPrior : ℝ) : ℝ := (q : ℝ) - ((k : ℝ) + 1) + nPrior

/-- `sample_gcov` — 336-342: the new covariance matrix of term `i`. -/
noncomputable def sampleGcov {q k : ℕ} (chol : Matrix (Fin k) (Fin k) ℝ → Option (Matrix (Fin k) (Fin k) ℝ)) (chi : Fin k → ℝ)
    (z : Fin k → Fin k → ℝ) (u : Fin q → Fin k → ℝ) (V : Matrix (Fin k) (Fin k) ℝ) : Option (Matrix (Fin k) (Fin k) ℝ) :=
  rInvwishart chol chi z (gCross u + V)

/-- The shape and the rate of `sample_rcov` — 344-348 and 197. -/
noncomputable def rShape (n : ℕ) (nPrior : ℝ) : ℝ := (((n : ℝ) - 2) + nPrior) / 2
noncomputable def rRate {n : ℕ} (y yhat : Fin n → ℝ) (V : ℝ) : ℝ := (∑ i, (y i - yhat i) * (y i - yhat i) + V) / 2

/-- `sample_rcov` — 344-350, `r_invgamma` — random.py 113-114: a negative shape raises; `g` is the gamma draw with rate one. -/
noncomputable def sampleRcov {n : ℕ} (g : ℝ) (nPrior V : ℝ) (y yhat : Fin n → ℝ) : Option ℝ :=
  open Classical in
  if rShape n nPrior < 0 then none else some (1 / (1 / rRate y yhat V * g))

/-- The default prior of the residual variance — 189-192: `V` and `n`. -/
noncomputable def rPrior (normal : Bool) (n : ℕ) : ℝ × ℝ := if normal then (0, -2) else (0.500 * n, n)

/-- The normal log density `sp.stats.norm(pred, s).logpdf(z)`. -/
noncomputable def normLogpdf (m s z : ℝ) : ℝ := -((z - m) / s) ^ 2 / 2 - Real.log (Real.sqrt (2 * Real.pi)) - Real.log s

/-- The log density of `mh_lvar_binomial` — 299-303. -/
noncomputable def binomLd (y w pred s z : ℝ) : ℝ := (y * z - Real.log (Real.exp z + 1)) * w + normLogpdf pred s z

/-- `xlogy`. -/
noncomputable def xlogy (x y : ℝ) : ℝ := open Classical in if x = 0 then 0 else x * Real.log y

/-- The log density of `mh_lvar_poisson` — 312-315, `poisson_logp` — func_utils.py 72. -/
noncomputable def poisLd (y pred s z : ℝ) : ℝ :=
  xlogy y (Real.exp z) - Real.log (Real.Gamma (y + 1)) - Real.exp z + normLogpdf pred s z

open Classical in
/-- `mh_lvar_binomial`, `mh_lvar_poisson` for one observation with log density `f` — 296-307, 309-319. -/
noncomputable def mhStep (f : ℝ → ℝ) (z x u C : ℝ) : ℝ × Bool :=
  let z' := x * C + z
  if u < f z' - f z then (z', true) else (z, false)

/-- The bound `v` of `slice_sample_lvar` — 361-367: `pos` for `ix1`. -/
noncomputable def sliceV (pos : Bool) (e z : ℝ) : ℝ :=
  if pos then
    let v := z - Real.log (1 + Real.exp z)
    let v := v - e
    v - Real.log (1 + -Real.exp v)
  else
    let v := -Real.log (1 + Real.exp z)
    let v := v - e
    Real.log (1 + -Real.exp v) - v

/-- `slice_sample_lvar` for one observation — 360-373. -/
noncomputable def sliceStep (cdf : ℝ → ℝ) (pos : Bool) (e z pred s2 : ℝ) (draws : List (ℝ × ℝ)) : Option ℝ :=
  let v := sliceV pos e z
  let s := Real.sqrt s2
  if pos then scalarTrunc cdf pred (s * 1) v (200 * 1) draws else scalarTrunc cdf pred (s * 1) (-200 * 1) v draws

/-- `tau` — 322: the thresholds `t` with the ends padded; `K` is the number of thresholds. -/
noncomputable def tauPad (K : ℕ) (t : ℕ → ℝ) (i : ℕ) : ℝ := if i = 0 then -1e17 else if i ≤ K then t (i - 1) else 1e17

/-- `mh_lvar_ordinal_probit` for one observation of category `c` — 321-333. -/
noncomputable def ordStep (cdf : ℝ → ℝ) (K : ℕ) (t : ℕ → ℝ) (c : ℕ) (pred s2 : ℝ) (draws : List (ℝ × ℝ)) : Option ℝ :=
  scalarTrunc cdf pred (1 * Real.sqrt s2) (1 * tauPad K t c) (1 * tauPad K t (c + 1)) draws

/-- `alpha_prop` — 377-379; `x` are the normal draws. -/
noncomputable def alphaProp (t x : ℕ → ℝ) (C : ℝ) (i : ℕ) : ℝ :=
  let prev := if i = 0 then Real.log (t 0) else Real.log (t i - t (i - 1))
  if i = 0 then prev else prev + C * x i

/-- `t_prop` — 381. -/
noncomputable def tProp (t x : ℕ → ℝ) (C : ℝ) (i : ℕ) : ℝ := ∑ j ∈ Finset.range (i + 1), Real.exp (alphaProp t x C j)

/-- The sum over the observations of one category. -/
def catSum {n : ℕ} (y : Fin n → ℕ) (c : ℕ) (f : Fin n → ℝ) : ℝ := ∑ i, if y i = c then f i else 0

/-- `ll` of `sample_tau` — 380-389: the loop variable is not defined after an empty loop. -/
noncomputable def tauLl {n : ℕ} (cdf : ℝ → ℝ) (K : ℕ) (y : Fin n → ℕ) (pred : Fin n → ℝ) (s : ℝ) (t t' : ℕ → ℝ) : Option ℝ :=
  if K ≤ 1 then none
  else
    let loop := ∑ i ∈ Finset.Ico 1 K,
      (catSum y i (fun j => Real.log (cdf ((t' i - pred j) / s) - cdf ((t' (i - 1) - pred j) / s))) -
        catSum y i (fun j => Real.log (cdf ((t i - pred j) / s) - cdf ((t (i - 1) - pred j) / s))))
    let i := K - 1
    some (loop + catSum y (i + 1) (fun j => Real.log (1 - cdf ((t' i - pred j) / s)))
      - catSum y (i + 1) (fun j => Real.log (1 - cdf ((t i - pred j) / s))))

open Classical in
/-- `sample_tau` — 376-396; `u` is the uniform draw, from `np.random` instead of `self.rng`. -/
noncomputable def sampleTau {n : ℕ} (cdf : ℝ → ℝ) (K : ℕ) (y : Fin n → ℕ) (pred : Fin n → ℝ) (s2 : ℝ) (t x : ℕ → ℝ) (C u : ℝ) :
    Option ((ℕ → ℝ) × Bool) := do
  let t' := tProp t x C
  let ll ← tauLl cdf K y pred (Real.sqrt s2) t t'
  return if Real.log u < ll then (t', true) else (t, false)

/-- The adaptation state — 420-425, 469-473: `wtrace`, `waccept`, `propC`. -/
structure Adapt where
  wtrace : ℝ
  waccept : ℝ
  propC : ℝ

/-- One step of the adaptation with damping `d`, rate `r`, target `a0` and (mean) acceptance `a`; `on` says `i < n_adapt`. -/
noncomputable def adaptStep (d r a0 : ℝ) (on : Bool) (st : Adapt) (a : ℝ) : Adapt :=
  let wtrace := st.wtrace * d + 1
  let waccept := st.waccept * d + a
  ⟨wtrace, waccept, if on then st.propC * Real.sqrt (r ^ (waccept / wtrace - a0)) else st.propC⟩

/-- The factor of `sample` for binary responses — 591. -/
noncomputable def bernScale : ℝ := Real.sqrt (1 + 16 * Real.sqrt 3 / (15 * Real.pi))

/-- The rescaled coefficients, variances and random effects — 590-597. -/
noncomputable def rescale (beta theta : List ℝ) (u : List ℝ) : List ℝ × List ℝ × List ℝ :=
  (beta.map (· / bernScale), theta.map (· / bernScale), u.map (· / bernScale))

/-- The p-value of the table — 606-607; `sf` is the normal survival function. -/
noncomputable def pvalue (sf : ℝ → ℝ) (mean sd : ℝ) : ℝ := sf |mean / sd|

/-- The parameters with a label: a fixed effect, an entry of a covariance matrix, the residual variance or a threshold. -/
inductive Lab
  | fe (i : ℕ)
  | g (term i j : ℕ)
  | resid
  | t (i : ℕ)
  deriving DecidableEq

/-- `zip(*np.triu_indices(k))`. -/
def triu (k : ℕ) : List (ℕ × ℕ) := (List.range k).flatMap fun i => (List.range k).filterMap fun j => if i ≤ j then some (i, j) else none

/-- `param_names` — 241-251. -/
def names (nfe : ℕ) (nrv : List ℕ) (freeR : Bool) (thresh : Option ℕ) : List Lab :=
  (List.range nfe).map .fe ++ (nrv.zipIdx.flatMap fun ki => (triu ki.1).map fun c => Lab.g ki.2 c.1 c.2)
    ++ (if freeR then [Lab.resid] else []) ++ (match thresh with
      | none => []
      | some K => (List.range K).tail.map .t)

/-- The length of `theta`: the lower triangles and the residual variance. -/
def nTheta (nrv : List ℕ) : ℕ := (nrv.map fun k => k * (k + 1) / 2).sum + 1

/-- The columns of the samples in the order of `vnames` — 232-239. -/
def columns (nfe : ℕ) (nrv : List ℕ) (freeR : Bool) (thresh : Option ℕ) : List ℕ :=
  let np := nTheta nrv + nfe
  List.range nfe ++ List.range' nfe ((if freeR then np else np - 1) - nfe) ++ (match thresh with
    | none => []
    | some K => List.range' (np + 1) (K - 1))

/-- What a column of the samples holds — 433-435, 481-482: coefficients, `theta` (`vech` of each covariance matrix, then the residual
variance), thresholds. -/
def content (nfe : ℕ) (nrv : List ℕ) (thresh : Option ℕ) : List Lab :=
  (List.range nfe).map .fe ++
    (nrv.zipIdx.flatMap fun ki => (List.range ki.1).flatMap fun j => (List.range ki.1).filterMap fun i =>
      if j ≤ i then some (Lab.g ki.2 j i) else none)
    ++ [Lab.resid] ++ (match thresh with
      | none => []
      | some K => (List.range K).map .t)

/-- `aggregate_samples` — 614-626: `u` is only bound when the random effects were saved. -/
def aggregate {α : Type} (vars : List (String × α)) (u : Option α) : Option (List (String × α)) := do
  let u ← u
  return vars ++ [("u", u)]

end Verif.Mcmc
