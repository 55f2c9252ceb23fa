import Verif.Transf.Ordered
import Verif.Transf.Jac
/-!
# Model of the cumulative link model `pyglm2/clm.py` and of `OrdinalModelData`

Arrays are functions with explicit sizes: `n` rows, `k = q + p` parameters, `q` thresholds.  A link is the triple
`inv_link`, `dinv_link`, `d2inv_link`.  The boolean stores `mu1[o1ix] = 1.0` are `if`s.  Negative likelihoods as in
the code.
-/
namespace Verif.Like
open Real Verif.Transf

/-- The link functions used. -/
structure CLink where
  F : ℝ → ℝ
  F1 : ℝ → ℝ
  F2 : ℝ → ℝ

/-- `B1, B2, o1, o2, o1ix, w = data`. -/
structure ClmData where
  B1 : ℕ → ℕ → ℝ
  B2 : ℕ → ℕ → ℝ
  o1 : ℕ → ℝ
  o2 : ℕ → ℝ
  o1ix : ℕ → Bool
  w : ℕ → ℝ

/-- `Y` of `compute_ordinal_matrices` — regression_model.py 292: `cat` is `inverse` of `np.unique`. -/
def ordY (cat : ℕ → ℕ) (i c : ℕ) : ℝ := if cat i = c then 1 else 0

/-- `compute_ordinal_matrices` — regression_model.py 291-297, for `q + 1` categories. -/
noncomputable def ordinalData (q : ℕ) (cat : ℕ → ℕ) (X : ℕ → ℕ → ℝ) (w : ℕ → ℝ) : ClmData :=
  let Y := ordY cat
  let A1 := fun i j => Y i j
  let A2 := fun i j => Y i (j + 1)
  let o1 := fun i => Y i q * 30e1
  let o2 := fun i => Y i 0 * -10e5
  { B1 := fun i j => if j < q then A1 i j else -X i (j - q)
    B2 := fun i j => if j < q then A2 i j else -X i (j - q)
    o1 := o1
    o2 := o2
    o1ix := fun i => decide (o1 i ≠ 0)
    w := w }

section
variable (l : CLink) (d : ClmData) (n k q : ℕ)

/-- `B1.dot(params) + o1`. -/
noncomputable def eta1 (th : ℕ → ℝ) (i : ℕ) : ℝ := dotN k (d.B1 i) th + d.o1 i
/-- `B2.dot(params) + o2`. -/
noncomputable def eta2 (th : ℕ → ℝ) (i : ℕ) : ℝ := dotN k (d.B2 i) th + d.o2 i

/-- `_loglike` — clm.py 132-139. -/
noncomputable def clmLoglike (th : ℕ → ℝ) : ℝ :=
  let prob := fun i => l.F (eta1 d k th i) - l.F (eta2 d k th i);
  -∑ i ∈ Finset.range n, d.w i * log (prob i)

/-- `_loglike_unconstrained` — 114-122. -/
noncomputable def clmLoglikeU (th : ℕ → ℝ) : ℝ :=
  let th := ordRvs q th
  let prob := fun i => l.F (eta1 d k th i) - l.F (eta2 d k th i);
  -∑ i ∈ Finset.range n, d.w i * log (prob i)

/-- `prob` of the gradients and Hessians. -/
noncomputable def clmProb (th : ℕ → ℝ) (i : ℕ) : ℝ :=
  let mu1 := fun i => if d.o1ix i then 1 else l.F (eta1 d k th i)
  mu1 i - l.F (eta2 d k th i)

/-- `dprob`. -/
noncomputable def clmDprob (th : ℕ → ℝ) (i j : ℕ) : ℝ :=
  let d1eta1 := fun i => if d.o1ix i then 0 else l.F1 (eta1 d k th i)
  let d1eta2 := fun i => l.F1 (eta2 d k th i)
  d.B1 i j * d1eta1 i - d.B2 i j * d1eta2 i

/-- `_gradient_i` — 228-242. -/
noncomputable def clmGradI (th : ℕ → ℝ) (i j : ℕ) : ℝ :=
  -clmDprob l d k th i j * (d.w i / clmProb l d k th i)

/-- `_gradient` — 203-217. -/
noncomputable def clmGrad (th : ℕ → ℝ) (j : ℕ) : ℝ :=
  -∑ i ∈ Finset.range n, clmDprob l d k th i j * (d.w i / clmProb l d k th i)

/-- `_gradient_unconstrained` — 149-165. -/
noncomputable def clmGradU (th : ℕ → ℝ) (j : ℕ) : ℝ :=
  let pars := ordRvs q th
  let g := clmGrad l d n k pars
  if j < q then ∑ a ∈ Finset.range q, g a * ordJacRvs q th a j else g j

/-- `_gradient_unconstrained_i` — 175-191. -/
noncomputable def clmGradUI (th : ℕ → ℝ) (i j : ℕ) : ℝ :=
  let pars := ordRvs q th
  let g := clmGradI l d k pars i
  if j < q then ∑ a ∈ Finset.range q, g a * ordJacRvs q th a j else g j

/-- `_hessian` — 290-309.  The second derivative of the first link is evaluated without the offset. -/
noncomputable def clmHess (th : ℕ → ℝ) (j c : ℕ) : ℝ :=
  let prob := clmProb l d k th
  let d2eta1 := fun i => if d.o1ix i then 0 else l.F2 (dotN k (d.B1 i) th)
  let d2eta2 := fun i => l.F2 (eta2 d k th i)
  let w3 := fun i => d.w i / prob i ^ 2
  let dprob := clmDprob l d k th
  let T0 := ∑ i ∈ Finset.range n, d.B1 i j * (d2eta1 i / prob i) * d.B1 i c
  let T1 := ∑ i ∈ Finset.range n, d.B2 i j * (d2eta2 i / prob i) * d.B2 i c
  let T2 := ∑ i ∈ Finset.range n, dprob i j * w3 i * dprob i c;
  -(T0 - T1 - T2)

/-- `D1` — 272-273. -/
noncomputable def clmD1 (th : ℕ → ℝ) (a j : ℕ) : ℝ :=
  if a < q ∧ j < q then ordJacRvs q th a j else if a = j then 1 else 0

/-- `_hessian_unconstrained` — 252-277. -/
noncomputable def clmHessU (th : ℕ → ℝ) (j c : ℕ) : ℝ :=
  let pars := ordRvs q th
  let H := clmHess l d n k pars
  let g := fun a => -∑ i ∈ Finset.range n, clmDprob l d k pars i a * (d.w i / clmProb l d k pars i)
  let D1 := clmD1 q th
  let H1 := ∑ b ∈ Finset.range k, (∑ a ∈ Finset.range k, D1 a j * H a b) * D1 b c
  if j < q ∧ c < q then H1 + ∑ a ∈ Finset.range q, g a * ordHessRvs q th a j c else H1

end

/-! ## Prediction -/

/-- `eta` of `predict` — 393-394: `tau - X.dot(beta)`. -/
def predEta (q p : ℕ) (X : ℕ → ℕ → ℝ) (params : ℕ → ℝ) (i c : ℕ) : ℝ :=
  params c - dotN p (X i) fun j => params (q + j)

/-- `np.diff(np.hstack([zeros, cmu, ones]), axis=1)` — 396-397, 414-418: column `c` of `0 … q`. -/
def diffCum (q : ℕ) (cmu : ℕ → ℕ → ℝ) (i c : ℕ) : ℝ :=
  let h := fun c => if c = 0 then 0 else if c ≤ q then cmu i (c - 1) else 1
  h (c + 1) - h c

/-- The columns kept by the boolean `ind` with the `i`-th threshold switched on — 399-404. -/
def predInd (q p i : ℕ) : List ℕ := i :: (List.range p).map (q + ·)

/-- `eta_se[:, i]` squared: `einsum("ij,jk,ik->i", Xi, V, Xi)` with `Xi = [1, -X]`, `V = params_cov[ind][:, ind]`. -/
def predVar (q p : ℕ) (X : ℕ → ℕ → ℝ) (cov : ℕ → ℕ → ℝ) (r i : ℕ) : ℝ :=
  let Xi := fun a => if a = 0 then 1 else -X r (a - 1)
  let ind := predInd q p i
  ∑ a ∈ Finset.range (p + 1), ∑ b ∈ Finset.range (p + 1), Xi a * cov (ind.getD a 0) (ind.getD b 0) * Xi b

/-- The limits of the linear predictor — 405-408 (`z` is the normal quantile). -/
noncomputable def predLim (q p : ℕ) (X : ℕ → ℕ → ℝ) (params : ℕ → ℝ) (cov : ℕ → ℕ → ℝ) (z : ℝ) (i c : ℕ) : ℝ × ℝ :=
  let eta := predEta q p X params i c
  let se := sqrt (predVar q p X cov i c)
  (eta - se * z, eta + se * z)

/-- `cmu`, `cmu_l`, `cmu_u` and `mu`, `mu_lower`, `mu_upper` of `predict` — 395-418. -/
noncomputable def predict (F : ℝ → ℝ) (q p : ℕ) (X : ℕ → ℕ → ℝ) (params : ℕ → ℝ) (cov : ℕ → ℕ → ℝ) (z : ℝ) :
    ((ℕ → ℕ → ℝ) × (ℕ → ℕ → ℝ) × (ℕ → ℕ → ℝ)) × ((ℕ → ℕ → ℝ) × (ℕ → ℕ → ℝ) × (ℕ → ℕ → ℝ)) :=
  let cmu := fun i c => F (predEta q p X params i c)
  let cmul := fun i c => F (predLim q p X params cov z i c).1
  let cmuu := fun i c => F (predLim q p X params cov z i c).2
  ((cmu, cmul, cmuu), (diffCum q cmu, diffCum q cmul, diffCum q cmuu))

/-- The arguments `_fit` receives. -/
structure FitArgs (α : Type) where
  params : Option α
  data : Option α
  opt_kws : Option α

/-- The call `self._fit(method, opt_kws)` of `fit` — 336-337: both are passed by position. -/
def fitCall {α : Type} (method opt_kws : Option α) : FitArgs α := ⟨method, opt_kws, none⟩

/-- The design of the null model of `fit` — 351-354: an intercept in place of the predictors. -/
noncomputable def nullData (q : ℕ) (cat : ℕ → ℕ) (w : ℕ → ℝ) : ClmData := ordinalData q cat (fun _ _ => 1) w

end Verif.Like
