import Verif.Fa.Rotation

/-!
Model of `pystatsm/pygam/gam.py` (class `GAM`).  A family is a record of the functions the class calls,
each at one observation; `phi` and `dispersion` have their defaults.  `np.linalg.solve` and `np.linalg.inv`
are `Verif.Fa.inv?`.  Where `reml`, `gradient` and `hessian` call `pirls` they take its coefficients as an
argument, and `mu` is `inv_link(X beta)`, as `pirls` returns it.  The parameter `theta` is the logarithms `rho`
of the smoothing parameters and its last entry `tau`.
-/

namespace Verif.Gam
open Matrix Verif.Fa

/-- The functions of a family (`pystatsm/pyglm/families.py`) used by the class. -/
structure Family where
  link : ℝ → ℝ
  invLink : ℝ → ℝ
  var : ℝ → ℝ
  dvar : ℝ → ℝ
  dlink : ℝ → ℝ
  d2link : ℝ → ℝ
  dev : ℝ → ℝ → ℝ
  dw : ℝ → ℝ → ℝ
  d2w : ℝ → ℝ → ℝ

/-- The scale functions `llscale`, `dllscale`, `d2llscale` at the response of the model. -/
structure Scale where
  ll : ℝ → ℝ
  d1 : ℝ → ℝ
  d2 : ℝ → ℝ

/-- What the constructor stores. -/
structure Add (n p s : ℕ) where
  f : Family
  sc : Scale
  X : Matrix (Fin n) (Fin p) ℝ
  y : Fin n → ℝ
  S : Fin s → Matrix (Fin p) (Fin p) ℝ
  ranks : Fin s → ℝ
  ldS : Fin s → ℝ

variable {n p s : ℕ}

/-- `a = 1.0 + r * (v1 / v0 + g2 / g1)` (line 97). -/
noncomputable def Family.a (f : Family) (y mu : ℝ) : ℝ := 1 + (y - mu) * (f.dvar mu / f.var mu + f.d2link mu / f.dlink mu)

/-- `w = a / (g1**2 * v0)` (lines 99, 370). -/
noncomputable def Family.w (f : Family) (y mu : ℝ) : ℝ := f.a y mu / (f.dlink mu ^ 2 * f.var mu)

/-- `z = eta + r * g1 / a` (line 98). -/
noncomputable def Family.z (f : Family) (y eta : ℝ) : ℝ := eta + (y - f.invLink eta) * f.dlink (f.invLink eta) / f.a y (f.invLink eta)

/-- `gw = (y - mu) / (var_func(mu) * dlink(mu))` (line 342). -/
noncomputable def Family.gw (f : Family) (y mu : ℝ) : ℝ := (y - mu) / (f.var mu * f.dlink mu)

/-- `get_penalty_mat` (lines 196-210). -/
def Add.pen (m : Add n p s) (lam : Fin s → ℝ) : Matrix (Fin p) (Fin p) ℝ := ∑ i, lam i • m.S i

/-- `logdetS` (lines 212-229). -/
noncomputable def Add.logdetS (m : Add n p s) (lam : Fin s → ℝ) (phi : ℝ) : ℝ :=
  ∑ i, m.ranks i * (Real.log (lam i) - Real.log phi) + ∑ i, m.ldS i

/-- `self.mp = self.nx - self.ranks.sum()`. -/
def Add.mp (m : Add n p s) : ℝ := p - ∑ i, m.ranks i

/-- `mu = inv_link(X.dot(beta))`. -/
def Add.mu (m : Add n p s) (beta : Fin p → ℝ) (k : Fin n) : ℝ := m.f.invLink ((m.X *ᵥ beta) k)

/-- `(X * w[:, None]).T.dot(X)` for weights `w`. -/
def Add.cross (m : Add n p s) (w : Fin n → ℝ) : Matrix (Fin p) (Fin p) ℝ := m.Xᵀ * diagonal w * m.X

/-- `grad_dev_beta` (lines 324-344). -/
noncomputable def Add.gradDev (m : Add n p s) (beta : Fin p → ℝ) (S : Matrix (Fin p) (Fin p) ℝ) : Fin p → ℝ :=
  -(m.Xᵀ *ᵥ fun k => m.f.gw (m.y k) (m.mu beta k)) + S *ᵥ beta

/-- `Dp2` of `hess_dev_beta` (lines 346-373). -/
noncomputable def Add.hessDev (m : Add n p s) (beta : Fin p → ℝ) (S : Matrix (Fin p) (Fin p) ℝ) : Matrix (Fin p) (Fin p) ℝ :=
  m.cross (fun k => m.f.w (m.y k) (m.mu beta k)) + S

/-- `deviance(y, mu).sum() + beta.dot(S).dot(beta)`. -/
def Add.penDev (m : Add n p s) (S : Matrix (Fin p) (Fin p) ℝ) (beta : Fin p → ℝ) : ℝ :=
  ∑ k, m.f.dev (m.y k) (m.mu beta k) + beta ⬝ᵥ (S *ᵥ beta)

open Classical in
/-- `solve_pls` (lines 102-127).  Where some `a` is zero the working response is infinite with weight zero and the
right hand side is not a number: `none`.  The Cholesky solver and the general one give the same solution. -/
noncomputable def Add.solvePls (m : Add n p s) (eta : Fin n → ℝ) (S : Matrix (Fin p) (Fin p) ℝ) : Option (Fin p → ℝ) :=
  if ∃ k, m.f.a (m.y k) (m.f.invLink (eta k)) = 0 then none else
  let w : Fin n → ℝ := fun k => m.f.w (m.y k) (m.f.invLink (eta k))
  (inv? (m.cross w + S)).map fun V => V *ᵥ ((m.Xᵀ * diagonal w) *ᵥ fun k => m.f.z (m.y k) (eta k))

open Classical in
/-- The loop of step halving (lines 181-187) with `j` halvings left. -/
noncomputable def Add.halve (m : Add n p s) (S : Matrix (Fin p) (Fin p) ℝ) (prev : Fin p → ℝ) : ℕ → (Fin p → ℝ) → (Fin p → ℝ)
  | 0, beta => beta
  | j + 1, beta => if m.penDev S prev < m.penDev S beta then Add.halve m S prev j ((1 / 2 : ℝ) • (beta + prev)) else beta

open Classical in
/-- The loop of `pirls` (lines 175-193) with `k` iterations left: `beta` and `convergence`. -/
noncomputable def Add.pirlsLoop (m : Add n p s) (S : Matrix (Fin p) (Fin p) ℝ) (tol : ℝ) : ℕ → (Fin p → ℝ) → Option ((Fin p → ℝ) × Bool)
  | 0, beta => some (beta, false)
  | k + 1, prev => do
    let b ← m.solvePls (m.X *ᵥ prev) S
    let beta := m.halve S prev 15 b
    if m.penDev S prev < m.penDev S beta then some (prev, false)
    else if |m.penDev S beta - m.penDev S prev| / (|m.penDev S prev| + 1 / 10 ^ 6) < tol then some (beta, true)
    else Add.pirlsLoop m S tol k beta

/-- `pirls` (lines 129-194): `beta` and `convergence`.  With `n_iters = 0` the code fails on the undefined `i` after
the loop. -/
noncomputable def Add.pirls (m : Add n p s) (lam : Fin s → ℝ) (nIters : ℕ) (tol : ℝ) : Option ((Fin p → ℝ) × Bool) := do
  let S := m.pen lam
  let ybar := (∑ k, m.y k) / n
  let b ← m.solvePls (fun k => m.f.link ((m.y k + ybar) / 2)) S
  m.pirlsLoop S tol nIters b

/-- `grad_beta_rho` (lines 231-252): column `i`. -/
noncomputable def Add.gradBeta (m : Add n p s) (beta : Fin p → ℝ) (lam : Fin s → ℝ) : Option (Fin s → Fin p → ℝ) :=
  (inv? (m.hessDev beta (m.pen lam))).map fun V => fun i => (-lam i) • (V *ᵥ (m.S i *ᵥ beta))

/-- `w1 = dw_deta(y, mu)`. -/
def Add.w1 (m : Add n p s) (beta : Fin p → ℝ) (k : Fin n) : ℝ := m.f.dw (m.y k) (m.mu beta k)

/-- `w2 = d2w_deta2(y, mu)`. -/
def Add.w2 (m : Add n p s) (beta : Fin p → ℝ) (k : Fin n) : ℝ := m.f.d2w (m.y k) (m.mu beta k)

/-- `hess_beta_rho` (lines 254-292): `b2[i, j]`. -/
noncomputable def Add.hessBeta (m : Add n p s) (beta : Fin p → ℝ) (lam : Fin s → ℝ) : Option (Fin s → Fin s → Fin p → ℝ) := do
  let b1 ← m.gradBeta beta lam
  let V ← inv? (m.hessDev beta (m.pen lam))
  let eta1 : Fin s → Fin n → ℝ := fun i => m.X *ᵥ b1 i
  let Xf : Fin s → Fin s → Fin p → ℝ := fun i j => m.Xᵀ *ᵥ fun k => m.w1 beta k * (eta1 i k * eta1 j k)
  let Sb : Fin s → Fin s → Fin p → ℝ := fun i j => lam i • (m.S i *ᵥ b1 j)
  let u : Fin s → Fin s → Fin p → ℝ := fun i j => Xf i j + Sb i j + Sb j i
  some fun i j => -(V *ᵥ u i j) + if i = j then b1 i else 0

/-- `dhess_beta_rho` (lines 294-322): `b3[i, j, k]`.  The code solves with a Cholesky factor and raises unless the
matrix is positive definite; here only a singular one gives `none`. -/
noncomputable def Add.dhessBeta (m : Add n p s) (beta : Fin p → ℝ) (lam : Fin s → ℝ) : Option (Fin s → Fin s → Fin s → Fin p → ℝ) := do
  let b1 ← m.gradBeta beta lam
  let b2 ← m.hessBeta beta lam
  let A ← inv? (m.hessDev beta (m.pen lam))
  let eta1 : Fin s → Fin n → ℝ := fun i => m.X *ᵥ b1 i
  let eta2 : Fin s → Fin s → Fin n → ℝ := fun i j => m.X *ᵥ b2 i j
  let P1 : Fin s → Fin s → Fin p → ℝ := fun i k => lam i • (m.S i *ᵥ b1 k)
  let P0 : Fin s → Fin p → ℝ := fun i => lam i • (m.S i *ᵥ beta)
  let rhs : Fin s → Fin s → Fin s → Fin p → ℝ := fun i j k =>
    (m.Xᵀ *ᵥ fun l => m.w2 beta l * eta1 i l * eta1 j l * eta1 k l)
    + (m.Xᵀ *ᵥ fun l => m.w1 beta l * eta2 i j l * eta1 k l)
    + (m.Xᵀ *ᵥ fun l => m.w1 beta l * eta2 i k l * eta1 j l)
    + (m.Xᵀ *ᵥ fun l => m.w1 beta l * eta2 j k l * eta1 i l)
    + lam i • (m.S i *ᵥ b2 j k) + lam j • (m.S j *ᵥ b2 i k) + lam k • (m.S k *ᵥ b2 i j)
    + (if i = j then P1 i k else 0) + (if i = k then P1 i j else 0) + (if j = k then P1 j i else 0)
    + (if i = j ∧ j = k then P0 i else 0)
  some fun i j k => -(A *ᵥ rhs i j k)

/-- `reml` (lines 375-402) at the coefficients `beta` that `pirls` returned. -/
noncomputable def Add.reml (m : Add n p s) (beta : Fin p → ℝ) (rho : Fin s → ℝ) (tau : ℝ) : ℝ :=
  let lam : Fin s → ℝ := fun i => Real.exp (rho i)
  let phi := Real.exp tau
  let S := m.pen lam
  let Dp2 := m.hessDev beta S
  let D := ∑ k, m.f.dev (m.y k) (m.mu beta k)
  let P := beta ⬝ᵥ (S *ᵥ beta)
  let ldh := Real.log |((1 / phi) • Dp2).det|
  let lds := m.logdetS lam phi
  let Dp := (D + P) / phi
  let K := ldh - lds
  let ls := m.sc.ll phi * 2
  (Dp + K + ls) / 2

/-- `gradient` (lines 404-439): the entries of the smoothing parameters and the last. -/
noncomputable def Add.gradient (m : Add n p s) (beta : Fin p → ℝ) (rho : Fin s → ℝ) (tau : ℝ) : Option ((Fin s → ℝ) × ℝ) := do
  let lam : Fin s → ℝ := fun i => Real.exp (rho i)
  let phi := Real.exp tau
  let S := m.pen lam
  let A ← inv? (m.hessDev beta S)
  let b1 ← m.gradBeta beta lam
  let eta1 : Fin s → Fin n → ℝ := fun i => m.X *ᵥ b1 i
  let bSb : Fin s → ℝ := fun i => beta ⬝ᵥ (m.S i *ᵥ beta)
  let trAS : Fin s → ℝ := fun i => ∑ k, ∑ j, A k j * m.S i j k
  let q : Fin n → ℝ := fun k => ∑ j, (m.X * A) k j * m.X k j
  let trAH1 : Fin s → ℝ := fun i => eta1 i ⬝ᵥ fun k => m.w1 beta k * q k
  let g : Fin s → ℝ := fun i => bSb i * lam i / phi + lam i * trAS i + trAH1 i - m.ranks i
  let Dp := m.penDev S beta
  let ls1 := m.sc.d1 phi * 2
  let gl := -Dp / phi + ls1 * phi - m.mp
  some (fun i => g i / 2, gl / 2)

/-- `hessian` (lines 441-495): the block of the smoothing parameters, the last row and column, the last entry. -/
noncomputable def Add.hessian (m : Add n p s) (beta : Fin p → ℝ) (rho : Fin s → ℝ) (tau : ℝ) :
    Option ((Fin s → Fin s → ℝ) × (Fin s → ℝ) × ℝ) := do
  let lam : Fin s → ℝ := fun i => Real.exp (rho i)
  let phi := Real.exp tau
  let S := m.pen lam
  let Dp2 := m.hessDev beta S
  let A ← inv? Dp2
  let b1 ← m.gradBeta beta lam
  let b2 ← m.hessBeta beta lam
  let D2r : Fin s → Fin s → ℝ := fun i j => b1 i ⬝ᵥ (Dp2 *ᵥ b1 j)
  let eta1 : Fin s → Fin n → ℝ := fun i => m.X *ᵥ b1 i
  let q : Fin n → ℝ := fun k => ∑ j, (m.X * A) k j * m.X k j
  let M : Fin s → Matrix (Fin p) (Fin p) ℝ := fun k => m.cross (fun l => m.w1 beta l * eta1 k l) + lam k • m.S k
  let AM : Fin s → Matrix (Fin p) (Fin p) ℝ := fun k => A * M k
  let tr1 : Fin s → Fin s → ℝ := fun i j => ∑ a, ∑ b, AM i a b * AM j b a
  let p1 : Fin n → ℝ := fun k => m.w2 beta k * q k
  let p2 : Fin n → ℝ := fun k => m.w1 beta k * q k
  let Xtp2 := m.Xᵀ *ᵥ p2
  let trAH2 : Fin s → Fin s → ℝ := fun i j => (eta1 i ⬝ᵥ fun k => eta1 j k * p1 k) + b2 i j ⬝ᵥ Xtp2
  let trAS : Fin s → ℝ := fun i => ∑ k, ∑ j, A k j * m.S i j k
  let tr2 : Fin s → Fin s → ℝ := fun i j => trAH2 i j + if i = j then lam i * trAS i else 0
  let bSb : Fin s → ℝ := fun i => beta ⬝ᵥ (m.S i *ᵥ beta)
  let ldh2 : Fin s → Fin s → ℝ := fun i j => -(tr1 i j - tr2 i j)
  let H : Fin s → Fin s → ℝ := fun i j => ldh2 i j / 2 - D2r i j / phi + if i = j then lam i * bSb i / (2 * phi) else 0
  let Dp := m.penDev S beta
  some (H, fun i => -bSb i * lam i / (2 * phi), Dp / (2 * phi) + m.sc.d1 phi * phi + m.sc.d2 phi * phi ^ 2)

/-- The degrees of freedom `r` of the test of a smooth (lines 645-648). -/
noncomputable def rdf (edf : ℝ) : ℤ := if edf - ⌊edf⌋ < 1 / 20 then ⌊edf⌋ else ⌈edf⌉

/-- `p = t(edf).sf(np.abs(t))` (line 678) for the survival function `sf`. -/
noncomputable def pval (sf : ℝ → ℝ) (t : ℝ) : ℝ := sf |t|

/-- `Vb`, `Vs`, `F` of `optimize_penalty` (lines 613-627): `w` are the weights at the fit. -/
noncomputable def Add.covs (m : Add n p s) (w : Fin n → ℝ) (lam : Fin s → ℝ) (scale : ℝ) :
    Option (Matrix (Fin p) (Fin p) ℝ × Matrix (Fin p) (Fin p) ℝ × Matrix (Fin p) (Fin p) ℝ) :=
  let Hphi := (1 / scale) • m.cross w
  let K := Hphi + (1 / scale) • m.pen lam
  (inv? K).map fun Vb => (Vb, Vb * Hphi * Vb, Vb * Hphi)

end Verif.Gam
