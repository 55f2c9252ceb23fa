import Verif.Like.Clm
import Verif.Glm.Families
/-!
# Model of `pyglm2/zinf.py`

Masked assignments become `if` on the entry.  The links are `CLink`s (see `Verif.Like.Clm`).  A design matrix is a
function of row and column; the parameters of the count part come first, those of the zero part follow.
-/
namespace Verif.Like
open Real Verif.Transf

/-- `(X, Z, y, w)`. -/
structure ZData where
  X : ℕ → ℕ → ℝ
  Z : ℕ → ℕ → ℝ
  y : ℕ → ℝ
  w : ℕ → ℝ

section
variable (sp : Glm.Sp) (g h : CLink) (d : ZData) (n p q : ℕ)

/-- `X.dot(params[:p])`. -/
noncomputable def zEta (th : ℕ → ℝ) (i : ℕ) : ℝ := dotN p (d.X i) th
/-- `Z.dot(params[p:])`. -/
noncomputable def zPsi (th : ℕ → ℝ) (i : ℕ) : ℝ := dotN q (d.Z i) fun j => th (p + j)

/-! ## Zero-inflated Poisson -/

/-- An entry of `_loglike_i` — zinf.py 51-62. -/
noncomputable def zipNll (y w eta psi : ℝ) : ℝ :=
  let mu1 := g.F eta
  let mu2 := h.F psi
  if y = 0 then -w * log (mu2 + (1 - mu2) * exp (-mu1))
  else -w * (log (1 - mu2) + y * log mu1 - mu1 - sp.gammaln y)

/-- `_loglike` — 71-84. -/
noncomputable def zipLoglike (th : ℕ → ℝ) : ℝ :=
  let lambd := fun i => g.F (zEta d p th i)
  let omega := fun i => h.F (zPsi d p q th i)
  let ll := ∑ i ∈ (Finset.range n).filter fun i => d.y i = 0,
    -d.w i * log (omega i + (1 - omega i) * exp (-lambd i))
  ll + ∑ i ∈ (Finset.range n).filter fun i => ¬ d.y i = 0,
    -d.w i * (log (1 - omega i) + d.y i * log (lambd i) - lambd i - sp.gammaln (d.y i))

/-- `u_poisson` — 96-118. -/
noncomputable def zipUp (y w eta psi : ℝ) : ℝ :=
  let lambd := g.F eta
  let omega := h.F psi
  let exlam := exp (-lambd)
  if y = 0 then
    let t0 := 1 - omega
    let t1 := t0 * exlam
    let den := t1 + omega
    w * t1 * g.F1 eta / den
  else w * (lambd - y) * g.F1 eta / lambd

/-- `u_bernoulli` — 122-124. -/
noncomputable def zipUb (y w eta psi : ℝ) : ℝ :=
  let lambd := g.F eta
  let omega := h.F psi
  let exlam := exp (-lambd)
  if y = 0 then
    let t0 := 1 - omega
    let t1 := t0 * exlam
    let h1 := h.F1 psi
    let den := t1 + omega;
    -(w * h1 - h1 * exlam) / den
  else w * h.F1 psi / (1 - omega)

/-- `_gradient` — 94-137. -/
noncomputable def zipGrad (th : ℕ → ℝ) (j : ℕ) : ℝ :=
  if j < p then ∑ i ∈ Finset.range n, d.X i j * zipUp g h (d.y i) (d.w i) (zEta d p th i) (zPsi d p q th i)
  else ∑ i ∈ Finset.range n, d.Z i (j - p) * zipUb g h (d.y i) (d.w i) (zEta d p th i) (zPsi d p q th i)

/-- `_gradient_i` — 147-175. -/
noncomputable def zipGradI (th : ℕ → ℝ) (i j : ℕ) : ℝ :=
  let eta := zEta d p th i
  let psi := zPsi d p q th i
  let lambd := g.F eta
  let omega := h.F psi
  let exlam := exp (-lambd)
  let w := d.w i
  let t0 := 1 - omega
  let t1 := t0 * exlam
  let h1 := h.F1 psi
  let gw1 := w * t1 * g.F1 eta / (t1 + omega)
  let gw2 := -(w * h1 - h1 * exlam) / (t1 + omega)
  if d.y i = 0 then (if j < p then d.X i j * gw1 else d.Z i (j - p) * gw2)
  else if j < p then d.X i j * (w * (lambd - d.y i) * g.F1 eta / lambd)
  else d.Z i (j - p) * (w * h.F1 psi / (1 - omega))

/-- `weta2` of `_hessian` — 270-311. -/
noncomputable def zipWeta2 (y w eta psi : ℝ) : ℝ :=
  let lambd := g.F eta
  let omega := h.F psi
  let exlam := exp (-lambd)
  let gp := g.F1 eta
  let gpp := g.F2 eta
  if y = 0 then
    let tmp1 := (1 - omega) * exlam
    let num0 := gpp * w * tmp1
    let num1 := gp ^ 2 * w * tmp1
    let den1 := omega + tmp1
    let den2 := den1 * den1
    num0 / den1 + num1 * tmp1 / den2 - num1 / den1
  else -w * (-gpp + gpp * y / lambd - gp * gp * y / lambd ^ 2)

/-- `wpsi2`. -/
noncomputable def zipWpsi2 (y w eta psi : ℝ) : ℝ :=
  let lambd := g.F eta
  let omega := h.F psi
  let exlam := exp (-lambd)
  let hp := h.F1 psi
  let hpp := h.F2 psi
  if y = 0 then
    let tmp1 := (1 - omega) * exlam
    let tmp3 := exlam * hp - hp
    let den1 := omega + tmp1
    let den2 := den1 * den1
    let num1 := w * (hpp - exlam * hpp)
    let num2 := w * tmp3 * -tmp3;
    -num1 / den1 - num2 / den2
  else
    let tmp0 := 1 - omega
    w * (hpp / tmp0 + hp ^ 2 / (tmp0 * tmp0))

/-- `wetapsi`. -/
noncomputable def zipWetapsi (y w eta psi : ℝ) : ℝ :=
  let lambd := g.F eta
  let omega := h.F psi
  let exlam := exp (-lambd)
  let gp := g.F1 eta
  let hp := h.F1 psi
  if y = 0 then
    let tmp1 := (1 - omega) * exlam
    let tmp2 := tmp1 + omega
    let tmp3 := exlam * hp - hp
    let num1 := w * tmp1 * tmp3 * gp
    let den2 := tmp2
    let den1 := den2 * den2
    let num2 := w * exlam * gp * hp
    num1 / den1 - num2 / den2
  else 0

/-- `_hessian` — 313-316. -/
noncomputable def zipHess (th : ℕ → ℝ) (j c : ℕ) : ℝ :=
  let at' := fun (f : ℝ → ℝ → ℝ → ℝ → ℝ) i => f (d.y i) (d.w i) (zEta d p th i) (zPsi d p q th i)
  let ee := fun j c => ∑ i ∈ Finset.range n, d.X i j * at' (zipWeta2 g h) i * d.X i c
  let se := fun j c => ∑ i ∈ Finset.range n, d.Z i j * at' (zipWetapsi g h) i * d.X i c
  let ss := fun j c => ∑ i ∈ Finset.range n, d.Z i j * at' (zipWpsi2 g h) i * d.Z i c
  if j < p then (if c < p then ee j c else se (c - p) j)
  else if c < p then se (j - p) c else ss (j - p) (c - p)

/-! ## Zero-inflated negative binomial: the last parameter is the logarithm of the dispersion -/

/-- An entry of `ll` in `_loglike` — 581-592. -/
noncomputable def zinbNll (y w eta psi tau : ℝ) : ℝ :=
  let k := exp tau
  let mu1 := g.F eta
  let mu2 := h.F psi
  if y = 0 then -log (mu2 + (1 - mu2) * (1 + k / w * mu1) ^ (-w / k))
  else (Glm.negBinomial sp).full y mu1 w 1 k - log (1 - mu2)

/-- `_loglike_i` — 561-572. -/
noncomputable def zinbLoglikeI (th : ℕ → ℝ) (i : ℕ) : ℝ :=
  let k := exp (th (p + q))
  let mu1 := g.F (zEta d p th i)
  let mu2 := h.F (zPsi d p q th i)
  if d.y i = 0 then -log (mu2 + (1 - mu2) * (1 + k / d.w i * mu1) ^ (-d.w i / k))
  else (Glm.negBinomial sp).nll (d.y i) mu1 (d.w i) 1 k - log (1 - mu2)

/-- `_loglike`. -/
noncomputable def zinbLoglike (th : ℕ → ℝ) : ℝ :=
  ∑ i ∈ Finset.range n, zinbNll sp g h (d.y i) (d.w i) (zEta d p th i) (zPsi d p q th i) (th (p + q))

/-- `d0`, `d1`, `d2` of `_gradient` — 602-656. -/
noncomputable def zinbD (y w eta psi tau : ℝ) : ℝ × ℝ × ℝ :=
  let k := exp tau
  let mu1 := g.F eta
  let mu2 := h.F psi
  if y = 0 then
    let x0 := mu1
    let x1 := mu2
    let x2 := x0 * k
    let x3 := 1 * w + x2
    let x4 := x3 / w
    let x5 := w / k
    let x6 := x4 ^ x5
    let x7 := 1 / (x1 * x6 - x1 + 1)
    let x8 := x7 * (x1 - 1) / x3
    (-w * x8 * g.F1 eta, x7 * (x6 - 1) * h.F1 psi, x5 * x8 * (-x2 + x3 * log x4))
  else
    let x0 := mu1
    let x1 := k
    let x2 := x0 * x1
    let x3 := x2 + 1
    let x4 := w / x3
    let x5 := mu2
    let x6 := 1 / k
    let x7 := x1 * y
    let x8 := x7 + 1
    let x9 := log x3 + sp.digamma x6 - sp.digamma (x6 * x8)
    (x4 * (x0 - y) * g.F1 eta / x0, h.F1 psi / (x5 - 1), -x4 * x6 * (-x2 * x8 + x3 * x7 + x3 * x9))

/-- `_gradient` — 602-656. -/
noncomputable def zinbGrad (th : ℕ → ℝ) (j : ℕ) : ℝ :=
  let D := fun i => zinbD sp g h (d.y i) (d.w i) (zEta d p th i) (zPsi d p q th i) (th (p + q))
  if j < p then ∑ i ∈ Finset.range n, d.X i j * (D i).1
  else if j < p + q then -∑ i ∈ Finset.range n, d.Z i (j - p) * (D i).2.1
  else ∑ i ∈ Finset.range n, (D i).2.2

/-- `d0`, `d1`, `d2` of `_gradient_i` — 666-749. -/
noncomputable def zinbDi (y w eta psi tau : ℝ) : ℝ × ℝ × ℝ :=
  let k := exp tau
  let mu1 := g.F eta
  let mu2 := h.F psi
  let dmu1 := g.F1 eta
  let dmu2 := h.F1 psi
  if y = 0 then
    let x0 := mu1
    let x1 := 1 + x0 * k / w
    let x2 := 1 / x1
    let x3 := mu2
    let x4 := w * (1 / k)
    let x5 := x1 ^ (-x4)
    let x6 := x5 * (1 - x3)
    let x7 := 1 / (x3 + x6)
    let x8 := x6 * x7
    let x9 := dmu2
    (x2 * x8 * dmu1, -x7 * (-x5 * x9 + x9), -x8 * (-x0 * x2 + x4 * log x1))
  else
    let x0 := mu1
    let x1 := dmu1
    let x2 := k
    let x3 := 1 / w
    let x4 := 1 / k
    let x5 := w * x4
    let x6 := x5 + y
    let x7 := x0 * x2 * x3 + 1
    let x8 := 1 / x7
    let x9 := mu2
    (x1 * x2 * x3 * x6 * x8 - x1 * y / x0, dmu2 / (1 - x9),
      w * x4 * sp.digamma x6 + x0 * x2 * x3 * x6 * x8 - x5 * log x7 - x5 * sp.digamma x5 - y)

/-- `_gradient_i`. -/
noncomputable def zinbGradI (th : ℕ → ℝ) (i j : ℕ) : ℝ :=
  let D := zinbDi sp g h (d.y i) (d.w i) (zEta d p th i) (zPsi d p q th i) (th (p + q))
  if j < p then D.1 * d.X i j else if j < p + q then D.2.1 * d.Z i (j - p) else D.2.2

/-- The six rows of `h0 + h1` of `_hessian` (and `_hessian_i`) — 759-861, 869-971. -/
structure ZH where
  ee : ℝ
  se : ℝ
  te : ℝ
  ss : ℝ
  ts : ℝ
  tt : ℝ

/-- The entries of `h` for one observation. -/
noncomputable def zinbH (y w eta psi tau : ℝ) : ZH :=
  let k := exp tau
  let mu1 := g.F eta
  let mu2 := h.F psi
  let d1mu1 := g.F1 eta
  let d2mu1 := g.F2 eta
  let d1mu2 := h.F1 psi
  let d2mu2 := h.F2 psi
  if y = 0 then
    let x0 := mu1
    let x1 := d1mu1
    let x2 := 1 / w
    let x3 := k
    let x4 := x2 * x3
    let x5 := x0 * x4 + 1
    let x6 := 1 / x5
    let x7 := x1 * x1 * x6
    let x8 := mu2
    let x9 := x8 - 1
    let x10 := w / k
    let x11 := x5 ^ (-x10)
    let x12 := x11 * x9
    let x13 := 1 / (x8 - x12)
    let x14 := x12 * x13
    let x15 := x14 * x6
    let x16 := x13 * (1 - x11)
    let x17 := x16 * x9 - 1
    let x18 := d1mu2
    let x19 := x11 * x13 * x18
    let x20 := x0 * x6
    let x21 := x10 * log x5
    let x22 := x21 - x20
    let x23 := x22 * x22
    { ee := x15 * (x14 * x7 + x4 * x7 + x7 - d2mu1)
      se := x1 * x17 * x19 * x6
      te := x1 * x15 * (x0 * x2 * x3 * x6 - x14 * x22 - x22)
      ss := x16 * (x16 * x18 * x18 - d2mu2)
      ts := -x17 * x19 * x22
      tt := x14 * (x0 * x0 * x4 / (x5 * x5) + x14 * x23 + x20 - x21 + x23) }
  else
    let x0 := mu1
    let x1 := d2mu1
    let x2 := x0 ^ 2
    let x3 := d1mu1
    let x4 := x3 ^ 2
    let x5 := k
    let x6 := 1 / w
    let x7 := w / k
    let x8 := x7 + y
    let x9 := x0 * x5 * x6
    let x10 := x9 + 1
    let x11 := 1 / x10
    let x12 := w ^ 2
    let x13 := 2 * log k
    let x14 := x8 * exp x13 / x12
    let x15 := x14 / x10 ^ 2
    let x16 := x0 * x11
    let x17 := mu2
    let x18 := 1 / (x17 - 1)
    let x19 := x12 * exp (-x13)
    { ee := x1 * x11 * x5 * x6 * x8 - x15 * x4 + x4 * y / x2 - x1 * y / x0
      se := 0
      te := x11 * x3 * (x5 * x6 * x8 - x14 * x16 - 1)
      ss := x18 * (x18 * d1mu2 ^ 2 - d2mu2)
      ts := 0
      tt := x11 * x8 * x9 - x15 * x2 - 2 * x16 + x19 * sp.trigamma x7 - x19 * sp.trigamma x8 + x7 * log x10 +
        x7 * sp.digamma x7 - x7 * sp.digamma x8 }

/-- `_hessian` — 869-971. -/
noncomputable def zinbHess (th : ℕ → ℝ) (j c : ℕ) : ℝ :=
  let H := fun i => zinbH sp g h (d.y i) (d.w i) (zEta d p th i) (zPsi d p q th i) (th (p + q))
  let h00 := fun j c => ∑ i ∈ Finset.range n, d.X i j * (H i).ee * d.X i c
  let h10 := fun j c => ∑ i ∈ Finset.range n, d.Z i j * (H i).se * d.X i c
  let h20 := fun c => ∑ i ∈ Finset.range n, (H i).te * d.X i c
  let h11 := fun j c => ∑ i ∈ Finset.range n, d.Z i j * (H i).ss * d.Z i c
  let h21 := fun c => ∑ i ∈ Finset.range n, (H i).ts * d.Z i c
  let h22 := ∑ i ∈ Finset.range n, (H i).tt
  if j < p then (if c < p then h00 j c else if c < p + q then h10 (c - p) j else h20 j)
  else if j < p + q then (if c < p then h10 (j - p) c else if c < p + q then h11 (j - p) (c - p) else h21 (j - p))
  else if c < p then h20 c else if c < p + q then h21 (c - p) else h22

/-- The quantiles of `_predict` — 1090-1095: `v = f.variance(mu, phi=1.0, dispersion=k)` is passed as the dispersion.
`ppf q mu disp` is the quantile function of the family. -/
noncomputable def zinbPredicted (ppf : ℝ → ℝ → ℝ → ℝ) (level mu k : ℝ) : ℝ × ℝ :=
  let v := (Glm.negBinomial sp).var mu k
  (ppf (1 - level) mu v, ppf level mu v)

end

end Verif.Like
