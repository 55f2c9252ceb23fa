import Verif.Eln.Binom2Props
/-!
# Model of the elastic net GLM, `pyglmnet/glmen2.py`

`active` is mutated in place and is part of the state; `xv` is only a cache of `X²ᵀv` here.  The family is given by its
cumulant, mean and variance as functions of the linear predictor (canonical link; the module uses Gaussian and Binomial).
-/
namespace Verif.Eln
open Verif.Func

/-- The body of `for j in active_vars` — glmen2.py 35-48; the second component is `dlx`. -/
noncomputable def gStep (n : ℕ) (X : ℕ → ℕ → ℝ) (v : ℕ → ℝ) (la dla : ℝ) (s : BSt × ℝ) (j : ℕ) : BSt × ℝ :=
  let xv := ∑ i ∈ Finset.range n, X i j ^ 2 * v i
  let g := ∑ i ∈ Finset.range n, X i j * s.1.r i
  let u := g + xv * s.1.b j
  let bj := softThreshold u la / (xv + dla)
  let d := bj - s.1.b j
  let small := |bj| < 1 / 10 ^ 12
  let b := Function.update s.1.b j (if small then 0 else bj)
  let active := if small then Function.update s.1.active j false else s.1.active
  if |d| > 0 then
    (⟨b, s.1.b0, fun i => s.1.r i - d * v i * X i j, active, Function.update s.1.xv j xv⟩, max (xv * d ^ 2) s.2)
  else (⟨b, s.1.b0, s.1.r, active, Function.update s.1.xv j xv⟩, s.2)

/-- `_coordinate_descent_cycle` — 29-53. -/
noncomputable def gCycle (n p : ℕ) (X : ℕ → ℕ → ℝ) (v : ℕ → ℝ) (la dla : ℝ) (s : BSt) : BSt × ℝ :=
  let t := ((List.range p).filter s.active).foldl (gStep n X v la dla) (s, 0)
  let d := (∑ i ∈ Finset.range n, t.1.r i) / ∑ i ∈ Finset.range n, v i
  (bIntercept n v t.1, max t.2 ((∑ i ∈ Finset.range n, v i) * d ^ 2))

/-- The iterations of `weighted_elnet` — 64-75. -/
noncomputable def gLoop (n p : ℕ) (X : ℕ → ℕ → ℝ) (v : ℕ → ℝ) (la dla dtol : ℝ) : ℕ → BSt → BSt
  | 0, s => s
  | k + 1, s =>
    let t := gCycle n p X v la dla s
    if t.2 < dtol then t.1 else gLoop n p X v la dla dtol k t.1

/-- The screening of `_glm_elnet` — 229-230: whether a variable with absolute score `g` is left out; `_al` is
`self.alpha`, which is not used. -/
def gScreen (_al g lam lam0 : ℝ) : Prop := g < 2 * lam - lam0

/-- Cumulant, mean, variance and saturated part of a family with canonical link. -/
structure CFam where
  K : ℝ → ℝ
  mu : ℝ → ℝ
  v : ℝ → ℝ
  c : ℝ → ℝ

/-- `Gaussian`. -/
noncomputable def gaussCF : CFam := ⟨fun e => e ^ 2 / 2, fun e => e, fun _ => 1, fun y => y ^ 2 / 2⟩

/-- `Binomial` with `LogitLink`. -/
noncomputable def binomCF : CFam :=
  ⟨fun e => Real.log (1 + Real.exp e), invLogit, fun e => invLogit e * (1 - invLogit e), satur⟩

/-- `_get_eta` — 104-107, `overflow_adjust` 22-25. -/
noncomputable def gEta (p : ℕ) (X : ℕ → ℕ → ℝ) (b : ℕ → ℝ) (b0 : ℝ) (i : ℕ) : ℝ :=
  clipEta (-36) 36 (∑ j ∈ Finset.range p, X i j * b j + b0)

/-- `_dev_beta` — 112-115. -/
noncomputable def gDev (F : CFam) (n p : ℕ) (X : ℕ → ℕ → ℝ) (y w b : ℕ → ℝ) (b0 : ℝ) : ℝ :=
  ∑ i ∈ Finset.range n, 2 * w i * (F.K (gEta p X b b0 i) - y i * gEta p X b b0 i + F.c (y i))

/-- `pen_func` — 118-121. -/
noncomputable def gPen (p : ℕ) (al lam : ℝ) (b : ℕ → ℝ) : ℝ :=
  lam * (al * ∑ j ∈ Finset.range p, |b j| + (1 - al) / 2 * ∑ j ∈ Finset.range p, b j * b j)

/-- `obj_func` — 123-128. -/
noncomputable def gObj (F : CFam) (n p : ℕ) (X : ℕ → ℕ → ℝ) (y w : ℕ → ℝ) (al lam : ℝ) (b : ℕ → ℝ) (b0 : ℝ) : ℝ :=
  gDev F n p X y w b b0 / 2 + gPen p al lam b

/-- The first entry of `dev_grad` and `obj_grad` — 145, 157. -/
noncomputable def gGrad0 (F : CFam) (n p : ℕ) (X : ℕ → ℕ → ℝ) (y w b : ℕ → ℝ) (b0 : ℝ) : ℝ :=
  -∑ i ∈ Finset.range n, w i * (y i - F.mu (gEta p X b b0 i))

/-- Entry `1 + j` of `dev_grad` — 145. -/
noncomputable def gDevGrad (F : CFam) (n p : ℕ) (X : ℕ → ℕ → ℝ) (y w b : ℕ → ℝ) (b0 : ℝ) (j : ℕ) : ℝ :=
  -∑ i ∈ Finset.range n, X i j * w i * (y i - F.mu (gEta p X b b0 i))

/-- Entry `1 + j` of `obj_grad` — 149-158. -/
noncomputable def gObjGrad (F : CFam) (n p : ℕ) (X : ℕ → ℕ → ℝ) (y w : ℕ → ℝ) (al lam : ℝ) (b : ℕ → ℝ) (b0 : ℝ)
    (j : ℕ) : ℝ :=
  gDevGrad F n p X y w b b0 j + (lam * (1 - al) * b j + npSign (b j) * lam * al)

/-- Entry `0, 0` of `dev_hess` — 160-171; `get_w` is the variance function for a canonical link. -/
noncomputable def gDevHess00 (F : CFam) (n p : ℕ) (X : ℕ → ℕ → ℝ) (w b : ℕ → ℝ) (b0 : ℝ) : ℝ :=
  (∑ i ∈ Finset.range n, w i * F.v (gEta p X b b0 i)) * 2

/-- Entry `1 + j, 0` of `dev_hess`. -/
noncomputable def gDevHess0 (F : CFam) (n p : ℕ) (X : ℕ → ℕ → ℝ) (w b : ℕ → ℝ) (b0 : ℝ) (j : ℕ) : ℝ :=
  (∑ i ∈ Finset.range n, X i j * (w i * F.v (gEta p X b b0 i))) * 2

/-- Entry `1 + j, 1 + k` of `dev_hess`. -/
noncomputable def gDevHess (F : CFam) (n p : ℕ) (X : ℕ → ℕ → ℝ) (w b : ℕ → ℝ) (b0 : ℝ) (j k : ℕ) : ℝ :=
  (∑ i ∈ Finset.range n, X i j * (w i * F.v (gEta p X b b0 i)) * X i k) * 2

/-- Entry `1 + j, 1 + k` of `obj_hess` — 179-183. -/
noncomputable def gObjHess (F : CFam) (n p : ℕ) (X : ℕ → ℕ → ℝ) (w : ℕ → ℝ) (al lam : ℝ) (b : ℕ → ℝ) (b0 : ℝ)
    (j k : ℕ) : ℝ :=
  gDevHess F n p X w b b0 j k / 2 + if j = k then lam * (1 - al) else 0

/-- `get_intercept` — 185-191: the mean at which the path starts. -/
noncomputable def gStartMean (n : ℕ) (y w : ℕ → ℝ) : ℝ := ∑ i ∈ Finset.range n, w i * y i

/-- One pass of the loop of `_glm_elnet_path` with warm starts — 271-277; `betas[i-1]` is the last row for `i = 0`. -/
def gPathStep {W : Type*} (fit : ℝ → W → W) (zero : W) (rows : List W) (il : ℕ × ℝ) : List W :=
  rows.set (il.1 + 1) (fit il.2 (rows.getD (if il.1 = 0 then rows.length - 1 else il.1 - 1) zero))

/-- `betas` after the first `m` penalties: `betas[0]` and `betas[-1]` hold the start (264, 269). -/
def gPathRows {W : Type*} (fit : ℝ → W → W) (zero start : W) (lams : List ℝ) (m : ℕ) : List W :=
  (((List.range lams.length).zip lams).take m).foldl (gPathStep fit zero)
    ((start :: List.replicate lams.length zero).set lams.length start)

end Verif.Eln
