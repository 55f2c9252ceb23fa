import Verif.Like.Ols
/-!
# Model of `pyglm/ols.py`

Lines without a file name are of `pystatsm/pyglm/ols.py`.  `U`, `S`, `V` are the thin singular value decomposition of the design that the constructor computes (`V` is the
transpose of what `np.linalg.svd` returns).
-/
namespace Verif.Like.OldOls
open Matrix Verif.Fa
variable {n p : ℕ}

/-- `np.linalg.svd(X, full_matrices=False)` of a design of full column rank — 52-53. -/
structure IsSvd (X U : Mat n p) (S : Fin p → ℝ) (V : Mat p p) : Prop where
  eq : U * diagonal S * Vᵀ = X
  u : Uᵀ * U = 1
  v : Vᵀ * V = 1
  pos : ∀ i, 0 < S i

/-- `h` — 54. -/
def hDiag (U : Mat n p) (i : Fin n) : ℝ := ∑ a, U i a * U i a

/-- `W` — 55. -/
noncomputable def wMat (U : Mat n p) (S : Fin p → ℝ) (V : Mat p p) : Mat p n := (of fun i a => V i a / S a) * Uᵀ

/-- `vif` — 56. -/
noncomputable def vif (S : Fin p → ℝ) (V : Mat p p) (j : Fin p) : ℝ := 1 / ((of fun i a => V i a * 1 / S a ^ 2 : Mat p p) * Vᵀ) j j

/-- `condition_indices` — 57; `i0` is the position of the largest singular value. -/
noncomputable def condIdx (S : Fin p → ℝ) (i0 j : Fin p) : ℝ := S i0 ^ 2 / S j ^ 2

/-- `vdp` — 58. -/
noncomputable def vdp (S : Fin p → ℝ) (V : Mat p p) (j : Fin p) : ℝ := (∑ i, V i j ^ 2) / S j ^ 2

/-- `_fit_y` — 77-84. -/
noncomputable def fitY (L Linv : Mat p p) (X : Mat n p) (y : Fin n → ℝ) : Option ((Fin p → ℝ) × (Fin p → ℝ)) := do
  let c := Xᵀ *ᵥ y
  let A ← inv? L
  let w := A *ᵥ c
  let s2 := (y ⬝ᵥ y - w ⬝ᵥ w) / ((n : ℝ) - p)
  let B ← inv? Lᵀ
  let beta := B *ᵥ w
  return (beta, fun j => √(s2 * (Linvᵀ * Linv) j j))

/-- `_fit_mats` — 64-74. -/
noncomputable def fitMats (chol : Mat p p → Option (Mat p p)) (X : Mat n p) (y : Fin n → ℝ) : Option ((Fin p → ℝ) × (Fin p → ℝ)) := do
  let G := Xᵀ * X
  let c := Xᵀ *ᵥ y
  let L ← chol G
  let A ← inv? L
  let w := A *ᵥ c
  let s2 := (y ⬝ᵥ y - w ⬝ᵥ w) / ((n : ℝ) - p)
  let B ← inv? Lᵀ
  let beta := B *ᵥ w
  let Linv ← inv? L
  return (beta, fun j => √(s2 * (Linvᵀ * Linv) j j))

/-- `omega` of `robust_rcov` — 306-316; `none` for an unbound variable. -/
noncomputable def omega (p : ℕ) (r h : Fin n → ℝ) (kind : String) : Option (Fin n → ℝ) :=
  let u := fun i => r i ^ 2
  if kind = "HC0" then some u
  else if kind = "HC1" then some fun i => n / ((n : ℝ) - p) * u i
  else if kind = "HC2" then some fun i => u i / (1 - h i)
  else if kind = "HC3" then some fun i => u i / (1 - h i) ^ 2
  else if kind = "HC4" then some fun i => u i / (1 - h i) ^ (min 4 (h i / ((∑ j, h j) / n)) : ℝ)
  else none

/-- `robust_rcov` — 318-321: the standard errors. -/
noncomputable def robustSe (U : Mat n p) (S : Fin p → ℝ) (V : Mat p p) (r : Fin n → ℝ) (kind : String) : Option (Fin p → ℝ) := do
  let om ← omega p r (hDiag U) kind
  let W := wMat U S V
  return fun j => √(∑ i, W j i * om i * W j i)

structure Infl where
  rstudent : ℝ
  covRatio : ℝ
  si : ℝ
  sdr : ℝ
  dfits : ℝ
  cooks : ℝ

/-- `get_influence` — 324-350, for one observation. -/
noncomputable def influence (p : ℕ) (h r : Fin n → ℝ) (i : Fin n) : Infl :=
  let ssr := ∑ k, r k ^ 2
  let dfe := (n : ℝ) - p - 1
  let msr := ssr / dfe
  let s := √msr
  let s_i := √((ssr - r i ^ 2) / (dfe - 1))
  let rst := r i / (s_i * √(1 - h i))
  let ht := 1 / (n : ℝ) + h i
  let cov := (s_i / s) ^ (2 * p) * 1 / (1 - ht)
  let d := r i / (1 - ht)
  let sstar := 1 / √((n : ℝ) - p - 1) * √(((n : ℝ) - p) * s ^ 2 / (1 - ht) - d ^ 2)
  let si2 := sstar * √(1 - ht)
  ⟨rst, cov, si2, d / sstar, r i * √(h i) / (si2 * (1 - h i)), d ^ 2 * ht / (s ^ 2 * (p + 1))⟩

/-- `dfbeta` of `get_influence` — 335. -/
noncomputable def dfbeta (W : Mat p n) (h r : Fin n → ℝ) : Mat p n := of fun j i => r i / (1 - h i) * W j i

/-- `loglike` — 361-381. -/
noncomputable def loglikeAt (X : Mat n p) (y : Fin n → ℝ) (b : Fin p → ℝ) (sigma : ℝ) : ℝ :=
  let const := -(n : ℝ) / 2 * Real.log (2 * Real.pi)
  let lndetS := -(n : ℝ) / 2 * Real.log (sigma ^ 2)
  let r := y - X *ᵥ b
  const + lndetS - 1 / (2 * sigma ^ 2) * (r ⬝ᵥ r)

/-- `loglike` with the last parameter — 364-366 — and without — 367-370. -/
noncomputable def loglike (X : Mat n p) (y : Fin n → ℝ) (b : Fin p → ℝ) : Option ℝ → ℝ
  | some ls => loglikeAt X y b (Real.exp ls)
  | none => loglikeAt X y b √(((y - X *ᵥ b) ⬝ᵥ (y - X *ᵥ b)) / n)

/-- `beta_jackknife` — 390-395. -/
noncomputable def jackknife (Linv : Mat p p) (X : Mat n p) (h r : Fin n → ℝ) (b : Fin p → ℝ) : Mat n p :=
  let XtXi := Linvᵀ * Linv
  of fun i j => b j - (X * XtXi) i j * (r i / (1 - h i))

/-- `permutation_test` with `store_samples` — 220-223: the unadjusted values; the samples are not made absolute. -/
noncomputable def storedP (tv : Fin p → ℝ) (ts : List (Fin p → ℝ)) (j : Fin p) : ℝ :=
  open Classical in
  (ts.countP fun t => |tv j| < t j) / (ts.length : ℝ)

/-- Whether the comparison of line 222 broadcasts: a vector of `N` maxima with a vector of `p` statistics. -/
def broadcasts (N p : ℕ) : Bool := N == p || N == 1 || p == 1

end Verif.Like.OldOls
