import Verif.Mv.Mvols
import Verif.Robust.Disp
/-!
# Model of the tests and the measures of association of `pyglm2/mvols.py`

Python's division of floats by zero raises, so divisions by quantities that may vanish are partial.  Degrees of freedom are numbers
of rows and columns.
-/
namespace Verif.Mv.Mvols
open Matrix Verif.Fa Verif.Like Verif.Robust
variable {n p q r k m : ℕ}

/-- `a / b` of Python's floats. -/
noncomputable def pdiv (a b : ℝ) : Option ℝ := open Classical in if b = 0 then none else some (a / b)

/-- The statistic and its degrees of freedom. -/
structure FT where
  f : ℝ
  num : ℝ
  den : ℝ

/-- `_wilks_ftest` — 120-130. -/
noncomputable def wilksF (wilks ny dfh dfe : ℝ) : Option FT := do
  let base := ny * ny + dfh * dfh - 5
  let t := if base > 0 then √((ny * ny * dfh * dfh - 4) / base) else 1
  let r := dfe - (ny - dfh + 1) / 2
  let u := (ny * dfh - 2) / 4
  let num := ny * dfh
  let den := r * t - 2 * u
  let e ← pdiv 1 t
  let lam := wilks ^ e
  let a ← pdiv (1 - lam) lam
  let f ← pdiv (a * den) num
  return ⟨f, num, den⟩

/-- `_pillai_ftest` — 133-138. -/
noncomputable def pillaiF (pillai s mp np : ℝ) : Option FT := do
  let num := s * (2 * mp + s + 1)
  let den := s * (2 * np + s + 1)
  let a ← pdiv den num
  let f ← pdiv (a * pillai) (s - pillai)
  return ⟨f, num, den⟩

/-- `_hotelling_ftest` — 141-154. -/
noncomputable def hotellingF (hot s mp np ny dfh : ℝ) : Option FT :=
  if np > 0 then do
    let b := (ny + 2 * np) * (dfh + 2 * np)
    let b ← pdiv b (2 * (2 * np + 1) * (np - 1))
    let num := ny * dfh
    let x ← pdiv (ny * dfh + 2) (b - 1)
    let den := 4 + x
    let c ← pdiv (den - 2) (2 * np)
    let a ← pdiv den num
    let f ← pdiv (a * hot) c
    return ⟨f, num, den⟩
  else do
    let num := s * (2 * mp + s + 1)
    let den := s * (s * np + 1)
    let a ← pdiv den num
    let b ← pdiv a s
    return ⟨b * hot, num, den⟩

/-- `_roy_ftest` — 157-163. -/
noncomputable def royF (roy ny dfh dfe : ℝ) : Option FT := do
  let r := max ny dfh
  let den := dfe - r + dfh
  let a ← pdiv den r
  return ⟨a * roy, r, den⟩

/-- `np.clip(x, 0.0, 1.0 - tol)` with `tol = 1e-9`. -/
noncomputable def clip (x : ℝ) : ℝ := min (max x 0) (1 - 1e-9)

/-- `_canonical_eigenvalues` — 166-174; `geigh` stands for `scipy.linalg.eigh(H, E + H, eigvals_only=True)`. -/
noncomputable def canonEig (geigh : Mat k k → Mat k k → Option (Fin k → ℝ)) (H E : Mat k k) : Option (List ℝ) := do
  let e ← geigh H (E + H)
  return (npSort ((List.ofFn e).map clip)).reverse

/-- The four values. -/
structure Four where
  wilks : ℝ
  pillai : ℝ
  hotelling : ℝ
  roy : ℝ

/-- The values of `_manova_stats` — 196-205 — and of `_measures_of_association` — 528-533. -/
noncomputable def four (eig : List ℝ) : Four :=
  open Classical in
  let rho := eig.filter fun x => decide (x > 1e-9)
  let h := rho.map fun x => x / (1 - x)
  ⟨(rho.map fun x => 1 - x).prod, rho.sum, h.sum, match h with
    | [] => 0
    | x :: l => l.foldl max x⟩

/-- `_manova_stats` — 177-216: values and tests; the p-values are `f.sf` of them. -/
noncomputable def manova (eig : List ℝ) (ny dfh dfe : ℕ) : Option (Four × FT × FT × FT × FT) := do
  let v := four eig
  let s := min (ny : ℝ) dfh
  let mp := (|(ny : ℝ) - dfh| - 1) / 2
  let np := ((dfe : ℝ) - ny - 1) / 2
  let a ← wilksF v.wilks ny dfh dfe
  let b ← pillaiF v.pillai s mp np
  let c ← hotellingF v.hotelling s mp np ny dfh
  let d ← royF v.roy ny dfh dfe
  return (v, a, b, c, d)

/-- `gram_inv` of `_store_sscp` — 434-436. -/
noncomputable def gramInv (cp : Mat p p → Option (Mat p p)) (d : Data n p q) : Option (Mat p p) := do
  let L ← cp (d.Xᵀ * (diagonal d.w * d.X))
  let Li ← inv? L
  return Liᵀ * Li

/-- `resid_sscp` — 424, 437. -/
noncomputable def residSscp (d : Data n p q) (B : Mat p q) : Mat q q := (d.Y - d.X * B)ᵀ * (diagonal d.w * (d.Y - d.X * B))

/-- `total_sscp` — 439-440: `np.average` raises when the weights add up to zero. -/
noncomputable def totalSscp (d : Data n p q) : Option (Mat q q) :=
  open Classical in
  if ∑ i, d.w i = 0 then none else
    let C : Mat n q := of fun i j => d.Y i j - (∑ l, d.w l * d.Y l j) / ∑ l, d.w l
    some (Cᵀ * (diagonal d.w * C))

/-- `df_resid` — 433. -/
def dfResid (n p : ℕ) : ℕ := max (n - p) 1

/-- `_hypothesis_sscp` — 443-451: `M=None` is the identity. -/
noncomputable def hypSscp (B : Mat p q) (gi : Mat p p) (rs : Mat q q) (L : Mat r p) (M : Mat q k) : Option (Mat k k × Mat k k) := do
  let coef := B * M
  let error := Mᵀ * (rs * M)
  let lbm := L * coef
  let Z ← inv? (L * (gi * Lᵀ))
  return (lbmᵀ * (Z * lbm), error)

/-- `test_hypothesis` — 453-475: `matrix_rank` is the rank. -/
noncomputable def testHyp (geigh : Mat k k → Mat k k → Option (Fin k → ℝ)) (B : Mat p q) (gi : Mat p p) (rs : Mat q q) (dfe : ℕ)
    (L : Mat r p) (M : Mat q k) : Option (Four × FT × FT × FT × FT) := do
  let (H, E) ← hypSscp B gi rs L M
  let eig ← canonEig geigh H E
  manova eig k L.rank dfe

/-- Rows of the identity, as built by `_term_contrasts` — 490-493 — and stacked by `multivariate_tests`. -/
def contrast (idx : Fin m → Fin p) : Mat m p := of fun i j => if idx i = j then 1 else 0

/-- The measures of `_measures_of_association`. -/
structure Assoc where
  v : Four
  gen : ℝ
  etaW : ℝ
  etaP : ℝ
  etaH : ℝ
  etaR : ℝ
  mean : ℝ
  cc : List ℝ

/-- `_measures_of_association` — 516-547 — after the eigenvalues. -/
noncomputable def assoc (eig : List ℝ) (ny dfh : ℕ) : Assoc :=
  open Classical in
  let rho := eig.filter fun x => decide (x > 1e-9)
  let v := four eig
  let s : ℝ := ((max (min ny dfh) 1 : ℕ) : ℝ)
  { v := v
    gen := 1 - v.wilks
    etaW := 1 - v.wilks ^ (1 / s)
    etaP := v.pillai / s
    etaH := (v.hotelling / s) / (1 + v.hotelling / s)
    etaR := v.roy / (1 + v.roy)
    mean := if rho = [] then 0 else rho.sum / rho.length
    cc := rho.map Real.sqrt }

/-- `_response_rsquared` — 549-556: `R2` and `R2_adj`. -/
noncomputable def rsq (E T : Mat q q) (n df : ℕ) (j : Fin q) : ℝ × ℝ :=
  let r2 := 1 - E j j / T j j
  (r2, 1 - (1 - r2) * ((n : ℝ) - 1) / df)

/-- `r2_trace` — 563-565. -/
noncomputable def rsqTrace (E T : Mat q q) : ℝ := 1 - (∑ j, E j j) / ∑ j, T j j

end Verif.Mv.Mvols
