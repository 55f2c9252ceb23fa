import Verif.Lmm.LmChol
/-!
# Model of the inference of class `LMM` of `pylmm/lmm.py`

Survival functions are parameters.  A result of `approx_degfree` that is not a number, or an exception, is `none`.
-/
namespace Verif.Lmm.Lm
open Matrix Verif.Fa Verif.Like
variable {T : Terms} {n p q r : ℕ}

/-- The derivative of the covariance of the fixed effects with respect to a parameter — 667-672. -/
noncomputable def jacC (cq : Mat q q → Option (Mat q q)) (e : T.RE ≃ Fin q) (m : Mme T n p) (C : Mat p p) (th : T.Par → ℝ) (s2 : ℝ)
    (j : T.Par) : Option (Mat p p) := do
  let XtVZ ← vinvcross cq e m m.X (m.Z.submatrix id fun x : Fin (T.nlv j.1) × Fin (T.nrv j.1) => (⟨j.1, x⟩ : T.RE)) th s2
  let CXtVZ := C * XtVZ
  return CXtVZ * (T.dG j * CXtVZᵀ)

/-- The derivative with respect to the residual variance — 673-675. -/
noncomputable def jacR (cq : Mat q q → Option (Mat q q)) (e : T.RE ≃ Fin q) (m : Mme T n p) (C : Mat p p) (th : T.Par → ℝ) (s2 : ℝ) :
    Option (Mat p p) := do
  let XtVi ← vinvcross cq e m m.X (1 : Mat n n) th s2
  let CXtVi := C * XtVi
  return CXtVi * CXtViᵀ

/-- `nu_d` — 682, 685-690. -/
noncomputable def nuD {ι : Type} [Fintype ι] (P : Mat r p) (J : ι → Mat p p) (V : Matrix ι ι ℝ) (i : Fin r) : ℝ :=
  let D := fun j => (P i ᵥ* J j) ⬝ᵥ P i
  (D ᵥ* V) ⬝ᵥ D

/-- `nu` — 691-693; `none` for a division by zero. -/
noncomputable def nuE (q : ℕ) (num : Fin r → ℝ) : Option ℝ :=
  let E := ∑ i, if num i > 2 then num i / (num i - 2) else 0
  if E - q = 0 then none else some (2 * E / (E - q))

open Classical in
/-- `approx_degfree` for one hypothesis — 677-694: `u`, `Q` are the eigenvalues and eigenvectors of `L C Lᵀ` in descending order, `V`
is `Vtheta` (664).  When the rows of `L` are dependent, line 691 divides vectors of different lengths or line 683 divides by zero. -/
noncomputable def degf {ι : Type} [Fintype ι] (L : Mat r p) (beta : Fin p → ℝ) (J : ι → Mat p p) (V : Matrix ι ι ℝ)
    (u : Fin r → ℝ) (Q : Mat r r) : Option (ℝ × ℕ × ℝ) :=
  let q := L.rank
  let P := Qᵀ * L
  if q ≠ r ∨ ∃ i, u i = 0 ∨ nuD P J V i = 0 then none else
  let t2 := fun i => (P i ⬝ᵥ beta) ^ 2 / u i
  let f := (∑ i, t2 i) / (q : ℝ)
  (nuE q fun i => u i ^ 2 / nuD P J V i).map fun nu => (f, q, nu)

/-- `res['t']` and `res['p']` of a fixed effect without and with `adjusted_pvals` — 647-656. -/
noncomputable def tableRow (tsf : ℝ → ℝ) (fsf : ℝ → ℝ) (est se F : ℝ) (adjusted : Bool) : ℝ × ℝ :=
  let t := est / se
  let pv := tsf |t|
  if adjusted then (√F, fsf F) else (t, pv)

/-- `re_corrs[i]` — 576-580. -/
noncomputable def reCorr (C : Mat r r) : Mat r r :=
  let v := diagonal fun i => √(1 / C i i)
  v * C * v

/-- `Htheta` with `analytic_se` in `_post_fit(reml)` — 582-583: `hessian` is called without `reml`. -/
noncomputable def postHess (cq : Mat q q → Option (Mat q q)) (e : T.RE ≃ Fin q) (m : Mme T n p) (_reml : Bool) (th : T.Par → ℝ) (s2 : ℝ) :
    Option ((T.Par → T.Par → ℝ) × (T.Par → ℝ) × ℝ) := hessian cq e m true th s2

end Verif.Lmm.Lm
