import Verif.Fa.OldConc
/-!
# Model of the factor scores of `pyfa/efa.py` and `pyfa/factor_analysis.py`

`np.linalg.eigh` and `np.linalg.svd` are parameters described by their contracts; `np.linalg.solve` raises on singular
matrices (`none`).  `eighs` returns the same pairs in the reverse order, which does not change the sums formed here.
-/
namespace Verif.Fa.Old
open Matrix

variable {p m : ℕ}

/-- `np.linalg.eigh` for all sizes. -/
abbrev Eigh := ∀ n : ℕ, Mat n n → (Fin n → ℝ) × Mat n n

/-- `inv_sqrt(arr)` — linalg_operations.py 472-476: eigenvalues up to `1e-12` stay as they are. -/
noncomputable def invSqrt (eigh : Eigh) {n : ℕ} (A : Mat n n) : Mat n n :=
  let u := (eigh n A).1
  let V := (eigh n A).2
  let u' := fun i => if u i > 1e-12 then 1.0 / Real.sqrt (u i) else u i
  (of fun a i => V a i * u' i : Mat n n) * Vᵀ

/-- `mat_sqrt(arr)` — linalg_operations.py 478-482. -/
noncomputable def matSqrt (eigh : Eigh) {n : ℕ} (A : Mat n n) : Mat n n :=
  let u := (eigh n A).1
  let V := (eigh n A).2
  let u' := fun i => if u i > 1e-12 then Real.sqrt (u i) else u i
  (of fun a i => V a i * u' i : Mat n n) * Vᵀ

/-- `G, Mt` of `np.linalg.svd(temp, full_matrices=False)` for a tall matrix. -/
structure ThinOk (X : Mat p m) (G : Mat p m) (d : Fin m → ℝ) (Mt : Mat m m) : Prop where
  g : Gᵀ * G = 1
  o : Mt * Mtᵀ = 1
  n : ∀ i, 0 ≤ d i
  e : X = G * diagonal d * Mt

/-- The coefficients `B` of `estimate_factors` — efa.py 536-556. -/
noncomputable def coefThurstone (S : Mat p p) (L : Mat p m) (Phi : Mat m m) : Option (Mat p m) :=
  (inv? S).map fun Si => Si * (L * Phi)

noncomputable def coefBartlett (L : Mat p m) (Psi : Mat p p) : Option (Mat p m) :=
  let Psiinv : Mat p p := diagonal fun i => 1.0 / Psi i i
  let LtPsi_inv := Lᵀ * Psiinv
  let Gamma := LtPsi_inv * L
  (inv? Gamma).map fun Gi => (Gi * LtPsi_inv)ᵀ

/-- The matrix whose decomposition `mcdonald` takes — efa.py 545-546. -/
noncomputable def tempMcdonald (eigh : Eigh) (S : Mat p p) (L : Mat p m) (Phi : Mat m m) (Psi : Mat p p) : Mat p m :=
  let Psiinv : Mat p p := diagonal fun i => 1.0 / Psi i i
  matSqrt eigh S * ((Lᵀ * Psiinv)ᵀ * matSqrt eigh Phi)

noncomputable def coefMcdonald (eigh : Eigh) (svd : Mat p m → Mat p m × (Fin m → ℝ) × Mat m m) (S : Mat p p) (L : Mat p m) (Phi : Mat m m)
    (Psi : Mat p p) : Mat p m :=
  let Phi_sq := matSqrt eigh Phi
  let temp := tempMcdonald eigh S L Phi Psi
  let C := (svd temp).1 * (svd temp).2.2
  invSqrt eigh S * C * Phi_sq

/-- The matrix `R` of `tenBerge` — efa.py 551-553. -/
noncomputable def rBerge (eigh : Eigh) (S : Mat p p) (L : Mat p m) (Phi : Mat m m) : Mat p m :=
  invSqrt eigh S * (L * matSqrt eigh Phi)

noncomputable def coefBerge (eigh : Eigh) (S : Mat p p) (L : Mat p m) (Phi : Mat m m) : Mat p m :=
  let Phi_sq := matSqrt eigh Phi
  let S_isq := invSqrt eigh S
  let R := rBerge eigh S L Phi
  let C := R * invSqrt eigh (Rᵀ * R)
  S_isq * C * Phi_sq

/-- The scores `Z` — efa.py 556. -/
noncomputable def scores {n : ℕ} (X : Matrix (Fin n) (Fin p) ℝ) (B : Mat p m) : Matrix (Fin n) (Fin m) ℝ :=
  (of fun i j => X i j - (∑ k, X k j) / n : Matrix (Fin n) (Fin p) ℝ) * B

/-- `compute_factors` with `thurstone` — factor_analysis.py 769-774: `R` is the matrix of correlations. -/
noncomputable def faThurstone (R : Mat p p) (L : Mat p m) (Phi : Mat m m) : Option (Mat p m) :=
  let A := L * Phi
  (inv? R).map fun Ri => Ri * A

/-- `compute_factors` with `tenberge` — factor_analysis.py 775-780. -/
noncomputable def faBerge (eigh : Eigh) (R : Mat p p) (L : Mat p m) (Phi : Mat m m) : Option (Mat p m) :=
  let Phi_sq := matSqrt eigh Phi
  let R_isq := invSqrt eigh R
  let P := L * Phi_sq
  (inv? R).map fun Ri =>
    let C := R_isq * P * invSqrt eigh (Pᵀ * (Ri * P))
    R_isq * C * Phi_sq

/-- `corr(X)` as a function of the covariances. -/
noncomputable def corrOf (S : Mat p p) : Mat p p := of fun i j => S i j / (Real.sqrt (S i i) * Real.sqrt (S j j))

end Verif.Fa.Old
