import Verif.Fa.OldEfa
/-!
# Model of `pysem/sem.py`: covariance, likelihood and derivatives

The parameters are functions on a sum of index types in the order of the stacked vector: loadings, regressions (column,
row), lower triangles of the two covariances as pairs (column, row).  `np.linalg.pinv` is a parameter for each size.
`np.linalg.slogdet` gives the logarithm of the absolute determinant; the theorems assume invertible matrices.
-/
namespace Verif.Sem.Old
open Matrix Kronecker Verif.Fa.Old

variable {p q : ℕ}

/-- The layout of the parameters — sem.py 98-115. -/
abbrev SPar (p q : ℕ) := (Fin q × Fin p) ⊕ (Fin q × Fin q) ⊕ Tri q ⊕ Tri p

/-- `invech(v)` — linalg_operations.py 341-356. -/
def invech {m : ℕ} (v : Tri m → ℝ) : Mat m m := of fun i j =>
  if h : j ≤ i then v ⟨(j, i), h⟩ else v ⟨(i, j), (not_le.1 h).le⟩

/-- The parts of the vector — sem.py 221-225. -/
def sL (x : SPar p q → ℝ) : Mat p q := invec fun a => x (.inl a)
def sB (x : SPar p q → ℝ) : Mat q q := invec fun a => x (.inr (.inl a))
def sF (x : SPar p q → ℝ) : Mat q q := invech fun a => x (.inr (.inr (.inl a)))
def sP (x : SPar p q → ℝ) : Mat p p := invech fun a => x (.inr (.inr (.inr a)))

/-- `params[self.theta_indices] = theta` on a copy of the template — sem.py 217-220. -/
def fill (free : SPar p q → Prop) [DecidablePred free] (tmpl : SPar p q → ℝ) (th : {a // free a} → ℝ) : SPar p q → ℝ :=
  fun a => if h : free a then th ⟨a, h⟩ else tmpl a

/-- `IB` — sem.py 223. -/
def sM (pinvq : Mat q q → Mat q q) (x : SPar p q → ℝ) : Mat q q := pinvq (1 - sB x)

/-- `implied_cov` — sem.py 228-247. -/
def sSig (pinvq : Mat q q → Mat q q) (x : SPar p q → ℝ) : Mat p p :=
  let A := sL x * sM pinvq x
  A * sF x * Aᵀ + sP x

/-- `_dsigma` — sem.py 249-291. -/
def sDsig (pinvq : Mat q q → Mat q q) (x : SPar p q → ℝ) : Matrix (Tri p) (SPar p q) ℝ :=
  let IB := sM pinvq x
  let A := sL x * IB
  let B := A * sF x * IBᵀ
  let DLambda := lmat p * nmat p * (B ⊗ₖ (1 : Mat p p))
  let DBeta := lmat p * nmat p * (B ⊗ₖ A)
  let DPhi := lmat p * (A ⊗ₖ A) * dmat q
  let DPsi := lmat p * (1 : Matrix (Fin p × Fin p) (Fin p × Fin p) ℝ) * dmat p
  fromCols DLambda (fromCols DBeta (fromCols DPhi DPsi))

/-- `_gradient` — sem.py 319-340. -/
noncomputable def sGradFull (pinvq : Mat q q → Mat q q) (pinvp : Mat p p → Mat p p) (S : Mat p p) (x : SPar p q → ℝ) : SPar p q → ℝ :=
  let Sigma := sSig pinvq x
  let V := pinvp Sigma
  let G := sDsig pinvq x
  let W := (0.5 : ℝ) • ((dmat p)ᵀ * (V ⊗ₖ V) * dmat p)
  let d := vech (S - Sigma)
  (-2.0 : ℝ) • (Gᵀ * W) *ᵥ d

/-- One slab of the loops in `_hessian` — sem.py 384-415, with the array `self.E`. -/
def sSlab (pinvq : Mat q q → Mat q q) (E : Mat p p) (x : SPar p q → ℝ) (k : Tri p) : Matrix (SPar p q) (SPar p q) ℝ :=
  let IB := sM pinvq x
  let U := IB * sF x * IBᵀ
  let A := sL x * IB
  let Q := sL x * U
  let Kp := kmat q p
  let Kq := kmat q q
  let D := dmat q
  let T := eAt E k + (eAt E k)ᵀ
  let TA := T * A
  let AtTQ := Aᵀ * T * Q
  let AtTA := Aᵀ * TA
  let H11 := U ⊗ₖ T
  let H22 := AtTQᵀ ⊗ₖ IBᵀ * Kq + Kq * (AtTQ ⊗ₖ IB) + U ⊗ₖ AtTA
  let H12 := U ⊗ₖ TA + Kp * ((T * Q) ⊗ₖ IB)
  let H13 := (IB ⊗ₖ TA) * D
  let H23 := Dᵀ * (IBᵀ ⊗ₖ AtTA)
  of fun a b => match a, b with
    | .inl x, .inl y => H11 x y
    | .inr (.inl x), .inr (.inl y) => H22 x y
    | .inl x, .inr (.inl y) => H12 x y
    | .inl x, .inr (.inr (.inl y)) => H13 x y
    | .inr (.inr (.inl x)), .inr (.inl y) => H23 x y
    | .inr (.inl x), .inl y => H12ᵀ x y
    | .inr (.inr (.inl x)), .inl y => H13ᵀ x y
    | .inr (.inl x), .inr (.inr (.inl y)) => H23ᵀ x y
    | _, _ => 0

/-- `_hessian` — sem.py 358-421. -/
noncomputable def sHessFull (pinvq : Mat q q → Mat q q) (pinvp : Mat p p → Mat p p) (E S : Mat p p) (x : SPar p q → ℝ) :
    Matrix (SPar p q) (SPar p q) ℝ :=
  let Sigma := sSig pinvq x
  let V := pinvp Sigma
  let Sdiff := S - Sigma
  let d := vech Sdiff
  let DGp := dmat p * sDsig pinvq x
  let W1 := V ⊗ₖ V
  let W2 := V ⊗ₖ (V * Sdiff * V)
  let H1 := (0.5 : ℝ) • (DGpᵀ * W1 * DGp)
  let H2 := (1.0 : ℝ) • (DGpᵀ * W2 * DGp)
  let W := (dmat p)ᵀ * W1 * dmat p
  let dW := d ᵥ* W
  let H3 := ∑ k, dW k • sSlab pinvq E x k
  (2.0 : ℝ) • (H1 + H2 - (1 / 2.0 : ℝ) • H3)

/-- `loglike` — sem.py 438-455. -/
noncomputable def sLoglike (pinvq : Mat q q → Mat q q) (pinvp : Mat p p → Mat p p) (S : Mat p p) (x : SPar p q → ℝ) : ℝ :=
  let Sigma := sSig pinvq x
  Real.log |Sigma.det| + (S * pinvp Sigma).trace

section theta
variable (free : SPar p q → Prop) [DecidablePred free] (tmpl : SPar p q → ℝ)

/-- `gradient` — sem.py 342-356. -/
noncomputable def sGrad (pinvq : Mat q q → Mat q q) (pinvp : Mat p p → Mat p p) (S : Mat p p) (th : {a // free a} → ℝ) :
    {a // free a} → ℝ := fun a => sGradFull pinvq pinvp S (fill free tmpl th) a.1

/-- `hessian` — sem.py 423-436. -/
noncomputable def sHess (pinvq : Mat q q → Mat q q) (pinvp : Mat p p → Mat p p) (E S : Mat p p) (th : {a // free a} → ℝ) :
    Matrix {a // free a} {a // free a} ℝ := of fun a b => sHessFull pinvq pinvp E S (fill free tmpl th) a.1 b.1

/-- The covariance of the estimates — sem.py 533: `pinv` of the size of `theta` is a parameter. -/
noncomputable def sCov (pinvt : Matrix {a // free a} {a // free a} ℝ → Matrix {a // free a} {a // free a} ℝ) (pinvq : Mat q q → Mat q q)
    (pinvp : Mat p p → Mat p p) (E S : Mat p p) (n : ℝ) (th : {a // free a} → ℝ) : Matrix {a // free a} {a // free a} ℝ :=
  (2.0 / n : ℝ) • pinvt (sHess free tmpl pinvq pinvp E S th)
end theta

end Verif.Sem.Old
