import Verif.Sem.OldSem
import Verif.Fa.OldEfaProps
/-!
# C205: likelihood and derivatives of the older structural equation model
-/
namespace Verif.Sem.Old
open Matrix Kronecker Verif.Fa Verif.Fa.Old Verif.Calc

variable {p q : ℕ}

/-! ### Half vectorisation -/

theorem invech_t {m : ℕ} (v : Tri m → ℝ) : (invech v)ᵀ = invech v := by
  ext i j
  simp only [transpose_apply, invech, of_apply]
  rcases lt_trichotomy i j with h | h | h
  · rw [dif_pos h.le, dif_neg (not_le.2 h)]
  · subst h; rfl
  · rw [dif_neg (not_le.2 h), dif_pos h.le]

theorem vech_invech {m : ℕ} (v : Tri m → ℝ) : vech (invech v) = v := by
  funext k
  obtain ⟨⟨a, b⟩, h⟩ := k
  simp only [vech, invech, of_apply]
  rw [dif_pos h]

theorem sF_t (x : SPar p q → ℝ) : (sF x)ᵀ = sF x := invech_t _
theorem sP_t (x : SPar p q → ℝ) : (sP x)ᵀ = sP x := invech_t _

theorem md_invech {m : ℕ} {v : ℝ → Tri m → ℝ} {v' : Tri m → ℝ} (h : VD v v') :
    MD (fun t => invech (v t)) (invech v') := fun i j => by
  simp only [invech, of_apply]
  split_ifs <;> exact h _

theorem par_split (x : SPar p q → ℝ) : x = Sum.elim (vec (sL x)) (Sum.elim (vec (sB x)) (Sum.elim (vech (sF x)) (vech (sP x)))) := by
  have h1 : vech (sF x) = fun a => x (.inr (.inr (.inl a))) := vech_invech _
  have h2 : vech (sP x) = fun a => x (.inr (.inr (.inr a))) := vech_invech _
  rw [h1, h2]
  funext a
  rcases a with a | a | a | a <;> rfl

/-! ### First derivative -/

section curve
variable {pinvq : Mat q q → Mat q q} {x : ℝ → SPar p q → ℝ} {v : SPar p q → ℝ}

theorem md_sL (h : VD x v) : MD (fun t => sL (x t)) (sL v) := fun _ _ => h _
theorem md_sB (h : VD x v) : MD (fun t => sB (x t)) (sB v) := fun _ _ => h _
theorem md_sF (h : VD x v) : MD (fun t => sF (x t)) (sF v) := md_invech fun a => h _
theorem md_sP (h : VD x v) : MD (fun t => sP (x t)) (sP v) := md_invech fun a => h _

theorem ev_sM (hp : PinvOk pinvq) (h : VD x v) (h0 : IsUnit (1 - sB (x 0)).det) :
    ∀ᶠ t in nhds 0, sM pinvq (x t) = (1 - sB (x t))⁻¹ := by
  have h1 : MD (fun t => 1 - sB (x t)) (0 - sB v) := (MD.const 1).sub (md_sB h)
  exact (h1.eventually_isUnit h0).mono fun t ht => hp _ ht

theorem MD.of_ev {m n : Type*} {A B : ℝ → Matrix m n ℝ} {A' : Matrix m n ℝ} (hA : MD A A') (h : ∀ᶠ t in nhds 0, B t = A t) :
    MD B A' := fun i j => (hA i j).congr_of_eventuallyEq (h.mono fun t ht => by beta_reduce; rw [ht])

theorem md_sM (hp : PinvOk pinvq) (h : VD x v) (h0 : IsUnit (1 - sB (x 0)).det) :
    MD (fun t => sM pinvq (x t)) (sM pinvq (x 0) * sB v * sM pinvq (x 0)) := by
  have h1 : MD (fun t => 1 - sB (x t)) (0 - sB v) := (MD.const 1).sub (md_sB h)
  refine (MD.of_ev (h1.inv h0) (ev_sM hp h h0)).congr ?_
  rw [sM, hp _ h0, zero_sub, Matrix.mul_neg, Matrix.neg_mul, neg_neg]

/-- Velocity of the product of loadings and inverse. -/
def sdA (pinvq : Mat q q → Mat q q) (x w : SPar p q → ℝ) : Mat p q :=
  sL w * sM pinvq x + sL x * (sM pinvq x * sB w * sM pinvq x)

/-- Velocity of the covariance. -/
def sdSig (pinvq : Mat q q → Mat q q) (x w : SPar p q → ℝ) : Mat p p :=
  (sdA pinvq x w * sF x + sL x * sM pinvq x * sF w) * (sL x * sM pinvq x)ᵀ +
    sL x * sM pinvq x * sF x * (sdA pinvq x w)ᵀ + sP w

theorem sSig_t (x : SPar p q → ℝ) : (sSig pinvq x)ᵀ = sSig pinvq x := by
  simp only [sSig, transpose_add, transpose_mul, transpose_transpose, sF_t, sP_t, Matrix.mul_assoc]

theorem sdSig_t (x w : SPar p q → ℝ) : (sdSig pinvq x w)ᵀ = sdSig pinvq x w := by
  simp only [sdSig, transpose_add, transpose_mul, transpose_transpose, sF_t, sP_t, Matrix.add_mul, Matrix.mul_add, Matrix.mul_assoc]
  abel

theorem md_sA (hp : PinvOk pinvq) (h : VD x v) (h0 : IsUnit (1 - sB (x 0)).det) :
    MD (fun t => sL (x t) * sM pinvq (x t)) (sdA pinvq (x 0) v) := (md_sL h).mul (md_sM hp h h0)

theorem md_sSig (hp : PinvOk pinvq) (h : VD x v) (h0 : IsUnit (1 - sB (x 0)).det) :
    MD (fun t => sSig pinvq (x t)) (sdSig pinvq (x 0) v) :=
  (((md_sA hp h h0).mul (md_sF h)).mul (md_sA hp h h0).transpose).add (md_sP h)

end curve

theorem dot_dmat {m : ℕ} (M : Matrix (Tri p) (Fin m × Fin m) ℝ) (X : Mat m m) (h : Xᵀ = X) :
    (M * dmat m) *ᵥ vech X = M *ᵥ vec X := by rw [← mulVec_mulVec, dmat_mulVec _ h]

/-- `_dsigma` times a direction. -/
theorem sDsig_mulVec (pinvq : Mat q q → Mat q q) (x w : SPar p q → ℝ) : sDsig pinvq x *ᵥ w = vech (sdSig pinvq x w) := by
  set M := sM pinvq x with hM
  set A := sL x * M with hA
  set B := A * sF x * Mᵀ with hB
  have h1 : (lmat p * nmat p * (B ⊗ₖ (1 : Mat p p))) *ᵥ vec (sL w) = vech ((sL w * Bᵀ)ᵀ + sL w * Bᵀ) := by
    rw [← mulVec_mulVec, ← mulVec_mulVec, kron_mulVec, nmat_mulVec, lmat_mulVec, Matrix.one_mul]
  have h2 : (lmat p * nmat p * (B ⊗ₖ A)) *ᵥ vec (sB w) = vech ((A * sB w * Bᵀ)ᵀ + A * sB w * Bᵀ) := by
    rw [← mulVec_mulVec, ← mulVec_mulVec, kron_mulVec, nmat_mulVec, lmat_mulVec]
  have h3 : (lmat p * (A ⊗ₖ A) * dmat q) *ᵥ vech (sF w) = vech (A * sF w * Aᵀ) := by
    rw [dot_dmat _ _ (sF_t w), ← mulVec_mulVec, kron_mulVec, lmat_mulVec]
  have h4 : (lmat p * (1 : Matrix (Fin p × Fin p) (Fin p × Fin p) ℝ) * dmat p) *ᵥ vech (sP w) = vech (sP w) := by
    rw [dot_dmat _ _ (sP_t w), Matrix.mul_one, lmat_mulVec]
  have e : sdSig pinvq x w = ((sL w * Bᵀ)ᵀ + sL w * Bᵀ) + (((A * sB w * Bᵀ)ᵀ + A * sB w * Bᵀ) + (A * sF w * Aᵀ + sP w)) := by
    simp only [sdSig, sdA, hB, hA, hM, transpose_add, transpose_mul, transpose_transpose, sF_t, Matrix.add_mul, Matrix.mul_add,
      Matrix.mul_assoc]
    abel
  conv_lhs => rw [par_split w]
  simp only [sDsig]
  rw [← hM, ← hA, ← hB, fromCols_mulVec_sumElim, fromCols_mulVec_sumElim, fromCols_mulVec_sumElim, h1, h2, h3, h4, e]
  rfl

/-! ### Second derivative -/

/-- Velocity of the velocity of the product. -/
def sddA (pinvq : Mat q q → Mat q q) (x w v : SPar p q → ℝ) : Mat p q :=
  let M := sM pinvq x
  let Mv := M * sB v * M
  sL w * Mv + (sL v * (M * sB w * M) + sL x * (Mv * sB w * M + M * sB w * Mv))

/-- Velocity of the velocity of the covariance. -/
def sddSig (pinvq : Mat q q → Mat q q) (x w v : SPar p q → ℝ) : Mat p p :=
  let A := sL x * sM pinvq x
  ((sddA pinvq x w v * sF x + sdA pinvq x w * sF v) + sdA pinvq x v * sF w) * Aᵀ +
    (sdA pinvq x w * sF x + A * sF w) * (sdA pinvq x v)ᵀ +
    ((sdA pinvq x v * sF x + A * sF v) * (sdA pinvq x w)ᵀ + A * sF x * (sddA pinvq x w v)ᵀ)

theorem sddSig_t (pinvq : Mat q q → Mat q q) (x w v : SPar p q → ℝ) : (sddSig pinvq x w v)ᵀ = sddSig pinvq x w v := by
  simp only [sddSig, transpose_add, transpose_mul, transpose_transpose, sF_t, Matrix.add_mul, Matrix.mul_add, Matrix.mul_assoc]
  abel

theorem md_sdSig {pinvq : Mat q q → Mat q q} {x : ℝ → SPar p q → ℝ} {v : SPar p q → ℝ} (hp : PinvOk pinvq) (h : VD x v)
    (h0 : IsUnit (1 - sB (x 0)).det) (w : SPar p q → ℝ) :
    MD (fun t => sdSig pinvq (x t) w) (sddSig pinvq (x 0) w v) := by
  have hM := md_sM hp h h0
  have hdA : MD (fun t => sdA pinvq (x t) w) (sddA pinvq (x 0) w v) := by
    refine (((MD.const (sL w)).mul hM).add ((md_sL h).mul ((hM.mul (MD.const (sB w))).mul hM))).congr ?_
    simp only [sddA, Matrix.zero_mul, Matrix.mul_zero, zero_add, add_zero]
  have hA := md_sA hp h h0
  refine (((((hdA.mul (md_sF h)).add (hA.mul (MD.const (sF w)))).mul hA.transpose).add
    ((hA.mul (md_sF h)).mul hdA.transpose)).add (MD.const (sP w))).congr ?_
  simp only [sddSig, Matrix.zero_mul, Matrix.mul_zero, zero_add, add_zero]

theorem quad_swap {α β : Type*} [Fintype α] [Fintype β] (M : Matrix α β ℝ) (u : β → ℝ) (w : α → ℝ) :
    u ⬝ᵥ Mᵀ *ᵥ w = w ⬝ᵥ M *ᵥ u := by
  rw [mulVec_transpose, dotProduct_comm, ← dotProduct_mulVec]

theorem fro_left {n : ℕ} (A : Mat p n) (W : Mat n q) (Y : Mat p q) : fro W (Aᵀ * Y) = fro (A * W) Y := by
  rw [fro_trace, fro_trace, transpose_mul, Matrix.mul_assoc]

theorem fro_right {n : ℕ} (Y : Mat p n) (W : Mat p q) (M : Mat q n) : fro W (Y * Mᵀ) = fro (W * M) Y := by
  rw [fro_trace, fro_trace, transpose_mul, ← Matrix.mul_assoc, trace_mul_comm, ← Matrix.mul_assoc]

/-- The slab as a quadratic form. -/
theorem sSlab_quad (pinvq : Mat q q → Mat q q) (x w v : SPar p q → ℝ) (k : Tri p) :
    w ⬝ᵥ sSlab pinvq 0 x k *ᵥ v = vech (sddSig pinvq x w v) k := by
  set T := eAt (0 : Mat p p) k + (eAt 0 k)ᵀ with hT
  set M := sM pinvq x with hM
  set U := M * sF x * Mᵀ with hU
  set A := sL x * M with hA
  set Q := sL x * U with hQ
  have hUt : Uᵀ = U := by simp only [hU, transpose_mul, transpose_transpose, sF_t, Matrix.mul_assoc]
  set H22 := (Aᵀ * T * Q)ᵀ ⊗ₖ Mᵀ * kmat q q + kmat q q * ((Aᵀ * T * Q) ⊗ₖ M) + U ⊗ₖ (Aᵀ * (T * A)) with h22
  set H12 := U ⊗ₖ (T * A) + kmat q p * ((T * Q) ⊗ₖ M) with h12
  set H13 := (M ⊗ₖ (T * A)) * dmat q with h13
  set H23 := (dmat q)ᵀ * (Mᵀ ⊗ₖ (Aᵀ * (T * A))) with h23
  have q11 : vec (sL w) ⬝ᵥ (U ⊗ₖ T) *ᵥ vec (sL v) = fro (sL w) (T * (sL v * U)) := by
    rw [kron_mulVec, ← fro_vec, hUt, Matrix.mul_assoc]
  have q22 : vec (sB w) ⬝ᵥ H22 *ᵥ vec (sB v) = fro (A * sB v * M * sB w) (T * Q) + fro (A * sB w) (T * (Q * ((sB v)ᵀ * Mᵀ))) +
      fro (A * sB w) (T * (A * sB v * U)) := by
    rw [h22, add_mulVec, add_mulVec, ← mulVec_mulVec, kmat_mulVec, kron_mulVec, ← mulVec_mulVec, kron_mulVec, kmat_mulVec, kron_mulVec,
      dotProduct_add, dotProduct_add, ← fro_vec, ← fro_vec, ← fro_vec, hUt,
      show Aᵀ * (T * A) * sB v * U = Aᵀ * (T * (A * sB v * U)) by simp only [Matrix.mul_assoc], fro_left]
    congr 2
    · rw [transpose_transpose, show Mᵀ * (sB v)ᵀ * (Aᵀ * T * Q) = (A * sB v * M)ᵀ * (T * Q) by
        simp only [transpose_mul, Matrix.mul_assoc], fro_left]
    · rw [show (M * sB v * (Aᵀ * T * Q)ᵀ)ᵀ = Aᵀ * (T * (Q * ((sB v)ᵀ * Mᵀ))) by
        simp only [transpose_mul, transpose_transpose, Matrix.mul_assoc], fro_left]
  have q12 : ∀ w v : SPar p q → ℝ, vec (sL w) ⬝ᵥ H12 *ᵥ vec (sB v) = fro (sL w) (T * (A * sB v * U)) + fro (sL w) (T * (Q * ((sB v)ᵀ * Mᵀ))) := by
    intro w v
    rw [h12, add_mulVec, kron_mulVec, ← mulVec_mulVec, kron_mulVec, kmat_mulVec, dotProduct_add, ← fro_vec, ← fro_vec, hUt]
    congr 2
    · simp only [Matrix.mul_assoc]
    · simp only [transpose_mul, transpose_transpose, Matrix.mul_assoc]
  have q13 : ∀ w v : SPar p q → ℝ, vec (sL w) ⬝ᵥ H13 *ᵥ vech (sF v) = fro (sL w) (T * (A * sF v * Mᵀ)) := by
    intro w v
    rw [h13, ← mulVec_mulVec, dmat_mulVec _ (sF_t v), kron_mulVec, ← fro_vec]
    simp only [Matrix.mul_assoc]
  have q23 : ∀ w v : SPar p q → ℝ, vech (sF w) ⬝ᵥ H23 *ᵥ vec (sB v) = fro (A * sF w) (T * (A * sB v * M)) := by
    intro w v
    rw [h23, ← mulVec_mulVec, kron_mulVec, quad_swap, dmat_mulVec _ (sF_t w), dotProduct_comm, ← fro_vec, transpose_transpose,
      show Aᵀ * (T * A) * sB v * M = Aᵀ * (T * (A * sB v * M)) by simp only [Matrix.mul_assoc], fro_left]
  have e : w ⬝ᵥ sSlab pinvq 0 x k *ᵥ v =
      vec (sL w) ⬝ᵥ (U ⊗ₖ T) *ᵥ vec (sL v) + vec (sB w) ⬝ᵥ H22 *ᵥ vec (sB v) + vec (sL w) ⬝ᵥ H12 *ᵥ vec (sB v) +
      vec (sL w) ⬝ᵥ H13 *ᵥ vech (sF v) + vech (sF w) ⬝ᵥ H23 *ᵥ vec (sB v) + vec (sL v) ⬝ᵥ H12 *ᵥ vec (sB w) +
      vec (sL v) ⬝ᵥ H13 *ᵥ vech (sF w) + vech (sF v) ⬝ᵥ H23 *ᵥ vec (sB w) := by
    rw [← quad_swap H12 (vec (sB w)), ← quad_swap H13 (vech (sF w)), ← quad_swap H23 (vec (sB w))]
    conv_lhs => rw [par_split w, par_split v]
    simp only [dotProduct, mulVec, Fintype.sum_sum_type, sSlab, of_apply, Sum.elim_inl, Sum.elim_inr, ← hM, ← hU, ← hA, ← hQ, ← hT,
      ← h22, ← h12, ← h13, ← h23, zero_mul, Finset.sum_const_zero, add_zero, mul_zero, mul_add, Finset.sum_add_distrib]
    ring
  rw [e, q11, q22, q12, q12, q13, q13, q23, q23]
  rw [hT]
  simp only [fro_T]
  simp only [vech, ← Matrix.add_apply]
  refine congrFun (congrFun ?_ k.1.2) k.1.1
  simp only [sddSig, sddA, sdA, hQ, hU, hA, ← hM, transpose_add, transpose_mul, transpose_transpose, sF_t, Matrix.add_mul, Matrix.mul_add,
    Matrix.mul_assoc]
  abel

/-! ### Likelihood, gradient and Hessian of the full vector -/

theorem sGradFull_dot {pinvq : Mat q q → Mat q q} {pinvp : Mat p p → Mat p p} (hp : PinvOk pinvp) {S : Mat p p} (hS : Sᵀ = S)
    (x w : SPar p q → ℝ) (h0 : IsUnit (sSig pinvq x).det) :
    sGradFull pinvq pinvp S x ⬝ᵥ w =
      fro ((sSig pinvq x)⁻¹ * (sSig pinvq x - S) * (sSig pinvq x)⁻¹) (sdSig pinvq x w) := by
  have hd : (S - sSig pinvq x)ᵀ = S - sSig pinvq x := by rw [transpose_sub, hS, sSig_t]
  have hV := inv_t (sSig_t (pinvq := pinvq) x)
  simp only [sGradFull]
  rw [hp _ h0, smul_dotProduct, ← mulVec_mulVec, dotProduct_comm, quad_swap, sDsig_mulVec, smul_mulVec, smul_dotProduct,
    ← mulVec_mulVec, dmat_mulVec _ hd, ← mulVec_mulVec, kron_mulVec, hV, dotProduct_comm, quad_swap, dmat_mulVec _ (sdSig_t _ _),
    ← fro_vec]
  rw [← neg_sub S, Matrix.mul_neg, Matrix.neg_mul]
  simp only [fro, Matrix.neg_apply, neg_mul, Finset.sum_neg_distrib, smul_eq_mul]
  norm_num
  ring

theorem sLoglike_eq {pinvq : Mat q q → Mat q q} {pinvp : Mat p p → Mat p p} (hp : PinvOk pinvp) {S : Mat p p} (x : SPar p q → ℝ)
    (h0 : IsUnit (sSig pinvq x).det) : mlOf S (sSig pinvq x) = some (sLoglike pinvq pinvp S x) := by
  rw [mlOf, if_pos h0, sLoglike, hp _ h0, trace_mul_comm S]

theorem sHessFull_eq {pinvq : Mat q q → Mat q q} {pinvp : Mat p p → Mat p p} (hp : PinvOk pinvp) (E S : Mat p p) (x : SPar p q → ℝ)
    (h0 : IsUnit (sSig pinvq x).det) :
    hessOf S (sSig pinvq x) (sDsig pinvq x) (sSlab pinvq E x) = some (sHessFull pinvq pinvp E S x) := by
  rw [hessOf, inv?_unit h0, Option.map_some, sHessFull, hp _ h0]

/-- C205: `_dsigma` is the derivative of `vech` of the implied covariance. -/
theorem C205_dsigma {pinvq : Mat q q → Mat q q} (hq : PinvOk pinvq) {x : ℝ → SPar p q → ℝ} {v : SPar p q → ℝ} (h : VD x v)
    (h0 : IsUnit (1 - sB (x 0)).det) : VD (fun t => vech (sSig pinvq (x t))) (sDsig pinvq (x 0) *ᵥ v) := fun k => by
  rw [sDsig_mulVec]
  exact md_sSig hq h h0 k.1.2 k.1.1

/-- C205: `_gradient` is the derivative of the discrepancy of the full vector. -/
theorem C205_gradient_full {pinvq : Mat q q → Mat q q} (hq : PinvOk pinvq) {pinvp : Mat p p → Mat p p} (hp : PinvOk pinvp)
    {S : Mat p p} (hS : Sᵀ = S) {x : ℝ → SPar p q → ℝ} {v : SPar p q → ℝ} (h : VD x v) (h0 : IsUnit (1 - sB (x 0)).det)
    (h1 : IsUnit (sSig pinvq (x 0)).det) :
    HasDerivAt (fun t => sLoglike pinvq pinvp S (x t)) (sGradFull pinvq pinvp S (x 0) ⬝ᵥ v) 0 := by
  rw [sGradFull_dot hp hS _ _ h1]
  have hs := md_sSig hq h h0
  obtain ⟨F, hF, hd⟩ := ml_grad hs h1 hS (sSig_t _)
  refine hd.congr_of_eventuallyEq ((hF.and (hs.eventually_isUnit h1)).mono fun t ht => ?_)
  have h2 := ht.1
  rw [sLoglike_eq hp _ ht.2] at h2
  exact Option.some.inj h2

/-- C205: `_hessian` is the derivative of `_gradient`. -/
theorem C205_hessian_full {pinvq : Mat q q → Mat q q} (hq : PinvOk pinvq) {pinvp : Mat p p → Mat p p} (hp : PinvOk pinvp)
    {S : Mat p p} (hS : Sᵀ = S) {x : ℝ → SPar p q → ℝ} {v : SPar p q → ℝ} (h : VD x v) (h0 : IsUnit (1 - sB (x 0)).det)
    (h1 : IsUnit (sSig pinvq (x 0)).det) :
    VD (fun t => sGradFull pinvq pinvp S (x t)) (sHessFull pinvq pinvp 0 S (x 0) *ᵥ v) := fun i => by
  obtain ⟨H, hH, hq'⟩ := hessOf_quad S _ (sDsig pinvq (x 0)) (sSlab pinvq 0 (x 0)) hS (sSig_t (x 0)) h1
  rw [sHessFull_eq hp _ _ _ h1] at hH
  rw [← Option.some.inj hH] at hq'
  have hs := md_sSig hq h h0
  have hd := ml_hess hs (md_sdSig hq h h0 (Pi.single i 1)) h1 hS (sSig_t _) (sdSig_t _ _) (sdSig_t _ _)
  rw [← hq' (Pi.single i 1) v _ _ _ (sDsig_mulVec _ _ _) (sdSig_t _ _) (sDsig_mulVec _ _ _) (sdSig_t _ _)
    (fun k => sSlab_quad _ _ _ _ k) (sddSig_t _ _ _ _), single_one_dotProduct] at hd
  refine hd.congr_of_eventuallyEq ((hs.eventually_isUnit h1).mono fun t ht => ?_)
  change sGradFull pinvq pinvp S (x t) i = _
  beta_reduce
  rw [← sGradFull_dot hp hS _ _ ht, dotProduct_single_one]

/-! ### The free parameters -/

section theta
variable {free : SPar p q → Prop} [DecidablePred free] {tmpl : SPar p q → ℝ}

/-- A direction of the free parameters, with zero for the fixed ones. -/
def ext0 (free : SPar p q → Prop) [DecidablePred free] (v : {a // free a} → ℝ) : SPar p q → ℝ :=
  fun a => if h : free a then v ⟨a, h⟩ else 0

theorem vd_fill {th : ℝ → {a // free a} → ℝ} {v : {a // free a} → ℝ} (h : VD th v) :
    VD (fun t => fill free tmpl (th t)) (ext0 free v) := fun a => by
  by_cases ha : free a
  · simp only [fill, ext0, dif_pos ha]; exact h _
  · simp only [fill, ext0, dif_neg ha]; exact hasDerivAt_const _ _

theorem dot_ext0 (g : SPar p q → ℝ) (v : {a // free a} → ℝ) : g ⬝ᵥ ext0 free v = (fun a : {a // free a} => g a.1) ⬝ᵥ v := by
  simp only [dotProduct, ext0]
  rw [← Fintype.sum_subtype_add_sum_subtype free, Finset.sum_eq_zero (s := (Finset.univ : Finset {a // ¬ free a})) (fun a _ => by
    rw [dif_neg a.2, mul_zero]), add_zero]
  exact Finset.sum_congr rfl fun a _ => by rw [dif_pos a.2]

/-- C205: `gradient` is the derivative of `loglike` in the free parameters. -/
theorem C205_gradient {pinvq : Mat q q → Mat q q} (hq : PinvOk pinvq) {pinvp : Mat p p → Mat p p} (hp : PinvOk pinvp)
    {S : Mat p p} (hS : Sᵀ = S) {th : ℝ → {a // free a} → ℝ} {v : {a // free a} → ℝ} (h : VD th v)
    (h0 : IsUnit (1 - sB (fill free tmpl (th 0))).det) (h1 : IsUnit (sSig pinvq (fill free tmpl (th 0))).det) :
    HasDerivAt (fun t => sLoglike pinvq pinvp S (fill free tmpl (th t))) (sGrad free tmpl pinvq pinvp S (th 0) ⬝ᵥ v) 0 := by
  have := C205_gradient_full hq hp hS (vd_fill (tmpl := tmpl) h) h0 h1
  rw [dot_ext0] at this
  exact this

/-- C205: `hessian` is the derivative of `gradient` in the free parameters. -/
theorem C205_hessian {pinvq : Mat q q → Mat q q} (hq : PinvOk pinvq) {pinvp : Mat p p → Mat p p} (hp : PinvOk pinvp)
    {S : Mat p p} (hS : Sᵀ = S) {th : ℝ → {a // free a} → ℝ} {v : {a // free a} → ℝ} (h : VD th v)
    (h0 : IsUnit (1 - sB (fill free tmpl (th 0))).det) (h1 : IsUnit (sSig pinvq (fill free tmpl (th 0))).det) :
    VD (fun t => sGrad free tmpl pinvq pinvp S (th t)) (sHess free tmpl pinvq pinvp 0 S (th 0) *ᵥ v) := fun a => by
  have := C205_hessian_full hq hp hS (vd_fill (tmpl := tmpl) h) h0 h1 a.1
  rw [mulVec, dot_ext0] at this
  exact this

/-- C205: the reported covariance of the estimates is the inverse of half the number of observations times the Hessian. -/
theorem C205_cov [DecidableEq {a // free a}] {pinvt : Matrix {a // free a} {a // free a} ℝ → Matrix {a // free a} {a // free a} ℝ}
    (hpt : ∀ M, IsUnit M.det → pinvt M = M⁻¹) (pinvq : Mat q q → Mat q q) (pinvp : Mat p p → Mat p p) (E S : Mat p p) (n : ℝ) (hn : n ≠ 0)
    (th : {a // free a} → ℝ) (h : IsUnit (sHess free tmpl pinvq pinvp E S th).det) :
    sCov free tmpl pinvt pinvq pinvp E S n th * ((n / 2) • sHess free tmpl pinvq pinvp E S th) = 1 := by
  rw [sCov, hpt _ h, Matrix.smul_mul, Matrix.mul_smul, nonsing_inv_mul _ h, smul_smul, show (2.0 / n : ℝ) * (n / 2) = 1 by field_simp; norm_num,
    one_smul]

end theta

/-- C205: the loop of `_hessian` leaves the array `self.E` as it was, so every call starts from zero. -/
theorem C205_E_unchanged : eEnd (0 : Mat p p) = 0 := eEnd_zero

/-- The hypotheses hold at zero loadings and regressions and unit covariances. -/
example : ∃ x : SPar 2 1 → ℝ, IsUnit (1 - sB x).det ∧ IsUnit (sSig (fun M => M⁻¹) x).det ∧ PinvOk (fun M : Mat 1 1 => M⁻¹) := by
  refine ⟨fun a => match a with | .inr (.inr (.inr k)) => if k.1.1 = k.1.2 then 1 else 0 | _ => 0, ?_, ?_, fun _ _ => rfl⟩
  · rw [show sB _ = 0 from rfl, sub_zero, det_one]; exact isUnit_one
  · have e : sSig (fun M : Mat 1 1 => M⁻¹) (fun a : SPar 2 1 => match a with | .inr (.inr (.inr k)) => if k.1.1 = k.1.2 then 1 else 0 | _ => 0)
        = 1 := by
      rw [sSig, show sL _ = 0 from rfl, Matrix.zero_mul, Matrix.zero_mul, Matrix.zero_mul, zero_add]
      ext i j
      fin_cases i <;> fin_cases j <;> simp [sP, invech]
    rw [e, det_one]; exact isUnit_one

end Verif.Sem.Old
