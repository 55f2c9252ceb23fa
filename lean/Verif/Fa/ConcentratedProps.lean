import Verif.Fa.Concentrated
import Verif.Fa.LikelihoodProps
import Verif.Fa.EigPathLemmas
import Mathlib.Analysis.SpecialFunctions.Sqrt
/-! # C91: the concentrated likelihood -/
namespace Verif.Fa
open Matrix Verif.Calc

variable {p m : ℕ}

theorem sum_tail (hm : m ≤ p) (f : ℕ → ℝ) : ∑ j : Fin m, f (p - m + j) = ∑ i : Fin p, if (i : ℕ) < p - m then 0 else f i := by
  rw [← Finset.sum_range fun j => f (p - m + j), ← Finset.sum_range fun i => if i < p - m then 0 else f i,
    show Finset.range p = Finset.range (p - m + m) by rw [Nat.sub_add_cancel hm], Finset.sum_range_add,
    Finset.sum_eq_zero (s := Finset.range (p - m)) (fun i hi => if_pos (Finset.mem_range.1 hi)), zero_add]
  exact Finset.sum_congr rfl fun j _ => (if_neg (by omega)).symm

/-- `diag(1/sqrt(psi)) V diag(e) Vᵀ diag(1/sqrt(psi))`. -/
noncomputable def kM (V : Matrix (Fin p) (Fin p) ℝ) (s e : Fin p → ℝ) : Matrix (Fin p) (Fin p) ℝ :=
  diagonal s * (V * diagonal e * Vᵀ) * diagonal s

theorem kM_apply (V : Matrix (Fin p) (Fin p) ℝ) (s e : Fin p → ℝ) (a b : Fin p) :
    kM V s e a b = s a * (∑ i, V a i * e i * V b i) * s b := by
  rw [kM, Matrix.mul_diagonal, Matrix.diagonal_mul, Matrix.mul_apply]
  simp only [Matrix.mul_diagonal, transpose_apply]

theorem kM_mul (V : Matrix (Fin p) (Fin p) ℝ) (hV : Vᵀ * V = 1) (s s' e e' : Fin p → ℝ) (hs : ∀ a, s a * s' a = 1) :
    kM V s e * kM V s' e' = diagonal s * (V * diagonal (fun i => e i * e' i) * Vᵀ) * diagonal s' := by
  have h1 : diagonal s * diagonal s' = (1 : Matrix (Fin p) (Fin p) ℝ) := by
    rw [diagonal_mul_diagonal, ← diagonal_one]; congr 1; funext a; exact hs a
  rw [kM, kM, show diagonal s * (V * diagonal e * Vᵀ) * diagonal s * (diagonal s' * (V * diagonal e' * Vᵀ) * diagonal s') =
    diagonal s * (V * diagonal e * Vᵀ) * (diagonal s * diagonal s') * (V * diagonal e' * Vᵀ) * diagonal s' by
      simp only [Matrix.mul_assoc], h1, Matrix.mul_one,
    show diagonal s * (V * diagonal e * Vᵀ) * (V * diagonal e' * Vᵀ) * diagonal s' =
      diagonal s * (V * (diagonal e * (Vᵀ * V) * diagonal e') * Vᵀ) * diagonal s' by simp only [Matrix.mul_assoc],
    hV, Matrix.mul_one, diagonal_mul_diagonal]

theorem rsq_pos {psi : Fin p → ℝ} (h : ∀ a, 0 < psi a) (a : Fin p) : rsq psi a * Real.sqrt (psi a) = 1 := by
  rw [rsq, div_mul_cancel₀ _ (Real.sqrt_pos.2 (h a)).ne']; norm_num

theorem eig_decomp {W V : Matrix (Fin p) (Fin p) ℝ} {u : Fin p → ℝ} (h : EighOk W u V) : W = V * diagonal u * Vᵀ := by
  rw [← h.eig, Matrix.mul_assoc, mul_eq_one_comm.1 h.orth, Matrix.mul_one]

/-- The eigenvalues of the whitened implied covariance. -/
def dOf (m : ℕ) (u : Fin p → ℝ) (i : Fin p) : ℝ := if (i : ℕ) < p - m then 1 else u i

theorem S_eq {S V : Matrix (Fin p) (Fin p) ℝ} {u psi : Fin p → ℝ} (hp : ∀ a, 0 < psi a) (h : EighOk (whit S psi) u V) :
    S = kM V (fun a => Real.sqrt (psi a)) u := by
  rw [kM, ← eig_decomp h]
  ext a b
  rw [Matrix.mul_diagonal, Matrix.diagonal_mul, whit, of_apply]
  have h1 := rsq_pos hp a; have h2 := rsq_pos hp b
  linear_combination (-S a b) * h1 - S a b * rsq psi a * Real.sqrt (psi a) * h2

theorem Sigma_eq {V : Matrix (Fin p) (Fin p) ℝ} {u psi : Fin p → ℝ} (hm : m ≤ p) (hp : ∀ a, 0 < psi a) (hV : Vᵀ * V = 1)
    (h1 : ∀ i : Fin p, p - m ≤ i → 1 ≤ u i) :
    loadPsi m u V psi * (loadPsi m u V psi)ᵀ + diagonal psi = kM V (fun a => Real.sqrt (psi a)) (dOf m u) := by
  have hV' := mul_eq_one_comm.1 hV
  ext a b
  rw [kM_apply, Matrix.add_apply, Matrix.mul_apply]
  simp only [loadPsi, transpose_apply, of_apply]
  rw [sum_tail hm fun k => Real.sqrt (psi a) * entry V a k * Real.sqrt (vent u k - 1) * (Real.sqrt (psi b) * entry V b k * Real.sqrt (vent u k - 1))]
  have e1 : ∀ i : Fin p, (if (i : ℕ) < p - m then (0 : ℝ) else Real.sqrt (psi a) * entry V a i * Real.sqrt (vent u i - 1) * (Real.sqrt (psi b) * entry V b i * Real.sqrt (vent u i - 1))) =
      Real.sqrt (psi a) * (V a i * (dOf m u i) * V b i) * Real.sqrt (psi b) - Real.sqrt (psi a) * (V a i * V b i) * Real.sqrt (psi b) := fun i => by
    rw [entry_fin, entry_fin, vent, dif_pos i.2, dOf]
    split
    · ring
    · next hi =>
      have : Real.sqrt (u ⟨i, i.2⟩ - 1) * Real.sqrt (u ⟨i, i.2⟩ - 1) = u i - 1 := Real.mul_self_sqrt (by have := h1 i (by omega); linarith)
      linear_combination Real.sqrt (psi a) * V a i * Real.sqrt (psi b) * V b i * this
  simp only [e1, Finset.sum_sub_distrib, ← Finset.sum_mul, ← Finset.mul_sum]
  have e2 : ∑ i, V a i * V b i = if a = b then 1 else 0 := by
    have := congrFun (congrFun hV' a) b
    rw [Matrix.mul_apply, Matrix.one_apply] at this
    exact this
  rw [e2]
  by_cases h : a = b
  · subst h
    rw [diagonal_apply_eq, if_pos rfl]
    have := Real.mul_self_sqrt (hp a).le
    linear_combination -this
  · rw [diagonal_apply_ne _ h, if_neg h]; ring

theorem det_kM (V : Matrix (Fin p) (Fin p) ℝ) (hV : Vᵀ * V = 1) (s e : Fin p → ℝ) : (kM V s e).det = (∏ a, s a) ^ 2 * ∏ i, e i := by
  have h1 : V.det * V.det = 1 := by
    have := congrArg det hV; rwa [det_mul, det_transpose, det_one] at this
  rw [kM, det_mul, det_mul, det_mul, det_mul, det_transpose, det_diagonal, det_diagonal]
  linear_combination (∏ a, s a) ^ 2 * (∏ i, e i) * h1

theorem profile_core (hm : m ≤ p) (S V : Matrix (Fin p) (Fin p) ℝ) (u psi : Fin p → ℝ) (hp : ∀ a, 0 < psi a)
    (h : EighOk (whit S psi) u V) (hu : ∀ i, 0 < u i) (h1 : ∀ i : Fin p, p - m ≤ i → 1 ≤ u i)
    (Sg : Matrix (Fin p) (Fin p) ℝ) (hSg0 : Sg = loadPsi m u V psi * (loadPsi m u V psi)ᵀ + diagonal psi) :
    IsUnit Sg.det ∧ Real.log |Sg.det| + (Sg⁻¹ * S).trace = logPsi (p - m) u + Real.log |S.det| + p ∧
    (∀ a i, (Sg⁻¹ * (Sg - S) * Sg⁻¹ * loadPsi m u V psi) a i = 0) ∧
    ∀ a, (Sg⁻¹ * (Sg - S) * Sg⁻¹) a a = gradPsi (p - m) u V psi a := by
  have hSg : Sg = kM V (fun a => Real.sqrt (psi a)) (dOf m u) := by rw [hSg0, Sigma_eq hm hp h.orth h1]
  have hd : ∀ i, 0 < dOf m u i := fun i => by rw [dOf]; split; exacts [one_pos, hu i]
  have hss : ∀ a, Real.sqrt (psi a) * rsq psi a = 1 := fun a => by rw [mul_comm]; exact rsq_pos hp a
  have hV' := mul_eq_one_comm.1 h.orth
  have hinv : Sg * kM V (rsq psi) (fun i => (dOf m u i)⁻¹) = 1 := by
    rw [hSg, kM_mul V h.orth _ _ _ _ hss]
    have : (fun i => dOf m u i * (dOf m u i)⁻¹) = fun _ => (1 : ℝ) := funext fun i => mul_inv_cancel₀ (hd i).ne'
    rw [this, diagonal_one, Matrix.mul_one, hV', Matrix.mul_one, diagonal_mul_diagonal, ← diagonal_one]
    congr 1; funext a; exact hss a
  have hun : IsUnit (Sg).det := by
    have := congrArg det hinv; rw [det_mul, det_one] at this
    exact IsUnit.of_mul_eq_one _ this
  have hie : (Sg)⁻¹ = kM V (rsq psi) (fun i => (dOf m u i)⁻¹) := inv_eq_right_inv hinv
  have hSe := S_eq hp h
  refine ⟨hun, ?_, ?_⟩
  · have hpr : (0 : ℝ) < (∏ a, Real.sqrt (psi a)) ^ 2 := pow_pos (Finset.prod_pos fun a _ => Real.sqrt_pos.2 (hp a)) 2
    have hpd : (0 : ℝ) < ∏ i, dOf m u i := Finset.prod_pos fun i _ => hd i
    have hpu : (0 : ℝ) < ∏ i, u i := Finset.prod_pos fun i _ => hu i
    have t1 : ((Sg)⁻¹ * S).trace = ∑ i, (dOf m u i)⁻¹ * u i := by
      rw [hie, hSe, kM_mul V h.orth _ _ _ _ (rsq_pos hp), trace_mul_comm, ← Matrix.mul_assoc, diagonal_mul_diagonal]
      have : (diagonal fun a => Real.sqrt (psi a) * rsq psi a) = (1 : Matrix (Fin p) (Fin p) ℝ) := by
        rw [← diagonal_one]; congr 1; funext a; exact hss a
      rw [this, Matrix.one_mul, trace_mul_comm, ← Matrix.mul_assoc, h.orth, Matrix.one_mul, trace_diagonal]
    rw [t1, hSg, hSe, det_kM _ h.orth, det_kM _ h.orth, abs_of_pos (mul_pos hpr hpd), abs_of_pos (mul_pos hpr hpu),
      Real.log_mul hpr.ne' hpd.ne', Real.log_mul hpr.ne' hpu.ne', Real.log_prod (fun i _ => (hd i).ne'),
      Real.log_prod (fun i _ => (hu i).ne')]
    have e : ∀ i : Fin p, Real.log (dOf m u i) + (dOf m u i)⁻¹ * u i = (if (i : ℕ) < p - m then u i - Real.log (u i) - 1 else 0) +
        Real.log (u i) + 1 := fun i => by
      rw [dOf]
      split
      · rw [Real.log_one, inv_one]; ring
      · rw [inv_mul_cancel₀ (hu i).ne']; ring
    have e2 := Finset.sum_congr (rfl : (Finset.univ : Finset (Fin p)) = Finset.univ) fun i _ => e i
    rw [Finset.sum_add_distrib, Finset.sum_add_distrib, Finset.sum_add_distrib, Finset.sum_const, Finset.card_univ, Fintype.card_fin,
      nsmul_eq_mul, mul_one] at e2
    rw [logPsi]
    linarith
  · constructor
    all_goals
      have hR : (Sg)⁻¹ * (Sg - S) * (Sg)⁻¹ =
          kM V (rsq psi) (fun i => (dOf m u i)⁻¹ * (dOf m u i - u i) * (dOf m u i)⁻¹) := by
        have hsub : Sg - S = kM V (fun a => Real.sqrt (psi a)) (fun i => dOf m u i - u i) := by
          rw [hSg]; conv_lhs => rw [hSe]
          ext a b
          simp only [Matrix.sub_apply, kM_apply]
          rw [← sub_mul, ← mul_sub, ← Finset.sum_sub_distrib]
          congr 2
          exact Finset.sum_congr rfl fun i _ => by ring
        have hdd : (diagonal fun a => Real.sqrt (psi a)) * diagonal (rsq psi) = (1 : Matrix (Fin p) (Fin p) ℝ) := by
          rw [diagonal_mul_diagonal, ← diagonal_one]; congr 1; funext a; exact hss a
        rw [hsub, hie, kM_mul V h.orth _ _ _ _ (rsq_pos hp), kM,
          show ∀ X Y : Matrix (Fin p) (Fin p) ℝ, diagonal (rsq psi) * X * (diagonal fun a => Real.sqrt (psi a)) * (diagonal (rsq psi) * Y * diagonal (rsq psi)) =
            diagonal (rsq psi) * X * ((diagonal fun a => Real.sqrt (psi a)) * diagonal (rsq psi)) * Y * diagonal (rsq psi) from fun X Y => by simp only [Matrix.mul_assoc],
          hdd, Matrix.mul_one, kM,
          show ∀ X Y : Matrix (Fin p) (Fin p) ℝ, diagonal (rsq psi) * (V * X * Vᵀ) * (V * Y * Vᵀ) * diagonal (rsq psi) =
            diagonal (rsq psi) * (V * (X * (Vᵀ * V) * Y) * Vᵀ) * diagonal (rsq psi) from fun X Y => by simp only [Matrix.mul_assoc],
          h.orth, Matrix.mul_one, diagonal_mul_diagonal]
    · intro a i
      rw [hR, Matrix.mul_apply]
      have hlt : p - m + (i : ℕ) < p := by have := i.2; omega
      have e : ∀ b, loadPsi m u V psi b i = Real.sqrt (psi b) * V b ⟨p - m + i, hlt⟩ * Real.sqrt (u ⟨p - m + i, hlt⟩ - 1) := fun b => by
        simp only [loadPsi, of_apply, vent, dif_pos hlt]
        have h3 := entry_fin V b ⟨p - m + i, hlt⟩
        rw [h3]
      simp only [e, kM_apply]
      have hk : (dOf m u ⟨p - m + i, hlt⟩ - u ⟨p - m + i, hlt⟩) = 0 := by rw [dOf, if_neg (by simp), sub_self]
      have hq : ∀ b, rsq psi a * (∑ k, V a k * ((dOf m u k)⁻¹ * (dOf m u k - u k) * (dOf m u k)⁻¹) * V b k) * rsq psi b *
          (Real.sqrt (psi b) * V b ⟨p - m + i, hlt⟩ * Real.sqrt (u ⟨p - m + i, hlt⟩ - 1)) =
          ∑ k, rsq psi a * (V a k * ((dOf m u k)⁻¹ * (dOf m u k - u k) * (dOf m u k)⁻¹)) * Real.sqrt (u ⟨p - m + i, hlt⟩ - 1) *
            (V b k * V b ⟨p - m + i, hlt⟩) := fun b => by
        have h5 := rsq_pos hp b
        rw [Finset.mul_sum, Finset.sum_mul, Finset.sum_mul]
        refine Finset.sum_congr rfl fun k _ => ?_
        linear_combination (rsq psi a * (V a k * ((dOf m u k)⁻¹ * (dOf m u k - u k) * (dOf m u k)⁻¹)) * Real.sqrt (u ⟨p - m + i, hlt⟩ - 1) *
            (V b k * V b ⟨p - m + i, hlt⟩)) * h5
      simp only [hq]
      rw [Finset.sum_comm]
      refine Finset.sum_eq_zero fun k _ => ?_
      rw [← Finset.mul_sum]
      by_cases hki : k = ⟨p - m + i, hlt⟩
      · subst hki; rw [hk]; ring
      · have := congrFun (congrFun h.orth k) ⟨p - m + i, hlt⟩
        rw [Matrix.mul_apply, Matrix.one_apply, if_neg hki] at this
        simp only [transpose_apply] at this
        rw [this, mul_zero]
    · intro a
      rw [hR, kM_apply, gradPsi]
      have h5 := rsq_pos hp a
      have h6 : rsq psi a * rsq psi a = 1 / psi a := by
        rw [eq_div_iff (hp a).ne']
        have := Real.mul_self_sqrt (hp a).le
        linear_combination (rsq psi a * Real.sqrt (psi a) + 1) * h5 - rsq psi a * rsq psi a * this
      rw [div_eq_mul_one_div, ← h6, show ∀ x y z : ℝ, x * y * z = y * (x * z) from fun x y z => by ring]
      congr 1
      refine Finset.sum_congr rfl fun i _ => ?_
      rw [dOf]
      split
      · ring
      · rw [sub_self]; ring

/-- C91: minimising over loadings for fixed uniquenesses — at `loadings_from_psi` the full discrepancy is
`loglike_psi + log|S| + p`, its gradient with respect to the loadings vanishes, and its gradient with respect to the
uniquenesses is `grad_psi`. -/
theorem C91_profile (hm : m ≤ p) (S V : Matrix (Fin p) (Fin p) ℝ) (u psi : Fin p → ℝ) (hp : ∀ a, 0 < psi a)
    (h : EighOk (whit S psi) u V) (hu : ∀ i, 0 < u i) (h1 : ∀ i : Fin p, p - m ≤ i → 1 ≤ u i)
    (th : ℕ → ℝ) (hL : Lof p m th = loadPsi m u V psi) (hPhi : phiOf p m th = 1) (hpsi : psiOf p m th = psi) :
    mlF m S th = some (logPsi (p - m) u + Real.log |S.det| + p) ∧
    ∃ g, mlGrad m S th = some g ∧ (∀ f, f < p * m → g f = 0) ∧
      ∀ a : Fin p, g (p * m + nS m + a) = gradPsi (p - m) u V psi a := by
  have hSg : sigmaOf p m th = loadPsi m u V psi * (loadPsi m u V psi)ᵀ + diagonal psi := by
    rw [sigmaOf, lphi, hPhi, Matrix.mul_one, hL, hpsi]
  obtain ⟨hun, e1, e2, e3⟩ := profile_core hm S V u psi hp h hu h1 _ hSg
  constructor
  · unfold mlF
    exact (if_pos hun).trans (congrArg some e1)
  · refine ⟨_, by rw [mlGrad, inv?_unit hun]; rfl, ?_, ?_⟩
    · intro f hf
      obtain ⟨a, i, rfl⟩ := flat_surj hf
      rw [mlGradV, concatRow, if_pos hf, flatF_at, lphi, hPhi, Matrix.mul_one, hL, e2, mul_zero]
    · intro a
      rw [mlGradV, concatRow, if_neg (by omega), if_neg (by omega), Nat.add_sub_cancel_left, entry_fin, e3]

/-! ## derivatives along paths of uniquenesses -/

/-- Velocity of the whitened matrix. -/
noncomputable def dWhit (S : Matrix (Fin p) (Fin p) ℝ) (psi d : Fin p → ℝ) : Matrix (Fin p) (Fin p) ℝ :=
  Matrix.of fun a b => -(1 / 2) * (d a / psi a + d b / psi b) * whit S psi a b

theorem rsq_deriv {psi : ℝ → Fin p → ℝ} {d : Fin p → ℝ} (h : VD psi d) (hp : ∀ a, 0 < psi 0 a) (a : Fin p) :
    HasDerivAt (fun t => rsq (psi t) a) (-(1 / 2) * (d a / psi 0 a) * rsq (psi 0) a) 0 := by
  have hs := Real.sqrt_pos.2 (hp a)
  have h1 := (h a).sqrt (hp a).ne'
  have h2 := (hasDerivAt_const (0 : ℝ) (1.0 : ℝ)).fun_div h1 hs.ne'
  refine h2.congr_deriv ?_
  have h3 := Real.mul_self_sqrt (hp a).le
  simp only [rsq]
  rw [sq, h3]
  have h4 : Real.sqrt (psi 0 a) ≠ 0 := hs.ne'
  have h5 : psi 0 a ≠ 0 := (hp a).ne'
  field_simp
  norm_num

theorem whit_deriv (S : Matrix (Fin p) (Fin p) ℝ) {psi : ℝ → Fin p → ℝ} {d : Fin p → ℝ} (h : VD psi d) (hp : ∀ a, 0 < psi 0 a) :
    MD (fun t => whit S (psi t)) (dWhit S (psi 0) d) := fun a b => by
  have h1 := ((rsq_deriv h hp b).mul_const (S a b)).fun_mul (rsq_deriv h hp a)
  refine h1.congr_deriv ?_
  simp only [dWhit, whit, of_apply]
  ring

/-- First-order change of an eigenvalue when its eigenvector is continuous. -/
theorem eig_deriv {W : ℝ → Matrix (Fin p) (Fin p) ℝ} {W' : Matrix (Fin p) (Fin p) ℝ} (hW : MD W W') (hs : (W 0)ᵀ = W 0)
    {u : ℝ → ℝ} {v : ℝ → Fin p → ℝ} (hv : ∀ a, ContinuousAt (fun t => v t a) 0)
    (he : ∀ t, W t *ᵥ v t = u t • v t) (hn : v 0 ⬝ᵥ v 0 = 1) :
    HasDerivAt u (v 0 ⬝ᵥ (W' *ᵥ v 0)) 0 := by
  have hc : ContinuousAt (fun t => v 0 ⬝ᵥ v t) 0 := by
    simp only [dotProduct]
    exact tendsto_finsetSum _ fun a _ => (hv a).const_mul (v 0 a)
  have key : ∀ t, (v 0 ⬝ᵥ v t) * (u t - u 0) = ∑ a, ∑ b, (v 0 a * v t b) * (W t a b - W 0 a b) := fun t => by
    have h1 : v 0 ⬝ᵥ (W t *ᵥ v t) = u t * (v 0 ⬝ᵥ v t) := by rw [he, dotProduct_smul, smul_eq_mul]
    have h2 : v 0 ⬝ᵥ (W 0 *ᵥ v t) = u 0 * (v 0 ⬝ᵥ v t) := by
      rw [dotProduct_mulVec, ← mulVec_transpose, hs, he, smul_dotProduct, smul_eq_mul]
    have h3 : ∀ X : Matrix (Fin p) (Fin p) ℝ, v 0 ⬝ᵥ (X *ᵥ v t) = ∑ a, ∑ b, (v 0 a * v t b) * X a b := fun X => by
      simp only [dotProduct, mulVec, Finset.mul_sum]
      exact Finset.sum_congr rfl fun a _ => Finset.sum_congr rfl fun b _ => by ring
    simp only [mul_sub, Finset.sum_sub_distrib]
    rw [← h3, ← h3, h1, h2]; ring
  have hd : HasDerivAt (fun t => ∑ a, ∑ b, (v 0 a * v t b) * (W t a b - W 0 a b)) (∑ a, ∑ b, (v 0 a * v 0 b) * W' a b) 0 :=
    HasDerivAt.fun_sum fun a _ => HasDerivAt.fun_sum fun b _ =>
      hasDerivAt_mul_of_zero (u := fun t => v 0 a * v t b) (v := fun t => W t a b - W 0 a b) ((hv b).const_mul (v 0 a)) ((hW a b).sub_const _) (by simp)
  have hc1 : ContinuousAt (fun t => (v 0 ⬝ᵥ v t)⁻¹) 0 := hc.inv₀ (by rw [hn]; exact one_ne_zero)
  have hq := (hasDerivAt_mul_of_zero hc1 hd (by simp)).add_const (u 0)
  have hev : ∀ᶠ t in nhds (0 : ℝ), v 0 ⬝ᵥ v t ≠ 0 := hc.eventually_ne (by rw [hn]; exact one_ne_zero)
  refine (hq.congr_of_eventuallyEq (hev.mono fun t ht => ?_)).congr_deriv ?_
  · beta_reduce; rw [← key, inv_mul_cancel_left₀ ht]; ring
  · rw [hn, inv_one, one_mul]
    simp only [dotProduct, mulVec, Finset.mul_sum]
    exact Finset.sum_congr rfl fun a _ => Finset.sum_congr rfl fun b _ => by ring

theorem whit_t {S : Matrix (Fin p) (Fin p) ℝ} (hS : Sᵀ = S) (psi : Fin p → ℝ) : (whit S psi)ᵀ = whit S psi := by
  ext a b
  simp only [transpose_apply, whit, of_apply]
  have : S b a = S a b := congrFun (congrFun hS a) b
  rw [this]; ring

/-- `v_jᵀ W' v_i` for the whitened matrix. -/
theorem dWhit_form {S V : Matrix (Fin p) (Fin p) ℝ} {u psi d : Fin p → ℝ} (hS : Sᵀ = S) (h : EighOk (whit S psi) u V) (i j : Fin p) :
    (fun a => V a j) ⬝ᵥ (dWhit S psi d *ᵥ fun a => V a i) = -(1 / 2) * (u i + u j) * ∑ b, V b j * V b i * (d b / psi b) := by
  have h1 : ∀ a, ∑ b, whit S psi a b * V b i = u i * V a i := fun a => congrFun (h.vec i) a
  have h2 : ∀ b, ∑ a, V a j * whit S psi a b = u j * V b j := fun b => by
    have := congrFun (h.vec j) b
    rw [← whit_t hS] at this
    simp only [mulVec, dotProduct, transpose_apply, Pi.smul_apply, smul_eq_mul] at this
    rw [← this]; exact Finset.sum_congr rfl fun a _ => mul_comm _ _
  have e : (fun a => V a j) ⬝ᵥ (dWhit S psi d *ᵥ fun a => V a i) =
      -(1 / 2) * (∑ a, V a j * (d a / psi a) * ∑ b, whit S psi a b * V b i) + -(1 / 2) * ∑ b, (∑ a, V a j * whit S psi a b) * (V b i * (d b / psi b)) := by
    simp only [dotProduct, mulVec, dWhit, of_apply, Finset.mul_sum, Finset.sum_mul]
    rw [Finset.sum_comm (f := fun b a => -(1 / 2) * (V a j * whit S psi a b * (V b i * (d b / psi b)))), ← Finset.sum_add_distrib]
    refine Finset.sum_congr rfl fun a _ => ?_
    rw [← Finset.sum_add_distrib]
    exact Finset.sum_congr rfl fun b _ => by ring
  rw [e]
  simp only [h1, h2, Finset.mul_sum]
  rw [← Finset.sum_add_distrib]
  exact Finset.sum_congr rfl fun a _ => by ring

theorem u_deriv {S : Matrix (Fin p) (Fin p) ℝ} (hS : Sᵀ = S) {psi : ℝ → Fin p → ℝ} {d : Fin p → ℝ} (hd : VD psi d) (hp : ∀ a, 0 < psi 0 a)
    {u : ℝ → Fin p → ℝ} {V : ℝ → Matrix (Fin p) (Fin p) ℝ} (h : ∀ t, EighOk (whit S (psi t)) (u t) (V t))
    (i : Fin p) (hV : ∀ a, ContinuousAt (fun t => V t a i) 0) :
    HasDerivAt (fun t => u t i) (-u 0 i * ∑ b, V 0 b i ^ 2 * (d b / psi 0 b)) 0 := by
  have hn : (fun a => V 0 a i) ⬝ᵥ (fun a => V 0 a i) = 1 := by
    have := (h 0).dot i i; rw [if_pos rfl] at this; exact this
  have h1 := eig_deriv (whit_deriv S hd hp) (whit_t hS _) (v := fun t a => V t a i) hV (fun t => (h t).vec i) hn
  refine h1.congr_deriv ?_
  rw [dWhit_form hS (h 0) i i]
  simp only [Finset.mul_sum]
  exact Finset.sum_congr rfl fun b _ => by ring

/-- C91: `grad_psi` is the gradient of `loglike_psi` along any path on which the eigenvectors are continuous. -/
theorem C91_grad_psi {S : Matrix (Fin p) (Fin p) ℝ} (hS : Sᵀ = S) {psi : ℝ → Fin p → ℝ} {d : Fin p → ℝ} (hd : VD psi d) (hp : ∀ a, 0 < psi 0 a)
    {u : ℝ → Fin p → ℝ} {V : ℝ → Matrix (Fin p) (Fin p) ℝ} (h : ∀ t, EighOk (whit S (psi t)) (u t) (V t))
    (r : ℕ) (hV : ∀ a i : Fin p, (i : ℕ) < r → ContinuousAt (fun t => V t a i) 0) (hu : ∀ i : Fin p, (i : ℕ) < r → 0 < u 0 i) :
    HasDerivAt (fun t => logPsi r (u t)) (∑ a, gradPsi r (u 0) (V 0) (psi 0) a * d a) 0 := by
  have h1 : HasDerivAt (fun t => logPsi r (u t)) (∑ i : Fin p, if (i : ℕ) < r then
      (1 - u 0 i) * ∑ b, V 0 b i ^ 2 * (d b / psi 0 b) else 0) 0 := by
    refine HasDerivAt.fun_sum fun i _ => ?_
    by_cases hi : (i : ℕ) < r
    · simp only [hi, if_true]
      have hui := u_deriv hS hd hp h i (fun a => hV a i hi)
      refine ((hui.fun_sub (hui.log (hu i hi).ne')).sub_const 1).congr_deriv ?_
      have := (hu i hi).ne'
      field_simp
      ring
    · simp only [hi, if_false]; exact hasDerivAt_const _ _
  refine h1.congr_deriv ?_
  have e : ∀ i : Fin p, (if (i : ℕ) < r then (1 - u 0 i) * ∑ b, V 0 b i ^ 2 * (d b / psi 0 b) else 0) =
      ∑ b, (if (i : ℕ) < r then (1 - u 0 i) * V 0 b i ^ 2 else 0) * (d b / psi 0 b) := fun i => by
    split
    · rw [Finset.mul_sum]; exact Finset.sum_congr rfl fun b _ => by ring
    · simp
  simp only [e]
  rw [Finset.sum_comm]
  refine Finset.sum_congr rfl fun b _ => ?_
  rw [← Finset.sum_mul, gradPsi]; ring

/-- The inverse of `u_i I - W` off its null space, for a simple eigenvalue `i`. -/
noncomputable def gapInv (u : Fin p → ℝ) (V : Matrix (Fin p) (Fin p) ℝ) (i a b : Fin p) : ℝ :=
  ∑ j, V a j * (if j = i then 0 else 1 / (u i - u j)) * V b j

theorem pinvTerm_gap {u : Fin p → ℝ} {V : Matrix (Fin p) (Fin p) ℝ} {i : Fin p} (hi : ∀ j, j ≠ i → |u i - u j| > 1e-12) (a b : Fin p) :
    pinvTerm u V i a b = gapInv u V i a b := by
  simp only [pinvTerm, gapInv, Matrix.mul_apply, of_apply, transpose_apply]
  refine Finset.sum_congr rfl fun j _ => ?_
  by_cases hj : j = i
  · subst hj; rw [if_neg (by rw [sub_self, abs_zero]; norm_num), if_pos rfl]
  · rw [if_pos (hi j hj), if_neg hj]; norm_num

/-- First-order change of an eigenvector. -/
theorem v_deriv {S : Matrix (Fin p) (Fin p) ℝ} (hS : Sᵀ = S) {psi : ℝ → Fin p → ℝ} {d : Fin p → ℝ} (hd : VD psi d) (hp : ∀ a, 0 < psi 0 a)
    {u : ℝ → Fin p → ℝ} {V : ℝ → Matrix (Fin p) (Fin p) ℝ} (h : ∀ t, EighOk (whit S (psi t)) (u t) (V t))
    {V' : Matrix (Fin p) (Fin p) ℝ} (i : Fin p) (hV : ∀ b, HasDerivAt (fun t => V t b i) (V' b i) 0) (hi : ∀ j, j ≠ i → u 0 i ≠ u 0 j) (a : Fin p) :
    V' a i = ∑ b, (-u 0 i * gapInv (u 0) (V 0) i a b * V 0 b i * (d b / psi 0 b)) +
      1 / 2 * (V 0 a i * (d a / psi 0 a) - V 0 a i * ∑ b, V 0 b i ^ 2 * (d b / psi 0 b)) := by
  have hc : ∀ a, ContinuousAt (fun t => V t a i) 0 := fun a => (hV a).continuousAt
  set q : Fin p → ℝ := fun j => ∑ b, V 0 b j * V 0 b i * (d b / psi 0 b) with hq
  -- components of the velocity
  have hcomp : ∀ j, ∑ b, V 0 b j * V' b i = if j = i then 0 else -(1 / 2) * (u 0 i + u 0 j) * q j / (u 0 i - u 0 j) := fun j => by
    by_cases hj : j = i
    · subst hj
      rw [if_pos rfl]
      have h1 : HasDerivAt (fun t => ∑ b, V t b j * V t b j) (∑ b, (V' b j * V 0 b j + V 0 b j * V' b j)) 0 :=
        HasDerivAt.fun_sum fun b _ => (hV b).fun_mul (hV b)
      have h2 : (fun t => ∑ b, V t b j * V t b j) = fun _ => 1 := funext fun t => by
        have := (h t).dot j j; rwa [if_pos rfl] at this
      rw [h2] at h1
      have h3 := h1.unique (hasDerivAt_const _ _)
      have h4 : ∑ b, (V' b j * V 0 b j + V 0 b j * V' b j) = 2 * ∑ b, V 0 b j * V' b j := by
        rw [Finset.mul_sum]; exact Finset.sum_congr rfl fun b _ => by ring
      linarith
    · rw [if_neg hj]
      have hne : u 0 i - u 0 j ≠ 0 := sub_ne_zero.2 (hi j hj)
      rw [eq_div_iff hne, ← dWhit_form hS (h 0) i j]
      have hui := u_deriv hS hd hp h i hc
      -- differentiate W v = u v and take the inner product with v_j
      have hW : ∀ b, ∑ c, (dWhit S (psi 0) d b c * V 0 c i + whit S (psi 0) b c * V' c i) =
          (-u 0 i * ∑ b, V 0 b i ^ 2 * (d b / psi 0 b)) * V 0 b i + u 0 i * V' b i := fun b => by
        have h1 : HasDerivAt (fun t => ∑ c, whit S (psi t) b c * V t c i) _ 0 :=
          HasDerivAt.fun_sum fun c _ => (whit_deriv S hd hp b c).fun_mul (hV c)
        have h2 := hui.fun_mul (hV b)
        have h3 : (fun t => ∑ c, whit S (psi t) b c * V t c i) = fun t => u t i * V t b i := funext fun t => congrFun ((h t).vec i) b
        rw [h3] at h1
        exact h1.unique h2
      have h5 : ∑ b, V 0 b j * ∑ c, (dWhit S (psi 0) d b c * V 0 c i + whit S (psi 0) b c * V' c i) =
          ∑ b, V 0 b j * ((-u 0 i * ∑ b, V 0 b i ^ 2 * (d b / psi 0 b)) * V 0 b i + u 0 i * V' b i) :=
        Finset.sum_congr rfl fun b _ => by rw [hW]
      have h6 : ∀ c, ∑ b, V 0 b j * whit S (psi 0) b c = u 0 j * V 0 c j := fun c => by
        have := congrFun ((h 0).vec j) c
        rw [← whit_t hS] at this
        simp only [mulVec, dotProduct, transpose_apply, Pi.smul_apply, smul_eq_mul] at this
        rw [← this]; exact Finset.sum_congr rfl fun a _ => mul_comm _ _
      have h7 : ∑ b, V 0 b j * ∑ c, (dWhit S (psi 0) d b c * V 0 c i + whit S (psi 0) b c * V' c i) =
          (fun a => V 0 a j) ⬝ᵥ (dWhit S (psi 0) d *ᵥ fun a => V 0 a i) + u 0 j * ∑ b, V 0 b j * V' b i := by
        simp only [Finset.sum_add_distrib, mul_add]
        congr 1
        simp only [Finset.mul_sum]
        rw [Finset.sum_comm]
        refine Finset.sum_congr rfl fun c _ => ?_
        have : ∑ b, V 0 b j * (whit S (psi 0) b c * V' c i) = (∑ b, V 0 b j * whit S (psi 0) b c) * V' c i := by
          rw [Finset.sum_mul]; exact Finset.sum_congr rfl fun b _ => by ring
        rw [this, h6]; ring
      have h8 : ∑ b, V 0 b j * ((-u 0 i * ∑ b, V 0 b i ^ 2 * (d b / psi 0 b)) * V 0 b i + u 0 i * V' b i) = u 0 i * ∑ b, V 0 b j * V' b i := by
        have h9 := (h 0).dot j i
        rw [if_neg hj] at h9
        have : ∀ K : ℝ, ∑ b, V 0 b j * (K * V 0 b i + u 0 i * V' b i) = K * (∑ b, V 0 b j * V 0 b i) + u 0 i * ∑ b, V 0 b j * V' b i := fun K => by
          simp only [mul_add, Finset.sum_add_distrib, Finset.mul_sum]
          congr 1 <;> exact Finset.sum_congr rfl fun b _ => by ring
        rw [this, h9, mul_zero, zero_add]
      rw [h7, h8] at h5
      linarith
  -- reassemble in the eigenbasis
  have hVV := mul_eq_one_comm.1 (h 0).orth
  have hrow : ∀ b c, ∑ j, V 0 b j * V 0 c j = if b = c then 1 else 0 := fun b c => by
    have := congrFun (congrFun hVV b) c
    rw [Matrix.mul_apply, Matrix.one_apply] at this
    exact this
  have hexp : V' a i = ∑ j, V 0 a j * ∑ b, V 0 b j * V' b i := by
    simp only [Finset.mul_sum]
    rw [Finset.sum_comm]
    have : ∀ b, ∑ j, V 0 a j * (V 0 b j * V' b i) = (if a = b then 1 else 0) * V' b i := fun b => by
      rw [← hrow, Finset.sum_mul]; exact Finset.sum_congr rfl fun j _ => by ring
    simp [this]
  have hqexp : ∑ j, V 0 a j * q j = V 0 a i * (d a / psi 0 a) := by
    simp only [hq, Finset.mul_sum]
    rw [Finset.sum_comm]
    have : ∀ b, ∑ j, V 0 a j * (V 0 b j * V 0 b i * (d b / psi 0 b)) = (if a = b then 1 else 0) * (V 0 b i * (d b / psi 0 b)) := fun b => by
      rw [← hrow, Finset.sum_mul]; exact Finset.sum_congr rfl fun j _ => by ring
    simp [this]
  have hpin : ∑ b, (-u 0 i * gapInv (u 0) (V 0) i a b * V 0 b i * (d b / psi 0 b)) =
      ∑ j, -u 0 i * (V 0 a j * (if j = i then 0 else 1 / (u 0 i - u 0 j))) * q j := by
    simp only [hq, Finset.mul_sum, gapInv, Finset.sum_mul]
    rw [Finset.sum_comm]
    exact Finset.sum_congr rfl fun j _ => Finset.sum_congr rfl fun b _ => by ring
  have hqi : q i = ∑ b, V 0 b i ^ 2 * (d b / psi 0 b) := Finset.sum_congr rfl fun b _ => by ring
  rw [hexp, hpin, ← hqi, ← hqexp]
  have hterm : ∀ j, V 0 a j * ∑ b, V 0 b j * V' b i =
      -u 0 i * (V 0 a j * (if j = i then 0 else 1 / (u 0 i - u 0 j))) * q j +
      1 / 2 * (V 0 a j * q j) - 1 / 2 * (if j = i then V 0 a i * q i else 0) := fun j => by
    rw [hcomp]
    by_cases hj : j = i
    · subst hj
      rw [if_pos rfl, if_pos rfl, if_pos rfl]; ring
    · have hne : u 0 i - u 0 j ≠ 0 := sub_ne_zero.2 (hi j hj)
      rw [if_neg hj, if_neg hj, if_neg hj]
      field_simp
      norm_num
      ring
  simp only [hterm, Finset.sum_add_distrib, Finset.sum_sub_distrib, ← Finset.mul_sum]
  rw [Finset.sum_ite_eq' Finset.univ i, if_pos (Finset.mem_univ _)]
  ring

/-- The Hessian with the pseudoinverses as an argument. -/
noncomputable def hessW (P : Fin p → Matrix (Fin p) (Fin p) ℝ) (r : ℕ) (u : Fin p → ℝ) (V : Matrix (Fin p) (Fin p) ℝ) (psi : Fin p → ℝ) (a b : Fin p) : ℝ :=
  1.0 / psi a * (∑ i : Fin p, if (i : ℕ) < r then
    ((2 * u i - 1) * (V a i * V b i) + 2 * u i * (u i - 1) * P i a b) * (V a i * V b i) else 0) * (1.0 / psi b)

theorem hess_cont {S : Matrix (Fin p) (Fin p) ℝ} (hS : Sᵀ = S) {psi : ℝ → Fin p → ℝ} {d : Fin p → ℝ} (hd : VD psi d) (hp : ∀ a, 0 < psi 0 a)
    {u : ℝ → Fin p → ℝ} {V : ℝ → Matrix (Fin p) (Fin p) ℝ} (h : ∀ t, EighOk (whit S (psi t)) (u t) (V t))
    {V' : Matrix (Fin p) (Fin p) ℝ} (r : ℕ) (hV : ∀ i : Fin p, (i : ℕ) < r → ∀ b, HasDerivAt (fun t => V t b i) (V' b i) 0)
    (hi : ∀ i : Fin p, (i : ℕ) < r → ∀ j, j ≠ i → u 0 i ≠ u 0 j) (P : Fin p → Matrix (Fin p) (Fin p) ℝ)
    (hP : ∀ i : Fin p, (i : ℕ) < r → ∀ a b, P i a b = gapInv (u 0) (V 0) i a b) (a : Fin p) :
    HasDerivAt (fun t => gradPsi r (u t) (V t) (psi t) a) (∑ b, hessW P r (u 0) (V 0) (psi 0) a b * d b) 0 := by
  have h1 : HasDerivAt (fun t => ∑ i : Fin p, if (i : ℕ) < r then (1 - u t i) * V t a i ^ 2 else 0)
      (∑ i : Fin p, if (i : ℕ) < r then
        (u 0 i * ∑ b, V 0 b i ^ 2 * (d b / psi 0 b)) * V 0 a i ^ 2 + (1 - u 0 i) * (2 * V 0 a i * V' a i) else 0) 0 := by
    refine HasDerivAt.fun_sum fun i _ => ?_
    by_cases hr : (i : ℕ) < r
    · simp only [hr, if_true]
      refine ((((hasDerivAt_const (0 : ℝ) (1 : ℝ)).fun_sub (u_deriv hS hd hp h i fun b => (hV i hr b).continuousAt)).fun_mul ((hV i hr a).fun_pow 2))).congr_deriv ?_
      simp only [Nat.cast_ofNat]
      ring
    · simp only [hr, if_false]; exact hasDerivAt_const _ _
  have h2 := h1.fun_div (hd a) (hp a).ne'
  refine h2.congr_deriv ?_
  have hpa := (hp a).ne'
  have e : ∀ i : Fin p, (if (i : ℕ) < r then
        (u 0 i * ∑ b, V 0 b i ^ 2 * (d b / psi 0 b)) * V 0 a i ^ 2 + (1 - u 0 i) * (2 * V 0 a i * V' a i) else 0) =
      (if (i : ℕ) < r then (1 - u 0 i) * V 0 a i ^ 2 else 0) * (d a / psi 0 a) +
      ∑ b, (if (i : ℕ) < r then ((2 * u 0 i - 1) * (V 0 a i * V 0 b i) + 2 * u 0 i * (u 0 i - 1) * P i a b) * (V 0 a i * V 0 b i) else 0) *
        (d b / psi 0 b) := fun i => by
    by_cases hr : (i : ℕ) < r
    · simp only [hr, if_true]
      rw [v_deriv hS hd hp h i (hV i hr) (hi i hr) a]
      simp only [← hP i hr]
      have : ∑ b, (((2 * u 0 i - 1) * (V 0 a i * V 0 b i) + 2 * u 0 i * (u 0 i - 1) * P i a b) * (V 0 a i * V 0 b i)) * (d b / psi 0 b) =
          (2 * u 0 i - 1) * V 0 a i ^ 2 * (∑ b, V 0 b i ^ 2 * (d b / psi 0 b)) +
          (-2 * (u 0 i - 1) * V 0 a i) * ∑ b, (-u 0 i * P i a b * V 0 b i * (d b / psi 0 b)) := by
        rw [Finset.mul_sum, Finset.mul_sum, ← Finset.sum_add_distrib]
        exact Finset.sum_congr rfl fun b _ => by ring
      rw [this]
      ring
    · simp [hr]
  simp only [e, Finset.sum_add_distrib, ← Finset.sum_mul]
  rw [Finset.sum_comm]
  have e3 : ∑ b, hessW P r (u 0) (V 0) (psi 0) a b * d b = (∑ b, ∑ i : Fin p, (if (i : ℕ) < r then ((2 * u 0 i - 1) * (V 0 a i * V 0 b i) + 2 * u 0 i * (u 0 i - 1) * P i a b) * (V 0 a i * V 0 b i) else 0) *
        (d b / psi 0 b)) / psi 0 a := by
    rw [Finset.sum_div]
    refine Finset.sum_congr rfl fun b _ => ?_
    rw [← Finset.sum_mul, hessW]
    norm_num
    ring
  rw [e3]
  field_simp
  ring

/-- Along any path with a simple eigenvalue `i` at `0`, the squares of the eigenvector of a valid decomposition are those
of a differentiable one. -/
theorem fix_diff {S : Matrix (Fin p) (Fin p) ℝ} {psi : ℝ → Fin p → ℝ} {d : Fin p → ℝ} (hd : VD psi d) (hp : ∀ a, 0 < psi 0 a)
    {u : ℝ → Fin p → ℝ} {V : ℝ → Matrix (Fin p) (Fin p) ℝ} (h : ∀ t, EighOk (whit S (psi t)) (u t) (V t)) (r : ℕ)
    (hi : ∀ i : Fin p, (i : ℕ) < r → ∀ j, j ≠ i → u 0 i ≠ u 0 j) :
    ∃ V' : Matrix (Fin p) (Fin p) ℝ, ∀ i : Fin p, (i : ℕ) < r → ∀ b, HasDerivAt (fun t => fixV (V 0) (V t) b i) (V' b i) 0 := by
  have hk : ∀ i : Fin p, ∃ v' : Fin p → ℝ, (i : ℕ) < r → ∀ b, HasDerivAt (fun t => fixV (V 0) (V t) b i) (v' b) 0 := fun i => by
    by_cases hr : (i : ℕ) < r
    · have h0 := fixV_self (h 0)
      obtain ⟨v', hv⟩ := eigvec_diff (V := fun t => fixV (V 0) (V t)) (whit_deriv S hd hp) (fun t => (h t).fix (V 0)) i
        (fun t => by simp only [h0]; exact fixV_side (V 0) (V t) i) (hi i hr)
      exact ⟨v', fun _ => hv⟩
    · exact ⟨fun _ => 0, fun h => absurd h hr⟩
  choose v' hv using hk
  exact ⟨Matrix.of fun b i => v' i b, fun i hr b => hv i hr b⟩

theorem grad_fix (r : ℕ) (u : Fin p → ℝ) (V0 V : Matrix (Fin p) (Fin p) ℝ) (psi : Fin p → ℝ) (a : Fin p) :
    gradPsi r u (fixV V0 V) psi a = gradPsi r u V psi a := by
  simp only [gradPsi, fixV_sq]

/-- C91: `grad_psi` is the gradient of `loglike_psi` along every differentiable path of uniquenesses, whatever valid
decompositions `eigh` returns, where the first `r` eigenvalues are simple. -/
theorem C91_grad_simple {S : Matrix (Fin p) (Fin p) ℝ} (hS : Sᵀ = S) {psi : ℝ → Fin p → ℝ} {d : Fin p → ℝ} (hd : VD psi d) (hp : ∀ a, 0 < psi 0 a)
    {u : ℝ → Fin p → ℝ} {V : ℝ → Matrix (Fin p) (Fin p) ℝ} (h : ∀ t, EighOk (whit S (psi t)) (u t) (V t)) (r : ℕ)
    (hi : ∀ i : Fin p, (i : ℕ) < r → ∀ j, j ≠ i → u 0 i ≠ u 0 j) (hu : ∀ i : Fin p, (i : ℕ) < r → 0 < u 0 i) :
    HasDerivAt (fun t => logPsi r (u t)) (∑ a, gradPsi r (u 0) (V 0) (psi 0) a * d a) 0 := by
  obtain ⟨V', hV⟩ := fix_diff hd hp h r hi
  have := C91_grad_psi hS hd hp (V := fun t => fixV (V 0) (V t)) (fun t => (h t).fix (V 0)) r
    (fun a i hr => (hV i hr a).continuousAt) hu
  simpa only [grad_fix] using this

theorem hess_simple {S : Matrix (Fin p) (Fin p) ℝ} (hS : Sᵀ = S) {psi : ℝ → Fin p → ℝ} {d : Fin p → ℝ} (hd : VD psi d) (hp : ∀ a, 0 < psi 0 a)
    {u : ℝ → Fin p → ℝ} {V : ℝ → Matrix (Fin p) (Fin p) ℝ} (h : ∀ t, EighOk (whit S (psi t)) (u t) (V t)) (r : ℕ)
    (hi : ∀ i : Fin p, (i : ℕ) < r → ∀ j, j ≠ i → u 0 i ≠ u 0 j) (P : Fin p → Matrix (Fin p) (Fin p) ℝ)
    (hP : ∀ i : Fin p, (i : ℕ) < r → ∀ a b, P i a b = gapInv (u 0) (V 0) i a b) (a : Fin p) :
    HasDerivAt (fun t => gradPsi r (u t) (V t) (psi t) a) (∑ b, hessW P r (u 0) (V 0) (psi 0) a b * d b) 0 := by
  obtain ⟨V', hV⟩ := fix_diff hd hp h r hi
  have h0 := fixV_self (h 0)
  have := hess_cont hS hd hp (V := fun t => fixV (V 0) (V t)) (fun t => (h t).fix (V 0)) r hV hi P
    (fun i hr a b => by simp only [h0]; exact hP i hr a b) a
  simpa only [grad_fix, h0] using this

/-- C91: `hess_psi` is the Jacobian of `grad_psi` along every differentiable path, whatever valid decompositions `eigh`
returns, when the first `r` eigenvalues are separated from all others by more than the cutoff. -/
theorem C91_hess_psi_partial {S : Matrix (Fin p) (Fin p) ℝ} (hS : Sᵀ = S) {psi : ℝ → Fin p → ℝ} {d : Fin p → ℝ} (hd : VD psi d) (hp : ∀ a, 0 < psi 0 a)
    {u : ℝ → Fin p → ℝ} {V : ℝ → Matrix (Fin p) (Fin p) ℝ} (h : ∀ t, EighOk (whit S (psi t)) (u t) (V t)) (r : ℕ)
    (hi : ∀ i : Fin p, (i : ℕ) < r → ∀ j, j ≠ i → |u 0 i - u 0 j| > 1e-12) (a : Fin p) :
    HasDerivAt (fun t => gradPsi r (u t) (V t) (psi t) a) (∑ b, hessPsi r (u 0) (V 0) (psi 0) a b * d b) 0 :=
  hess_simple hS hd hp h r (fun i hr j hj e => by
    have := hi i hr j hj; rw [e, sub_self, abs_zero] at this; norm_num at this) (fun i => pinvTerm (u 0) (V 0) i)
    (fun i hr a b => pinvTerm_gap (hi i hr) a b) a

/-- C91: the chain rule for `psi = exp(rho)` in `grad_exp` and `hess_exp`. -/
theorem C91_exp (F : (Fin p → ℝ) → ℝ) (g : (Fin p → ℝ) → Fin p → ℝ) (H : Fin p → Fin p → ℝ) (rho : ℝ → Fin p → ℝ) (d : Fin p → ℝ)
    (hr : VD rho d)
    (hF : ∀ (psi : ℝ → Fin p → ℝ) (e : Fin p → ℝ), VD psi e → psi 0 = (fun a => Real.exp (rho 0 a)) →
      HasDerivAt (fun t => F (psi t)) (∑ a, g (psi 0) a * e a) 0 ∧
      ∀ a, HasDerivAt (fun t => g (psi t) a) (∑ b, H a b * e b) 0) :
    let ps := fun t (a : Fin p) => Real.exp (rho t a)
    HasDerivAt (fun t => F (ps t)) (∑ a, gradExp (ps 0) (g (ps 0)) a * d a) 0 ∧
    ∀ a, HasDerivAt (fun t => gradExp (ps t) (g (ps t)) a) (∑ b, hessExp (ps 0) (g (ps 0)) H a b * d b) 0 := by
  intro ps
  have hps : VD ps (fun a => ps 0 a * d a) := fun a => (hr a).exp
  obtain ⟨h1, h2⟩ := hF ps _ hps rfl
  refine ⟨h1.congr_deriv (Finset.sum_congr rfl fun a _ => by rw [gradExp]; ring), fun a => ?_⟩
  refine ((hps a).fun_mul (h2 a)).congr_deriv ?_
  have e : ∀ b, hessExp (ps 0) (g (ps 0)) H a b * d b = ps 0 a * (H a b * (ps 0 b * d b)) + if a = b then ps 0 a * g (ps 0) a * d a else 0 := fun b => by
    rw [hessExp]
    by_cases hab : a = b
    · subst hab; simp only [if_true]; ring
    · simp only [hab, if_false]; ring
  simp only [e, Finset.sum_add_distrib, ← Finset.mul_sum, Finset.sum_ite_eq, Finset.mem_univ, if_true]
  ring

/-- Rotation of the first two of three axes. -/
noncomputable def rot3 : Matrix (Fin 3) (Fin 3) ℝ := !![3/5, -(4/5), 0; 4/5, 3/5, 0; 0, 0, 1]

theorem tie_ok : EighOk (whit (diagonal ![1, 1, 2] : Matrix (Fin 3) (Fin 3) ℝ) fun _ => 1) ![1, 1, 2] 1 ∧
    EighOk (whit (diagonal ![1, 1, 2] : Matrix (Fin 3) (Fin 3) ℝ) fun _ => 1) ![1, 1, 2] rot3 := by
  have e : whit (diagonal ![1, 1, 2] : Matrix (Fin 3) (Fin 3) ℝ) (fun _ => 1) = diagonal ![1, 1, 2] := by
    ext a b; simp only [whit, rsq, of_apply, Real.sqrt_one]; norm_num
  have hm : Monotone (![1, 1, 2] : Fin 3 → ℝ) := by
    rw [Fin.monotone_iff_le_succ]
    intro i; fin_cases i
    · simp
    · show (1 : ℝ) ≤ 2; norm_num
  rw [e]
  refine ⟨⟨by simp, by simp, hm⟩, ⟨?_, ?_, hm⟩⟩
  · ext i j; fin_cases i <;> fin_cases j <;> simp [rot3, Matrix.mul_apply, Fin.sum_univ_three] <;> norm_num
  · ext i j; fin_cases i <;> fin_cases j <;> simp [rot3, Matrix.mul_apply, Fin.sum_univ_three, diagonal_apply]

/-- C91: with tied eigenvalues the pseudoinverse drops the pairs that are tied, and `hess_psi` depends on which valid
eigenvectors are returned: for `S = diag(1, 1, 2)`, `psi = 1` and one factor an off-diagonal element is zero for one
choice and not for another, so it is not the Hessian of the function. -/
theorem C91_ties_violated : ∃ (S V V' : Matrix (Fin 3) (Fin 3) ℝ) (u psi : Fin 3 → ℝ), Sᵀ = S ∧ (∀ a, 0 < psi a) ∧
    EighOk (whit S psi) u V ∧ EighOk (whit S psi) u V' ∧ hessPsi 2 u V psi 0 1 ≠ hessPsi 2 u V' psi 0 1 := by
  refine ⟨_, _, _, _, _, diagonal_transpose _, fun _ => one_pos, tie_ok.1, tie_ok.2, ?_⟩
  simp only [hessPsi, Fin.sum_univ_three, rot3]
  norm_num [Matrix.one_apply]

/-! Nonvacuity: `p = 1`: the eigenvector `1` and eigenvalue `S / psi`. -/
example : EighOk (whit (1 : Matrix (Fin 1) (Fin 1) ℝ) (fun _ => 1)) (fun _ => 1) 1 :=
  ⟨by simp, by ext i j; have := Subsingleton.elim i j; subst this; simp [whit, rsq]; norm_num, fun _ _ _ => le_rfl⟩

/-- The hypotheses of `C91_profile` hold for `p = m = 1`, `S = 2`, `psi = 1`. -/
example : EighOk (whit (Matrix.of fun _ _ => 2 : Matrix (Fin 1) (Fin 1) ℝ) (fun _ => 1)) (fun _ => 2) 1 ∧
    Lof 1 1 (fun _ => 1) = loadPsi 1 (fun _ => 2) (1 : Matrix (Fin 1) (Fin 1) ℝ) (fun _ => 1) ∧
    phiOf 1 1 (fun _ => 1) = 1 ∧ psiOf 1 1 (fun _ => 1) = fun _ => 1 := by
  refine ⟨⟨by simp, ?_, fun _ _ _ => le_rfl⟩, ?_, ?_, rfl⟩
  · ext i j; have := Subsingleton.elim i j; subst this; simp [whit, rsq]; norm_num
  · ext i j
    have hi := Subsingleton.elim i 0; have hj := Subsingleton.elim j 0
    subst hi hj
    have h1 : (1 : Matrix (Fin 1) (Fin 1) ℝ) ⟨0, Nat.one_pos⟩ ⟨0, Nat.one_pos⟩ = 1 := by simp
    simp only [Lof, unflatF, loadPsi, entry, vent, of_apply]
    simp
    norm_num
    exact h1.symm
  · ext i j; have := Subsingleton.elim i j; subst this; simp [phiOf]

end Verif.Fa
