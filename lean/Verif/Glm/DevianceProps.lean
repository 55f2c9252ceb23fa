import Verif.Glm.FamiliesProps
/-!
# C37: deviance, C66: residuals
-/
namespace Verif.Glm
open Real Set

/-- Non-negative, and zero exactly at `y = mu`. -/
def DevOK (F : Family) (Y M : Set ℝ) : Prop :=
  ∀ y ∈ Y, ∀ mu ∈ M, ∀ w > 0, ∀ phi, ∀ k > 0,
    0 ≤ F.dev y mu w phi k ∧ (F.dev y mu w phi k = 0 ↔ y = mu)

/-- `x - 1 - log x` is non-negative and vanishes only at one. -/
theorem h_nonneg {x : ℝ} (hx : 0 < x) : 0 ≤ x - 1 - log x := by
  linarith [log_le_sub_one_of_pos hx]

theorem h_zero {x : ℝ} (hx : 0 < x) : x - 1 - log x = 0 ↔ x = 1 := by
  constructor
  · intro h
    by_contra hne
    have := log_lt_sub_one_of_pos hx hne
    linarith
  · rintro rfl; simp

theorem scale_ok {c d : ℝ} (hc : 0 < c) (hd : 0 ≤ d) {p : Prop} (h : d = 0 ↔ p) :
    0 ≤ c * d ∧ (c * d = 0 ↔ p) :=
  ⟨mul_nonneg hc.le hd, by rw [mul_eq_zero, or_iff_right hc.ne']; exact h⟩

theorem C37_gaussian : DevOK gaussian univ univ := by
  intro y _ mu _ w hw _ k _
  refine scale_ok (d := (y - mu) ^ 2) hw (sq_nonneg _) ?_
  rw [pow_eq_zero_iff two_ne_zero, sub_eq_zero]

theorem C37_invGaussian : DevOK invGaussian (Ioi 0) (Ioi 0) := by
  intro y hy mu hm w hw _ k _
  have hy : 0 < y := hy
  have hm : 0 < mu := hm
  have := scale_ok (c := w / (y * mu ^ 2)) (d := (y - mu) ^ 2) (div_pos hw (by positivity))
    (sq_nonneg _) (p := y = mu) (by rw [pow_eq_zero_iff two_ne_zero, sub_eq_zero])
  simp only [invGaussian]
  rwa [show w * (y - mu) ^ 2 / (y * mu ^ 2) = w / (y * mu ^ 2) * (y - mu) ^ 2 by ring]

theorem C37_gamma (sp : Sp) : DevOK (gamma sp) (Ioi 0) (Ioi 0) := by
  intro y hy mu hm w hw _ k _
  have hy : 0 < y := hy
  have hm : 0 < mu := hm
  have hx : 0 < y / mu := div_pos hy hm
  have := scale_ok (c := 2 * w) (mul_pos two_pos hw) (h_nonneg hx) (h_zero hx)
  simp only [gamma]
  rw [sub_div, div_self hm.ne']
  rwa [div_eq_one_iff_eq hm.ne'] at this

theorem C37_poisson (sp : Sp) : DevOK (poisson sp) (Ici 0) (Ioi 0) := by
  intro y hy mu hm w hw _ k _
  have hm : 0 < mu := hm
  simp only [poisson]
  rw [mul_comm _ (2 * w)]
  refine scale_ok (mul_pos two_pos hw) ?_ ?_
  · split_ifs with h
    · exact hm.le
    · have hy : 0 < y := lt_of_le_of_ne hy (Ne.symm h)
      have hx : 0 < mu / y := div_pos hm hy
      have e : y * log (y / mu) - (y - mu) = y * (mu / y - 1 - log (mu / y)) := by
        rw [← inv_div mu y, log_inv]; field_simp; ring
      rw [e]
      exact mul_nonneg hy.le (h_nonneg hx)
  · split_ifs with h
    · exact ⟨fun h' => absurd h' hm.ne', fun h' => absurd (h'.symm.trans h) hm.ne'⟩
    · have hy : 0 < y := lt_of_le_of_ne hy (Ne.symm h)
      have hx : 0 < mu / y := div_pos hm hy
      have e : y * log (y / mu) - (y - mu) = y * (mu / y - 1 - log (mu / y)) := by
        rw [← inv_div mu y, log_inv]; field_simp; ring
      rw [e, mul_eq_zero, or_iff_right hy.ne', h_zero hx, div_eq_one_iff_eq hy.ne', eq_comm]

theorem C37_binomial (sp : Sp) : DevOK (binomial sp) (Icc 0 1) (Ioo 0 1) := by
  rintro y ⟨hy0, hy1⟩ mu ⟨hm0, hm1⟩ w hw _ k _
  have hm2 : 0 < 1 - mu := sub_pos.2 hm1
  simp only [binomial]
  have key : ∀ d : ℝ, (0 ≤ d) → (d = 0 ↔ y = mu) →
      0 ≤ 2 * w * d ∧ (2 * w * d = 0 ↔ y = mu) :=
    fun d h1 h2 => scale_ok (mul_pos two_pos hw) h1 h2
  split_ifs with h0 h1
  · have : log (1 - mu) < 0 := log_neg hm2 (by linarith)
    exact key _ (by linarith) ⟨fun h => absurd h (by linarith), fun h => by linarith⟩
  · have : log mu < 0 := log_neg hm0 hm1
    exact key _ (by linarith) ⟨fun h => absurd h (by linarith), fun h => by linarith⟩
  · have hy0 : 0 < y := lt_of_le_of_ne hy0 (Ne.symm h0)
    have hy2 : 0 < 1 - y := sub_pos.2 (lt_of_le_of_ne hy1 h1)
    have hx : 0 < mu / y := div_pos hm0 hy0
    have hz : 0 < (1 - mu) / (1 - y) := div_pos hm2 hy2
    have e : y * log (y / mu) + (1 - y) * log ((1 - y) / (1 - mu)) =
        y * (mu / y - 1 - log (mu / y)) +
          (1 - y) * ((1 - mu) / (1 - y) - 1 - log ((1 - mu) / (1 - y))) := by
      rw [← inv_div mu y, log_inv, ← inv_div (1 - mu) (1 - y), log_inv]; field_simp; ring
    have n1 := mul_nonneg hy0.le (h_nonneg hx)
    have n2 := mul_nonneg hy2.le (h_nonneg hz)
    refine key _ (by rw [e]; exact add_nonneg n1 n2) ?_
    rw [e]
    constructor
    · intro h
      have : y * (mu / y - 1 - log (mu / y)) = 0 := le_antisymm (by linarith) n1
      rw [mul_eq_zero, or_iff_right hy0.ne', h_zero hx, div_eq_one_iff_eq hy0.ne'] at this
      exact this.symm
    · rintro rfl
      rw [div_self hy0.ne', div_self hy2.ne']
      simp

theorem C37_negBinomial (sp : Sp) : DevOK (negBinomial sp) (Ici 0) (Ioi 0) := by
  intro y hy mu hm w hw _ k hk
  have hm : 0 < mu := hm
  have hk : 0 < k := hk
  have hv : 0 < 1 / k := one_div_pos.2 hk
  simp only [negBinomial]
  rw [mul_comm _ (2 * w)]
  have key : ∀ d : ℝ, (0 ≤ d) → (d = 0 ↔ y = mu) →
      0 ≤ 2 * w * d ∧ (2 * w * d = 0 ↔ y = mu) :=
    fun d h1 h2 => scale_ok (mul_pos two_pos hw) h1 h2
  split_ifs with h0
  · have h1 : 0 < log (1 + k * mu) := log_pos (by nlinarith [mul_pos hk hm])
    have h2 : 0 < log (1 + k * mu) / k := div_pos h1 hk
    exact key _ h2.le ⟨fun h => absurd h h2.ne', fun h => by linarith⟩
  · have hy : 0 < y := lt_of_le_of_ne hy (Ne.symm h0)
    generalize 1 / k = v at hv
    have hyv : 0 < y + v := by positivity
    have hmv : 0 < mu + v := by positivity
    have hu : 0 < (y + v) / (mu + v) := div_pos hyv hmv
    have hx : 0 < mu / y * ((y + v) / (mu + v)) := by positivity
    have e : y * log (y / mu) - (y + v) * log ((y + v) / (mu + v)) =
        y * (mu / y * ((y + v) / (mu + v)) - 1 - log (mu / y * ((y + v) / (mu + v)))) +
          v * ((y + v) / (mu + v) - 1 - log ((y + v) / (mu + v))) := by
      rw [log_mul (div_pos hm hy).ne' hu.ne', ← inv_div mu y, log_inv]
      field_simp
      ring
    have n1 := mul_nonneg hy.le (h_nonneg hx)
    have n2 := mul_nonneg hv.le (h_nonneg hu)
    refine key _ (by rw [e]; exact add_nonneg n1 n2) ?_
    rw [e]
    constructor
    · intro h
      have : v * ((y + v) / (mu + v) - 1 - log ((y + v) / (mu + v))) = 0 :=
        le_antisymm (by linarith) n2
      rw [mul_eq_zero, or_iff_right hv.ne', h_zero hu, div_eq_one_iff_eq hmv.ne'] at this
      linarith
    · rintro rfl
      rw [div_self hyv.ne', div_self hy.ne']
      simp

/-! ### The deviance is twice the scaled log-likelihood ratio against the saturated model -/

/-- `dev = 2 phi (nll(y, mu) - nll(y, y))`. -/
def SatOK (F : Family) (M : Set ℝ) (P : ℝ → Prop) : Prop :=
  ∀ y ∈ M, ∀ mu ∈ M, ∀ w > 0, ∀ phi > 0, P phi → ∀ k > 0,
    F.dev y mu w phi k = 2 * phi * (F.nll y mu w phi k - F.nll y y w phi k)

theorem C37_saturated_gaussian : SatOK gaussian univ (fun _ => True) := by
  intro y _ mu _ w _ phi hphi _ k _
  have : phi ≠ 0 := ne_of_gt hphi
  simp only [gaussian]
  field_simp
  ring

theorem C37_saturated_invGaussian : SatOK invGaussian (Ioi 0) (fun _ => True) := by
  intro y hy mu hm w _ phi hphi _ k _
  have : phi ≠ 0 := ne_of_gt hphi
  have : y ≠ 0 := ne_of_gt hy
  have : mu ≠ 0 := ne_of_gt hm
  simp only [invGaussian, sub_self]
  field_simp
  ring

theorem C37_saturated_gamma (sp : Sp) : SatOK (gamma sp) (Ioi 0) (fun _ => True) := by
  intro y hy mu hm w hw phi hphi _ k _
  have h1 : phi ≠ 0 := ne_of_gt hphi
  have h2 : y ≠ 0 := ne_of_gt hy
  have h3 : mu ≠ 0 := ne_of_gt hm
  have h4 : w ≠ 0 := ne_of_gt hw
  simp only [gamma]
  rw [mul_div_assoc (w / phi) y mu, mul_div_assoc (w / phi) y y, div_self h2, mul_one,
    log_mul (div_ne_zero h4 h1) (div_ne_zero h2 h3)]
  field_simp
  ring

theorem C37_saturated_poisson (sp : Sp) : SatOK (poisson sp) (Ioi 0) (fun _ => True) := by
  intro y hy mu hm w hw phi hphi _ k _
  have h1 : phi ≠ 0 := ne_of_gt hphi
  have h2 : y ≠ 0 := ne_of_gt hy
  have h3 : mu ≠ 0 := ne_of_gt hm
  simp only [poisson, if_neg h2]
  rw [log_div h2 h3]
  field_simp
  ring

theorem C37_saturated_binomial (sp : Sp) : SatOK (binomial sp) (Ioo 0 1) (fun _ => True) := by
  rintro y ⟨hy0, hy1⟩ mu ⟨hm0, hm1⟩ w hw phi hphi _ k _
  have h1 : phi ≠ 0 := ne_of_gt hphi
  simp only [binomial, if_neg hy0.ne', if_neg hy1.ne]
  rw [log_div hy0.ne' hm0.ne', log_div (sub_pos.2 hy1).ne' (sub_pos.2 hm1).ne']
  field_simp
  ring

/-- For `phi = 1` (the log-likelihood of this family ignores `phi`). -/
theorem C37_saturated_negBinomial (sp : Sp) :
    SatOK (negBinomial sp) (Ioi 0) (fun phi => phi = 1) := by
  rintro y hy mu hm w hw phi hphi rfl k hk
  have hy : 0 < y := hy
  have hm : 0 < mu := hm
  have hk : 0 < k := hk
  have h1 : 1 + k * y = k * (y + 1 / k) := by field_simp; ring
  have h2 : 1 + k * mu = k * (mu + 1 / k) := by field_simp; ring
  have h3 : 0 < y + 1 / k := by positivity
  have h4 : 0 < mu + 1 / k := by positivity
  simp only [negBinomial, if_neg hy.ne']
  rw [h1, h2, log_mul hk.ne' hy.ne', log_mul hk.ne' hm.ne', log_mul hk.ne' h3.ne',
    log_mul hk.ne' h4.ne', log_div hy.ne' hm.ne', log_div h3.ne' h4.ne']
  ring

/-- At the boundary `y = 0` the saturated log-likelihood is zero. -/
theorem C37_saturated_zero (sp : Sp) {mu w phi k : ℝ} (hphi : phi ≠ 0) (hk : k ≠ 0) :
    (poisson sp).dev 0 mu w phi k = 2 * phi * (poisson sp).nll 0 mu w phi k ∧
    (binomial sp).dev 0 mu w phi k = 2 * phi * (binomial sp).nll 0 mu w phi k ∧
    (binomial sp).dev 1 mu w phi k = 2 * phi * (binomial sp).nll 1 mu w phi k ∧
    (negBinomial sp).dev 0 mu w 1 k = 2 * (negBinomial sp).nll 0 mu w 1 k := by
  refine ⟨?_, ?_, ?_, ?_⟩
  · simp only [poisson, if_true]; field_simp; ring
  · simp only [binomial, if_true]; field_simp; ring
  · simp only [binomial, one_ne_zero, if_true, if_false]; field_simp; ring
  · simp only [negBinomial, if_true, zero_add]; field_simp; ring

/-! ## C66: residuals -/

/-- The Pearson statistic is the sum of the squared Pearson residuals. -/
theorem C66_pearson {F : Family} {M : Set ℝ} (hV : VarOK F M) {k : ℝ} (hk : 0 < k)
    (d : List (ℝ × ℝ × ℝ)) (hd : ∀ o ∈ d, o.2.1 ∈ M ∧ 0 ≤ o.2.2) :
    pearsonChi2 F d k = (d.map fun o => pearsonResid F o.1 o.2.1 o.2.2 k ^ 2).sum := by
  unfold pearsonChi2
  congr 1
  apply List.map_congr_left
  intro o ho
  obtain ⟨h1, h2⟩ := hd o ho
  have hv := (hV _ h1 k hk).1
  simp only [pearsonResid]
  rw [mul_pow, sq_sqrt (div_nonneg h2 hv.le)]

/-- The squared deviance residual is the deviance contribution and its sign is that of `y - mu`. -/
theorem C66_deviance {F : Family} {Y M : Set ℝ} (h : DevOK F Y M) {y mu w phi k : ℝ}
    (hy : y ∈ Y) (hm : mu ∈ M) (hw : 0 < w) (hk : 0 < k) :
    devianceResid F y mu w phi k ^ 2 = F.dev y mu w phi k ∧
    (0 < devianceResid F y mu w phi k ↔ mu < y) ∧ (devianceResid F y mu w phi k < 0 ↔ y < mu) := by
  obtain ⟨h0, h1⟩ := h y hy mu hm w hw phi k hk
  unfold devianceResid npSign
  rcases lt_trichotomy y mu with hlt | heq | hgt
  · have hs : 0 < sqrt (F.dev y mu w phi k) :=
      sqrt_pos.2 (lt_of_le_of_ne h0 fun e => hlt.ne (h1.1 e.symm))
    rw [if_pos (sub_neg.2 hlt)]
    refine ⟨by rw [mul_pow, sq_sqrt h0]; ring, ?_, ?_⟩
    · exact ⟨fun h => by linarith, fun h => by linarith⟩
    · exact ⟨fun _ => hlt, fun _ => by linarith⟩
  · have hd := h1.2 heq
    rw [if_neg (by rw [heq]; simp), if_pos (sub_eq_zero.2 heq), hd]
    simp [heq]
  · have hs : 0 < sqrt (F.dev y mu w phi k) :=
      sqrt_pos.2 (lt_of_le_of_ne h0 fun e => hgt.ne (h1.1 e.symm).symm)
    rw [if_neg (not_lt.2 (sub_pos.2 hgt).le), if_neg (sub_pos.2 hgt).ne']
    refine ⟨by rw [mul_pow, sq_sqrt h0]; ring, ?_, ?_⟩
    · exact ⟨fun _ => hgt, fun _ => by linarith⟩
    · exact ⟨fun h => by linarith, fun h => by linarith⟩

/-- `signed_resid` agrees with `deviance_resid` for unit weights … -/
theorem C66_signed_partial (F : Family) (y mu phi k : ℝ) :
    signedResid F y mu 1 phi k = devianceResid F y mu 1 phi k := rfl

/-- … but its square is not the deviance contribution otherwise. -/
theorem C66_signed_violated :
    signedResid gaussian 1 0 4 1 1 ^ 2 ≠ gaussian.dev 1 0 4 1 1 := by
  norm_num [signedResid, npSign, gaussian]

example : ∃ d : List (ℝ × ℝ × ℝ), d ≠ [] ∧ ∀ o ∈ d, o.2.1 ∈ Ioi (0 : ℝ) ∧ 0 ≤ o.2.2 :=
  ⟨[(1, 2, 1)], by simp, by simp⟩

end Verif.Glm
