import Verif.Lmm.Infer
import Verif.Calc.Matrix
import Mathlib.Analysis.SpecialFunctions.Trigonometric.DerivHyp
/-!
# C114: variances and correlations as parameters of the profile likelihood
-/
namespace Verif.Lmm
open Real
variable {T : Terms}

theorem dA_off (j : T.Par) : ¬ IsOff (dA j) := fun h => h rfl
theorem dB_off (j : T.Par) : ¬ IsOff (dB j) := fun h => h rfl

theorem ne_dA {j : T.Par} (h : IsOff j) : dA j ≠ j := fun e => dA_off j (e ▸ h)
theorem ne_dB {j : T.Par} (h : IsOff j) : dB j ≠ j := fun e => dB_off j (e ▸ h)
theorem dA_ne_dB {j : T.Par} (h : IsOff j) : dA j ≠ dB j := by
  intro e
  apply h
  unfold dA dB at e
  simpa using e

theorem clip_eq {c : ℝ} (h : |c| ≤ 0.999999) : max (-0.999999) (min c 0.999999) = c := by
  rw [abs_le] at h
  rw [min_eq_left h.2, max_eq_right h.1]

/-- Back and forth gives the covariance parameters, if the correlations are at most 0.999999. -/
theorem C114_rvs_fwd_partial {th : T.Par → ℝ} (hd : ∀ j, IsOff j → 1e-30 ≤ th (dA j) * th (dB j))
    (hc : ∀ j, IsOff j → |th j / √(th (dA j) * th (dB j))| ≤ 0.999999) (j : T.Par) : vcRvs (vcFwd th) j = th j := by
  unfold vcRvs
  by_cases h : IsOff j
  · rw [if_pos h]
    have e1 : vcFwd th (dA j) = th (dA j) := by unfold vcFwd; rw [if_neg (dA_off j)]
    have e2 : vcFwd th (dB j) = th (dB j) := by unfold vcFwd; rw [if_neg (dB_off j)]
    have hp : 0 < th (dA j) * th (dB j) := lt_of_lt_of_le (by norm_num) (hd j h)
    rw [e1, e2, max_eq_left hp.le]
    unfold vcFwd
    simp only [h, if_true]
    rw [max_eq_left (hd j h), clip_eq (hc j h), tanh_artanh, mul_div_cancel₀ _ (sqrt_pos.2 hp).ne']
    have := abs_le.1 (hc j h)
    constructor <;> norm_num at this ⊢ <;> linarith
  · rw [if_neg h]; unfold vcFwd; rw [if_neg h]

/-- Forth and back. -/
theorem C114_fwd_rvs_partial {tau : T.Par → ℝ} (hd : ∀ j, IsOff j → 1e-30 ≤ tau (dA j) * tau (dB j))
    (hc : ∀ j, IsOff j → |tanh (tau j)| ≤ 0.999999) (j : T.Par) : vcFwd (vcRvs tau) j = tau j := by
  unfold vcFwd
  by_cases h : IsOff j
  · simp only [h, if_true]
    have e1 : vcRvs tau (dA j) = tau (dA j) := by unfold vcRvs; rw [if_neg (dA_off j)]
    have e2 : vcRvs tau (dB j) = tau (dB j) := by unfold vcRvs; rw [if_neg (dB_off j)]
    have hp : 0 < tau (dA j) * tau (dB j) := lt_of_lt_of_le (by norm_num) (hd j h)
    rw [e1, e2, max_eq_left (hd j h)]
    unfold vcRvs
    rw [if_pos h, max_eq_left hp.le, mul_div_cancel_left₀ _ (sqrt_pos.2 hp).ne', clip_eq (hc j h), artanh_tanh]
  · rw [if_neg h]; unfold vcRvs; rw [if_neg h]

/-- Whatever the parameters, the covariance is smaller than the product of the standard deviations. -/
theorem C114_cauchy_schwarz (tau : T.Par → ℝ) {j : T.Par} (h : IsOff j) (hp : 0 < tau (dA j) * tau (dB j)) :
    vcRvs tau j ^ 2 < vcRvs tau (dA j) * vcRvs tau (dB j) := by
  have e1 : vcRvs tau (dA j) = tau (dA j) := by unfold vcRvs; rw [if_neg (dA_off j)]
  have e2 : vcRvs tau (dB j) = tau (dB j) := by unfold vcRvs; rw [if_neg (dB_off j)]
  rw [e1, e2]
  unfold vcRvs
  rw [if_pos h, max_eq_left hp.le, mul_pow, sq_sqrt hp.le]
  have ht : tanh (tau j) ^ 2 < 1 := by rw [sq_lt_one_iff_abs_lt_one]; exact abs_tanh_lt_one _
  nlinarith

/-- One term with `r` variables. -/
abbrev oneTerm (r : ℕ) : Terms := ⟨1, fun _ => 1, fun _ => r, fun _ => none⟩

/-- A positive definite matrix with a correlation above 0.999999 does not survive the round trip. -/
theorem C114_clip_violated :
    let th : (oneTerm 2).Par → ℝ := fun j => if IsOff j then 0.9999995 else 1
    (∀ x y : ℝ, (x ≠ 0 ∨ y ≠ 0) → 0 < x * x + 2 * 0.9999995 * x * y + y * y) ∧
      vcRvs (vcFwd th) ⟨(0 : Fin 1), ⟨((1 : Fin 2), (0 : Fin 2)), by decide⟩⟩ = 0.999999 ∧ th ⟨(0 : Fin 1), ⟨((1 : Fin 2), (0 : Fin 2)), by decide⟩⟩ = 0.9999995 := by
  intro th
  have ho : IsOff (T := oneTerm 2) ⟨(0 : Fin 1), ⟨((1 : Fin 2), (0 : Fin 2)), by decide⟩⟩ := fun h => absurd h (by decide)
  refine ⟨?_, ?_, if_pos ho⟩
  · intro x y h
    have e : x * x + 2 * 0.9999995 * x * y + y * y = (x + 0.9999995 * y) ^ 2 + (1 - 0.9999995 ^ 2) * y ^ 2 := by ring
    rw [e]
    by_cases hy : y = 0
    · have hx : x ≠ 0 := h.resolve_right (fun hh => hh hy)
      subst hy
      have := pow_pos (abs_pos.2 hx) 2
      rw [sq_abs] at this
      simpa using this
    · have := pow_pos (abs_pos.2 hy) 2
      rw [sq_abs] at this
      have h2 := sq_nonneg (x + 0.9999995 * y)
      have h3 : (0 : ℝ) < (1 - 0.9999995 ^ 2) * y ^ 2 := mul_pos (by norm_num) this
      linarith
  · unfold vcRvs
    rw [if_pos ho]
    have e1 : ∀ k, ¬ IsOff k → vcFwd th k = 1 := fun k hk => by
      unfold vcFwd; rw [if_neg hk]; exact if_neg hk
    rw [e1 _ (dA_off _), e1 _ (dB_off _)]
    unfold vcFwd
    simp only [ho, if_true]
    rw [show th _ = 0.9999995 from if_pos ho, show th (dA _) = 1 from if_neg (dA_off _), show th (dB _) = 1 from if_neg (dB_off _)]
    have hm : max ((1 : ℝ) * 1) 1e-30 = 1 := by rw [mul_one]; exact max_eq_left (by norm_num)
    rw [hm, sqrt_one, div_one, mul_one, max_eq_left zero_le_one, sqrt_one, one_mul]
    rw [min_eq_right (by norm_num), max_eq_right (by norm_num)]
    exact tanh_artanh ⟨by norm_num, by norm_num⟩

/-- With three variables the parameters do not always give a covariance matrix: all correlations -0.9 is not positive
semidefinite, so the profile likelihood can be evaluated at a matrix that is no covariance. -/
theorem C114_posdef_violated :
    let tau : (oneTerm 3).Par → ℝ := fun j => if IsOff j then artanh (-0.9) else 1
    (∑ a : Fin 3, ∑ b : Fin 3, invech (fun x => vcRvs tau ⟨(0 : Fin 1), x⟩) a b) < 0 := by
  intro tau
  have h1 : ∀ k : (oneTerm 3).Par, ¬ IsOff k → vcRvs tau k = 1 := fun k hk => by
    unfold vcRvs; rw [if_neg hk]; exact if_neg hk
  have h2 : ∀ k : (oneTerm 3).Par, IsOff k → vcRvs tau k = -0.9 := fun k hk => by
    unfold vcRvs
    rw [if_pos hk, show tau k = artanh (-0.9) from if_pos hk, show tau (dA k) = 1 from if_neg (dA_off _),
      show tau (dB k) = 1 from if_neg (dB_off _), mul_one, max_eq_left zero_le_one, sqrt_one, one_mul]
    exact tanh_artanh ⟨by norm_num, by norm_num⟩
  have h3 : ∀ a b : Fin 3, invech (fun x => vcRvs tau ⟨(0 : Fin 1), x⟩) a b = if a = b then 1 else -0.9 := by
    intro a b
    change vcRvs tau ⟨(0 : Fin 1), tri a b⟩ = _
    by_cases h : a = b
    · rw [if_pos h]
      apply h1
      intro hh
      apply hh
      subst h
      simp [tri]
    · rw [if_neg h]
      apply h2
      unfold IsOff tri
      by_cases hb : b ≤ a
      · simpa [hb] using h
      · simpa [hb] using fun e => h e.symm
  simp only [h3]
  simp only [Fin.sum_univ_three]
  simp only [Fin.isValue, if_true]
  norm_num [Fin.ext_iff]

theorem hasDerivAt_tanh' (x : ℝ) : HasDerivAt tanh (1 - tanh x * tanh x) x := by
  have h := (hasDerivAt_sinh x).div (hasDerivAt_cosh x) (cosh_pos x).ne'
  have e : (fun y => sinh y / cosh y) = tanh := funext fun y => (tanh_eq_sinh_div_cosh y).symm
  have e' : (sinh / cosh : ℝ → ℝ) = tanh := e
  rw [e'] at h
  refine h.congr_deriv ?_
  rw [tanh_eq_sinh_div_cosh]
  have := (cosh_pos x).ne'
  field_simp

/-- `jacobian` is the derivative of `rvs` where the variances are positive. -/
theorem C114_jacobian {tiny : ℝ} {tau : ℝ → T.Par → ℝ} {tau' : T.Par → ℝ} (h : ∀ j, HasDerivAt (fun t => tau t j) (tau' j) 0)
    (hpos : ∀ j, ¬ IsOff j → 0 < tau 0 j) (ht : ∀ j, ¬ IsOff j → tiny ≤ tau 0 j) (j : T.Par) :
    HasDerivAt (fun t => vcRvs (tau t) j) (∑ i, vcJac tiny (tau 0) j i * tau' i) 0 := by
  classical
  unfold vcRvs
  by_cases ho : IsOff j
  · simp only [ho, if_true]
    have ha := hpos _ (dA_off j)
    have hb := hpos _ (dB_off j)
    have hab := mul_pos ha hb
    have hs : HasDerivAt (fun t => √(max (tau t (dA j) * tau t (dB j)) 0))
        ((tau' (dA j) * tau 0 (dB j) + tau 0 (dA j) * tau' (dB j)) / (2 * √(tau 0 (dA j) * tau 0 (dB j)))) 0 := by
      have hm := (h (dA j)).fun_mul (h (dB j))
      refine (hm.sqrt hab.ne').congr_of_eventuallyEq ?_
      filter_upwards [hm.continuousAt.eventually (lt_mem_nhds hab)] with t ht
      rw [max_eq_left ht.le]
    have hd := hs.fun_mul ((hasDerivAt_tanh' (tau 0 j)).comp 0 (h j))
    refine hd.congr_deriv ?_
    simp only [Function.comp]
    rw [max_eq_left hab.le]
    have hsum : ∑ i, vcJac tiny (tau 0) j i * tau' i =
        vcJac tiny (tau 0) j j * tau' j + vcJac tiny (tau 0) j (dA j) * tau' (dA j) + vcJac tiny (tau 0) j (dB j) * tau' (dB j) := by
      have hz : ∀ i, i ∉ ({j, dA j, dB j} : Finset T.Par) → vcJac tiny (tau 0) j i * tau' i = 0 := by
        intro i hi
        simp only [Finset.mem_insert, Finset.mem_singleton, not_or] at hi
        unfold vcJac
        simp only [ho, if_true]
        rw [if_neg hi.1, if_neg hi.2.1, if_neg hi.2.2, zero_mul]
      rw [← Finset.sum_subset (Finset.subset_univ {j, dA j, dB j}) (fun i _ hi => hz i hi),
        Finset.sum_insert (by simp [(ne_dA ho).symm, (ne_dB ho).symm]), Finset.sum_insert (by simp [dA_ne_dB ho]), Finset.sum_singleton]
      ring
    rw [hsum]
    have v1 : vcJac tiny (tau 0) j j = √(tau 0 (dA j) * tau 0 (dB j)) * (1 - tanh (tau 0 j) * tanh (tau 0 j)) := by
      unfold vcJac
      simp only [ho, if_true]
      rw [if_pos ⟨ha, hb⟩]
    have v2 : vcJac tiny (tau 0) j (dA j) = 0.5 * tanh (tau 0 j) * √(tau 0 (dB j) / tau 0 (dA j)) := by
      unfold vcJac
      simp only [ho, if_true]
      rw [if_neg (ne_dA ho), if_pos ⟨ha, hb⟩, max_eq_left (ht _ (dA_off j))]
    have v3 : vcJac tiny (tau 0) j (dB j) = 0.5 * tanh (tau 0 j) * √(tau 0 (dA j) / tau 0 (dB j)) := by
      unfold vcJac
      simp only [ho, if_true]
      rw [if_neg (ne_dB ho), if_neg (dA_ne_dB ho).symm, if_pos ⟨ha, hb⟩, max_eq_left (ht _ (dB_off j))]
    rw [v1, v2, v3]
    generalize tau 0 (dA j) = x at ha hb ⊢
    generalize tau 0 (dB j) = y at hb ⊢
    rw [sqrt_mul ha.le, sqrt_div hb.le, sqrt_div ha.le]
    obtain ⟨u, hu, rfl⟩ : ∃ u, 0 < u ∧ u ^ 2 = x := ⟨√x, sqrt_pos.2 ha, sq_sqrt ha.le⟩
    obtain ⟨v, hv, rfl⟩ : ∃ v, 0 < v ∧ v ^ 2 = y := ⟨√y, sqrt_pos.2 hb, sq_sqrt hb.le⟩
    rw [sqrt_sq hu.le, sqrt_sq hv.le]
    generalize tanh (tau 0 j) = w
    field_simp
    ring
  · simp only [ho, if_false]
    refine (h j).congr_deriv ?_
    unfold vcJac
    simp [ho]

example : ∃ th : (oneTerm 2).Par → ℝ, (∀ j, IsOff j → 1e-30 ≤ th (dA j) * th (dB j)) ∧
    ∀ j, IsOff j → |th j / √(th (dA j) * th (dB j))| ≤ 0.999999 := by
  refine ⟨fun j => if IsOff j then 0.5 else 1, fun j h => ?_, fun j h => ?_⟩
  · simp only [if_neg (dA_off j), if_neg (dB_off j)]; norm_num
  · simp only [if_neg (dA_off j), if_neg (dB_off j), if_pos h]
    rw [mul_one, sqrt_one, div_one, abs_of_pos (by norm_num)]; norm_num

end Verif.Lmm
