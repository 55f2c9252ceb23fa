import Verif.Mcmc.Model
import Verif.Robust.NormalProps
import Mathlib.MeasureTheory.Group.Convolution
import Mathlib.Analysis.Real.Pi.Bounds
/-!
# C196: scale, tests and labels of the results of the sampler
-/
namespace Verif.Mcmc
open Verif.Glm Verif.Robust MeasureTheory ProbabilityTheory Real Set

theorem gauss_Iic (x : ℝ) : gaussianReal 0 1 (Iic x) = ENNReal.ofReal (ndtr0 x) := by
  rw [gaussianReal_apply_eq_integral 0 one_ne_zero, ndtr0, phi0_eq]

/-- The mean of a normal distribution function of a normal variable. -/
theorem ndtr_mean (a b : ℝ) : ∫ e, ndtr0 (a + b * e) * phi0 e = ndtr0 (a / √(1 + b ^ 2)) := by
  have hc : Continuous ndtr0 := continuous_iff_continuousAt.2 fun x => (ndtr0_deriv x).continuousAt
  have hpos : (0:ℝ) < √(1 + b ^ 2) := Real.sqrt_pos.2 (by positivity)
  have h1 : ∫⁻ e, ENNReal.ofReal (ndtr0 (a + b * e)) ∂(gaussianReal 0 1) = ENNReal.ofReal (ndtr0 (a / √(1 + b ^ 2))) := by
    have hm : (gaussianReal 0 1).map (-b * ·) = gaussianReal 0 (.mk ((-b) ^ 2) (sq_nonneg _)) := by
      rw [gaussianReal_map_const_mul, mul_zero, mul_one]
    have hv : (gaussianReal 0 (.mk ((-b) ^ 2) (sq_nonneg _)) : Measure ℝ) ∗ gaussianReal 0 1 = (gaussianReal 0 1).map (√(1 + b ^ 2) * ·) := by
      rw [gaussianReal_conv_gaussianReal, gaussianReal_map_const_mul, mul_zero, mul_one, add_zero]
      congr 1
      apply NNReal.coe_injective
      simp only [NNReal.coe_add, NNReal.coe_mk, NNReal.coe_one]
      rw [Real.sq_sqrt (by positivity)]
      ring
    have e1 : ((gaussianReal 0 1).map (√(1 + b ^ 2) * ·)) (Iic a) = ENNReal.ofReal (ndtr0 (a / √(1 + b ^ 2))) := by
      rw [Measure.map_apply (by fun_prop) measurableSet_Iic, ← gauss_Iic]
      congr 1
      ext x
      simp only [mem_preimage, mem_Iic]
      rw [le_div_iff₀ hpos, mul_comm]
    rw [← e1, ← hv, ← hm, ← lintegral_indicator_one measurableSet_Iic, Measure.lintegral_conv (by
      exact measurable_one.indicator measurableSet_Iic)]
    have e2 : ∀ w : ℝ, ∫⁻ y, (Iic a).indicator 1 (w + y) ∂(gaussianReal 0 1) = gaussianReal 0 1 (Iic (a - w)) := fun w => by
      rw [← lintegral_indicator_one measurableSet_Iic]
      refine lintegral_congr fun y => ?_
      by_cases hy : w + y ≤ a
      · rw [indicator_of_mem (by exact hy), indicator_of_mem (show y ∈ Iic (a - w) by rw [mem_Iic]; linarith)]; rfl
      · rw [indicator_of_notMem (by exact hy), indicator_of_notMem (show y ∉ Iic (a - w) by rw [mem_Iic]; intro h; apply hy; linarith)]
    simp only [e2, gauss_Iic]
    rw [lintegral_map (by
      have : Continuous fun w => ndtr0 (a - w) := hc.comp (by fun_prop)
      exact this.measurable.ennreal_ofReal) (by fun_prop)]
    refine lintegral_congr fun e => ?_
    congr 2
    ring
  have h2 : ∫ e, ndtr0 (a + b * e) ∂(gaussianReal 0 1) = ndtr0 (a / √(1 + b ^ 2)) := by
    rw [integral_eq_lintegral_of_nonneg_ae (ae_of_all _ fun e => (ndtr0_range _).1.le)
      (by have : Continuous fun e => ndtr0 (a + b * e) := hc.comp (by fun_prop)
          exact this.aestronglyMeasurable), h1, ENNReal.toReal_ofReal (ndtr0_range _).1.le]
  rw [integral_gaussianReal_eq_integral_smul one_ne_zero, ← phi0_eq] at h2
  rw [← h2]
  refine integral_congr_ae (ae_of_all _ fun e => ?_)
  simp only [smul_eq_mul]
  ring

/-- The factor `c` with which `Φ(c x)` approximates the logistic function. -/
noncomputable def logitC : ℝ := 16 * √3 / (15 * π)

theorem logitC_bounds : 0 < logitC ∧ logitC < 1 := by
  have h3 : √3 < 2 := by rw [Real.sqrt_lt' (by norm_num)]; norm_num
  have h30 : 0 < √3 := Real.sqrt_pos.2 (by norm_num)
  have hp := Real.pi_gt_three
  unfold logitC
  refine ⟨by positivity, ?_⟩
  rw [div_lt_one (by positivity)]
  linarith

/-- Averaged over the residual of the latent variable, with variance one, `Φ(c (η + e))` is `Φ(c η / √(1 + c²))`: the coefficients
on the scale of the response are those of the latent variable over `√(1 + c²)`. -/
theorem C196_marginal (c eta : ℝ) : ∫ e, ndtr0 (c * (eta + e)) * phi0 e = ndtr0 (c * (eta / √(1 + c ^ 2))) := by
  have := ndtr_mean (c * eta) c
  rw [mul_div_assoc] at this
  rw [← this]
  simp only [mul_add]

/-- The coefficients are divided by `√(1 + c)` instead, which is larger. -/
theorem C196_scale_violated : bernScale = √(1 + logitC) ∧ √(1 + logitC ^ 2) < bernScale ∧
    ∀ eta, 0 < eta → ndtr0 (logitC * (eta / bernScale)) < ∫ e, ndtr0 (logitC * (eta + e)) * phi0 e := by
  obtain ⟨h0, h1⟩ := logitC_bounds
  have hlt : √(1 + logitC ^ 2) < bernScale := Real.sqrt_lt_sqrt (by positivity) (by change _ < 1 + logitC; nlinarith)
  refine ⟨rfl, hlt, fun eta he => ?_⟩
  rw [C196_marginal]
  apply ndtr0_mono
  have hp : (0:ℝ) < √(1 + logitC ^ 2) := Real.sqrt_pos.2 (by positivity)
  exact mul_lt_mul_of_pos_left (div_lt_div_of_pos_left he hp hlt) h0

/-- The sum of squares of rescaled random effects is that of the random effects over the square of the factor. -/
theorem C196_scale_effects (b th u : List ℝ) :
    ((rescale b th u).2.2.map (· ^ 2)).sum = (u.map (· ^ 2)).sum / bernScale ^ 2 := by
  unfold rescale
  simp only [List.map_map]
  induction u with
  | nil => simp
  | cons a u ih =>
    simp only [List.map_cons, List.sum_cons, ih, Function.comp]
    ring

/-- The variances are divided by the factor instead of its square: a variance that is the mean square of the random effects is not
so after rescaling. -/
theorem C196_scale_variance_violated (b u : List ℝ) (hu : u ≠ []) (hs : 0 < (u.map (· ^ 2)).sum) :
    let r := rescale b [(u.map (· ^ 2)).sum / u.length] u
    r.2.1 ≠ [(r.2.2.map (· ^ 2)).sum / (u.length : ℝ)] := by
  intro r h
  have h1 : 1 < bernScale := by
    unfold bernScale
    rw [Real.lt_sqrt zero_le_one, one_pow]
    linarith [logitC_bounds.1, show logitC = 16 * √3 / (15 * π) from rfl]
  have hl : (0:ℝ) < u.length := by exact_mod_cast List.length_pos_iff.2 hu
  have e1 : r.2.1 = [(u.map (· ^ 2)).sum / u.length / bernScale] := rfl
  have e2 := C196_scale_effects b [(u.map (· ^ 2)).sum / u.length] u
  rw [e1, show (r.2.2.map (· ^ 2)).sum = _ from e2] at h
  have := List.head_eq_of_cons_eq h
  have h0 : bernScale ≠ 0 := by positivity
  field_simp at this
  linarith

/-- The normal survival function. -/
noncomputable def sf0 (x : ℝ) : ℝ := 1 - ndtr0 x

theorem sf_neg (x : ℝ) : ndtr0 (-x) = sf0 x := by
  have h1 := integral_add_compl (measurableSet_Iic (a := x)) phi0_int
  rw [compl_Iic, phi0_total] at h1
  have h2 : ∫ t in Ioi x, phi0 t = ∫ t in Iic (-x), phi0 t := by
    have := integral_comp_neg_Iic (-x) phi0
    rw [neg_neg] at this
    rw [← this]
    exact setIntegral_congr_fun measurableSet_Iic fun t _ => pdf_even t
  unfold sf0 ndtr0
  linarith

/-- The reported value is half of the two-sided p-value, the probability of a standard normal variable at least as large in size. -/
theorem C196_pvalue_partial (mean sd : ℝ) :
    2 * pvalue sf0 mean sd = ndtr0 (-|mean / sd|) + (1 - ndtr0 |mean / sd|) := by
  unfold pvalue
  rw [sf_neg]
  unfold sf0
  ring

/-- So it never exceeds one half; a coefficient of exactly zero has p-value one half. -/
theorem C196_pvalue_violated : (∀ mean sd, pvalue sf0 mean sd ≤ 1 / 2) ∧ pvalue sf0 0 1 = 1 / 2 := by
  refine ⟨fun mean sd => ?_, ?_⟩
  · have := ndtr0_mono.monotone (abs_nonneg (mean / sd))
    rw [cdf_half] at this
    unfold pvalue sf0
    linarith
  · simp [pvalue, sf0, cdf_half]
    norm_num

theorem get_mid {α : Type} (a l b : List α) : (List.range' a.length l.length).map (fun i => (a ++ (l ++ b))[i]?) = l.map some := by
  apply List.ext_getElem
  · simp
  · intro i h1 h2
    simp only [List.length_map, List.length_range'] at h1
    simp only [List.getElem_map, List.getElem_range', one_mul]
    rw [List.getElem?_append_right (by omega), Nat.add_sub_cancel_left, List.getElem?_append_left h1, List.getElem?_eq_getElem h1]

theorem triu_lab (t k : ℕ) : ((triu k).map fun c => Lab.g t c.1 c.2) =
    (List.range k).flatMap fun j => (List.range k).filterMap fun i => if j ≤ i then some (Lab.g t j i) else none := by
  unfold triu
  rw [List.map_flatMap]
  congr 1
  ext1 i
  rw [List.map_filterMap]
  congr 1
  ext1 j
  split <;> rfl

theorem triu_length (k : ℕ) : (triu k).length = k * (k + 1) / 2 := by
  have hc : ∀ i < k, ((List.range k).filterMap fun j => if i ≤ j then some (i, j) else none).length = k - i := fun i hi => by
    rw [List.length_filterMap_eq_countP]
    have : ∀ j, (((if i ≤ j then some (i, j) else none : Option (ℕ × ℕ)).isSome) = decide (i ≤ j)) := fun j => by split <;> simp_all
    simp only [this]
    rw [show k = i + (k - i) by omega, List.range_add, List.countP_append, List.countP_map]
    rw [List.countP_eq_zero.2 (by simp), List.countP_eq_length.2 (by simp)]
    simp
  unfold triu
  rw [List.length_flatMap]
  have : ((List.range k).map fun i => ((List.range k).filterMap fun j => if i ≤ j then some (i, j) else none).length) =
      (List.range k).map fun i => k - i := List.map_congr_left fun i hi => hc i (List.mem_range.1 hi)
  rw [this]
  have h : ∀ m, m ≤ k → ((List.range m).map fun i => k - i).sum * 2 + (k - m) * (k - m + 1) = k * (k + 1) := by
    intro m
    induction m with
    | zero => intro _; simp
    | succ m ih =>
      intro hm
      have := ih (by omega)
      rw [List.range_succ, List.map_append, List.sum_append]
      simp only [List.map_cons, List.map_nil, List.sum_cons, List.sum_nil, add_zero]
      obtain ⟨d, hd⟩ : ∃ d, k - m = d + 1 := ⟨k - m - 1, by omega⟩
      rw [hd] at this ⊢
      rw [show k - (m + 1) = d by omega]
      nlinarith
  have := h k le_rfl
  rw [Nat.sub_self, zero_mul, add_zero] at this
  rw [← this, Nat.mul_div_cancel _ two_pos]

theorem g_length (nrv : List ℕ) : (nrv.zipIdx.flatMap fun ki => (triu ki.1).map fun c => Lab.g ki.2 c.1 c.2).length = nTheta nrv - 1 := by
  have : ∀ (l : List ℕ) (s : ℕ), ((l.zipIdx s).flatMap fun ki => (triu ki.1).map fun c => Lab.g ki.2 c.1 c.2).length =
      (l.map fun k => k * (k + 1) / 2).sum := by
    intro l
    induction l with
    | nil => intro s; rfl
    | cons k l ih =>
      intro s
      rw [List.zipIdx_cons, List.flatMap_cons, List.length_append, List.length_map, triu_length, ih, List.map_cons, List.sum_cons]
  rw [this nrv 0]
  rfl

/-- The thresholds among the contents. -/
def thLabs (thresh : Option ℕ) : List Lab := match thresh with
  | none => []
  | some K => (List.range K).map .t

/-- Every row of the table of results is labelled with the parameter it describes: the labels, in order, are the contents of the
columns of the samples that the table is made from. -/
theorem C196_labels (nfe : ℕ) (nrv : List ℕ) (freeR : Bool) (thresh : Option ℕ) (hK : ∀ K, thresh = some K → 0 < K) :
    (columns nfe nrv freeR thresh).map (fun i => (content nfe nrv thresh)[i]?) = (names nfe nrv freeR thresh).map some := by
  set F := (List.range nfe).map Lab.fe with hF
  set G := nrv.zipIdx.flatMap fun ki => (triu ki.1).map fun c => Lab.g ki.2 c.1 c.2 with hG
  have hFl : F.length = nfe := by simp [hF]
  have hGl : G.length = nTheta nrv - 1 := g_length nrv
  have hth : 1 ≤ nTheta nrv := by unfold nTheta; omega
  set Th : List Lab := thLabs thresh with hTh
  have hcont : content nfe nrv thresh = F ++ (G ++ ([Lab.resid] ++ Th)) := by
    unfold content
    simp only [← triu_lab, List.append_assoc]
    rw [hTh]
    cases thresh <;> rfl
  have c1 : (List.range nfe).map (fun i => (content nfe nrv thresh)[i]?) = F.map some := by
    have := get_mid [] F (G ++ ([Lab.resid] ++ Th))
    rw [List.length_nil, hFl, ← List.range_eq_range', List.nil_append] at this
    rw [hcont, ← this]
  have c2 : (List.range' nfe ((if freeR then nTheta nrv + nfe else nTheta nrv + nfe - 1) - nfe)).map (fun i => (content nfe nrv thresh)[i]?) =
      (G ++ (if freeR then [Lab.resid] else [])).map some := by
    cases freeR with
    | true =>
      have := get_mid F (G ++ [Lab.resid]) Th
      rw [hFl, List.length_append, hGl, List.length_singleton] at this
      simp only [if_true]
      rw [← this, hcont, Nat.add_sub_cancel, Nat.sub_add_cancel hth, List.append_assoc G]
    | false =>
      have := get_mid F G ([Lab.resid] ++ Th)
      rw [hFl, hGl] at this
      simp only [Bool.false_eq_true, if_false, List.append_nil]
      rw [← this, hcont, show nTheta nrv + nfe - 1 - nfe = nTheta nrv - 1 by omega]
  unfold columns names
  dsimp only
  rw [List.map_append, List.map_append, c1, c2, ← hF, ← hG, List.append_assoc F G, ← List.map_append]
  conv_rhs => rw [List.map_append]
  congr 1
  cases thresh with
  | none => rfl
  | some K =>
    obtain ⟨K, rfl⟩ : ∃ k, K = k + 1 := ⟨K - 1, by have := hK K rfl; omega⟩
    dsimp only
    have := get_mid (F ++ (G ++ [Lab.resid, Lab.t 0])) ((List.range (K + 1)).tail.map .t) []
    rw [List.append_nil] at this
    rw [← this]
    have e1 : (F ++ (G ++ [Lab.resid, Lab.t 0])).length = nTheta nrv + nfe + 1 := by
      simp only [List.length_append, hFl, hGl, List.length_cons, List.length_nil]; omega
    have e2 : content nfe nrv (some (K + 1)) = F ++ (G ++ [Lab.resid, Lab.t 0]) ++ (List.range (K + 1)).tail.map .t := by
      rw [hcont, hTh, show thLabs (some (K + 1)) = (List.range (K + 1)).map .t from rfl, List.range_succ_eq_map]
      simp
    rw [e1, e2]
    simp

/-- `aggregate_samples` raises unless the random effects were saved. -/
theorem C196_aggregate_violated {α : Type} (vars : List (String × α)) : aggregate vars none = none := rfl

/-- With saved random effects it returns all blocks. -/
theorem C196_aggregate_partial {α : Type} (vars : List (String × α)) (u : α) : aggregate vars (some u) = some (vars ++ [("u", u)]) := rfl

end Verif.Mcmc
