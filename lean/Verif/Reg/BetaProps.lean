import Verif.Reg.Beta
import Verif.Reg.TwoLemmas
import Verif.Glm.TauProps
import Mathlib.Probability.Distributions.Beta
/-!
# C132: beta regression
-/
namespace Verif.Reg
open Matrix Real Set Verif.Glm

variable {n p q : ℕ}

/-- Contract of a link: `inv` takes values in `M`, and `dlink`, `d2link` are the derivatives of its inverse function. -/
structure BOk (l : BLink) (M : Set ℝ) : Prop where
  mem : ∀ e, l.inv e ∈ M
  ne : ∀ mu ∈ M, l.dlink mu ≠ 0
  inv : ∀ e, HasDerivAt l.inv (1 / l.dlink (l.inv e)) e
  d2 : ∀ mu ∈ M, HasDerivAt l.dlink (l.d2link mu) mu

theorem C132_logit : BOk BLink.logit (Ioo 0 1) := by
  refine ⟨fun e => ?_, fun mu hm => ?_, fun e => ?_, fun mu hm => ?_⟩
  · have := exp_pos e
    simp only [BLink.logit, mem_Ioo]
    exact ⟨by positivity, by rw [div_lt_one (by positivity)]; linarith⟩
  · have h0 := hm.1
    have h1 : 0 < 1 - mu := by linarith [hm.2]
    simp only [BLink.logit]; positivity
  · have := exp_pos e
    simp only [BLink.logit]
    refine ((hasDerivAt_exp e).fun_div ((hasDerivAt_exp e).add_const 1) (by positivity)).congr_deriv ?_
    have h2 : 1 - exp e / (exp e + 1) = 1 / (exp e + 1) := by field_simp; ring
    rw [h2]
    field_simp
    ring
  · have h0 := hm.1
    have h1 : 0 < 1 - mu := by linarith [hm.2]
    simp only [BLink.logit]
    refine ((hasDerivAt_const mu (1 : ℝ)).fun_div ((hasDerivAt_id' mu).fun_mul ((hasDerivAt_id' mu).const_sub 1)) (by positivity)).congr_deriv ?_
    field_simp
    ring

theorem C132_log : BOk BLink.log (Ioi 0) := by
  have he : ∀ mu ∈ Ioi (0 : ℝ), BLink.log.dlink mu = 1 / mu := fun mu hm => by
    have : (0 : ℝ) < mu := hm
    simp only [BLink.log, exp_log this]
  refine ⟨fun e => exp_pos e, fun mu hm => ?_, fun e => ?_, fun mu hm => ?_⟩
  · rw [he mu hm]; exact one_div_ne_zero (ne_of_gt hm)
  · have h0 : BLink.log.inv e ∈ Ioi (0 : ℝ) := exp_pos e
    rw [he _ h0, one_div_one_div]; exact hasDerivAt_exp e
  · have h0 : (0 : ℝ) < mu := hm
    have : HasDerivAt (fun x : ℝ => 1 / x) (BLink.log.d2link mu) mu := by
      simp only [BLink.log]
      refine ((hasDerivAt_const mu (1 : ℝ)).fun_div (hasDerivAt_id' mu) h0.ne').congr_deriv ?_
      field_simp
      ring
    refine this.congr_of_eventuallyEq ?_
    filter_upwards [isOpen_Ioi.mem_nhds hm] with x hx using he x hx

variable {sp : Sp} {ml sl : BLink}

theorem inv_line {l : BLink} {M : Set ℝ} (h : BOk l M) (x dx : ℝ) : HasDerivAt (fun t : ℝ => l.inv (x + t * dx)) (betaG1 l x * dx) 0 := by
  have h1 : HasDerivAt (fun t : ℝ => x + t * dx) dx 0 := (((hasDerivAt_id' (0 : ℝ)).mul_const dx).const_add x).congr_deriv (by ring)
  have h2 : HasDerivAt l.inv (1 / l.dlink (l.inv x)) ((fun t : ℝ => x + t * dx) 0) := by simpa using h.inv x
  exact HasDerivAt.comp (h₂ := l.inv) (h := fun t : ℝ => x + t * dx) 0 h2 h1

theorem g1_line {l : BLink} {M : Set ℝ} (h : BOk l M) (x dx : ℝ) : HasDerivAt (fun t : ℝ => betaG1 l (x + t * dx)) (betaG2 l x * betaG1 l x * dx) 0 := by
  have h1 := inv_line h x dx
  have h2 : HasDerivAt l.dlink (l.d2link (l.inv x)) ((fun t : ℝ => l.inv (x + t * dx)) 0) := by simpa using h.d2 _ (h.mem x)
  have h3 := HasDerivAt.comp (h₂ := l.dlink) (h := fun t : ℝ => l.inv (x + t * dx)) 0 h2 h1
  have hn := h.ne _ (h.mem x)
  refine ((hasDerivAt_const (0 : ℝ) (1 : ℝ)).fun_div h3 (by simpa using hn)).congr_deriv ?_
  simp only [Function.comp, zero_mul, add_zero, betaG2, betaG1]
  field_simp
  ring

/-- Composition with a function of one variable at a known value. -/
theorem comp_at {f g : ℝ → ℝ} {f' g' v : ℝ} (hf : HasDerivAt f f' v) (hg : HasDerivAt g g' 0) (hv : g 0 = v) : HasDerivAt (fun t => f (g t)) (f' * g') 0 :=
  HasDerivAt.comp (h₂ := f) (h := g) 0 (by rw [hv]; exact hf) hg

/-- The three arguments of the gamma functions along a line. -/
theorem args_line (hm : BOk ml (Ioo 0 1)) (hs : BOk sl (Ioi 0)) (x z dx dz : ℝ) :
    HasDerivAt (fun t : ℝ => ml.inv (x + t * dx) * sl.inv (z + t * dz)) (betaG1 ml x * dx * sl.inv z + ml.inv x * (betaG1 sl z * dz)) 0 ∧
    HasDerivAt (fun t : ℝ => sl.inv (z + t * dz) - ml.inv (x + t * dx) * sl.inv (z + t * dz))
      (betaG1 sl z * dz - (betaG1 ml x * dx * sl.inv z + ml.inv x * (betaG1 sl z * dz))) 0 := by
  have h1 : HasDerivAt (fun t : ℝ => ml.inv (x + t * dx) * sl.inv (z + t * dz)) (betaG1 ml x * dx * sl.inv z + ml.inv x * (betaG1 sl z * dz)) 0 :=
    ((inv_line hm x dx).fun_mul (inv_line hs z dz)).congr_deriv (by simp)
  exact ⟨h1, (inv_line hs z dz).fun_sub h1⟩

theorem pos3 (hm : BOk ml (Ioo 0 1)) (hs : BOk sl (Ioi 0)) (x z : ℝ) :
    0 < sl.inv z ∧ 0 < ml.inv x * sl.inv z ∧ 0 < sl.inv z - ml.inv x * sl.inv z := by
  have h1 : 0 < sl.inv z := hs.mem z
  have h2 := (hm.mem x).1
  have h3 := (hm.mem x).2
  exact ⟨h1, by positivity, by nlinarith⟩

theorem nll_D2 (h : IsSp sp) (hm : BOk ml (Ioo 0 1)) (hs : BOk sl (Ioi 0)) (logy log1y x z : ℝ) :
    D2 (betaNll sp ml sl logy log1y) (-(betaWm ml sl x z * betaRm sp ml sl (logy - log1y) x z)) (-(betaWs sl z * betaRs sp ml sl (logy - log1y) log1y x z)) x z := by
  intro dx dz
  obtain ⟨p1, p2, p3⟩ := pos3 hm hs x z
  obtain ⟨a1, a2⟩ := args_line hm hs x z dx dz
  have g0 := comp_at (h.digamma _ p1) (inv_line hs z dz) (by simp)
  have g1 := comp_at (h.digamma _ p2) a1 (by simp)
  have g2 := comp_at (h.digamma _ p3) a2 (by simp)
  refine (((g0.fun_sub g1).fun_sub g2).fun_add ((a1.sub_const 1).mul_const logy)).fun_add ((a2.sub_const 1).mul_const log1y) |>.fun_neg.congr_deriv ?_
  simp only [betaWm, betaWs, betaRm, betaRs, betaG1]
  ring

theorem rm_D2 (h : IsSp sp) (hm : BOk ml (Ioo 0 1)) (hs : BOk sl (Ioi 0)) (ys x z : ℝ) :
    D2 (fun x z => -(betaWm ml sl x z * betaRm sp ml sl ys x z)) (betaWmm sp ml sl ys x z) (betaWms sp ml sl ys x z) x z := by
  intro dx dz
  obtain ⟨p1, p2, p3⟩ := pos3 hm hs x z
  obtain ⟨a1, a2⟩ := args_line hm hs x z dx dz
  have g1 := comp_at (h.trigamma _ p2) a1 (by simp)
  have g2 := comp_at (h.trigamma _ p3) a2 (by simp)
  have hw : HasDerivAt (fun t : ℝ => betaWm ml sl (x + t * dx) (z + t * dz)) (betaG1 sl z * dz * betaG1 ml x + sl.inv z * (betaG2 ml x * betaG1 ml x * dx)) 0 := by
    refine (((inv_line hs z dz).fun_mul (g1_line hm x dx)).congr_deriv (by simp)).congr_of_eventuallyEq (Filter.Eventually.of_forall fun t => ?_)
    simp only [betaWm, betaG1]; ring
  refine (hw.fun_mul ((g1.fun_sub g2).const_sub ys)).fun_neg.congr_deriv ?_
  simp only [betaWmm, betaWms, betaWm, zero_mul, add_zero]
  have : sl.inv z / ml.dlink (ml.inv x) = sl.inv z * betaG1 ml x := by rw [betaG1]; ring
  rw [this]
  ring

theorem rs_D2 (h : IsSp sp) (hm : BOk ml (Ioo 0 1)) (hs : BOk sl (Ioi 0)) (ys log1y x z : ℝ) :
    D2 (fun x z => -(betaWs sl z * betaRs sp ml sl ys log1y x z)) (betaWms sp ml sl ys x z) (betaWss sp ml sl ys log1y x z) x z := by
  intro dx dz
  obtain ⟨p1, p2, p3⟩ := pos3 hm hs x z
  obtain ⟨a1, a2⟩ := args_line hm hs x z dx dz
  have g0 := comp_at (h.trigamma _ p1) (inv_line hs z dz) (by simp)
  have g1 := comp_at (h.trigamma _ p2) a1 (by simp)
  have g2 := comp_at (h.trigamma _ p3) a2 (by simp)
  have hw : HasDerivAt (fun t : ℝ => betaWs sl (z + t * dz)) (betaG2 sl z * betaG1 sl z * dz) 0 := g1_line hs z dz
  refine (hw.fun_mul (((((inv_line hm x dx).fun_mul ((g1.fun_sub g2).const_sub ys)).fun_add g0).fun_sub g2).add_const log1y)).fun_neg.congr_deriv ?_
  simp only [betaWms, betaWss, betaWs, zero_mul, add_zero]
  have : 1 / sl.dlink (sl.inv z) = betaG1 sl z := rfl
  rw [this]
  ring

theorem ys_eq {y : ℝ} (h0 : 0 < y) (h1 : y < 1) : log (y / (1 - y)) = log y - log (1 - y) :=
  log_div h0.ne' (by linarith)

/-- **C132** `gradient` is the gradient of the objective: the derivative of the negative log likelihood along every line. -/
theorem C132_gradient (h : IsSp sp) (hm : BOk ml (Ioo 0 1)) (hs : BOk sl (Ioi 0)) (X : Matrix (Fin n) (Fin p) ℝ) (Z : Matrix (Fin n) (Fin q) ℝ)
    (y : Fin n → ℝ) (hy : ∀ i, y i ∈ Ioo (0 : ℝ) 1) (theta d : Fin (p + q) → ℝ) :
    HasDerivAt (fun t : ℝ => betaLoglike sp (betaInit X Z y ml sl) (theta + t • d)) (betaGrad sp (betaInit X Z y ml sl) theta ⬝ᵥ d) 0 := by
  refine (sum_grad d fun i => nll_D2 h hm hs (log (y i)) (log (1 - y i)) _ _).congr_deriv (congrArg (· ⬝ᵥ d) ?_)
  funext k
  refine Fin.addCases (fun j => ?_) (fun j => ?_) k
  · simp only [concat, betaGrad, betaInit, Pi.neg_apply, Fin.append_left, wdv, ← Finset.sum_neg_distrib]
    refine Finset.sum_congr rfl fun i _ => ?_
    rw [ys_eq (hy i).1 (hy i).2]; ring
  · simp only [concat, betaGrad, betaInit, Pi.neg_apply, Fin.append_right, wdv, ← Finset.sum_neg_distrib]
    refine Finset.sum_congr rfl fun i _ => ?_
    rw [ys_eq (hy i).1 (hy i).2]; ring

/-- **C132** `hessian` is the derivative of `gradient`. -/
theorem C132_hessian (h : IsSp sp) (hm : BOk ml (Ioo 0 1)) (hs : BOk sl (Ioi 0)) (X : Matrix (Fin n) (Fin p) ℝ) (Z : Matrix (Fin n) (Fin q) ℝ)
    (y : Fin n → ℝ) (theta d : Fin (p + q) → ℝ) (k : Fin (p + q)) :
    HasDerivAt (fun t : ℝ => betaGrad sp (betaInit X Z y ml sl) (theta + t • d) k) ((betaHess sp (betaInit X Z y ml sl) theta *ᵥ d) k) 0 := by
  refine (sum_hess d (fun i => rm_D2 h hm hs (log (y i / (1 - y i))) _ _) (fun i => rs_D2 h hm hs (log (y i / (1 - y i))) (log (1 - y i)) _ _) k).congr_of_eventuallyEq
    (Filter.Eventually.of_forall fun t => ?_)
  refine Fin.addCases (fun j => ?_) (fun j => ?_) k
  · simp only [concat, betaGrad, betaInit, Pi.neg_apply, Fin.append_left, wdv, ← Finset.sum_neg_distrib]
    exact Finset.sum_congr rfl fun i _ => by ring
  · simp only [concat, betaGrad, betaInit, Pi.neg_apply, Fin.append_right, wdv, ← Finset.sum_neg_distrib]
    exact Finset.sum_congr rfl fun i _ => by ring

/-- **C132** The objective is minus the log of the beta density with mean `mu` and precision `phi`. -/
theorem C132_density (h : IsSp sp) (hm : BOk ml (Ioo 0 1)) (hs : BOk sl (Ioi 0)) {y : ℝ} (hy : y ∈ Ioo (0 : ℝ) 1) (x z : ℝ) :
    exp (-betaNll sp ml sl (log y) (log (1 - y)) x z) = ProbabilityTheory.betaPDFReal (ml.inv x * sl.inv z) (sl.inv z - ml.inv x * sl.inv z) y := by
  obtain ⟨p1, p2, p3⟩ := pos3 hm hs x z
  have h1 : 0 < 1 - y := by linarith [hy.2]
  rw [ProbabilityTheory.betaPDFReal, if_pos ⟨hy.1, hy.2⟩, ProbabilityTheory.beta, rpow_def_of_pos hy.1, rpow_def_of_pos h1]
  simp only [betaNll, neg_neg]
  rw [h.gammaln _ p1, h.gammaln _ p2, h.gammaln _ p3, exp_add, exp_add, exp_sub, exp_sub, exp_log (Gamma_pos_of_pos p1), exp_log (Gamma_pos_of_pos p2),
    exp_log (Gamma_pos_of_pos p3), add_sub_cancel, mul_comm (log y), mul_comm (log (1 - y))]
  have := (Gamma_pos_of_pos p1).ne'
  have := (Gamma_pos_of_pos p2).ne'
  have := (Gamma_pos_of_pos p3).ne'
  field_simp

/-- **C132** The likelihood ratio statistic and the Cox-Snell index are those of the likelihoods `L1 = exp (-llf)`, `L0 = exp (-lln)`. -/
theorem C132_llr (l1 l0 k N : ℝ) :
    (betaStats (-l1) (-l0) k N).llr = 2 * (l1 - l0) ∧ (betaStats (-l1) (-l0) k N).cs = 1 - (exp l0 / exp l1) ^ (2 / N) := by
  refine ⟨by simp only [betaStats]; ring, ?_⟩
  simp only [betaStats]
  rw [← exp_sub, ← exp_mul]
  congr 2; ring

/-- **C132** fails for the criteria: they take the objective, minus the log likelihood, for the log likelihood. A better fit (larger
log likelihood `l1`) has a larger `aic`, `aicc`, `bic` and `caic`, -/
theorem C132_aic_violated {l1 l1' : ℝ} (h : l1 < l1') (l0 k N : ℝ) :
    (betaStats (-l1) (-l0) k N).aic < (betaStats (-l1') (-l0) k N).aic ∧ (betaStats (-l1) (-l0) k N).aicc < (betaStats (-l1') (-l0) k N).aicc ∧
    (betaStats (-l1) (-l0) k N).bic < (betaStats (-l1') (-l0) k N).bic ∧ (betaStats (-l1) (-l0) k N).caic < (betaStats (-l1') (-l0) k N).caic := by
  simp only [betaStats]
  refine ⟨?_, ?_, ?_, ?_⟩ <;> linarith

/-- the McFadden index is not `1 - l1 / l0` (for log likelihoods -2 of the model and -4 of the null model it is -1, not 1/2), -/
theorem C132_mcf_violated : (betaStats 2 4 1 10).mcf = -1 ∧ (1 : ℝ) - (-2) / (-4) = 1 / 2 := by
  constructor <;> norm_num [betaStats]

/-- the Aldrich-Nelson index is replaced by its complement: 1 for a model no better than the null model, -/
theorem C132_mfa_violated (l k N : ℝ) : (betaStats l l k N).mfa = 1 ∧ ∀ llf lln, 2 * (lln - llf) + N ≠ 0 → (betaStats llf lln k N).mfa = N / (2 * (lln - llf) + N) := by
  refine ⟨by simp [betaStats], fun llf lln h => ?_⟩
  simp only [betaStats]
  field_simp
  ring

/-- and the Nagelkerke index, scaled by the wrong maximum, can be negative though the model improves on the null model. -/
theorem C132_nagelkerke_violated : (betaStats 1 2 1 2).nag < 0 ∧ 0 < (betaStats 1 2 1 2).cs := by
  have h1 : exp (-1 : ℝ) < 1 := exp_lt_one_iff.2 (by norm_num)
  have h2 : 1 < exp (2 : ℝ) := one_lt_exp_iff.2 (by norm_num)
  have e1 : (2 / 2 * (1 - 2) : ℝ) = -1 := by norm_num
  have e2 : (2 / 2 * 2 : ℝ) = 2 := by norm_num
  simp only [betaStats, e1, e2]
  exact ⟨div_neg_of_pos_of_neg (by linarith) (by linarith), by linarith⟩

/-- **C132** fails for arrays: their labels are lists, which have no `tolist`, so `fit` raises; data frames are labelled in the
order of the parameters. -/
theorem C132_labels_violated (p q : ℕ) (zc : Cols) :
    betaLabels (arrayCols "x" p) zc = none ∧ betaLabels (.index ["a"]) (arrayCols "z" q) = none ∧
    ∀ a b, betaLabels (.index a) (.index b) = some (a ++ b) := ⟨rfl, rfl, fun _ _ => rfl⟩

/-- The hypotheses hold of the default links. -/
example : ∃ sp : Sp, IsSp sp ∧ BOk BLink.logit (Ioo 0 1) ∧ BOk BLink.log (Ioi 0) := C67_contract.imp fun _ h => ⟨h, C132_logit, C132_log⟩

/-- **C132** The penalty of the corrected criterion is that of the literature (the sign of the likelihood is not, see
`C132_aic_violated`), -/
theorem C132_aicc {l1 l0 k N : ℝ} (h : N - k - 1 ≠ 0) :
    (betaStats (-l1) (-l0) k N).aicc = 2 * l1 + (2 * k + 2 * k * (k + 1) / (N - k - 1)) := by
  simp only [betaStats]
  field_simp
  ring

/-- while the adjustment of the McFadden index rewards parameters. -/
theorem C132_mcfa_violated {l1 k : ℝ} (h1 : l1 < 0) (hk : 0 < k) (l0 N : ℝ) :
    (betaStats (-l1) (-l0) k N).mcfa = 1 - (l0 + k) / l1 ∧ (betaStats (-l1) (-l0) k N).mcf < (betaStats (-l1) (-l0) k N).mcfa := by
  have e : (betaStats (-l1) (-l0) k N).mcfa = 1 - (l0 + k) / l1 := by
    simp only [betaStats]
    rw [show -l0 - k = -(l0 + k) by ring, neg_div_neg_eq]
  refine ⟨e, ?_⟩
  rw [e]
  simp only [betaStats]
  rw [neg_div_neg_eq, add_div]
  have := div_neg_of_pos_of_neg hk h1
  linarith

end Verif.Reg
