import Verif.Glm.FamiliesProps
import Mathlib.Analysis.SpecialFunctions.Gamma.Deriv
import Mathlib.Analysis.Complex.CauchyIntegral
import Mathlib.Analysis.Calculus.ContDiff.Basic
import Mathlib.Analysis.Calculus.ContDiff.RestrictScalars
import Mathlib.Analysis.SpecialFunctions.Log.Deriv
import Mathlib.Analysis.Complex.RealDeriv
/-!
# C67: derivatives in the log scale
-/
namespace Verif.Glm
open Real Set

/-- Contract of the gamma functions. -/
structure IsSp (sp : Sp) : Prop where
  gammaln : ∀ x > 0, sp.gammaln x = log (Real.Gamma x)
  digamma : ∀ x > 0, HasDerivAt sp.gammaln (sp.digamma x) x
  trigamma : ∀ x > 0, HasDerivAt sp.digamma (sp.trigamma x) x

/-- The real gamma function is smooth on the positive half line. -/
theorem contDiffOn_Gamma : ContDiffOn ℝ 2 Real.Gamma (Ioi 0) := by
  have ho : IsOpen {z : ℂ | 0 < z.re} := isOpen_lt continuous_const Complex.continuous_re
  have h1 : DifferentiableOn ℂ Complex.Gamma {z : ℂ | 0 < z.re} := by
    intro z hz
    refine (Complex.differentiableAt_Gamma z ?_).differentiableWithinAt
    intro m hm
    have hz : 0 < z.re := hz
    rw [hm] at hz
    simp at hz
    have : (0 : ℝ) ≤ m := Nat.cast_nonneg m
    linarith
  have h2 : ContDiffOn ℝ 2 Complex.Gamma {z : ℂ | 0 < z.re} :=
    (h1.contDiffOn ho).restrict_scalars ℝ
  have h3 : ContDiffOn ℝ 2 (fun x : ℝ => Complex.Gamma (x : ℂ)) (Ioi 0) :=
    h2.comp Complex.ofRealCLM.contDiff.contDiffOn (fun x hx => by simpa using hx)
  have h4 : ContDiffOn ℝ 2 (fun x : ℝ => (Complex.Gamma (x : ℂ)).re) (Ioi 0) :=
    Complex.reCLM.contDiff.comp_contDiffOn h3
  refine h4.congr fun x _ => ?_
  rw [Complex.Gamma_ofReal, Complex.ofReal_re]

/-- The contract is satisfiable. -/
theorem C67_contract : ∃ sp : Sp, IsSp sp := by
  have h1 : ContDiffOn ℝ 2 (fun x => log (Real.Gamma x)) (Ioi 0) :=
    contDiffOn_Gamma.log fun x hx => (Real.Gamma_pos_of_pos hx).ne'
  have h2 : ContDiffOn ℝ 1 (deriv fun x => log (Real.Gamma x)) (Ioi 0) :=
    h1.deriv_of_isOpen isOpen_Ioi (by norm_num)
  refine ⟨⟨fun x => log (Real.Gamma x), deriv fun x => log (Real.Gamma x),
    deriv (deriv fun x => log (Real.Gamma x))⟩, fun _ _ => rfl, fun x hx => ?_, fun x hx => ?_⟩
  · exact ((h1.differentiableOn (by norm_num)).differentiableAt (Ioi_mem_nhds hx)).hasDerivAt
  · exact ((h2.differentiableOn (by norm_num)).differentiableAt (Ioi_mem_nhds hx)).hasDerivAt

/-- `dtau`, `d2tau` are the first two derivatives of `_loglike` in the log of `phi`. -/
def TauOK (F : Family) (Y M : Set ℝ) : Prop :=
  ∃ g h : ℝ → ℝ → ℝ → ℝ → ℝ,
    (∀ tau y mu w, F.dtau tau y mu w = some (g tau y mu w) ∧
      F.d2tau tau y mu w = some (h tau y mu w)) ∧
    ∀ y ∈ Y, ∀ mu ∈ M, ∀ w > 0, ∀ tau,
      HasDerivAt (fun t => F.nll y mu w (exp t) 1) (g tau y mu w) tau ∧
      HasDerivAt (fun t => g t y mu w) (h tau y mu w) tau

/-- The same in the log of the dispersion (negative binomial). -/
def TauOKDisp (F : Family) (Y M : Set ℝ) : Prop :=
  ∃ g h : ℝ → ℝ → ℝ → ℝ → ℝ,
    (∀ tau y mu w, F.dtau tau y mu w = some (g tau y mu w) ∧
      F.d2tau tau y mu w = some (h tau y mu w)) ∧
    ∀ y ∈ Y, ∀ mu ∈ M, ∀ w > 0, ∀ tau,
      HasDerivAt (fun t => F.nll y mu w 1 (exp t)) (g tau y mu w) tau ∧
      HasDerivAt (fun t => g t y mu w) (h tau y mu w) tau

/-- Derivative of `c / exp t`. -/
theorem hasDerivAt_div_exp (c t : ℝ) : HasDerivAt (fun s => c / exp s) (-(c / exp t)) t := by
  refine ((hasDerivAt_const t c).fun_div (hasDerivAt_exp t) (exp_ne_zero t)).congr_deriv ?_
  have := exp_ne_zero t
  field_simp
  ring

theorem C67_gaussian : TauOK gaussian univ univ := by
  refine ⟨_, _, fun _ _ _ _ => ⟨rfl, rfl⟩, fun y _ mu _ w hw tau => ⟨?_, ?_⟩⟩
  · have he := exp_pos tau
    have hw' : w ≠ 0 := ne_of_gt hw
    have h1 := hasDerivAt_div_exp w tau
    have hne : w / exp tau ≠ 0 := div_ne_zero hw' he.ne'
    have h2 := ((hasDerivAt_const tau (1 : ℝ)).fun_div h1 hne).log (one_div_ne_zero hne)
    refine (((h1.mul_const ((y - mu) ^ 2)).fun_add h2).div_const 2).congr_deriv ?_
    field_simp
    ring
  · have h1 := hasDerivAt_div_exp (w * (y - mu) ^ 2) tau
    refine ((h1.sub_const 1).fun_neg.div_const 2).congr_deriv ?_
    have := exp_ne_zero tau
    field_simp

theorem C67_invGaussian : TauOK invGaussian (Ioi 0) (Ioi 0) := by
  refine ⟨_, _, fun _ _ _ _ => ⟨rfl, rfl⟩, fun y hy mu hm w hw tau => ⟨?_, ?_⟩⟩
  · have he := exp_pos tau
    have hw' : w ≠ 0 := ne_of_gt hw
    have hy' : y ≠ 0 := ne_of_gt hy
    have hm' : mu ≠ 0 := ne_of_gt hm
    have h1 := (hasDerivAt_const tau (w * (y - mu) ^ 2)).fun_div
      ((hasDerivAt_exp tau).const_mul (y * mu ^ 2)) (by positivity)
    have h2 := (((hasDerivAt_exp tau).mul_const (y ^ 3)).div_const w).log (by positivity)
    refine ((h1.fun_add h2).div_const 2).congr_deriv ?_
    field_simp
    ring
  · have hy' : y ≠ 0 := ne_of_gt hy
    have hm' : mu ≠ 0 := ne_of_gt hm
    have h1 := (hasDerivAt_const tau (w * (y - mu) ^ 2)).fun_div
      (((hasDerivAt_exp tau).mul_const y).mul_const (mu ^ 2))
      (by have := exp_pos tau; positivity)
    refine ((h1.sub_const 1).fun_neg.div_const 2).congr_deriv ?_
    have := exp_ne_zero tau
    field_simp
    ring

theorem C67_gamma {sp : Sp} (hsp : IsSp sp) : TauOK (gamma sp) (Ioi 0) (Ioi 0) := by
  refine ⟨_, _, fun _ _ _ _ => ⟨rfl, rfl⟩, fun y hy mu hm w hw tau => ?_⟩
  have he := exp_pos tau
  have hw : 0 < w := hw
  have hy : 0 < y := hy
  have hm : 0 < mu := hm
  have h1 := hasDerivAt_div_exp w tau
  have hp : 0 < w / exp tau := div_pos hw he
  have hg := (hsp.digamma _ hp).comp tau h1
  have hd := (hsp.trigamma _ hp).comp tau h1
  have h2 := (h1.mul_const y).div_const mu
  have h3 := h2.log (by positivity)
  have elog : ∀ t : ℝ, log (w * y / (exp t * mu)) = log (w / exp t * y / mu) := by
    intro t; congr 1; have := exp_ne_zero t; field_simp
  have h4 : HasDerivAt (fun t => log (w * y / (exp t * mu))) (-1) tau := by
    simp only [elog]
    refine h3.congr_deriv ?_
    field_simp
  constructor
  · refine ((h2.fun_sub (h1.fun_mul h3)).fun_add hg).congr_deriv ?_
    rw [elog]
    generalize log (w / exp tau * y / mu) = L
    generalize sp.digamma (w / exp tau) = D
    field_simp
    ring
  · refine (h1.fun_mul ((h4.fun_add (hasDerivAt_const tau (1 - y / mu))).fun_add
      hd.fun_neg)).congr_deriv ?_
    simp only [Function.comp]
    generalize log (w * y / (exp tau * mu)) = L
    generalize sp.digamma (w / exp tau) = D
    generalize sp.trigamma (w / exp tau) = T
    field_simp
    ring

theorem C67_negBinomial {sp : Sp} (hsp : IsSp sp) :
    TauOKDisp (negBinomial sp) (Ici 0) (Ioi 0) := by
  refine ⟨_, _, fun _ _ _ _ => ⟨rfl, rfl⟩, fun y hy mu hm w hw tau => ?_⟩
  have he := exp_pos tau
  have hy : 0 ≤ y := hy
  have hm : 0 < mu := hm
  have h1 := hasDerivAt_div_exp 1 tau
  have hp : 0 < 1 / exp tau := by positivity
  have hp2 : 0 < y + 1 / exp tau := by positivity
  have hg1 := (hsp.digamma _ hp).comp tau h1
  have hd1 := (hsp.trigamma _ hp).comp tau h1
  have hg2 := (hsp.digamma _ hp2).comp tau (h1.const_add y)
  have hd2 := (hsp.trigamma _ hp2).comp tau (h1.const_add y)
  have hk := (hasDerivAt_exp tau).mul_const mu
  have hlk := hk.log (by positivity)
  have hu := (hk.const_add 1)
  have hne : 1 + exp tau * mu ≠ 0 := by positivity
  have hlu := hu.log hne
  constructor
  · refine (((((hlk.const_mul y).fun_sub ((h1.const_add y).fun_mul hlu)).fun_add hg2).fun_sub
      hg1).const_mul (-w)).congr_deriv ?_
    generalize log (1 + exp tau * mu) = L
    generalize sp.digamma (1 / exp tau) = D1
    generalize sp.digamma (y + 1 / exp tau) = D2
    field_simp
    ring
  · refine ((hasDerivAt_div_exp w tau).fun_neg.fun_mul
      ((((((hasDerivAt_exp tau).mul_const (y - mu)).fun_div hu hne).fun_add hlu).fun_add
        hd2.fun_neg).fun_add hd1)).congr_deriv ?_
    simp only [Function.comp]
    generalize log (1 + exp tau * mu) = L
    generalize sp.digamma (1 / exp tau) = D1
    generalize sp.digamma (y + 1 / exp tau) = D2
    generalize sp.trigamma (1 / exp tau) = T1
    generalize sp.trigamma (y + 1 / exp tau) = T2
    field_simp
    ring

/-! ### `llscale` -/

theorem C67_llscale_gaussian (y : List ℝ) {phi : ℝ} (h : 0 < phi) :
    HasDerivAt (fun s => gaussianLls s y) (gaussianDlls phi y) phi ∧
    HasDerivAt (fun s => gaussianDlls s y) (gaussianD2lls phi y) phi := by
  constructor
  · refine ((((hasDerivAt_log h.ne').div_const 2).add_const
      (log (2 * π) / 2)).const_mul (y.length : ℝ)).congr_deriv ?_
    simp only [gaussianDlls]; field_simp
  · refine ((hasDerivAt_const phi (y.length : ℝ)).fun_div ((hasDerivAt_id phi).const_mul 2)
      (mul_ne_zero two_ne_zero h.ne')).congr_deriv ?_
    simp only [gaussianD2lls, id]; field_simp; ring

theorem hasDerivAt_list_sum (f : ℝ → ℝ → ℝ) (c x : ℝ) (y : List ℝ)
    (h : ∀ a ∈ y, HasDerivAt (fun s => f a s) c x) :
    HasDerivAt (fun s => (y.map fun a => f a s).sum) (c * y.length) x := by
  induction y with
  | nil => simpa using hasDerivAt_const x (0 : ℝ)
  | cons a t ih =>
    simp only [List.map_cons, List.sum_cons]
    refine ((h a (by simp)).fun_add (ih fun b hb => h b (by simp [hb]))).congr_deriv ?_
    push_cast [List.length_cons]; ring

theorem C67_llscale_gamma {sp : Sp} (hsp : IsSp sp) (y : List ℝ) {phi : ℝ} (h : 0 < phi) :
    HasDerivAt (fun s => gammaLls sp s y) (gammaDlls sp phi y) phi ∧
    HasDerivAt (fun s => gammaDlls sp s y) (gammaD2lls sp phi y) phi := by
  have hv : 0 < 1 / phi := by positivity
  have h1 : HasDerivAt (fun s : ℝ => 1 / s) (-1 / phi ^ 2) phi := by
    simpa using hasDerivAt_const_div_pow 1 0 h.ne'
  have hl := hasDerivAt_log h.ne'
  have hg := (hsp.digamma _ hv).comp phi h1
  have hd := (hsp.trigamma _ hv).comp phi h1
  constructor
  · refine (hasDerivAt_list_sum (fun a s => sp.gammaln (1 / s) + log s * (1 / s) + 1 / s + log a)
      (-(sp.digamma (1 / phi) + log phi) * (1 / phi) ^ 2) phi y ?_)
    intro a _
    refine (((hg.fun_add (hl.fun_mul h1)).fun_add h1).add_const (log a)).congr_deriv ?_
    field_simp
    ring
  · refine ((((hd.fun_add hl).fun_neg).fun_mul (h1.fun_pow 2)).mul_const
      (y.length : ℝ)).congr_deriv ?_
    simp only [gammaD2lls, Function.comp, Nat.reduceSub, pow_one, Nat.cast_ofNat]
    generalize sp.digamma (1 / phi) = D
    generalize sp.trigamma (1 / phi) = T
    field_simp
    ring

/-- The first derivative of the inverse Gaussian scale term is right, the second has the wrong
sign … -/
theorem C67_llscale_invGaussian_partial (y : List ℝ) {phi : ℝ} (h : 0 < phi) :
    HasDerivAt (fun s => invGaussianLls s y) (invGaussianDlls phi y) phi ∧
    HasDerivAt (fun s => invGaussianDlls s y) (-invGaussianD2lls phi y) phi := by
  constructor
  · refine (hasDerivAt_list_sum (fun a s => log s / 2 + log (2 * π * a ^ 3) / 2)
      (phi⁻¹ / 2) phi y fun a _ => ((hasDerivAt_log h.ne').div_const 2).add_const _).congr_deriv ?_
    simp only [invGaussianDlls]; field_simp
  · refine ((hasDerivAt_const phi (y.length : ℝ)).fun_div ((hasDerivAt_id phi).const_mul 2)
      (mul_ne_zero two_ne_zero h.ne')).congr_deriv ?_
    simp only [invGaussianD2lls, id]; field_simp; ring

/-- … for every non-empty sample. -/
theorem C67_llscale_invGaussian_violated {y : List ℝ} (hy : y ≠ []) {phi : ℝ} (h : 0 < phi) :
    ¬ HasDerivAt (fun s => invGaussianDlls s y) (invGaussianD2lls phi y) phi := by
  intro hd
  have h1 := hd.unique (C67_llscale_invGaussian_partial y h).2
  have h2 : 0 < (y.length : ℝ) := by
    exact_mod_cast List.length_pos_iff.2 hy
  have h3 : 0 < invGaussianD2lls phi y := by
    simp only [invGaussianD2lls]
    rw [neg_div, neg_neg]
    positivity
  linarith

end Verif.Glm
