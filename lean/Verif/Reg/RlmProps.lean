import Verif.Reg.Rlm
import Verif.Reg.Nb2Props
import Verif.Robust.Props
import Verif.Fa.RotationProps
import Verif.Like.InfluenceProps
/-!
# C135: the robust linear model
-/
namespace Verif.Reg
open Matrix Real Verif.Robust Verif.Fa

variable {n p : ℕ}

/-- `psi` is the derivative of `rho`, -/
def PsiOk (f : Crit) : Prop := ∀ u, HasDerivAt f.rho (f.psi u) u

/-- `rho((y - x) / s) s + s a`. -/
noncomputable def rlmL (f : Crit) (a y x z : ℝ) : ℝ := f.rho ((y - x) / exp z) * exp z + exp z * a

theorem u_line (y x z dx dz : ℝ) : HasDerivAt (fun t : ℝ => (y - (x + t * dx)) / exp (z + t * dz)) (-dx / exp z - (y - x) / exp z * dz) 0 := by
  have hz := exp_pos z
  have h1 : HasDerivAt (fun t : ℝ => y - (x + t * dx)) (-dx) 0 :=
    ((((hasDerivAt_id' (0 : ℝ)).mul_const dx).const_add x).const_sub y).congr_deriv (by ring)
  refine (h1.fun_div (exp_line z dz) (exp_pos _).ne').congr_deriv ?_
  simp only [zero_mul, add_zero]
  field_simp

theorem rlmL_D2 {f : Crit} (h : PsiOk f) (a y x z : ℝ) :
    D2 (rlmL f a y) (-f.psi ((y - x) / exp z)) ((f.rho ((y - x) / exp z) - f.psi ((y - x) / exp z) * ((y - x) / exp z) + a) * exp z) x z := by
  intro dx dz
  have hz := exp_pos z
  have g := comp_at (h ((y - x) / exp z)) (u_line y x z dx dz) (by simp)
  refine ((g.fun_mul (exp_line z dz)).fun_add ((exp_line z dz).mul_const a)).congr_deriv ?_
  simp only [zero_mul, add_zero]
  field_simp
  ring

/-- **C135** `grad` is the derivative of `rho` along every line. -/
theorem C135_gradient {f : Crit} (h : PsiOk f) (a : ℝ) (X : Matrix (Fin n) (Fin p) ℝ) (y : Fin n → ℝ) (theta d : Fin (p + 1) → ℝ) :
    HasDerivAt (fun t : ℝ => rlmRho f a X y (theta + t • d)) (rlmGrad f a X y theta ⬝ᵥ d) 0 := by
  have := sum_grad (X := X) (Z := oneCol n) (theta := theta) d fun i => rlmL_D2 h a (y i) ((X *ᵥ fstPart theta) i) ((oneCol n *ᵥ sndPart theta) i)
  simp only [oneCol_mulVec] at this
  refine this.congr_deriv (congrArg (· ⬝ᵥ d) ?_)
  funext k
  refine Fin.addCases (fun j => ?_) (fun j => ?_) k
  · simp only [rlmGrad, concat, Fin.append_left, resid, mul_neg, Finset.sum_neg_distrib]
  · simp only [rlmGrad, concat, Fin.append_right, oneCol, one_mul, resid, Finset.sum_mul]

/-- **C135** `hessian` is the derivative of `grad`, wherever `phi` is the derivative of `psi` at the scaled residuals. -/
theorem C135_hessian {f : Crit} (h : PsiOk f) (a : ℝ) (X : Matrix (Fin n) (Fin p) ℝ) (y : Fin n → ℝ) (theta d : Fin (p + 1) → ℝ)
    (hphi : ∀ i, HasDerivAt f.psi (f.phi (resid X y (fstPart theta) i / exp (lastP theta))) (resid X y (fstPart theta) i / exp (lastP theta))) (k : Fin (p + 1)) :
    HasDerivAt (fun t : ℝ => rlmGrad f a X y (theta + t • d) k) ((rlmHess f a X y theta *ᵥ d) k) 0 := by
  have hz := exp_pos (lastP theta)
  have h1 : ∀ i, D2 (fun x z => -f.psi ((y i - x) / exp z)) (f.phi (resid X y (fstPart theta) i / exp (lastP theta)) / exp (lastP theta))
      (f.phi (resid X y (fstPart theta) i / exp (lastP theta)) * resid X y (fstPart theta) i / exp (lastP theta)) ((X *ᵥ fstPart theta) i) ((oneCol n *ᵥ sndPart theta) i) := fun i dx dz => by
    rw [oneCol_mulVec]
    have g := comp_at (hphi i) (u_line (y i) ((X *ᵥ fstPart theta) i) (lastP theta) dx dz) (by simp [resid])
    refine g.fun_neg.congr_deriv ?_
    simp only [resid]
    field_simp
    ring
  have h2 : ∀ i, D2 (fun x z => (f.rho ((y i - x) / exp z) - f.psi ((y i - x) / exp z) * ((y i - x) / exp z) + a) * exp z)
      (f.phi (resid X y (fstPart theta) i / exp (lastP theta)) * resid X y (fstPart theta) i / exp (lastP theta))
      (f.phi (resid X y (fstPart theta) i / exp (lastP theta)) * resid X y (fstPart theta) i ^ 2 / exp (lastP theta) +
        (f.rho (resid X y (fstPart theta) i / exp (lastP theta)) - f.psi (resid X y (fstPart theta) i / exp (lastP theta)) * (resid X y (fstPart theta) i / exp (lastP theta)) + a) * exp (lastP theta))
      ((X *ᵥ fstPart theta) i) ((oneCol n *ᵥ sndPart theta) i) := fun i dx dz => by
    rw [oneCol_mulVec]
    have hu := u_line (y i) ((X *ᵥ fstPart theta) i) (lastP theta) dx dz
    have g := comp_at (hphi i) hu (by simp [resid])
    have g0 := comp_at (h (resid X y (fstPart theta) i / exp (lastP theta))) hu (by simp [resid])
    refine ((((g0.fun_sub (g.fun_mul hu)).add_const a)).fun_mul (exp_line (lastP theta) dz)).congr_deriv ?_
    simp only [zero_mul, add_zero, resid]
    field_simp
    ring
  have := sum_hess (X := X) (Z := oneCol n) (theta := theta) d h1 h2 k
  simp only [oneCol_mulVec] at this
  refine (this.congr_of_eventuallyEq (Filter.Eventually.of_forall fun t => ?_)).congr_deriv ?_
  · refine Fin.addCases (fun j => ?_) (fun j => ?_) k
    · simp only [rlmGrad, concat, Fin.append_left, resid, mul_neg, Finset.sum_neg_distrib]
    · simp only [rlmGrad, concat, Fin.append_right, oneCol, one_mul, resid, Finset.sum_mul]
  · refine congrArg (fun M : Matrix (Fin (p + 1)) (Fin (p + 1)) ℝ => (M *ᵥ d) k) ?_
    ext a' b'
    refine Fin.addCases (fun a => ?_) (fun a => ?_) a' <;> refine Fin.addCases (fun b => ?_) (fun b => ?_) b'
    · refine Eq.trans ?_ (block_11 _ _ _ _ a b).symm
      simp only [block_11, wdm, Finset.sum_div]
      exact Finset.sum_congr rfl fun i _ => by ring
    · refine Eq.trans ?_ (block_12 _ _ _ _ a b).symm
      simp only [block_12, wdm, oneCol, mul_one]
    · refine Eq.trans ?_ (block_21 _ _ _ _ a b).symm
      simp only [block_21, wdm, transpose_apply, oneCol, mul_one]
    · refine Eq.trans ?_ (block_22 _ _ _ _ a b).symm
      simp only [block_22, wdm, oneCol, mul_one, one_mul]

theorem huberCrit_psi : PsiOk huberCrit := fun u => C38_huber_psi (by simp only [tuning, huberInit, Option.getD_none]; norm_num) u

/-- **C135** For `Huber()` both hold: the gradient everywhere, the Hessian off the kinks. -/
theorem C135_huber (a : ℝ) (X : Matrix (Fin n) (Fin p) ℝ) (y : Fin n → ℝ) (theta d : Fin (p + 1) → ℝ) :
    HasDerivAt (fun t : ℝ => rlmRho huberCrit a X y (theta + t • d)) (rlmGrad huberCrit a X y theta ⬝ᵥ d) 0 ∧
    ((∀ i, |resid X y (fstPart theta) i| ≠ 1.345 * exp (lastP theta)) → ∀ k,
      HasDerivAt (fun t : ℝ => rlmGrad huberCrit a X y (theta + t • d) k) ((rlmHess huberCrit a X y theta *ᵥ d) k) 0) := by
  refine ⟨C135_gradient huberCrit_psi a X y theta d, fun hk k => C135_hessian huberCrit_psi a X y theta d (fun i => ?_) k⟩
  refine C38_huber_phi (by simp only [tuning, huberInit, Option.getD_none]; norm_num) ?_
  simp only [tuning, huberInit, Option.getD_none]
  intro he
  have hz := exp_pos (lastP theta)
  rw [abs_div, abs_of_pos hz, div_eq_iff hz.ne'] at he
  exact hk i he

/-- **C135** The objective is equivariant: rescaling the response rescales it at the rescaled parameters, so the estimates of the
coefficients and of the scale follow the units of the response. -/
theorem C135_equivariant (f : Crit) (a : ℝ) (X : Matrix (Fin n) (Fin p) ℝ) (y : Fin n → ℝ) (b : Fin p → ℝ) (z : ℝ) {c : ℝ} (hc : 0 < c) :
    rlmRho f a X (c • y) (concat (c • b) fun _ => log c + z) = c * rlmRho f a X y (concat b fun _ => z) := by
  have e1 : ∀ (b : Fin p → ℝ) (w : Fin 1 → ℝ), fstPart (concat b w) = b := fun b w => by funext j; simp only [fstPart, concat, Fin.append_left]
  have e2 : ∀ (b : Fin p → ℝ) (w : Fin 1 → ℝ), lastP (concat b w) = w 0 := fun b w => by simp only [lastP, sndPart, concat, Fin.append_right]
  simp only [rlmRho, e1, e2, exp_add, exp_log hc, resid, mulVec_smul, Finset.mul_sum, Pi.smul_apply, smul_eq_mul]
  refine Finset.sum_congr rfl fun i _ => ?_
  have hz := exp_pos z
  have : (c * y i - c * (X *ᵥ b) i) / (c * exp z) = (y i - (X *ᵥ b) i) / exp z := by rw [← mul_sub, mul_div_mul_left _ _ hc.ne']
  rw [this]
  ring

theorem crit_in {x : ℝ} (h : |x| ≤ 1.345) : huberCrit.psi x = x ∧ huberCrit.phi x = 1 := ⟨if_pos h, if_pos h⟩
theorem crit_out {x : ℝ} (h : ¬|x| ≤ 1.345) : huberCrit.psi x = 1.345 * npSign x ∧ huberCrit.phi x = 0 := ⟨if_neg h, if_neg h⟩

/-- **C135** With residuals in the quadratic zone of `Huber()` all three covariances are those of least squares. -/
theorem C135_cov_partial (X : Matrix (Fin n) (Fin p) ℝ) (r : Fin n → ℝ) (hr : ∀ i, |r i| ≤ 1.345) (hn : 0 < n) (hX : IsUnit (Xᵀ * X).det) :
    rlmCov huberCrit X r = some (((∑ i, r i ^ 2) / ((n : ℝ) - p)) • (Xᵀ * X)⁻¹, ((∑ i, r i ^ 2) / ((n : ℝ) - p)) • (Xᵀ * X)⁻¹, ((∑ i, r i ^ 2) / ((n : ℝ) - p)) • (Xᵀ * X)⁻¹) := by
  have hp : ∀ i, huberCrit.psi (r i) = r i := fun i => (crit_in (hr i)).1
  have hq : ∀ i, huberCrit.phi (r i) = 1 := fun i => (crit_in (hr i)).2
  have hn' : (n : ℝ) ≠ 0 := by positivity
  have hw : wdm X (fun _ => 1) X = Xᵀ * X := by
    ext j k; simp only [wdm, mul_one, mul_apply, transpose_apply]
  simp only [rlmCov, hp, hq, Finset.sum_const, Finset.card_univ, Fintype.card_fin, nsmul_eq_mul, mul_one, div_self hn', sub_self, hw, inv?_unit hX,
    Option.bind_eq_bind, Option.bind_some]
  rw [nonsing_inv_mul _ hX, one_mul]
  simp

/-- **C135** fails for the standard errors: `psi` and `phi` are taken at the raw residuals, not at the residuals over the scale, so the
covariance is not equivariant. Three residuals -1, -1, 2 about a mean: in half units the reported variance is not a quarter. -/
theorem C135_cov_violated : ∃ (X : Matrix (Fin 3) (Fin 1) ℝ) (r : Fin 3 → ℝ) (A B : Matrix (Fin 1) (Fin 1) ℝ), Xᵀ *ᵥ r = 0 ∧
    (rlmCov huberCrit X r).map (·.1) = some A ∧ (rlmCov huberCrit X ((1 / 2 : ℝ) • r)).map (·.1) = some B ∧ B ≠ (1 / 2 : ℝ) ^ 2 • A := by
  have h1 : ¬|(2 : ℝ)| ≤ 1.345 := by norm_num
  have h2 : |(-1 : ℝ)| ≤ 1.345 := by norm_num
  have hX : ((oneCol 3)ᵀ * oneCol 3) 0 0 = 3 := by simp [oneCol, mul_apply]
  have hd : IsUnit ((oneCol 3)ᵀ * oneCol 3).det := by
    rw [det_fin_one, hX]; norm_num
  let r : Fin 3 → ℝ := ![-1, -1, 2]
  have p0 : huberCrit.psi (r 0) = -1 := (crit_in h2).1
  have p1 : huberCrit.psi (r 1) = -1 := (crit_in h2).1
  have p2 : huberCrit.psi (r 2) = 1.345 := (crit_out h1).1.trans (by norm_num [npSign])
  have q0 : huberCrit.phi (r 0) = 1 := (crit_in h2).2
  have q1 : huberCrit.phi (r 1) = 1 := (crit_in h2).2
  have q2 : huberCrit.phi (r 2) = 0 := (crit_out h1).2
  have hw : wdm (oneCol 3) (fun i => huberCrit.phi (r i)) (oneCol 3) 0 0 = 2 := by
    simp only [wdm, oneCol, one_mul, mul_one, Fin.sum_univ_three, q0, q1, q2]; norm_num
  have hwd : IsUnit (wdm (oneCol 3) (fun i => huberCrit.phi (r i)) (oneCol 3)).det := by
    rw [det_fin_one, hw]; norm_num
  have hr : ∀ i, |((1 / 2 : ℝ) • r) i| ≤ 1.345 := fun i => by fin_cases i <;> norm_num [r]
  refine ⟨oneCol 3, r, ((7 / 6 : ℝ) ^ 2 * ((2 + 1.345 ^ 2) / 2) / (2 / 3) ^ 2) • ((oneCol 3)ᵀ * oneCol 3)⁻¹, _, ?_, ?_, by rw [C135_cov_partial _ _ hr (by norm_num) hd]; rfl, ?_⟩
  · funext j; simp [mulVec, dotProduct, oneCol, transpose_apply, Fin.sum_univ_three, r]; norm_num
  · simp only [rlmCov, inv?_unit hd, inv?_unit hwd, Option.bind_eq_bind, Option.bind_some, Fin.sum_univ_three, p0, p1, p2, q0, q1, q2]
    refine congrArg some (congrArg (· • ((oneCol 3)ᵀ * oneCol 3)⁻¹) ?_)
    norm_num
  · intro h
    have h3 := congrFun (congrFun h 0) 0
    have hi : ((oneCol 3)ᵀ * oneCol 3)⁻¹ 0 0 = (1 / 3 : ℝ) := by
      have := congrFun (congrFun (mul_nonsing_inv _ hd) 0) 0
      rw [mul_apply, Fin.sum_univ_one, hX, one_apply_eq] at this
      linarith
    simp only [Matrix.smul_apply, hi, smul_eq_mul, Fin.sum_univ_three, Pi.smul_apply, show r 0 = -1 from rfl, show r 1 = -1 from rfl, show r 2 = 2 from rfl] at h3
    norm_num at h3

/-- **C135** The fixed points of `irwls`: `nwls` takes weights, not their roots, so it is the residuals weighted by
`sqrt(psi(u) / u)` that are orthogonal to the columns. -/
theorem C135_irwls_fixed {f : Crit} {mad : (Fin n → ℝ) → ℝ} {nwls : (Fin n → ℝ) → Fin p → ℝ} {X : Matrix (Fin n) (Fin p) ℝ} {y : Fin n → ℝ} {b : Fin p → ℝ}
    (hn : ∀ w, IsUnit (Xᵀ * diagonal w * X).det → Verif.Like.NormalEq X y w (nwls w))
    (hu : IsUnit (Xᵀ * diagonal (irwlsW f.psi (mad (resid X y b)) (resid X y b)) * X).det) :
    irwlsStep f mad nwls X y b = b ↔ ∀ j, ∑ i, X i j * (irwlsW f.psi (mad (resid X y b)) (resid X y b) i * resid X y b i) = 0 := by
  have key : Verif.Like.NormalEq X y (irwlsW f.psi (mad (resid X y b)) (resid X y b)) b ↔ ∀ j, ∑ i, X i j * (irwlsW f.psi (mad (resid X y b)) (resid X y b) i * resid X y b i) = 0 := by
    rw [Verif.Like.NormalEq, funext_iff]
    refine forall_congr' fun j => ?_
    rw [← mulVec_mulVec, ← sub_eq_zero, ← Pi.sub_apply, ← mulVec_sub, ← neg_eq_zero]
    rw [show -((Xᵀ * diagonal (irwlsW f.psi (mad (resid X y b)) (resid X y b))) *ᵥ (X *ᵥ b - y)) j = ∑ i, X i j * (irwlsW f.psi (mad (resid X y b)) (resid X y b) i * resid X y b i) by
      rw [← mulVec_mulVec]
      simp only [mulVec, dotProduct, transpose_apply, diagonal_apply, ite_mul, zero_mul, Finset.sum_ite_eq, Finset.mem_univ, if_true, ← Finset.sum_neg_distrib]
      refine Finset.sum_congr rfl fun i _ => ?_
      simp only [resid, mulVec, dotProduct, Pi.sub_apply]; ring]
  rw [← key]
  refine ⟨fun h => ?_, fun h => Verif.Like.wls_unique hu (hn _ hu) h⟩
  have := hn _ hu
  rwa [show nwls (irwlsW f.psi (mad (resid X y b)) (resid X y b)) = b from h] at this

/-- **C135** fails for `irwls`: its fixed points are not stationary points of the objective. Whatever positive scale `mad` returns, the
observations 4 c s, -c s, -c s about a mean have the fixed point 0, where the gradient of the objective in the mean is c. -/
theorem C135_irwls_violated {s : ℝ} (hs : 0 < s) {nwls : (Fin 3 → ℝ) → Fin 1 → ℝ}
    (hn : ∀ w, IsUnit ((oneCol 3)ᵀ * diagonal w * oneCol 3).det → Verif.Like.NormalEq (oneCol 3) ![4 * 1.345 * s, -1.345 * s, -1.345 * s] w (nwls w)) :
    irwlsStep huberCrit (fun _ => s) nwls (oneCol 3) ![4 * 1.345 * s, -1.345 * s, -1.345 * s] 0 = 0 ∧
    rlmGrad huberCrit 0.5 (oneCol 3) ![4 * 1.345 * s, -1.345 * s, -1.345 * s] (concat 0 fun _ => log s) (Fin.castAdd 1 0) = 1.345 := by
  let y : Fin 3 → ℝ := ![4 * 1.345 * s, -1.345 * s, -1.345 * s]
  have hr : resid (oneCol 3) y 0 = y := by funext i; simp [resid]
  have u0 : y 0 / s = 4 * 1.345 := by simp only [y, cons_val_zero]; field_simp
  have u1 : y 1 / s = -1.345 := by simp only [y, cons_val_one, cons_val_zero]; field_simp
  have u2 : y 2 / s = -1.345 := by show -1.345 * s / s = _; field_simp
  have o : ¬|(4 * 1.345 : ℝ)| ≤ 1.345 := by norm_num
  have i' : |(-1.345 : ℝ)| ≤ 1.345 := by norm_num
  have P0 : huberCrit.psi (y 0 / s) = 1.345 := by rw [u0]; exact (crit_out o).1.trans (by norm_num [npSign])
  have P1 : huberCrit.psi (y 1 / s) = -1.345 := by rw [u1]; exact (crit_in i').1
  have P2 : huberCrit.psi (y 2 / s) = -1.345 := by rw [u2]; exact (crit_in i').1
  have w0 : irwlsW huberCrit.psi s y 0 = 1 / 2 := by
    simp only [irwlsW, P0]; rw [u0, show (1.345 / (4 * 1.345) : ℝ) = (1 / 2) ^ 2 by norm_num, sqrt_sq (by norm_num)]
  have w1 : irwlsW huberCrit.psi s y 1 = 1 := by
    simp only [irwlsW, P1]; rw [u1, show (-1.345 / -1.345 : ℝ) = 1 by norm_num, sqrt_one]
  have w2 : irwlsW huberCrit.psi s y 2 = 1 := by
    simp only [irwlsW, P2]; rw [u2, show (-1.345 / -1.345 : ℝ) = 1 by norm_num, sqrt_one]
  constructor
  · refine (C135_irwls_fixed hn ?_).2 fun j => ?_
    · rw [hr, det_fin_one]
      simp only [mul_apply, Fin.sum_univ_three, transpose_apply, diagonal_apply, oneCol, w0, w1, w2]
      norm_num [Fin.ext_iff]
    · rw [hr]
      simp only [Fin.sum_univ_three, oneCol, w0, w1, w2]
      simp [y]; ring
  · have e1 : fstPart (concat (0 : Fin 1 → ℝ) fun _ : Fin 1 => log s) = 0 := by funext j; simp only [fstPart, concat, Fin.append_left]
    have e2 : lastP (concat (0 : Fin 1 → ℝ) fun _ : Fin 1 => log s) = log s := by simp only [lastP, sndPart, concat, Fin.append_right]
    simp only [rlmGrad]
    rw [concat, Fin.append_left]
    simp only [e1, e2, exp_log hs, Fin.sum_univ_three, oneCol, one_mul]
    have : resid (oneCol 3) ![4 * 1.345 * s, -1.345 * s, -1.345 * s] 0 = y := hr
    rw [this, P0, P1, P2]
    norm_num

/-- A solver as the theorem wants exists: the inverse of the normal matrix. -/
example (X : Matrix (Fin n) (Fin p) ℝ) (y : Fin n → ℝ) : ∃ nwls : (Fin n → ℝ) → Fin p → ℝ,
    ∀ w, IsUnit (Xᵀ * diagonal w * X).det → Verif.Like.NormalEq X y w (nwls w) :=
  ⟨fun w => (Xᵀ * diagonal w * X)⁻¹ *ᵥ ((Xᵀ * diagonal w) *ᵥ y), fun w h => by
    rw [Verif.Like.NormalEq, mulVec_mulVec, mul_nonsing_inv _ h, one_mulVec]⟩

/-- **C135** Where `phi` is constant at the residuals, as for any criterion in a quadratic zone, the three covariances coincide. -/
theorem C135_cov_agree (f : Crit) (X : Matrix (Fin n) (Fin p) ℝ) (r : Fin n → ℝ) {c : ℝ} (hc : c ≠ 0) (hr : ∀ i, f.phi (r i) = c) (hn : 0 < n)
    (hX : IsUnit (Xᵀ * X).det) :
    ∃ V, rlmCov f X r = some (V, V, V) ∧ V = ((∑ i, f.psi (r i) ^ 2) / ((n : ℝ) - p) / c ^ 2) • (Xᵀ * X)⁻¹ := by
  have hn' : (n : ℝ) ≠ 0 := by positivity
  have hw : wdm X (fun _ => c) X = c • (Xᵀ * X) := by
    ext j k
    simp only [wdm, mul_apply, transpose_apply, Matrix.smul_apply, smul_eq_mul, Finset.mul_sum]
    exact Finset.sum_congr rfl fun i _ => by ring
  have hi : (c • (Xᵀ * X))⁻¹ = c⁻¹ • (Xᵀ * X)⁻¹ := by
    refine inv_eq_right_inv ?_
    rw [smul_mul_smul_comm, mul_inv_cancel₀ hc, one_smul, mul_nonsing_inv _ hX]
  have hu : IsUnit (c • (Xᵀ * X)).det := by
    rw [det_smul]
    exact (isUnit_iff_ne_zero.2 (pow_ne_zero _ hc)).mul hX
  refine ⟨_, ?_, rfl⟩
  simp only [rlmCov, hr, hw, inv?_unit hX, inv?_unit hu, Option.bind_eq_bind, Option.bind_some, Finset.sum_const, Finset.card_univ, Fintype.card_fin,
    nsmul_eq_mul, mul_div_cancel_left₀ c hn', sub_self, hi]
  rw [smul_mul_assoc, smul_mul_assoc, nonsing_inv_mul _ hX, one_mul]
  simp only [smul_smul]
  generalize (∑ i, f.psi (r i) ^ 2) / ((n : ℝ) - p) = E
  simp only [pure, Option.some.injEq, Prod.mk.injEq]
  refine ⟨?_, ?_, ?_⟩ <;> congr 1 <;> simp <;> field_simp

end Verif.Reg
