import Verif.Glmm.Model
import Mathlib.Analysis.SpecialFunctions.Gaussian.GaussianIntegral
import Mathlib.Analysis.Convex.Deriv
import Mathlib.LinearAlgebra.Matrix.PosDef
import Mathlib.Analysis.Matrix.PosDef
import Mathlib.Algebra.Order.Star.Real
import Mathlib.LinearAlgebra.Matrix.SchurComplement
import Mathlib.Analysis.SpecialFunctions.Log.Deriv
/-!
# C197: the conditional modes and the Laplace approximation of `glmm.py`
-/
namespace Verif.Glmm
open Matrix
variable {n q : ℕ}

/-- The penalised log likelihood of an exponential family with cumulant `b` and natural parameter `s • eta`. -/
noncomputable def pen (b : ℝ → ℝ) (s : ℝ) (d : Dat n q) (u : Fin q → ℝ) : ℝ :=
  ∑ i, (d.y i * (s * eta d u i) - b (s * eta d u i)) - u ⬝ᵥ (d.Gi *ᵥ u) / 2

/-- The link is canonical: the mean is the derivative of the cumulant at the linear predictor, the variance its second derivative. -/
structure Canon (F : Fam) (b : ℝ → ℝ) : Prop where
  mean : ∀ x, HasDerivAt b (F.invLink x) x
  var : ∀ x, HasDerivAt F.invLink (F.var (F.invLink x)) x
  pos : ∀ x, 0 ≤ F.var (F.invLink x)

theorem C197_canonical :
    Canon gaussian (fun t => t ^ 2 / 2) ∧ Canon poisson Real.exp ∧ Canon binomial (fun t => Real.log (1 + Real.exp t)) := by
  refine ⟨⟨fun x => ?_, fun x => ?_, fun x => ?_⟩, ⟨fun x => Real.hasDerivAt_exp x, fun x => Real.hasDerivAt_exp x, fun x => (Real.exp_pos x).le⟩,
    ⟨fun x => ?_, fun x => ?_, fun x => ?_⟩⟩
  · refine (((hasDerivAt_id x).pow 2).div_const 2).congr_deriv ?_
    simp [gaussian]
  · exact hasDerivAt_id x
  · simp [gaussian]
  · have h := ((Real.hasDerivAt_exp x).const_add 1).log (by positivity)
    refine h.congr_deriv ?_
    simp only [binomial, Real.exp_neg]
    have := Real.exp_pos x
    field_simp
    ring
  · have h0 : (1 + Real.exp (-x)) ≠ 0 := by positivity
    have h := (((hasDerivAt_neg x).exp).const_add 1).inv h0
    have : binomial.invLink = fun y => (1 + Real.exp (-y))⁻¹ := by funext y; simp [binomial]
    rw [this]
    refine h.congr_deriv ?_
    simp only [binomial]
    have := Real.exp_pos (-x)
    field_simp
    ring
  · simp only [binomial]
    have := Real.exp_pos (-x)
    have h1 : 1 / (1 + Real.exp (-x)) ≤ 1 := by rw [div_le_one (by positivity)]; linarith
    have h2 : 0 ≤ 1 / (1 + Real.exp (-x)) := by positivity
    nlinarith

/-- The cumulants of the classes: their derivative at the canonical parameter of a mean is that mean. -/
theorem C197_cumulants :
    (∀ mu, HasDerivAt gaussian.cumulant mu (gaussian.canon mu)) ∧
    (∀ mu, 0 < mu → HasDerivAt poisson.cumulant mu (poisson.canon mu)) ∧
    (∀ mu, 0 < mu → mu < 1 → HasDerivAt binomial.cumulant mu (binomial.canon mu)) ∧
    (∀ mu, 0 < mu → HasDerivAt gamma.cumulant mu (gamma.canon mu)) := by
  obtain ⟨hg, hp, hb⟩ := C197_canonical
  refine ⟨fun mu => hg.mean mu, fun mu h => ?_, fun mu h h1 => ?_, fun mu h => ?_⟩
  · refine (hp.mean (Real.log mu)).congr_deriv ?_
    exact Real.exp_log h
  · refine (hb.mean (Real.log (mu / (1 - mu)))).congr_deriv ?_
    have : 0 < 1 - mu := by linarith
    simp only [binomial, Real.exp_neg, Real.exp_log (div_pos h this)]
    field_simp; ring
  · have h0 : -(-1 / mu) ≠ 0 := by rw [neg_div, neg_neg]; positivity
    have := ((hasDerivAt_neg (-1 / mu)).log h0).neg
    refine this.congr_deriv ?_
    field_simp

theorem eta_add (d : Dat n q) (u v : Fin q → ℝ) : eta d (u + v) = eta d u + d.Z *ᵥ v := by
  simp [eta, mulVec_add, add_assoc]

theorem score_dot (F : Fam) (d : Dat n q) (u v : Fin q → ℝ) :
    v ⬝ᵥ score F d u = (d.y - fun i => F.invLink (eta d u i)) ⬝ᵥ (d.Z *ᵥ v) - v ⬝ᵥ (d.Gi *ᵥ u) := by
  rw [score, dotProduct_sub, mulVec_transpose, dotProduct_comm v, ← dotProduct_mulVec]

theorem pen_quad (d : Dat n q) (hG : d.Gi.IsSymm) (u v : Fin q → ℝ) :
    HasDerivAt (fun t : ℝ => (u + t • v) ⬝ᵥ (d.Gi *ᵥ (u + t • v)) / 2) (v ⬝ᵥ (d.Gi *ᵥ u)) 0 := by
  have hs : u ⬝ᵥ (d.Gi *ᵥ v) = v ⬝ᵥ (d.Gi *ᵥ u) := by
    rw [dotProduct_mulVec, ← mulVec_transpose, hG.eq, dotProduct_comm]
  have : (fun t : ℝ => (u + t • v) ⬝ᵥ (d.Gi *ᵥ (u + t • v)) / 2) =
      fun t => u ⬝ᵥ (d.Gi *ᵥ u) / 2 + t * (v ⬝ᵥ (d.Gi *ᵥ u)) + t ^ 2 * (v ⬝ᵥ (d.Gi *ᵥ v) / 2) := by
    funext t
    simp only [mulVec_add, mulVec_smul, add_dotProduct, dotProduct_add, smul_dotProduct, dotProduct_smul, smul_eq_mul, hs]
    ring
  rw [this]
  have := (((hasDerivAt_id (0 : ℝ)).mul_const (v ⬝ᵥ (d.Gi *ᵥ u))).const_add (u ⬝ᵥ (d.Gi *ᵥ u) / 2)).add
    ((hasDerivAt_pow 2 (0 : ℝ)).mul_const (v ⬝ᵥ (d.Gi *ᵥ v) / 2))
  refine this.congr_deriv ?_
  simp

/-- The derivative of the penalised log likelihood along a line is the score of the code. -/
theorem C197_score {F : Fam} {b : ℝ → ℝ} (hF : Canon F b) (d : Dat n q) (hG : d.Gi.IsSymm) (u v : Fin q → ℝ) :
    HasDerivAt (fun t : ℝ => pen b 1 d (u + t • v)) (v ⬝ᵥ score F d u) 0 := by
  have he : ∀ i, HasDerivAt (fun t : ℝ => eta d (u + t • v) i) ((d.Z *ᵥ v) i) 0 := fun i => by
    have : (fun t : ℝ => eta d (u + t • v) i) = fun t => eta d u i + t * (d.Z *ᵥ v) i := by
      funext t
      rw [eta_add, mulVec_smul]; simp
    rw [this]
    simpa using ((hasDerivAt_id (0 : ℝ)).mul_const ((d.Z *ᵥ v) i)).const_add (eta d u i)
  have h1 : ∀ i, HasDerivAt (fun t : ℝ => d.y i * (1 * eta d (u + t • v) i) - b (1 * eta d (u + t • v) i))
      ((d.y i - F.invLink (eta d u i)) * (d.Z *ᵥ v) i) 0 := fun i => by
    have hb : HasDerivAt b (F.invLink (eta d u i)) (eta d (u + (0 : ℝ) • v) i) := by simpa using hF.mean (eta d u i)
    have := ((he i).const_mul (d.y i)).sub (hb.comp (0 : ℝ) (he i))
    simp only [one_mul]
    refine this.congr_deriv ?_
    ring
  have h2 := pen_quad d hG u v
  have := (HasDerivAt.fun_sum (u := Finset.univ) fun i _ => h1 i).sub h2
  refine this.congr_deriv ?_
  rw [score_dot]
  simp only [dotProduct, Pi.sub_apply]

/-- Along lines the score has minus the matrix `RtR` as derivative: the step is Newton's. -/
theorem C197_newton {F : Fam} {b : ℝ → ℝ} (hF : Canon F b) (d : Dat n q) (u v w : Fin q → ℝ) :
    HasDerivAt (fun t : ℝ => w ⬝ᵥ score F d (u + t • v)) (-(w ⬝ᵥ (rtr F d u *ᵥ v))) 0 := by
  have he : ∀ i, HasDerivAt (fun t : ℝ => eta d (u + t • v) i) ((d.Z *ᵥ v) i) 0 := fun i => by
    have : (fun t : ℝ => eta d (u + t • v) i) = fun t => eta d u i + t * (d.Z *ᵥ v) i := by
      funext t
      rw [eta_add, mulVec_smul]; simp
    rw [this]
    simpa using ((hasDerivAt_id (0 : ℝ)).mul_const ((d.Z *ᵥ v) i)).const_add (eta d u i)
  have h1 : ∀ i, HasDerivAt (fun t : ℝ => (d.y i - F.invLink (eta d (u + t • v) i)) * (d.Z *ᵥ w) i)
      (-(F.var (F.invLink (eta d u i)) * (d.Z *ᵥ v) i) * (d.Z *ᵥ w) i) 0 := fun i => by
    have hb : HasDerivAt F.invLink (F.var (F.invLink (eta d u i))) (eta d (u + (0 : ℝ) • v) i) := by simpa using hF.var (eta d u i)
    exact ((hb.comp (0 : ℝ) (he i)).const_sub (d.y i)).mul_const _
  have h2 : HasDerivAt (fun t : ℝ => w ⬝ᵥ (d.Gi *ᵥ (u + t • v))) (w ⬝ᵥ (d.Gi *ᵥ v)) 0 := by
    have : (fun t : ℝ => w ⬝ᵥ (d.Gi *ᵥ (u + t • v))) = fun t => w ⬝ᵥ (d.Gi *ᵥ u) + t * (w ⬝ᵥ (d.Gi *ᵥ v)) := by
      funext t
      simp only [mulVec_add, mulVec_smul, dotProduct_add, dotProduct_smul, smul_eq_mul]
    rw [this]
    simpa using ((hasDerivAt_id (0 : ℝ)).mul_const (w ⬝ᵥ (d.Gi *ᵥ v))).const_add (w ⬝ᵥ (d.Gi *ᵥ u))
  have := (HasDerivAt.fun_sum (u := Finset.univ) fun i _ => h1 i).sub h2
  have e : (fun t : ℝ => w ⬝ᵥ score F d (u + t • v)) = ((fun t => ∑ i, (d.y i - F.invLink (eta d (u + t • v) i)) * (d.Z *ᵥ w) i) -
      fun t => w ⬝ᵥ (d.Gi *ᵥ (u + t • v))) := by
    funext t
    rw [score_dot]
    simp only [dotProduct, Pi.sub_apply]
  rw [e]
  refine this.congr_deriv ?_
  rw [rtr, add_mulVec, dotProduct_add, ← mulVec_mulVec, ← mulVec_mulVec, mulVec_transpose, dotProduct_comm w (_ ᵥ* _), ← dotProduct_mulVec, neg_add]
  simp only [dotProduct, mulVec_diagonal, neg_mul, Finset.sum_neg_distrib]
  ring

/-- A value that the step keeps is where the score vanishes. -/
theorem C197_fixed (F : Fam) (d : Dat n q) (u : Fin q → ℝ) (hu : (rtr F d u).det ≠ 0) : step F d u = some u ↔ score F d u = 0 := by
  rw [step, if_neg hu, Option.some.injEq, add_eq_left]
  constructor
  · intro h
    have := congrArg ((rtr F d u) *ᵥ ·) h
    simpa [mulVec_mulVec, mul_nonsing_inv _ (isUnit_iff_ne_zero.2 hu)] using this
  · rintro h
    rw [h, mulVec_zero]

/-- The matrix of the step is positive definite, so the step is defined. -/
theorem rtr_posDef {F : Fam} {b : ℝ → ℝ} (hF : Canon F b) (d : Dat n q) (hG : d.Gi.PosDef) (u : Fin q → ℝ) : (rtr F d u).PosDef := by
  have : (d.Zᵀ * (diagonal (fun i => F.var (F.invLink (eta d u i))) * d.Z)).PosSemidef := by
    rw [← Matrix.mul_assoc]
    have := (PosSemidef.diagonal (d := fun i => F.var (F.invLink (eta d u i))) (fun i => hF.pos _)).conjTranspose_mul_mul_same d.Z
    simpa [conjTranspose_eq_transpose_of_trivial] using this
  exact PosDef.posSemidef_add this hG

theorem C197_step_defined {F : Fam} {b : ℝ → ℝ} (hF : Canon F b) (d : Dat n q) (hG : d.Gi.PosDef) (u : Fin q → ℝ) :
    step F d u = some (u + (rtr F d u)⁻¹ *ᵥ score F d u) := by
  rw [step, if_neg (rtr_posDef hF d hG u).det_pos.ne']

theorem tangent {F : Fam} {b : ℝ → ℝ} (hF : Canon F b) (x y : ℝ) : b x + F.invLink x * (y - x) ≤ b y := by
  have hd : deriv b = F.invLink := funext fun x => (hF.mean x).deriv
  have hm : Monotone F.invLink := monotone_of_deriv_nonneg (fun x => (hF.var x).differentiableAt) fun x => by
    rw [(hF.var x).deriv]; exact hF.pos x
  have hc : ConvexOn ℝ Set.univ b := MonotoneOn.convexOn_of_deriv convex_univ
    (continuous_iff_continuousAt.2 fun x => (hF.mean x).continuousAt).continuousOn
    (fun x _ => ((hF.mean x).differentiableAt).differentiableWithinAt) (by rw [hd]; exact hm.monotoneOn _)
  rcases lt_trichotomy x y with h | h | h
  · have := hc.le_slope_of_hasDerivAt (Set.mem_univ x) (Set.mem_univ y) h (hF.mean x)
    rw [slope_def_field, le_div_iff₀ (by linarith)] at this
    linarith
  · subst h; simp
  · have := hc.slope_le_of_hasDerivAt (Set.mem_univ y) (Set.mem_univ x) h (hF.mean x)
    rw [slope_def_field, div_le_iff₀ (by linarith)] at this
    nlinarith

/-- A fixed point is the only mode of the penalised likelihood. -/
theorem C197_mode {F : Fam} {b : ℝ → ℝ} (hF : Canon F b) (d : Dat n q) (hG : d.Gi.PosDef) (u : Fin q → ℝ) (h : step F d u = some u) :
    ∀ v, v ≠ u → pen b 1 d v < pen b 1 d u := by
  intro v hv
  have hs := (C197_fixed F d u (rtr_posDef hF d hG u).det_pos.ne').1 h
  have hsym : d.Gi.IsSymm := by have := hG.isHermitian; rwa [IsHermitian, conjTranspose_eq_transpose_of_trivial] at this
  obtain ⟨w, rfl⟩ : ∃ w, v = u + w := ⟨v - u, by simp⟩
  have hw : w ≠ 0 := fun e => hv (by simp [e])
  have hp := hG.dotProduct_mulVec_pos hw
  simp only [star_trivial] at hp
  have h0 : w ⬝ᵥ score F d u = 0 := by rw [hs, dotProduct_zero]
  rw [score_dot] at h0
  have hsm : u ⬝ᵥ (d.Gi *ᵥ w) = w ⬝ᵥ (d.Gi *ᵥ u) := by
    rw [dotProduct_mulVec, ← mulVec_transpose, hsym.eq, dotProduct_comm]
  have hsum : ∑ i, (d.y i * (1 * eta d (u + w) i) - b (1 * eta d (u + w) i)) ≤
      ∑ i, (d.y i * (1 * eta d u i) - b (1 * eta d u i)) + (d.y - fun i => F.invLink (eta d u i)) ⬝ᵥ (d.Z *ᵥ w) := by
    rw [dotProduct, ← Finset.sum_add_distrib]
    refine Finset.sum_le_sum fun i _ => ?_
    have := tangent hF (eta d u i) (eta d (u + w) i)
    rw [eta_add] at this ⊢
    simp only [Pi.add_apply, Pi.sub_apply, one_mul] at this ⊢
    linarith
  simp only [pen, mulVec_add, add_dotProduct, dotProduct_add, hsm]
  linarith

/-- What the loop returns: a value whose step is shorter than the tolerance, or the last of the given number of steps. -/
theorem C197_loop (F : Fam) (d : Dat n q) (k : ℕ) (u r : Fin q → ℝ) (h : loop F d k u = some r) :
    (∃ r', step F d r = some r' ∧ Real.sqrt (∑ i, (r' i - r i) ^ 2) / q < 1e-6) ∨
      (fun o : Option (Fin q → ℝ) => o >>= step F d)^[k] (some u) = some r := by
  induction k generalizing u with
  | zero => right; simpa [loop] using h
  | succ k ih =>
    rw [loop] at h
    rcases hs : step F d u with _ | u'
    · simp [hs] at h
    · simp only [hs, Option.bind_eq_bind, Option.bind_some] at h
      split_ifs at h with hd
      · left
        have : u = r := by simpa using h
        subst this
        exact ⟨u', hs, hd⟩
      · rcases ih u' h with h' | h'
        · exact Or.inl h'
        · right
          rw [Function.iterate_succ_apply]
          simpa [hs] using h'

/-- For normal responses the first step already gives the mode, from any start. -/
theorem C197_gaussian_step (d : Dat n q) (hG : d.Gi.PosDef) (u : Fin q → ℝ) :
    step gaussian d u = some ((d.Zᵀ * d.Z + d.Gi)⁻¹ *ᵥ (d.Zᵀ *ᵥ (d.y - d.Xb))) := by
  have hp := rtr_posDef C197_canonical.1 d hG u
  rw [C197_step_defined C197_canonical.1 d hG]
  have e : rtr gaussian d u = d.Zᵀ * d.Z + d.Gi := by
    simp only [rtr, gaussian]
    rw [show (diagonal fun _ : Fin n => (1 : ℝ)) = 1 from diagonal_one, Matrix.one_mul]
  rw [e] at hp ⊢
  have hu := isUnit_iff_ne_zero.2 hp.det_pos.ne'
  have hsc : score gaussian d u = d.Zᵀ *ᵥ (d.y - d.Xb) - (d.Zᵀ * d.Z + d.Gi) *ᵥ u := by
    have : (fun i => gaussian.invLink (eta d u i)) = d.Xb + d.Z *ᵥ u := rfl
    rw [score, this, add_mulVec, ← mulVec_mulVec, ← sub_sub, mulVec_sub _ (d.y - d.Xb), sub_sub]
  rw [hsc, mulVec_sub, mulVec_mulVec u, nonsing_inv_mul _ hu, one_mulVec]
  congr 1
  abel

theorem C197_gaussian_pirls (d : Dat n q) (hG : d.Gi.PosDef) :
    ∃ r, pirls gaussian d = some r ∧ (r = (d.Zᵀ * d.Z + d.Gi)⁻¹ *ᵥ (d.Zᵀ *ᵥ (d.y - d.Xb)) ∨
      r = 0 ∧ Real.sqrt (∑ i, (((d.Zᵀ * d.Z + d.Gi)⁻¹ *ᵥ (d.Zᵀ *ᵥ (d.y - d.Xb))) i) ^ 2) / q < 1e-6) := by
  set m := (d.Zᵀ * d.Z + d.Gi)⁻¹ *ᵥ (d.Zᵀ *ᵥ (d.y - d.Xb)) with hm
  have h1 : loop gaussian d 99 m = some m := by
    rw [show (99 : ℕ) = 98 + 1 from rfl, loop, C197_gaussian_step d hG, ← hm]
    simp only [Option.bind_eq_bind, Option.bind_some, sub_self]
    rw [if_pos]
    · rfl
    · norm_num
  rw [pirls, show (100 : ℕ) = 99 + 1 from rfl, loop, C197_gaussian_step d hG, ← hm]
  simp only [Option.bind_eq_bind, Option.bind_some]
  split_ifs with hd
  · exact ⟨0, rfl, Or.inr ⟨rfl, by simpa using hd⟩⟩
  · exact ⟨m, h1, Or.inl rfl⟩

/-- With the reciprocal link the natural parameter is minus the linear predictor: at a fixed point of the step the derivative of the
penalised likelihood is `-2 Gi u`. -/
theorem C197_gamma_fixed (d : Dat n q) (hG : d.Gi.IsSymm) (u v : Fin q → ℝ) (hp : ∀ i, 0 < eta d u i) (hs : score gamma d u = 0) :
    HasDerivAt (fun t : ℝ => pen gamma.cumulant (-1) d (u + t • v)) (-(2 * (v ⬝ᵥ (d.Gi *ᵥ u)))) 0 := by
  have he : ∀ i, HasDerivAt (fun t : ℝ => eta d (u + t • v) i) ((d.Z *ᵥ v) i) 0 := fun i => by
    have : (fun t : ℝ => eta d (u + t • v) i) = fun t => eta d u i + t * (d.Z *ᵥ v) i := by
      funext t
      rw [eta_add, mulVec_smul]; simp
    rw [this]
    simpa using ((hasDerivAt_id (0 : ℝ)).mul_const ((d.Z *ᵥ v) i)).const_add (eta d u i)
  have h1 : ∀ i, HasDerivAt (fun t : ℝ => d.y i * (-1 * eta d (u + t • v) i) - gamma.cumulant (-1 * eta d (u + t • v) i))
      (-((d.y i - gamma.invLink (eta d u i)) * (d.Z *ᵥ v) i)) 0 := fun i => by
    have hb : HasDerivAt (fun t : ℝ => -Real.log (eta d (u + t • v) i)) (-((d.Z *ᵥ v) i / eta d u i)) 0 := by
      have := ((he i).log (by simpa using (hp i).ne')).fun_neg
      simpa using this
    have := ((he i).const_mul (-1 * d.y i)).sub hb
    have e : (fun t : ℝ => d.y i * (-1 * eta d (u + t • v) i) - gamma.cumulant (-1 * eta d (u + t • v) i)) =
        ((fun t : ℝ => -1 * d.y i * eta d (u + t • v) i) - fun t : ℝ => -Real.log (eta d (u + t • v) i)) := by
      funext t
      simp only [gamma, Pi.sub_apply, neg_mul, one_mul, neg_neg]
      ring
    rw [e]
    refine this.congr_deriv ?_
    simp only [gamma]
    ring
  have h2 := pen_quad d hG u v
  have := (HasDerivAt.fun_sum (u := Finset.univ) fun i _ => h1 i).sub h2
  refine this.congr_deriv ?_
  have h0 : v ⬝ᵥ score gamma d u = 0 := by rw [hs, dotProduct_zero]
  rw [score_dot] at h0
  simp only [dotProduct, Pi.sub_apply] at h0 ⊢
  rw [Finset.sum_neg_distrib]
  linarith

/-- Witness: one gamma response `2`, predictor `1 + u`, unit variance: the step stays at the golden ratio, where the penalised
likelihood decreases. -/
theorem C197_gamma_violated : ∃ d : Dat 1 1, d.Gi.PosDef ∧ ∃ u : Fin 1 → ℝ, (∀ i, 0 < eta d u i) ∧ step gamma d u = some u ∧
    HasDerivAt (fun t : ℝ => pen gamma.cumulant (-1) d (u + t • fun _ => 1)) (-(1 + Real.sqrt 5)) 0 := by
  set g : ℝ := (1 + Real.sqrt 5) / 2 with hg
  have h5 : Real.sqrt 5 ^ 2 = 5 := Real.sq_sqrt (by norm_num)
  have hpos := Real.sqrt_nonneg 5
  have hgg : g ^ 2 = g + 1 := by rw [hg]; nlinarith
  have hg0 : 0 < g := by rw [hg]; linarith
  let d : Dat 1 1 := ⟨fun _ => 2, fun _ => 1, 1, 1⟩
  have he : ∀ i, eta d (fun _ => g) i = 1 + g := fun i => by simp [eta, d]
  have hsc : score gamma d (fun _ => g) = 0 := by
    funext i
    have : (fun i => gamma.invLink (eta d (fun _ => g) i)) = fun _ => 1 / (1 + g) := by funext i; rw [he]; rfl
    simp only [score, this, d]
    simp only [transpose_one, one_mulVec, Pi.sub_apply, Pi.zero_apply]
    field_simp
    nlinarith
  have hr : (rtr gamma d fun _ => g).det ≠ 0 := by
    have : rtr gamma d (fun _ => g) 0 0 = (1 / (1 + g)) ^ 2 + 1 := by
      simp only [rtr, he]
      simp [gamma, d]
    rw [det_fin_one, this]
    positivity
  refine ⟨d, PosDef.one, fun _ => g, fun i => by rw [he]; linarith, (C197_fixed gamma d _ hr).2 hsc, ?_⟩
  have := C197_gamma_fixed d (by simp [d, IsSymm]) (fun _ => g) (fun _ => 1) (fun i => by rw [he]; linarith) hsc
  refine this.congr_deriv ?_
  simp [d, dotProduct, hg]
  ring

/-- The log likelihood in the objective is the one whose mode is sought, up to terms without random effects. -/
theorem C197_nll (d : Dat n q) (u : Fin q → ℝ) :
    (∑ i, gaussian.nll (d.y i) (gaussian.invLink (eta d u i)) + u ⬝ᵥ (d.Gi *ᵥ u) / 2 = ∑ i, d.y i ^ 2 / 2 - pen (fun t => t ^ 2 / 2) 1 d u) ∧
    (∑ i, poisson.nll (d.y i) (poisson.invLink (eta d u i)) + u ⬝ᵥ (d.Gi *ᵥ u) / 2 = -pen Real.exp 1 d u) ∧
    (∑ i, binomial.nll (d.y i) (binomial.invLink (eta d u i)) + u ⬝ᵥ (d.Gi *ᵥ u) / 2 = -pen (fun t => Real.log (1 + Real.exp t)) 1 d u) := by
  have hb : ∀ x y : ℝ, binomial.nll y (binomial.invLink x) = -(y * x - Real.log (1 + Real.exp x)) := fun x y => by
    have hx := Real.exp_pos x
    have e1 : (1 : ℝ) / (1 + Real.exp (-x)) = Real.exp x / (1 + Real.exp x) := by
      rw [Real.exp_neg]; field_simp; ring
    have e2 : 1 - Real.exp x / (1 + Real.exp x) = 1 / (1 + Real.exp x) := by field_simp; ring
    simp only [binomial]
    rw [e1, e2, Real.log_div hx.ne' (by positivity), Real.log_exp, Real.log_div one_ne_zero (by positivity), Real.log_one]
    ring
  refine ⟨?_, ?_, ?_⟩
  · simp only [pen, gaussian, id, one_mul]
    have : ∑ i, (d.y i - eta d u i) ^ 2 / 2 = ∑ i, d.y i ^ 2 / 2 - ∑ i, (d.y i * eta d u i - eta d u i ^ 2 / 2) := by
      rw [← Finset.sum_sub_distrib]
      exact Finset.sum_congr rfl fun i _ => by ring
    rw [this]; ring
  · simp only [pen, poisson, Real.log_exp, one_mul, Finset.sum_neg_distrib]
    ring
  · simp only [pen, hb, one_mul, Finset.sum_neg_distrib]
    ring

/-- For normal responses with unit variance the objective at the mode is half the marginal deviance. -/
theorem C197_gaussian_exact (d : Dat n q) (G : Matrix (Fin q) (Fin q) ℝ) (hG : G.PosDef) (hGi : d.Gi = G⁻¹) :
    laplaceAt gaussian d (Real.log |G.det|) ((d.Zᵀ * d.Z + d.Gi)⁻¹ *ᵥ (d.Zᵀ *ᵥ (d.y - d.Xb))) =
      ((d.y - d.Xb) ⬝ᵥ ((1 + d.Z * G * d.Zᵀ)⁻¹ *ᵥ (d.y - d.Xb)) + Real.log |(1 + d.Z * G * d.Zᵀ).det|) / 2 := by
  have hGiP : d.Gi.PosDef := by rw [hGi]; exact hG.inv
  have hGu := isUnit_iff_ne_zero.2 hG.det_pos.ne'
  have hc : ∀ u, rtr gaussian d u = d.Zᵀ * d.Z + d.Gi := fun u => by
    simp only [rtr, gaussian]
    rw [show (diagonal fun _ : Fin n => (1 : ℝ)) = 1 from diagonal_one, Matrix.one_mul]
  have hCp : (d.Zᵀ * d.Z + d.Gi).PosDef := by rw [← hc 0]; exact rtr_posDef C197_canonical.1 d hGiP 0
  set C := d.Zᵀ * d.Z + d.Gi with hC
  have hCu := isUnit_iff_ne_zero.2 hCp.det_pos.ne'
  set V := 1 + d.Z * G * d.Zᵀ with hV
  set r := d.y - d.Xb with hr
  have hdet : V.det = G.det * C.det := by
    rw [hV, Matrix.mul_assoc, det_one_add_mul_comm, ← det_mul, hC, hGi, Matrix.mul_add, mul_nonsing_inv _ hGu, Matrix.mul_assoc, add_comm]
  have hVu : IsUnit V.det := by rw [hdet]; exact hGu.mul hCu
  have h1 : (1 - d.Z * C⁻¹ * d.Zᵀ) * V = 1 := by
    have a : d.Zᵀ * V = C * (G * d.Zᵀ) := by
      rw [hV, hC, hGi, Matrix.mul_add, Matrix.mul_one, Matrix.add_mul, ← Matrix.mul_assoc G⁻¹, nonsing_inv_mul _ hGu, Matrix.one_mul]
      simp only [Matrix.mul_assoc]
      rw [add_comm]
    rw [Matrix.sub_mul, Matrix.one_mul, Matrix.mul_assoc (d.Z * C⁻¹), a, Matrix.mul_assoc d.Z, ← Matrix.mul_assoc C⁻¹,
      nonsing_inv_mul _ hCu, Matrix.one_mul, hV, ← Matrix.mul_assoc]
    abel
  have hVi : V⁻¹ = 1 - d.Z * C⁻¹ * d.Zᵀ := inv_eq_left_inv h1
  set u := C⁻¹ *ᵥ (d.Zᵀ *ᵥ r) with hu
  have hres : r - d.Z *ᵥ u = V⁻¹ *ᵥ r := by
    rw [hVi, sub_mulVec, one_mulVec, hu, mulVec_mulVec, mulVec_mulVec]
  have hCu' : C *ᵥ u = d.Zᵀ *ᵥ r := by rw [hu, mulVec_mulVec, mul_nonsing_inv _ hCu, one_mulVec]
  have hq : (r - d.Z *ᵥ u) ⬝ᵥ (r - d.Z *ᵥ u) + (d.Gi *ᵥ u) ⬝ᵥ u = r ⬝ᵥ (V⁻¹ *ᵥ r) := by
    have e : d.Gi *ᵥ u = d.Zᵀ *ᵥ (r - d.Z *ᵥ u) := by
      rw [mulVec_sub, ← hCu', hC, add_mulVec, ← mulVec_mulVec]; abel
    rw [e, mulVec_transpose, ← dotProduct_mulVec, ← dotProduct_add, sub_add_cancel, hres, dotProduct_comm]
  have hllf : 2 * ∑ i, gaussian.nll (d.y i) (gaussian.invLink (eta d u i)) = (r - d.Z *ᵥ u) ⬝ᵥ (r - d.Z *ᵥ u) := by
    simp only [gaussian, id, dotProduct, Finset.mul_sum, hr, eta, Pi.sub_apply, Pi.add_apply]
    exact Finset.sum_congr rfl fun i _ => by ring
  simp only [laplaceAt]
  rw [hc, hllf, hq, hdet, abs_mul, Real.log_mul (abs_ne_zero.2 hG.det_pos.ne') (abs_ne_zero.2 hCp.det_pos.ne')]

/-- One random effect: the objective is minus the log of the marginal likelihood of the quadratic expansion at `u`. -/
theorem C197_laplace_scalar (F : Fam) (d : Dat n 1) {g a : ℝ} (hg : 0 < g) (u : Fin 1 → ℝ) (ha : 0 < a) (hr : rtr F d u 0 0 = a) :
    laplaceAt F d (Real.log g) u = -Real.log (1 / Real.sqrt (2 * Real.pi * g) * ∫ v : ℝ,
      Real.exp (-(∑ i, F.nll (d.y i) (F.invLink (eta d u i))) - (d.Gi *ᵥ u) ⬝ᵥ u / 2 - a / 2 * (v - u 0) ^ 2)) := by
  set c := -(∑ i, F.nll (d.y i) (F.invLink (eta d u i))) - (d.Gi *ᵥ u) ⬝ᵥ u / 2 with hc
  have hi : ∫ v : ℝ, Real.exp (c - a / 2 * (v - u 0) ^ 2) = Real.exp c * Real.sqrt (Real.pi / (a / 2)) := by
    rw [← integral_gaussian (a / 2), ← MeasureTheory.integral_sub_right_eq_self (fun x : ℝ => Real.exp (-(a / 2) * x ^ 2)) (u 0),
      ← MeasureTheory.integral_const_mul]
    congr 1
    funext v
    rw [← Real.exp_add]
    congr 1
    ring
  rw [hi]
  have hp := Real.pi_pos
  have e : 1 / Real.sqrt (2 * Real.pi * g) * (Real.exp c * Real.sqrt (Real.pi / (a / 2))) = Real.exp c / Real.sqrt (g * a) := by
    have : Real.pi / (a / 2) = 2 * Real.pi * g / (g * a) := by field_simp
    rw [this, Real.sqrt_div (by positivity)]
    have h1 : Real.sqrt (2 * Real.pi * g) ≠ 0 := by positivity
    have h2 : Real.sqrt (g * a) ≠ 0 := by positivity
    field_simp
  rw [e, Real.log_div (Real.exp_pos c).ne' (by positivity), Real.log_exp, Real.log_sqrt (by positivity), Real.log_mul hg.ne' ha.ne']
  simp only [laplaceAt]
  rw [det_fin_one, hr, abs_of_pos ha, hc]
  ring

/-- The hypotheses are satisfiable: two observations, one random effect. -/
example : ∃ d : Dat 2 1, d.Gi.PosDef ∧ step poisson d 0 ≠ some 0 :=
  ⟨⟨fun _ => 3, 0, of fun _ _ => 1, 1⟩, PosDef.one, fun h => by
    have hp := rtr_posDef C197_canonical.2.1 (⟨fun _ => 3, 0, of fun _ _ => 1, 1⟩ : Dat 2 1) PosDef.one 0
    have := congrFun ((C197_fixed poisson _ 0 hp.det_pos.ne').1 h) 0
    simp [score, eta, poisson, mulVec, dotProduct] at this
    norm_num at this⟩

end Verif.Glmm
