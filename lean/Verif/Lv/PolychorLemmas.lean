import Verif.Lv.Polychor
import Verif.Lv.BinormProps
import Verif.Transf.Jac

/-!
Derivatives of the bivariate normal functions along curves.
-/

namespace Verif.Lv
open Real Set MeasureTheory Filter Topology Verif.Glm Verif.Transf

theorem diff_div {f g : (ℝ × ℝ) × ℝ → ℝ} {z : (ℝ × ℝ) × ℝ} (hf : DifferentiableAt ℝ f z) (hg : DifferentiableAt ℝ g z) (h : g z ≠ 0) :
    DifferentiableAt ℝ (fun p => f p / g p) z := by
  simp only [div_eq_mul_inv]
  exact hf.fun_mul (hg.fun_inv h)

/-- A function of three variables that is differentiable, along a curve. -/
theorem curve3 {f : ℝ → ℝ → ℝ → ℝ} {u v r : ℝ → ℝ} {u' v' r' a b c t : ℝ}
    (hf : DifferentiableAt ℝ (fun p : (ℝ × ℝ) × ℝ => f p.1.1 p.1.2 p.2) ((u t, v t), r t))
    (ha : HasDerivAt (fun x => f x (v t) (r t)) a (u t)) (hb : HasDerivAt (fun x => f (u t) x (r t)) b (v t))
    (hc : HasDerivAt (fun x => f (u t) (v t) x) c (r t)) (hu : HasDerivAt u u' t) (hv : HasDerivAt v v' t) (hr : HasDerivAt r r' t) :
    HasDerivAt (fun t => f (u t) (v t) (r t)) (a * u' + b * v' + c * r') t := by
  have hF := hf.hasFDerivAt
  set L := fderiv ℝ (fun p : (ℝ × ℝ) × ℝ => f p.1.1 p.1.2 p.2) ((u t, v t), r t)
  have e1 : L ((1, 0), 0) = a := by
    have h := hF.comp_hasDerivAt_of_eq (u t) (((hasDerivAt_id (u t)).prodMk (hasDerivAt_const (u t) (v t))).prodMk (hasDerivAt_const (u t) (r t))) rfl
    exact h.unique ha
  have e2 : L ((0, 1), 0) = b := by
    have h := hF.comp_hasDerivAt_of_eq (v t) (((hasDerivAt_const (v t) (u t)).prodMk (hasDerivAt_id (v t))).prodMk (hasDerivAt_const (v t) (r t))) rfl
    exact h.unique hb
  have e3 : L ((0, 0), 1) = c := by
    have h := hF.comp_hasDerivAt_of_eq (r t) (((hasDerivAt_const (r t) (u t)).prodMk (hasDerivAt_const (r t) (v t))).prodMk (hasDerivAt_id (r t))) rfl
    exact h.unique hc
  have h := hF.comp_hasDerivAt_of_eq t ((hu.prodMk hv).prodMk hr) rfl
  refine h.congr_deriv ?_
  have e : ((u', v'), r') = u' • (((1, 0), 0) : (ℝ × ℝ) × ℝ) + v' • (((0, 1), 0) : (ℝ × ℝ) × ℝ) + r' • (((0, 0), 1) : (ℝ × ℝ) × ℝ) := by
    simp
  rw [e, map_add, map_add, map_smul, map_smul, map_smul, e1, e2, e3]
  simp only [smul_eq_mul]
  ring

theorem phi0_diff : Differentiable ℝ phi0 := fun x => (phi0_deriv x).differentiableAt

theorem ndtr0_diff : Differentiable ℝ ndtr0 := fun x => (ndtr0_deriv x).differentiableAt

theorem arg_diff {u v r : ℝ} (hr : |r| < 1) : DifferentiableAt ℝ (fun p : (ℝ × ℝ) × ℝ => (p.1.2 - p.2 * p.1.1) / √(1 - p.2 ^ 2)) ((u, v), r) := by
  have h1 := s_pos hr
  have h2 := rt_pos hr
  refine diff_div ?_ ?_ ?_
  · fun_prop
  · exact DifferentiableAt.sqrt (f := fun p : (ℝ × ℝ) × ℝ => 1 - p.2 ^ 2) (by fun_prop) h1.ne'
  · exact h2.ne'

theorem du_diff {u v r : ℝ} (hr : |r| < 1) :
    DifferentiableAt ℝ (fun p : (ℝ × ℝ) × ℝ => phi0 p.1.1 * ndtr0 ((p.1.2 - p.2 * p.1.1) / √(1 - p.2 ^ 2))) ((u, v), r) := by
  refine DifferentiableAt.mul (phi0_diff.differentiableAt.comp _ (by fun_prop)) ?_
  exact (ndtr0_diff _).comp _ (arg_diff hr)

theorem pdf_diff {u v r : ℝ} (hr : |r| < 1) : DifferentiableAt ℝ (fun p : (ℝ × ℝ) × ℝ => pdf p.1.1 p.1.2 p.2) ((u, v), r) := by
  have h1 := s_pos hr
  have h2 := rt_pos hr
  have hp := pi_pos
  have e : (fun p : (ℝ × ℝ) × ℝ => pdf p.1.1 p.1.2 p.2) =
      fun p => exp (-(p.1.1 ^ 2 - 2 * p.2 * p.1.1 * p.1.2 + p.1.2 ^ 2) / (2 * (1 - p.2 ^ 2))) * (1 / (2 * π * √(1 - p.2 ^ 2))) :=
    funext fun p => (C159_dl _ _ _).symm
  rw [e]
  refine DifferentiableAt.mul (DifferentiableAt.exp ?_) ?_
  · have h3 : (2 * (1 - r ^ 2)) ≠ 0 := by positivity
    refine diff_div ?_ ?_ ?_
    · fun_prop
    · fun_prop
    · exact h3
  · have h3 : 2 * π * √(1 - r ^ 2) ≠ 0 := by positivity
    refine diff_div (differentiableAt_const _) ?_ ?_
    · refine DifferentiableAt.fun_mul (differentiableAt_const _) ?_
      exact DifferentiableAt.sqrt (f := fun p : (ℝ × ℝ) × ℝ => 1 - p.2 ^ 2) (by fun_prop) h1.ne'
    · exact h3

theorem Phi2_diff {u v r : ℝ} (hr : |r| < 1) : DifferentiableAt ℝ (fun p : (ℝ × ℝ) × ℝ => Phi2 p.1.1 p.1.2 p.2) ((u, v), r) := by
  let L : ℝ → ℝ →L[ℝ] ℝ := fun a => ContinuousLinearMap.toSpanSingleton ℝ a
  have hL : Continuous L := (ContinuousLinearMap.toSpanSingletonCLE (𝕜 := ℝ) (E := ℝ)).continuous
  have hdu : ∀ {r : ℝ}, |r| < 1 → ∀ u v, HasFDerivAt (fun u => Phi2 u v r) (L (phi0 u * ndtr0 ((v - r * u) / √(1 - r ^ 2)))) u :=
    fun hr u v => (Phi2_du hr u v).hasFDerivAt
  have hdv : ∀ {r : ℝ}, |r| < 1 → ∀ u v, HasFDerivAt (fun v => Phi2 u v r) (L (phi0 v * ndtr0 ((u - r * v) / √(1 - r ^ 2)))) v :=
    fun hr u v => (Phi2_dv hr u v).hasFDerivAt
  have hc1 : ∀ {u v r : ℝ}, |r| < 1 → ContinuousAt (fun p : (ℝ × ℝ) × ℝ => L (phi0 p.1.1 * ndtr0 ((p.1.2 - p.2 * p.1.1) / √(1 - p.2 ^ 2)))) ((u, v), r) :=
    fun hr => hL.continuousAt.comp (du_diff hr).continuousAt
  have hc2 : ∀ {u v r : ℝ}, |r| < 1 → ContinuousAt (fun p : (ℝ × ℝ) × ℝ => L (phi0 p.1.2 * ndtr0 ((p.1.1 - p.2 * p.1.2) / √(1 - p.2 ^ 2)))) ((u, v), r) :=
    fun {u v r} hr => (hc1 (u := v) (v := u) hr).comp_of_eq (f := fun p : (ℝ × ℝ) × ℝ => (((p.1.2, p.1.1), p.2) : (ℝ × ℝ) × ℝ)) (by fun_prop) rfl
  let f1 : ℝ → ℝ → ℝ → ℝ →L[ℝ] ℝ := fun r u v => L (phi0 u * ndtr0 ((v - r * u) / √(1 - r ^ 2)))
  let f2 : ℝ → ℝ → ℝ → ℝ →L[ℝ] ℝ := fun r u v => L (phi0 v * ndtr0 ((u - r * v) / √(1 - r ^ 2)))
  have huv : ∀ {r : ℝ}, |r| < 1 → ∀ u v, HasFDerivAt (fun q : ℝ × ℝ => Phi2 q.1 q.2 r) ((f1 r u v).coprod (f2 r u v)) (u, v) := fun {r} hr u v => by
    have h := hasStrictFDerivAt_uncurry_coprod (𝕜 := ℝ) (u := (u, v)) (f := fun u v => Phi2 u v r) (f₁ := f1 r) (f₂ := f2 r)
      (Eventually.of_forall fun w => hdu hr w.1 w.2) (Eventually.of_forall fun w => hdv hr w.1 w.2)
      ((hc1 (u := u) (v := v) hr).comp_of_eq (f := fun q : ℝ × ℝ => ((q, r) : (ℝ × ℝ) × ℝ)) (by fun_prop) rfl)
      ((hc2 (u := u) (v := v) hr).comp_of_eq (f := fun q : ℝ × ℝ => ((q, r) : (ℝ × ℝ) × ℝ)) (by fun_prop) rfl)
    exact h.hasFDerivAt
  have hn : ∀ᶠ w in 𝓝 (((u, v), r) : (ℝ × ℝ) × ℝ), |w.2| < 1 := by
    have : Continuous fun w : (ℝ × ℝ) × ℝ => |w.2| := by fun_prop
    exact this.continuousAt.eventually_lt continuousAt_const hr
  have h := hasStrictFDerivAt_uncurry_coprod (𝕜 := ℝ) (u := ((u, v), r)) (f := fun (q : ℝ × ℝ) r => Phi2 q.1 q.2 r)
    (f₁ := fun q r => (f1 r q.1 q.2).coprod (f2 r q.1 q.2)) (f₂ := fun q r => L (pdf q.1 q.2 r))
    (hn.mono fun w hw => huv hw w.1.1 w.1.2) (hn.mono fun w hw => (Phi2_dr hw w.1.1 w.1.2).hasFDerivAt)
    (by
      have e : (fun p : (ℝ × ℝ) × ℝ => (f1 p.2 p.1.1 p.1.2).coprod (f2 p.2 p.1.1 p.1.2)) = fun p =>
          (f1 p.2 p.1.1 p.1.2).comp (ContinuousLinearMap.fst ℝ ℝ ℝ) + (f2 p.2 p.1.1 p.1.2).comp (ContinuousLinearMap.snd ℝ ℝ ℝ) := by
        funext p
        ext <;> simp
      change ContinuousAt (fun p : (ℝ × ℝ) × ℝ => (f1 p.2 p.1.1 p.1.2).coprod (f2 p.2 p.1.1 p.1.2)) _
      rw [e]
      exact ((hc1 hr).clm_comp continuousAt_const).add ((hc2 hr).clm_comp continuousAt_const))
    (hL.continuousAt.comp (pdf_diff hr).continuousAt)
  exact h.hasFDerivAt.differentiableAt

theorem cdfDu_diff {erf : ℝ → ℝ} (he : IsErf erf) {u v r : ℝ} (hr : |r| < 1) :
    DifferentiableAt ℝ (fun p : (ℝ × ℝ) × ℝ => cdfDu erf p.1.1 p.1.2 p.2) ((u, v), r) := by
  have e : (fun p : (ℝ × ℝ) × ℝ => cdfDu erf p.1.1 p.1.2 p.2) = fun p => phi0 p.1.1 * ndtr0 ((p.1.2 - p.2 * p.1.1) / √(1 - p.2 ^ 2)) :=
    funext fun p => cdfDu_eq he _ _ _
  rw [e]
  exact du_diff hr

/-- The derivative of the density in its first argument is the mixed derivative that the code calls `d2binorm_cdf_dur`. -/
theorem pdf_du {r : ℝ} (hr : |r| < 1) (u v : ℝ) : HasDerivAt (fun u => pdf u v r) (cdfDur u v r) u := by
  have h1 := s_pos hr
  have h2 := rt_pos hr
  have hp := pi_pos
  have e : (fun u => pdf u v r) = fun u => exp (-(u ^ 2 - 2 * r * u * v + v ^ 2) / (2 * (1 - r ^ 2))) * (1 / (2 * π * √(1 - r ^ 2))) :=
    funext fun p => (C159_dl _ _ _).symm
  rw [e]
  have hn : HasDerivAt (fun u : ℝ => -(u ^ 2 - 2 * r * u * v + v ^ 2) / (2 * (1 - r ^ 2))) (-(2 * u - 2 * r * v) / (2 * (1 - r ^ 2))) u := by
    have := (((((hasDerivAt_id u).fun_pow 2).fun_sub (((hasDerivAt_id u).const_mul (2 * r)).mul_const v)).add_const (v ^ 2)).fun_neg).div_const (2 * (1 - r ^ 2))
    refine this.congr_deriv ?_
    simp
  refine (hn.exp.mul_const _).congr_deriv ?_
  unfold cdfDur
  dsimp only
  have e1 : (r - 1) * (r + 1) = -(1 - r ^ 2) := by ring
  have e2 : -(1 / ((r - 1) * (r + 1))) * (2 * r * u * v - u ^ 2 - v ^ 2) / 2 = -(u ^ 2 - 2 * r * u * v + v ^ 2) / (2 * (1 - r ^ 2)) := by
    rw [e1]
    field_simp
    ring
  rw [e2, e1]
  field_simp
  ring

theorem pdf_dv {r : ℝ} (hr : |r| < 1) (u v : ℝ) : HasDerivAt (fun v => pdf u v r) (cdfDur v u r) v := by
  simp only [pdf_symm u]
  exact pdf_du hr v u

/-! ### Regions along curves -/

theorem region_curve {f f1 f2 f3 : ℝ → ℝ → ℝ → ℝ}
    (h1 : ∀ {u v r : ℝ}, |r| < 1 → DifferentiableAt ℝ (fun p : (ℝ × ℝ) × ℝ => f p.1.1 p.1.2 p.2) ((u, v), r))
    (hu : ∀ {r : ℝ}, |r| < 1 → ∀ u v, HasDerivAt (fun u => f u v r) (f1 u v r) u) (hv : ∀ {r : ℝ}, |r| < 1 → ∀ u v, HasDerivAt (fun v => f u v r) (f2 u v r) v)
    (hr : ∀ {r : ℝ}, |r| < 1 → ∀ u v, HasDerivAt (fun r => f u v r) (f3 u v r) r)
    {l1 l2 u1 u2 r : ℝ → ℝ} {l1' l2' u1' u2' r' t : ℝ} (d1 : HasDerivAt l1 l1' t) (d2 : HasDerivAt l2 l2' t) (d3 : HasDerivAt u1 u1' t) (d4 : HasDerivAt u2 u2' t)
    (d5 : HasDerivAt r r' t) (ht : |r t| < 1) :
    HasDerivAt (fun t => region f (l1 t) (l2 t) (u1 t) (u2 t) (r t))
      ((f1 (u1 t) (u2 t) (r t) - f1 (u1 t) (l2 t) (r t)) * u1' - (f1 (l1 t) (u2 t) (r t) - f1 (l1 t) (l2 t) (r t)) * l1' +
        ((f2 (u1 t) (u2 t) (r t) - f2 (l1 t) (u2 t) (r t)) * u2' - (f2 (u1 t) (l2 t) (r t) - f2 (l1 t) (l2 t) (r t)) * l2') +
        region f3 (l1 t) (l2 t) (u1 t) (u2 t) (r t) * r') t := by
  have c := fun {a b : ℝ → ℝ} {a' b' : ℝ} (ha : HasDerivAt a a' t) (hb : HasDerivAt b b' t) => curve3 (h1 ht) (hu ht (a t) (b t)) (hv ht (a t) (b t)) (hr ht (a t) (b t)) ha hb d5
  refine ((((c d3 d4).fun_sub (c d3 d2)).fun_sub (c d1 d4)).fun_add (c d1 d2)).congr_deriv ?_
  simp only [region]
  ring

end Verif.Lv
