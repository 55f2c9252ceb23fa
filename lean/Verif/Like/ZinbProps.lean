import Verif.Like.ZipProps
import Mathlib.Analysis.SpecialFunctions.Pow.Deriv
/-!
# C102: the zero-inflated negative binomial model
-/
namespace Verif.Like
open Real Verif.Transf
variable {sp : Glm.Sp} {g h : CLink} {d : ZData} {n p q : ℕ}

theorem ZDom.denNb {eta psi : ℝ} (H : ZDom g h eta psi) {B : ℝ} (hB : 0 < B) : 0 < h.F psi + (1 - h.F psi) * B :=
  add_pos_of_nonneg_of_pos H.lo (mul_pos (sub_pos.2 H.hi) hB)

section
variable {e s T : ℝ → ℝ} {e' s' T' y w : ℝ}

/-- `k / w * mu + 1`. -/
noncomputable def nbB (g : CLink) (w eta tau : ℝ) : ℝ := 1 + exp tau / w * g.F eta
/-- The probability of zero. -/
noncomputable def nbP0 (g : CLink) (w eta tau : ℝ) : ℝ := nbB g w eta tau ^ (-w / exp tau)

theorem nbB_pos (hw : 0 < w) {eta psi tau : ℝ} (H : ZDom g h eta psi) : 0 < nbB g w eta tau := by
  have := H.rate
  unfold nbB
  positivity

theorem nbB_path (hg : GoodC g) (he : HasDerivAt e e' 0) (hT : HasDerivAt T T' 0) :
    HasDerivAt (fun t => nbB g w (e t) (T t)) (exp (T 0) / w * (g.F1 (e 0) * e' + g.F (e 0) * T')) 0 := by
  have hL : HasDerivAt (fun t => g.F (e t)) (g.F1 (e 0) * e') 0 := (hg.d1 (e 0)).comp 0 he
  unfold nbB
  refine (((hT.exp.div_const w).fun_mul hL).const_add 1).congr_deriv ?_
  ring

theorem nbP0_path (hg : GoodC g) (hw : 0 < w) (he : HasDerivAt e e' 0) (hT : HasDerivAt T T' 0)
    (hb : 0 < nbB g w (e 0) (T 0)) :
    HasDerivAt (fun t => nbP0 g w (e t) (T t)) (nbP0 g w (e 0) (T 0) *
      (T' * (w / exp (T 0) * log (nbB g w (e 0) (T 0)) - g.F (e 0) / nbB g w (e 0) (T 0)) -
        g.F1 (e 0) * e' / nbB g w (e 0) (T 0))) 0 := by
  have hc : HasDerivAt (fun t => -w / exp (T t)) (w / exp (T 0) * T') 0 := by
    refine ((hasDerivAt_const (0 : ℝ) (-w)).fun_div hT.exp (exp_pos _).ne').congr_deriv ?_
    have := (exp_pos (T 0)).ne'
    field_simp
    ring
  have h1 := (nbB_path (w := w) hg he hT).rpow hc hb
  unfold nbP0
  refine h1.congr_deriv ?_
  rw [rpow_sub_one hb.ne']
  have := (exp_pos (T 0)).ne'
  have := hw.ne'
  have := hb.ne'
  field_simp
  ring

theorem nbP0_pos {eta tau : ℝ} (hb : 0 < nbB g w eta tau) : 0 < nbP0 g w eta tau := rpow_pos_of_pos hb _

/-- `d0`, `d1`, `d2` of a zero count in terms of the probability of zero. -/
theorem zinbDi_zero (hw : 0 < w) {eta psi tau : ℝ} : zinbDi sp g h 0 w eta psi tau =
    (let b := nbB g w eta tau
     let B := nbP0 g w eta tau
     let den := h.F psi + (1 - h.F psi) * B
     (1 / b * (B * (1 - h.F psi) / den) * g.F1 eta, -(1 - B) * h.F1 psi / den,
      -(B * (1 - h.F psi) / den) * (w / exp tau * log b - g.F eta / b))) := by
  have e1 : 1 + g.F eta * exp tau / w = nbB g w eta tau := by unfold nbB; ring
  have e2 : nbB g w eta tau ^ (-(w * (1 / exp tau))) = nbP0 g w eta tau := by
    unfold nbP0; congr 1; ring
  simp only [zinbDi, if_true, e1, e2]
  have e3 : h.F psi + nbP0 g w eta tau * (1 - h.F psi) = h.F psi + (1 - h.F psi) * nbP0 g w eta tau := by ring
  rw [e3]
  refine Prod.ext ?_ (Prod.ext ?_ ?_)
  · simp only; ring
  · simp only; ring
  · simp only; ring

/-- `gradient` and `gradient_i` use the same derivatives for zero counts. -/
theorem zinbD_zero (hw : 0 < w) {eta psi tau : ℝ} (H : ZDom g h eta psi) : zinbD sp g h 0 w eta psi tau =
    (let D := zinbDi sp g h 0 w eta psi tau; (D.1, -D.2.1, D.2.2)) := by
  have hb := nbB_pos (tau := tau) hw H
  have hB := nbP0_pos hb
  have hd := H.denNb hB
  rw [zinbDi_zero hw]
  have e1 : (1 * w + g.F eta * exp tau) / w = nbB g w eta tau := by
    have := hw.ne'; unfold nbB; field_simp
  have e2 : nbB g w eta tau ^ (w / exp tau) = 1 / nbP0 g w eta tau := by
    unfold nbP0; rw [neg_div, rpow_neg hb.le, one_div, inv_inv]
  have e3 : 1 * w + g.F eta * exp tau = w * nbB g w eta tau := by
    have := hw.ne'; unfold nbB; field_simp
  simp only [zinbD, if_true, e1, e2]
  rw [e3]
  have e4 : h.F psi * (1 / nbP0 g w eta tau) - h.F psi + 1 =
      (h.F psi + (1 - h.F psi) * nbP0 g w eta tau) / nbP0 g w eta tau := by
    have := hB.ne'; field_simp; ring
  rw [e4]
  have h1 := hw.ne'
  have h2 := hb.ne'
  have h3 := hB.ne'
  have h4 := hd.ne'
  have h5 := (exp_pos tau).ne'
  refine Prod.ext ?_ (Prod.ext ?_ ?_)
  · simp only; field_simp; ring
  · simp only; field_simp
  · simp only; field_simp; ring

theorem zinbDi_nz (hy : y ≠ 0) {eta psi tau : ℝ} (H : ZDom g h eta psi) : zinbD sp g h y 1 eta psi tau =
    (let D := zinbDi sp g h y 1 eta psi tau; (D.1, -D.2.1, D.2.2)) := by
  have h1 := H.rate.ne'
  have hk := exp_pos tau
  have h2 := hk.ne'
  have h3 : g.F eta * exp tau + 1 ≠ 0 := by have := H.rate; positivity
  have h4 : 1 - h.F psi ≠ 0 := (sub_pos.2 H.hi).ne'
  have h4' : h.F psi - 1 ≠ 0 := (sub_neg.2 H.hi).ne
  simp only [zinbD, zinbDi, if_neg hy]
  have e1 : 1 / exp tau * (exp tau * y + 1) = 1 * (1 / exp tau) + y := by field_simp; ring
  have e2 : g.F eta * exp tau * (1 / 1) + 1 = g.F eta * exp tau + 1 := by ring
  rw [e1, e2, one_mul]
  refine Prod.ext ?_ (Prod.ext ?_ ?_)
  · simp only; field_simp; ring
  · simp only
    rw [← neg_sub 1 (h.F psi), div_neg]
  · simp only; field_simp; ring

/-- The derivatives of an entry of the likelihood. -/
theorem zinb_nll_path (hsp : Glm.IsSp sp) (hg : GoodC g) (hh : GoodC h) (hw : 0 < w) (hy : 0 ≤ y)
    (he : HasDerivAt e e' 0) (hs : HasDerivAt s s' 0) (hT : HasDerivAt T T' 0) (H : ZDom g h (e 0) (s 0)) :
    HasDerivAt (fun t => zinbNll sp g h y w (e t) (s t) (T t))
      (let D := zinbD sp g h y w (e 0) (s 0) (T 0); D.1 * e' - D.2.1 * s' + D.2.2 * T') 0 := by
  have hL : HasDerivAt (fun t => g.F (e t)) (g.F1 (e 0) * e') 0 := (hg.d1 (e 0)).comp 0 he
  have hO : HasDerivAt (fun t => h.F (s t)) (h.F1 (s 0) * s') 0 := (hh.d1 (s 0)).comp 0 hs
  have hb := nbB_pos (tau := T 0) hw H
  have hB := nbP0_pos hb
  have hd := H.denNb hB
  have h1 := H.rate
  have hkp := exp_pos (T 0)
  by_cases h0 : y = 0
  · subst h0
    have e1 : (fun t => zinbNll sp g h 0 w (e t) (s t) (T t)) =
        fun t => -log (h.F (s t) + (1 - h.F (s t)) * nbP0 g w (e t) (T t)) := by
      funext t; simp only [zinbNll, if_true]; rfl
    rw [e1, zinbD_zero hw H, zinbDi_zero hw]
    refine (((hO.fun_add ((hO.const_sub 1).fun_mul (nbP0_path hg hw he hT hb))).log hd.ne').fun_neg).congr_deriv ?_
    have h2 := hd.ne'
    have h3 := hb.ne'
    have h5 := hkp.ne'
    simp only
    field_simp
    ring
  · have hyp : 0 < y := lt_of_le_of_ne hy (Ne.symm h0)
    have ha : 0 < 1 / exp (T 0) := by positivity
    have h4 : 1 - h.F (s 0) ≠ 0 := (sub_pos.2 H.hi).ne'
    have h4' : h.F (s 0) - 1 ≠ 0 := (sub_neg.2 H.hi).ne
    have hk := hT.exp
    have hka : HasDerivAt (fun t => 1 / exp (T t)) (-(1 / exp (T 0)) * T') 0 := by
      refine ((hasDerivAt_const (0 : ℝ) (1 : ℝ)).fun_div hk hkp.ne').congr_deriv ?_
      have := hkp.ne'
      field_simp
      ring
    have hkm := hk.fun_mul hL
    have hya : 0 < y + 1 / exp (T 0) := by positivity
    have hkm0 : exp (T 0) * g.F (e 0) ≠ 0 := by positivity
    have h1k : 1 + exp (T 0) * g.F (e 0) ≠ 0 := by positivity
    have d1 := (hsp.digamma _ hya).comp (0 : ℝ) (hka.const_add y)
    have d2 := (hsp.digamma _ ha).comp (0 : ℝ) hka
    have f1 := ((((hkm.log hkm0).const_mul y).fun_sub ((hka.const_add y).fun_mul ((hkm.const_add 1).log h1k))).fun_add
      d1).fun_sub d2
    have f2 := ((f1.const_mul (-w)).add_const (w / 1 * sp.gammaln (y + 1))).fun_sub ((hO.const_sub 1).log h4)
    simp only [zinbNll, zinbD, if_neg h0, Glm.negBinomial]
    refine f2.congr_deriv ?_
    have e1 : 1 / exp (T 0) * (exp (T 0) * y + 1) = y + 1 / exp (T 0) := by have := hkp.ne'; field_simp
    have e2 : g.F (e 0) * exp (T 0) + 1 = 1 + exp (T 0) * g.F (e 0) := by ring
    rw [e1, e2, ← neg_sub 1 (h.F (s 0))]
    have h2 := hkp.ne'
    have h3 := h1.ne'
    field_simp
    ring

/-! ### Second derivatives -/

theorem zinbH_zero {eta psi tau : ℝ} : zinbH sp g h 0 w eta psi tau =
    (let b := nbB g w eta tau
     let B := nbP0 g w eta tau
     let x4 := exp tau / w
     let x9 := h.F psi - 1
     let x13 := 1 / (h.F psi + (1 - h.F psi) * B)
     let x14 := B * x9 * x13
     let x16 := x13 * (1 - B)
     let x17 := x16 * x9 - 1
     let x19 := B * x13 * h.F1 psi
     let x22 := w / exp tau * log b - g.F eta / b
     { ee := x14 / b * (x14 * (g.F1 eta ^ 2 / b) + x4 * (g.F1 eta ^ 2 / b) + g.F1 eta ^ 2 / b - g.F2 eta)
       se := g.F1 eta * x17 * x19 / b
       te := g.F1 eta * (x14 / b) * (g.F eta * x4 / b - x14 * x22 - x22)
       ss := x16 * (x16 * h.F1 psi ^ 2 - h.F2 psi)
       ts := -x17 * x19 * x22
       tt := x14 * (g.F eta ^ 2 * x4 / b ^ 2 + x14 * x22 ^ 2 - x22 + x22 ^ 2) }) := by
  have e1 : g.F eta * (1 / w * exp tau) + 1 = nbB g w eta tau := by unfold nbB; ring
  have e2 : nbB g w eta tau ^ (-(w / exp tau)) = nbP0 g w eta tau := by unfold nbP0; rw [neg_div]
  have e3 : h.F psi - nbP0 g w eta tau * (h.F psi - 1) = h.F psi + (1 - h.F psi) * nbP0 g w eta tau := by ring
  simp only [zinbH, if_true, e1, e2, e3]
  congr 1 <;> ring

theorem zinb_h0_path (hg : GoodC g) (hh : GoodC h) (hw : 0 < w)
    (he : HasDerivAt e e' 0) (hs : HasDerivAt s s' 0) (hT : HasDerivAt T T' 0) (H : ZDom g h (e 0) (s 0)) :
    let K := zinbH sp g h 0 w (e 0) (s 0) (T 0)
    HasDerivAt (fun t => (zinbDi sp g h 0 w (e t) (s t) (T t)).1) (K.ee * e' + K.se * s' + K.te * T') 0 ∧
    HasDerivAt (fun t => (zinbDi sp g h 0 w (e t) (s t) (T t)).2.1) (K.se * e' + K.ss * s' + K.ts * T') 0 ∧
    HasDerivAt (fun t => (zinbDi sp g h 0 w (e t) (s t) (T t)).2.2) (K.te * e' + K.ts * s' + K.tt * T') 0 := by
  have hL : HasDerivAt (fun t => g.F (e t)) (g.F1 (e 0) * e') 0 := (hg.d1 (e 0)).comp 0 he
  have hL1 : HasDerivAt (fun t => g.F1 (e t)) (g.F2 (e 0) * e') 0 := (hg.d2 (e 0)).comp 0 he
  have hO : HasDerivAt (fun t => h.F (s t)) (h.F1 (s 0) * s') 0 := (hh.d1 (s 0)).comp 0 hs
  have hO1 : HasDerivAt (fun t => h.F1 (s t)) (h.F2 (s 0) * s') 0 := (hh.d2 (s 0)).comp 0 hs
  have hb := nbB_pos (tau := T 0) hw H
  have hBp := nbP0_pos hb
  have hd := H.denNb hBp
  have hb' := nbB_path (w := w) hg he hT
  have hB := nbP0_path hg hw he hT hb
  have hden := hO.fun_add ((hO.const_sub 1).fun_mul hB)
  have hS := (hB.fun_mul (hO.const_sub 1)).fun_div hden hd.ne'
  have hkp := exp_pos (T 0)
  have hc : HasDerivAt (fun t => w / exp (T t)) (-(w / exp (T 0)) * T') 0 := by
    refine ((hasDerivAt_const (0 : ℝ) w).fun_div hT.exp hkp.ne').congr_deriv ?_
    have := hkp.ne'
    field_simp
    ring
  have hX := (hc.fun_mul (hb'.log hb.ne')).fun_sub (hL.fun_div hb' hb.ne')
  intro K
  have hK : K = _ := zinbH_zero
  rw [hK]
  simp only [zinbDi_zero hw]
  clear_value K
  have h1 := hw.ne'
  have h2 := hb.ne'
  have h4 := hd.ne'
  have h5 := hkp.ne'
  refine ⟨?_, ?_, ?_⟩
  · refine ((((hasDerivAt_const (0 : ℝ) (1 : ℝ)).fun_div hb' h2).fun_mul hS).fun_mul hL1).congr_deriv ?_
    generalize hD : h.F (s 0) + (1 - h.F (s 0)) * nbP0 g w (e 0) (T 0) = D at h4 ⊢
    field_simp
    rw [← hD]
    ring
  · refine (((hB.const_sub 1).fun_neg.fun_mul hO1).fun_div hden h4).congr_deriv ?_
    generalize hD : h.F (s 0) + (1 - h.F (s 0)) * nbP0 g w (e 0) (T 0) = D at h4 ⊢
    field_simp
    rw [← hD]
    ring
  · refine (hS.fun_neg.fun_mul hX).congr_deriv ?_
    generalize hD : h.F (s 0) + (1 - h.F (s 0)) * nbP0 g w (e 0) (T 0) = D at h4 ⊢
    field_simp
    rw [← hD]
    ring

theorem zinb_h1_path (hsp : Glm.IsSp sp) (hg : GoodC g) (hh : GoodC h) (hy : 0 < y)
    (he : HasDerivAt e e' 0) (hs : HasDerivAt s s' 0) (hT : HasDerivAt T T' 0) (H : ZDom g h (e 0) (s 0)) :
    let K := zinbH sp g h y 1 (e 0) (s 0) (T 0)
    HasDerivAt (fun t => (zinbDi sp g h y 1 (e t) (s t) (T t)).1) (K.ee * e' + K.se * s' + K.te * T') 0 ∧
    HasDerivAt (fun t => (zinbDi sp g h y 1 (e t) (s t) (T t)).2.1) (K.se * e' + K.ss * s' + K.ts * T') 0 ∧
    HasDerivAt (fun t => (zinbDi sp g h y 1 (e t) (s t) (T t)).2.2) (K.te * e' + K.ts * s' + K.tt * T') 0 := by
  have hL : HasDerivAt (fun t => g.F (e t)) (g.F1 (e 0) * e') 0 := (hg.d1 (e 0)).comp 0 he
  have hL1 : HasDerivAt (fun t => g.F1 (e t)) (g.F2 (e 0) * e') 0 := (hg.d2 (e 0)).comp 0 he
  have hO : HasDerivAt (fun t => h.F (s t)) (h.F1 (s 0) * s') 0 := (hh.d1 (s 0)).comp 0 hs
  have hO1 : HasDerivAt (fun t => h.F1 (s t)) (h.F2 (s 0) * s') 0 := (hh.d2 (s 0)).comp 0 hs
  have hkp := exp_pos (T 0)
  have hk := hT.exp
  have hka : HasDerivAt (fun t => 1 / exp (T t)) (-(1 / exp (T 0)) * T') 0 := by
    refine ((hasDerivAt_const (0 : ℝ) (1 : ℝ)).fun_div hk hkp.ne').congr_deriv ?_
    have := hkp.ne'
    field_simp
    ring
  have h1 := H.rate
  have h4 : 1 - h.F (s 0) ≠ 0 := (sub_pos.2 H.hi).ne'
  have hx5 := hka.const_mul (1 : ℝ)
  have hx6 := hx5.add_const y
  have hx7 := ((hL.fun_mul hk).mul_const ((1 : ℝ) / 1)).add_const (1 : ℝ)
  have p5 : 0 < 1 * (1 / exp (T 0)) := by positivity
  have p6 : 0 < 1 * (1 / exp (T 0)) + y := by positivity
  have p7 : 0 < g.F (e 0) * exp (T 0) * (1 / 1) + 1 := by positivity
  have hx8 := (hasDerivAt_const (0 : ℝ) (1 : ℝ)).fun_div hx7 p7.ne'
  have q6 : HasDerivAt (fun t => sp.digamma (1 * (1 / exp (T t)) + y)) _ 0 := (hsp.trigamma _ p6).comp (0 : ℝ) hx6
  have q5 : HasDerivAt (fun t => sp.digamma (1 * (1 / exp (T t)))) _ 0 := (hsp.trigamma _ p5).comp (0 : ℝ) hx5
  simp only [zinbDi, if_neg hy.ne', zinbH]
  have e1 : exp (2 * log (exp (T 0))) = exp (T 0) ^ 2 := by rw [log_exp, two_mul, exp_add, sq]
  have e2 : exp (-(2 * log (exp (T 0)))) = 1 / exp (T 0) ^ 2 := by rw [exp_neg, e1, one_div]
  rw [e1, e2]
  have h2 := hkp.ne'
  have h3 := h1.ne'
  have h6 : g.F (e 0) * exp (T 0) + 1 ≠ 0 := by positivity
  have h7 : exp (T 0) * g.F (e 0) + 1 ≠ 0 := by positivity
  refine ⟨?_, ?_, ?_⟩
  · refine (((((hL1.fun_mul hk).mul_const ((1 : ℝ) / 1)).fun_mul hx6).fun_mul hx8).fun_sub
      ((hL1.mul_const y).fun_div hL h3)).congr_deriv ?_
    simp only [div_one, mul_one, one_mul]
    field_simp
    ring
  · refine (hO1.fun_div (hO.const_sub 1) h4).congr_deriv ?_
    rw [← neg_sub 1 (h.F (s 0))]
    field_simp
    ring
  · refine ((((((hka.const_mul (1 : ℝ)).fun_mul q6).fun_add
      ((((hL.fun_mul hk).mul_const ((1 : ℝ) / 1)).fun_mul hx6).fun_mul hx8)).fun_sub (hx5.fun_mul (hx7.log p7.ne'))).fun_sub
      (hx5.fun_mul q5)).sub_const y).congr_deriv ?_
    simp only [div_one, mul_one, one_mul]
    generalize sp.digamma (1 / exp (T 0) + y) = A1
    generalize sp.digamma (1 / exp (T 0)) = A2
    generalize sp.trigamma (1 / exp (T 0) + y) = A3
    generalize sp.trigamma (1 / exp (T 0)) = A4
    generalize log (g.F (e 0) * exp (T 0) + 1) = A5
    field_simp
    ring

end

/-! ## The likelihood -/

/-- Spec: the zero-inflated negative binomial probabilities. -/
noncomputable def zinbPMF (mu k om : ℝ) (y : ℕ) : ℝ := (if y = 0 then om else 0) + (1 - om) * Glm.nbPMF mu k y

theorem nbPMF_zero (hsp : Glm.IsSp sp) {mu k : ℝ} (hm : 0 < mu) (hk : 0 < k) :
    Glm.nbPMF mu k 0 = (1 + k * mu) ^ (-1 / k) := by
  have h := Glm.C68_negBinomial hsp 0 (phi := 1) hm hk
  rw [← h]
  have hp : 0 < 1 + k * mu := by positivity
  simp only [Glm.negBinomial, Nat.cast_zero, zero_add, zero_mul, zero_sub]
  rw [hsp.gammaln 1 one_pos, Real.Gamma_one, log_one, rpow_def_of_pos hp]
  congr 1
  ring

/-- For unit weights the likelihood of a count is its zero-inflated negative binomial probability; these add up to one. -/
theorem C102_pmf (hsp : Glm.IsSp sp) {eta psi tau : ℝ} (H : ZDom g h eta psi) :
    (∀ y : ℕ, exp (-zinbNll sp g h y 1 eta psi tau) = zinbPMF (g.F eta) (exp tau) (h.F psi) y) ∧
      HasSum (zinbPMF (g.F eta) (exp tau) (h.F psi)) 1 := by
  have hk := exp_pos tau
  refine ⟨fun y => ?_, ?_⟩
  · rcases Nat.eq_zero_or_pos y with rfl | hy
    · simp only [zinbNll, zinbPMF, Nat.cast_zero, if_true]
      have hb : 0 < nbB g 1 eta tau := nbB_pos one_pos H
      have hd := H.denNb (nbP0_pos hb)
      rw [neg_neg, div_one, nbPMF_zero hsp H.rate hk]
      unfold nbP0 nbB at hd
      rw [div_one] at hd
      exact exp_log hd
    · have hy0 : (y : ℝ) ≠ 0 := by exact_mod_cast hy.ne'
      simp only [zinbNll, zinbPMF, hy0, hy.ne', if_false, zero_add]
      rw [← Glm.C68_negBinomial hsp y (phi := 1) H.rate hk, neg_sub, sub_eq_add_neg, exp_add,
        exp_log (sub_pos.2 H.hi)]
  · have h2 := (Glm.C68_negBinomial_sum H.rate hk).mul_left (1 - h.F psi)
    have h3 : HasSum (fun y : ℕ => if y = 0 then h.F psi else 0) (h.F psi) := hasSum_ite_eq 0 _
    have h4 := h3.add h2
    rw [mul_one, add_sub_cancel] at h4
    exact h4

/-- `loglike_i` leaves out `w log Γ(y + 1)`. -/
theorem C102_loglike_i_partial (th : ℕ → ℝ) : zinbLoglike sp g h d n p q th =
    ∑ i ∈ Finset.range n, zinbLoglikeI sp g h d p q th i +
      ∑ i ∈ Finset.range n, if d.y i = 0 then 0 else d.w i * sp.gammaln (d.y i + 1) := by
  rw [zinbLoglike, ← Finset.sum_add_distrib]
  refine Finset.sum_congr rfl fun i _ => ?_
  by_cases hy : d.y i = 0
  · simp only [zinbNll, zinbLoglikeI, if_pos hy, add_zero]
  · simp only [zinbNll, zinbLoglikeI, if_neg hy, Glm.negBinomial, div_one]
    ring

/-- So `loglike` is not the sum of `loglike_i`: one observation, the count two. -/
theorem C102_loglike_i_violated (hsp : Glm.IsSp sp) : ∃ d : ZData, ∀ th,
    zinbLoglike sp g h d 1 p q th ≠ ∑ i ∈ Finset.range 1, zinbLoglikeI sp g h d p q th i := by
  refine ⟨⟨fun _ _ => 0, fun _ _ => 0, fun _ => 2, fun _ => 1⟩, fun th hh => ?_⟩
  rw [C102_loglike_i_partial, add_eq_left, Finset.sum_range_one] at hh
  simp only at hh
  rw [if_neg (by norm_num), one_mul, hsp.gammaln _ (by norm_num)] at hh
  have : Real.Gamma (2 + 1) = 2 := by
    have := Real.Gamma_nat_eq_factorial 2
    norm_num [Nat.factorial] at this ⊢
  rw [this] at hh
  exact (log_pos (by norm_num : (1 : ℝ) < 2)).ne' hh

/-- A weight of two is not the observation twice, neither for a zero … -/
theorem C102_weights_violated : zinbNll sp logC logitC 0 (2 * 1) 0 0 0 ≠ 2 * zinbNll sp logC logitC 0 1 0 0 0 := by
  simp only [zinbNll, if_true, logC, exp_zero, logit_half]
  have e1 : (1 + 1 / (2 * 1) * 1 : ℝ) ^ (-(2 * 1) / 1 : ℝ) = 4 / 9 := by
    rw [show (-(2 * 1) / 1 : ℝ) = -((2 : ℕ) : ℝ) by norm_num, rpow_neg (by norm_num), rpow_natCast]; norm_num
  have e2 : (1 + 1 / 1 * 1 : ℝ) ^ (-1 / 1 : ℝ) = 1 / 2 := by
    rw [show (-1 / 1 : ℝ) = -1 by norm_num, rpow_neg_one]; norm_num
  rw [e1, e2]
  intro hh
  have h2 : 2 * -log (1 / 2 + (1 - 1 / 2) * (1 / 2)) = -log ((1 / 2 + (1 - 1 / 2) * (1 / 2)) ^ 2) := by
    rw [log_pow]; push_cast; ring
  rw [h2, neg_inj] at hh
  have h3 := log_injOn_pos (x₁ := 1 / 2 + (1 - 1 / 2) * (4 / 9)) (x₂ := (1 / 2 + (1 - 1 / 2) * (1 / 2)) ^ 2)
    (Set.mem_Ioi.2 (by norm_num)) (Set.mem_Ioi.2 (by norm_num)) hh
  norm_num at h3

/-- … nor for a positive count, where the probability of not being an extra zero enters once. -/
theorem C102_weights_positive {y eta psi tau w : ℝ} (hy : y ≠ 0) : zinbNll sp g h y (2 * w) eta psi tau -
    2 * zinbNll sp g h y w eta psi tau = log (1 - h.F psi) := by
  simp only [zinbNll, if_neg hy, Glm.negBinomial]
  ring

/-- (The Poisson likelihood is proportional to the weights.) -/
theorem C101_weights {y eta psi w a : ℝ} : zipNll sp g h y (a * w) eta psi = a * zipNll sp g h y w eta psi := by
  simp only [zipNll]
  split_ifs <;> ring

/-! ## Derivatives -/

variable {P : ℝ → ℕ → ℝ} {v : ℕ → ℝ}

theorem dot_blocks3 (A B C : ℕ → ℝ) : dotN (p + q + 1) (fun j => if j < p then ∑ i ∈ Finset.range n, d.X i j * A i
      else if j < p + q then ∑ i ∈ Finset.range n, d.Z i (j - p) * B i else ∑ i ∈ Finset.range n, C i) v =
    ∑ i ∈ Finset.range n, (A i * dotN p (d.X i) v + B i * (dotN q (d.Z i) fun j => v (p + j)) + C i * v (p + q)) := by
  have e : dotN (p + q + 1) (fun j => if j < p then ∑ i ∈ Finset.range n, d.X i j * A i
      else if j < p + q then ∑ i ∈ Finset.range n, d.Z i (j - p) * B i else ∑ i ∈ Finset.range n, C i) v =
      dotN (p + q) (fun j => if j < p then ∑ i ∈ Finset.range n, d.X i j * A i
        else ∑ i ∈ Finset.range n, d.Z i (j - p) * B i) v + (∑ i ∈ Finset.range n, C i) * v (p + q) := by
    rw [dotN, Finset.sum_range_succ]
    congr 1
    · refine Finset.sum_congr rfl fun j hj => ?_
      have := Finset.mem_range.1 hj
      simp only [if_pos this]
    · simp only [show ¬ p + q < p by omega, lt_irrefl, if_false]
  rw [e, dot_blocks, Finset.sum_mul, ← Finset.sum_add_distrib]

theorem eta_path3 (hP : PathN (p + q + 1) P v) (i : ℕ) :
    HasDerivAt (fun t => zEta d p (P t) i) (dotN p (d.X i) v) 0 :=
  dot_path (fun j hj => hP j (by omega)) _

theorem psi_path3 (hP : PathN (p + q + 1) P v) (i : ℕ) :
    HasDerivAt (fun t => zPsi d p q (P t) i) (dotN q (d.Z i) fun j => v (p + j)) 0 :=
  dot_path (P := fun t j => P t (p + j)) (fun j hj => hP (p + j) (by omega)) _

/-- `gradient` is the gradient of `loglike`, for all weights. -/
theorem C102_gradient (hsp : Glm.IsSp sp) (hg : GoodC g) (hh : GoodC h) (hw : ∀ i, i < n → 0 < d.w i)
    (hy : ∀ i, i < n → 0 ≤ d.y i) (hP : PathN (p + q + 1) P v)
    (H : ∀ i, i < n → ZDom g h (zEta d p (P 0) i) (zPsi d p q (P 0) i)) :
    HasDerivAt (fun t => zinbLoglike sp g h d n p q (P t))
      (dotN (p + q + 1) (zinbGrad sp g h d n p q (P 0)) v) 0 := by
  have hT : HasDerivAt (fun t => P t (p + q)) (v (p + q)) 0 := hP _ (by omega)
  unfold zinbLoglike
  refine (HasDerivAt.fun_sum fun i hi => zinb_nll_path hsp hg hh (hw i (Finset.mem_range.1 hi))
    (hy i (Finset.mem_range.1 hi)) (eta_path3 hP i) (psi_path3 hP i) hT (H i (Finset.mem_range.1 hi))).congr_deriv ?_
  have e : zinbGrad sp g h d n p q (P 0) = fun j => if j < p then ∑ i ∈ Finset.range n, d.X i j *
        (zinbD sp g h (d.y i) (d.w i) (zEta d p (P 0) i) (zPsi d p q (P 0) i) (P 0 (p + q))).1
      else if j < p + q then ∑ i ∈ Finset.range n, d.Z i (j - p) *
        -(zinbD sp g h (d.y i) (d.w i) (zEta d p (P 0) i) (zPsi d p q (P 0) i) (P 0 (p + q))).2.1
      else ∑ i ∈ Finset.range n,
        (zinbD sp g h (d.y i) (d.w i) (zEta d p (P 0) i) (zPsi d p q (P 0) i) (P 0 (p + q))).2.2 := by
    funext j
    simp only [zinbGrad, mul_neg, Finset.sum_neg_distrib]
  rw [e, dot_blocks3]
  exact Finset.sum_congr rfl fun i _ => by ring

theorem zinbD_eq {y w eta psi tau : ℝ} (hw : 0 < w) (hy : y ≠ 0 → w = 1) (H : ZDom g h eta psi) :
    zinbD sp g h y w eta psi tau = (let D := zinbDi sp g h y w eta psi tau; (D.1, -D.2.1, D.2.2)) := by
  by_cases h0 : y = 0
  · subst h0; exact zinbD_zero hw H
  · obtain rfl := hy h0; exact zinbDi_nz h0 H

theorem zinbGrad_eq (hw : ∀ i, i < n → 0 < d.w i) (hw1 : ∀ i, i < n → d.y i ≠ 0 → d.w i = 1) (th : ℕ → ℝ)
    (H : ∀ i, i < n → ZDom g h (zEta d p th i) (zPsi d p q th i)) (j : ℕ) : zinbGrad sp g h d n p q th j =
    (let D := fun i => zinbDi sp g h (d.y i) (d.w i) (zEta d p th i) (zPsi d p q th i) (th (p + q))
     if j < p then ∑ i ∈ Finset.range n, d.X i j * (D i).1
     else if j < p + q then ∑ i ∈ Finset.range n, d.Z i (j - p) * (D i).2.1 else ∑ i ∈ Finset.range n, (D i).2.2) := by
  have e : ∀ i ∈ Finset.range n, _ := fun i hi => zinbD_eq (sp := sp) (tau := th (p + q)) (hw i (Finset.mem_range.1 hi))
    (hw1 i (Finset.mem_range.1 hi)) (H i (Finset.mem_range.1 hi))
  simp only [zinbGrad]
  split_ifs
  · exact Finset.sum_congr rfl fun i hi => by rw [e i hi]
  · rw [← Finset.sum_neg_distrib]
    exact Finset.sum_congr rfl fun i hi => by rw [e i hi]; simp
  · exact Finset.sum_congr rfl fun i hi => by rw [e i hi]

/-- The rows of `gradient_i` add up to `gradient` when the positive counts have unit weight. -/
theorem C102_gradient_i_partial (hw : ∀ i, i < n → 0 < d.w i) (hw1 : ∀ i, i < n → d.y i ≠ 0 → d.w i = 1) (th : ℕ → ℝ)
    (H : ∀ i, i < n → ZDom g h (zEta d p th i) (zPsi d p q th i)) (j : ℕ) :
    ∑ i ∈ Finset.range n, zinbGradI sp g h d p q th i j = zinbGrad sp g h d n p q th j := by
  rw [zinbGrad_eq hw hw1 th H]
  simp only [zinbGradI]
  split_ifs
  · exact Finset.sum_congr rfl fun i _ => mul_comm _ _
  · exact Finset.sum_congr rfl fun i _ => mul_comm _ _
  · rfl

/-- Otherwise they do not: one observation, the count two with weight two. -/
theorem C102_gradient_i_violated : ∃ d : ZData, d.w 0 = 2 ∧ d.y 0 = 2 ∧
    ∑ i ∈ Finset.range 1, zinbGradI sp logC logitC d 1 0 (fun _ => 0) i 0 ≠
      zinbGrad sp logC logitC d 1 1 0 (fun _ => 0) 0 := by
  refine ⟨⟨fun _ _ => 1, fun _ _ => 1, fun _ => 2, fun _ => 2⟩, rfl, rfl, ?_⟩
  simp [zinbGradI, zinbGrad, zinbD, zinbDi, zEta, dotN, logC]
  norm_num

/-- `hessian` is the derivative of `gradient` when the positive counts have unit weight. -/
theorem C102_hessian_partial (hsp : Glm.IsSp sp) (hg : GoodC g) (hh : GoodC h) (hw : ∀ i, i < n → 0 < d.w i)
    (hw1 : ∀ i, i < n → d.y i ≠ 0 → d.w i = 1) (hy : ∀ i, i < n → 0 ≤ d.y i) (hP : PathN (p + q + 1) P v)
    (H : ∀ eta psi, ZDom g h eta psi) (j : ℕ) :
    HasDerivAt (fun t => zinbGrad sp g h d n p q (P t) j)
      (dotN (p + q + 1) (zinbHess sp g h d n p q (P 0) j) v) 0 := by
  have hT : HasDerivAt (fun t => P t (p + q)) (v (p + q)) 0 := hP _ (by omega)
  have hz := fun t => zinbGrad_eq (sp := sp) (p := p) (q := q) hw hw1 (P t) (fun i _ => H _ _) j
  rw [show (fun t => zinbGrad sp g h d n p q (P t) j) = _ from funext hz]
  clear hz
  have key : ∀ i, i < n →
      let K := zinbH sp g h (d.y i) (d.w i) (zEta d p (P 0) i) (zPsi d p q (P 0) i) (P 0 (p + q))
      let D := fun t => zinbDi sp g h (d.y i) (d.w i) (zEta d p (P t) i) (zPsi d p q (P t) i) (P t (p + q))
      let e' := dotN p (d.X i) v
      let s' := dotN q (d.Z i) fun j => v (p + j)
      HasDerivAt (fun t => (D t).1) (K.ee * e' + K.se * s' + K.te * v (p + q)) 0 ∧
      HasDerivAt (fun t => (D t).2.1) (K.se * e' + K.ss * s' + K.ts * v (p + q)) 0 ∧
      HasDerivAt (fun t => (D t).2.2) (K.te * e' + K.ts * s' + K.tt * v (p + q)) 0 := by
    intro i hi
    by_cases h0 : d.y i = 0
    · rw [h0]
      exact zinb_h0_path hg hh (hw i hi) (eta_path3 hP i) (psi_path3 hP i) hT (H _ _)
    · rw [hw1 i hi h0]
      exact zinb_h1_path hsp hg hh (lt_of_le_of_ne (hy i hi) (Ne.symm h0)) (eta_path3 hP i) (psi_path3 hP i) hT (H _ _)
  by_cases hj : j < p
  · simp only [if_pos hj]
    refine (HasDerivAt.fun_sum fun i hi => (key i (Finset.mem_range.1 hi)).1.const_mul (d.X i j)).congr_deriv ?_
    have e : zinbHess sp g h d n p q (P 0) j = fun c => if c < p then ∑ i ∈ Finset.range n, d.X i c *
          (d.X i j * (zinbH sp g h (d.y i) (d.w i) (zEta d p (P 0) i) (zPsi d p q (P 0) i) (P 0 (p + q))).ee)
        else if c < p + q then ∑ i ∈ Finset.range n, d.Z i (c - p) *
          (d.X i j * (zinbH sp g h (d.y i) (d.w i) (zEta d p (P 0) i) (zPsi d p q (P 0) i) (P 0 (p + q))).se)
        else ∑ i ∈ Finset.range n,
          d.X i j * (zinbH sp g h (d.y i) (d.w i) (zEta d p (P 0) i) (zPsi d p q (P 0) i) (P 0 (p + q))).te := by
      funext c
      simp only [zinbHess, if_pos hj]
      split_ifs <;> exact Finset.sum_congr rfl fun i _ => by ring
    rw [e, dot_blocks3]
    exact Finset.sum_congr rfl fun i _ => by ring
  · simp only [if_neg hj]
    by_cases hj2 : j < p + q
    · simp only [if_pos hj2]
      refine (HasDerivAt.fun_sum fun i hi =>
        (key i (Finset.mem_range.1 hi)).2.1.const_mul (d.Z i (j - p))).congr_deriv ?_
      have e : zinbHess sp g h d n p q (P 0) j = fun c => if c < p then ∑ i ∈ Finset.range n, d.X i c *
            (d.Z i (j - p) * (zinbH sp g h (d.y i) (d.w i) (zEta d p (P 0) i) (zPsi d p q (P 0) i) (P 0 (p + q))).se)
          else if c < p + q then ∑ i ∈ Finset.range n, d.Z i (c - p) *
            (d.Z i (j - p) * (zinbH sp g h (d.y i) (d.w i) (zEta d p (P 0) i) (zPsi d p q (P 0) i) (P 0 (p + q))).ss)
          else ∑ i ∈ Finset.range n,
            d.Z i (j - p) * (zinbH sp g h (d.y i) (d.w i) (zEta d p (P 0) i) (zPsi d p q (P 0) i) (P 0 (p + q))).ts := by
        funext c
        simp only [zinbHess, if_neg hj, if_pos hj2]
        split_ifs <;> exact Finset.sum_congr rfl fun i _ => by ring
      rw [e, dot_blocks3]
      exact Finset.sum_congr rfl fun i _ => by ring
    · simp only [if_neg hj2]
      refine (HasDerivAt.fun_sum fun i hi => (key i (Finset.mem_range.1 hi)).2.2).congr_deriv ?_
      have e : zinbHess sp g h d n p q (P 0) j = fun c => if c < p then ∑ i ∈ Finset.range n, d.X i c *
            (zinbH sp g h (d.y i) (d.w i) (zEta d p (P 0) i) (zPsi d p q (P 0) i) (P 0 (p + q))).te
          else if c < p + q then ∑ i ∈ Finset.range n, d.Z i (c - p) *
            (zinbH sp g h (d.y i) (d.w i) (zEta d p (P 0) i) (zPsi d p q (P 0) i) (P 0 (p + q))).ts
          else ∑ i ∈ Finset.range n,
            (zinbH sp g h (d.y i) (d.w i) (zEta d p (P 0) i) (zPsi d p q (P 0) i) (P 0 (p + q))).tt := by
        funext c
        simp only [zinbHess, if_neg hj, if_neg hj2]
        split_ifs <;> exact Finset.sum_congr rfl fun i _ => by ring
      rw [e, dot_blocks3]

/-- Otherwise it is not: one observation, the count one with weight two. -/
theorem C102_hessian_violated : ∃ d : ZData, d.w 0 = 2 ∧ d.y 0 = 1 ∧
    ¬ HasDerivAt (fun t => zinbGrad sp logC logitC d 1 1 0 (fun j => if j = 0 then t else 0) 0)
      (zinbHess sp logC logitC d 1 1 0 (fun _ => 0) 0 0) 0 := by
  refine ⟨⟨fun _ _ => 1, fun _ _ => 1, fun _ => 1, fun _ => 2⟩, rfl, rfl, fun hd => ?_⟩
  have e : (fun t => zinbGrad sp logC logitC ⟨fun _ _ => 1, fun _ _ => 1, fun _ => 1, fun _ => 2⟩ 1 1 0
      (fun j => if j = 0 then t else 0) 0) = fun t => 2 / (exp t + 1) * (exp t - 1) := by
    funext t
    have := (exp_pos t).ne'
    simp [zinbGrad, zinbD, zEta, dotN, logC]
  have e2 : zinbHess sp logC logitC ⟨fun _ _ => 1, fun _ _ => 1, fun _ => 1, fun _ => 2⟩ 1 1 0 (fun _ => 0) 0 0 = 2 / 3 := by
    simp [zinbHess, zinbH, zEta, dotN, logC]
    norm_num
  rw [e, e2] at hd
  have hx := hasDerivAt_exp (0 : ℝ)
  have h2 := ((hasDerivAt_const (0 : ℝ) (2 : ℝ)).fun_div (hx.add_const 1) (by positivity)).fun_mul (hx.sub_const 1)
  have h3 := hd.unique h2
  rw [exp_zero] at h3
  norm_num at h3

/-- The Hessian is symmetric. -/
theorem C102_hessian_symm (th : ℕ → ℝ) (j c : ℕ) :
    zinbHess sp g h d n p q th j c = zinbHess sp g h d n p q th c j := by
  simp only [zinbHess]
  split_ifs <;> first | rfl | exact Finset.sum_congr rfl fun i _ => by ring

/-- The quantiles of `predict` use the variance where the family expects the dispersion. -/
theorem C102_predict_violated {ppf : ℝ → ℝ → ℝ → ℝ} {level : ℝ} (hinj : Function.Injective (ppf level 1)) :
    (zinbPredicted sp ppf level 1 1).2 ≠ ppf level 1 1 := by
  simp only [zinbPredicted, Glm.negBinomial]
  intro hh
  have := hinj hh
  norm_num at this

/-- The hypotheses on the links hold for the default links, for all predictors. -/
example : GoodC logC ∧ GoodC logitC ∧ ∀ eta psi, ZDom logC logitC eta psi := ⟨good_log, good_logit, zdom_default⟩

end Verif.Like
