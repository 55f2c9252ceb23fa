import Verif.Gam.Gauls
import Mathlib.Analysis.SpecialFunctions.Log.Deriv
import Mathlib.Analysis.SpecialFunctions.ExpDeriv
import Mathlib.Analysis.Calculus.FDeriv.Prod
import Mathlib.Analysis.Calculus.FDeriv.Mul
import Mathlib.Analysis.Calculus.Deriv.Inv
import Mathlib.Analysis.Calculus.Deriv.Comp

namespace Verif.Gam.Gauls

/-! ### Links -/

/-- The methods of a link are what they are named after: `d1` is the first derivative of the link, which the class has no method for. -/
structure LnkOk (l : Lnk) (d1 : ℝ → ℝ) : Prop where
  left : ∀ e, l.link (l.inv e) = e
  link : ∀ e, HasDerivAt l.link (d1 (l.inv e)) (l.inv e)
  inv : ∀ e, HasDerivAt l.inv (l.dinv e) e
  d2 : ∀ e, HasDerivAt d1 (l.d2 (l.inv e)) (l.inv e)
  d3 : ∀ e, HasDerivAt l.d2 (l.d3 (l.inv e)) (l.inv e)
  d4 : ∀ e, HasDerivAt l.d3 (l.d4 (l.inv e)) (l.inv e)

theorem LnkOk.one {l : Lnk} {d1 : ℝ → ℝ} (h : LnkOk l d1) (e : ℝ) : d1 (l.inv e) * l.dinv e = 1 := by
  have h1 : HasDerivAt (fun x => l.link (l.inv x)) (d1 (l.inv e) * l.dinv e) e := (h.link e).comp e (h.inv e)
  have h2 : (fun x => l.link (l.inv x)) = id := funext h.left
  rw [h2] at h1
  exact h1.unique (hasDerivAt_id e)

theorem LnkOk.dinv {l : Lnk} {d1 : ℝ → ℝ} (h : LnkOk l d1) (e : ℝ) : HasDerivAt l.dinv (-(l.d2 (l.inv e) * l.dinv e ^ 3)) e := by
  have h0 : d1 (l.inv e) ≠ 0 := left_ne_zero_of_mul_eq_one (h.one e)
  have e1 : l.dinv = fun x => (d1 (l.inv x))⁻¹ := funext fun x => eq_inv_of_mul_eq_one_right (h.one x)
  have h1 : HasDerivAt (fun x => d1 (l.inv x)) (l.d2 (l.inv e) * l.dinv e) e := (h.d2 e).comp e (h.inv e)
  have h2 := h1.fun_inv h0
  have h3 := congrFun e1 e
  rw [e1] at *
  refine h2.congr_deriv ?_
  field_simp

/-- **C156** The identity link meets the contract. -/
theorem C156_identity : LnkOk identity fun _ => 1 where
  left _ := rfl
  link e := hasDerivAt_id e
  inv e := hasDerivAt_id e
  d2 _ := hasDerivAt_const _ _
  d3 _ := hasDerivAt_const _ _
  d4 _ := hasDerivAt_const _ _

/-- The first derivative of the link of the scale. -/
noncomputable def logbD1 (mu : ℝ) : ℝ := -1 / (mu * (1 - mu * (1 / 100)))

theorem logb_pos (b e : ℝ) : 0 < (logb b).inv e := by
  have := Real.exp_pos e
  simp only [logb]
  positivity

theorem logb_lt (b e : ℝ) : 0 < 1 - (logb b).inv e * (1 / 100) := by
  have := Real.exp_pos e
  simp only [logb]
  rw [sub_pos, one_div_mul_eq_div, div_lt_one (by positivity)]
  linarith

/-- **C156** `LogbLink` is a link: `inv_link` inverts `link`, and `dinv_link`, `d2link`, `d3link`, `d4link` are the derivatives they are
named as, at every predictor. -/
theorem C156_logb (b : ℝ) : LnkOk (logb b) logbD1 := by
  have key : ∀ e, (logb b).inv e ≠ 0 ∧ 1 - (logb b).inv e * (1 / 100) ≠ 0 := fun e => ⟨(logb_pos b e).ne', (logb_lt b e).ne'⟩
  have hu : ∀ x : ℝ, HasDerivAt (fun mu : ℝ => 1 - mu * (1 / 100)) (-(1 / 100)) x := fun x => by
    simpa using ((hasDerivAt_id x).mul_const (1 / 100)).const_sub 1
  have hmu : ∀ x : ℝ, HasDerivAt (fun mu : ℝ => mu * (1 - mu * (1 / 100))) (1 - x * (1 / 100) - x * (1 / 100)) x := fun x => by
    refine ((hasDerivAt_id x).mul (hu x)).congr_deriv ?_
    simp only [id]; ring
  refine ⟨fun e => ?_, fun e => ?_, fun e => ?_, fun e => ?_, fun e => ?_, fun e => ?_⟩
  · simp [logb]
  · obtain ⟨h1, h2⟩ := key e
    generalize (logb b).inv e = x at h1 h2
    have h3 : 1 / x - 1 / 100 ≠ 0 := by
      intro h; apply h2; field_simp at h ⊢; linarith
    have h4 : HasDerivAt (fun mu : ℝ => 1 / mu - 1 / 100) (-(x ^ 2)⁻¹) x := by
      simpa using (hasDerivAt_inv h1).sub_const (1 / 100)
    refine (h4.log h3).congr_deriv ?_
    rw [logbD1]
    have h5 : 100 - x ≠ 0 := by intro h; apply h2; linarith
    have e3 : 1 / x - 1 / 100 = (100 - x) / (100 * x) := by field_simp
    have e2 : 1 - x * (1 / 100) = (100 - x) / 100 := by ring
    rw [e3, e2]
    field_simp
  · have h0 := Real.exp_pos e
    have h1 : HasDerivAt (fun eta : ℝ => Real.exp eta + 1 / 100) (Real.exp e) e := (Real.hasDerivAt_exp e).add_const _
    have h2 := h1.fun_inv (by positivity)
    simp only [logb, one_div] at h2 ⊢
    exact h2
  · obtain ⟨h1, h2⟩ := key e
    generalize (logb b).inv e = x at h1 h2
    have h3 := (hasDerivAt_const x (-1 : ℝ)).fun_div (hmu x) (mul_ne_zero h1 h2)
    refine h3.congr_deriv ?_
    simp only [logb]
    congr 1
    ring
  · obtain ⟨h1, h2⟩ := key e
    generalize (logb b).inv e = x at h1 h2
    have h4 : HasDerivAt (fun mu : ℝ => 2 * (1 - mu * (1 / 100)) - 1) (2 * -(1 / 100)) x := ((hu x).const_mul 2).sub_const 1
    have h3 := h4.fun_div ((hmu x).fun_pow 2) (pow_ne_zero 2 (mul_ne_zero h1 h2))
    refine h3.congr_deriv ?_
    simp only [logb]
    rw [div_eq_div_iff (pow_ne_zero 2 (pow_ne_zero 2 (mul_ne_zero h1 h2))) (pow_ne_zero 3 (mul_ne_zero h1 h2))]
    push_cast
    ring
  · obtain ⟨h1, h2⟩ := key e
    generalize (logb b).inv e = x at h1 h2
    have h4 : HasDerivAt (fun mu : ℝ => (1 - (1 - mu * (1 / 100))) * (1 - mu * (1 / 100)) * 6 - 2)
        ((1 / 100 * (1 - x * (1 / 100)) + (1 - (1 - x * (1 / 100))) * -(1 / 100)) * 6) x := by
      refine (((((hu x).const_sub 1).mul (hu x)).mul_const 6).sub_const 2).congr_deriv ?_
      ring
    have h3 := h4.fun_div ((hmu x).fun_pow 3) (pow_ne_zero 3 (mul_ne_zero h1 h2))
    refine h3.congr_deriv ?_
    simp only [logb]
    rw [div_eq_div_iff (pow_ne_zero 2 (pow_ne_zero 3 (mul_ne_zero h1 h2))) (pow_ne_zero 4 (mul_ne_zero h1 h2))]
    push_cast
    ring

/-- **C156** The standard deviation exceeds the offset and the link of the scale decreases. -/
theorem C156_offset (b e : ℝ) : 1 / 100 < 1 / (logb b).inv e ∧ (logb b).dinv e < 0 := by
  have h := Real.exp_pos e
  constructor
  · simp only [logb, one_div_one_div]
    linarith
  · simp only [logb]
    exact div_neg_of_neg_of_pos (by linarith) (by positivity)

/-- **C156** Violated: the offset asked for is ignored, so no link built with an offset of one keeps the standard deviation above
one. -/
theorem C156_offset_violated : ∃ b e : ℝ, 0 < b ∧ 1 / (logb b).inv e < b := by
  refine ⟨1, Real.log (1 / 2), one_pos, ?_⟩
  simp only [logb, one_div_one_div, Real.exp_log (show (0 : ℝ) < 1 / 2 by norm_num)]
  norm_num

/-! ### Chain rule -/

/-- The derivatives in the predictor of `F 0 (inv e)`, from those of `F 0` up to the fourth. -/
noncomputable def chain (l : Lnk) (F : ℕ → ℝ → ℝ) (i : ℕ) (e : ℝ) : ℝ :=
  let mu := l.inv e
  let g1 := l.dinv e
  let g2 := l.d2 mu
  let g3 := l.d3 mu
  let g4 := l.d4 mu
  match i with
  | 0 => F 0 mu
  | 1 => F 1 mu * g1
  | 2 => (F 2 mu - F 1 mu * g2 * g1) * g1 ^ 2
  | 3 => (F 3 mu - 3 * F 2 mu * g2 * g1 + F 1 mu * (3 * g2 ^ 2 * g1 ^ 2 - g3 * g1)) * g1 ^ 3
  | _ => (F 4 mu - 6 * F 3 mu * g2 * g1 + F 2 mu * (15 * g2 ^ 2 * g1 ^ 2 - 4 * g3 * g1) -
      F 1 mu * (15 * g2 ^ 3 * g1 ^ 3 - 10 * g2 * g3 * g1 ^ 2 + g4 * g1)) * g1 ^ 4

theorem chain_deriv {l : Lnk} {d1 : ℝ → ℝ} (h : LnkOk l d1) {F : ℕ → ℝ → ℝ} {e : ℝ}
    (hF : ∀ i < 4, HasDerivAt (F i) (F (i + 1) (l.inv e)) (l.inv e)) {i : ℕ} (hi : i < 4) :
    HasDerivAt (chain l F i) (chain l F (i + 1) e) e := by
  have f0 : HasDerivAt (fun e => F 0 (l.inv e)) (F 1 (l.inv e) * l.dinv e) e := (hF 0 (by norm_num)).comp e (h.inv e)
  have f1 : HasDerivAt (fun e => F 1 (l.inv e)) (F 2 (l.inv e) * l.dinv e) e := (hF 1 (by norm_num)).comp e (h.inv e)
  have f2 : HasDerivAt (fun e => F 2 (l.inv e)) (F 3 (l.inv e) * l.dinv e) e := (hF 2 (by norm_num)).comp e (h.inv e)
  have f3 : HasDerivAt (fun e => F 3 (l.inv e)) (F 4 (l.inv e) * l.dinv e) e := (hF 3 (by norm_num)).comp e (h.inv e)
  have g1 := h.dinv e
  have g2 : HasDerivAt (fun e => l.d2 (l.inv e)) (l.d3 (l.inv e) * l.dinv e) e := (h.d3 e).comp e (h.inv e)
  have g3 : HasDerivAt (fun e => l.d3 (l.inv e)) (l.d4 (l.inv e) * l.dinv e) e := (h.d4 e).comp e (h.inv e)
  match i, hi with
  | 0, _ => exact f0
  | 1, _ =>
    refine (f1.fun_mul g1).congr_deriv ?_
    simp only [chain]; ring
  | 2, _ =>
    refine ((f2.fun_sub ((f1.fun_mul g2).fun_mul g1)).fun_mul (g1.fun_pow 2)).congr_deriv ?_
    simp only [chain]; push_cast; ring
  | 3, _ =>
    refine (((f3.fun_sub (((f2.const_mul 3).fun_mul g2).fun_mul g1)).fun_add (f1.fun_mul ((((g2.fun_pow 2).const_mul 3).fun_mul (g1.fun_pow 2)).fun_sub
      (g3.fun_mul g1)))).fun_mul (g1.fun_pow 3)).congr_deriv ?_
    simp only [chain]; push_cast; ring

/-! ### Functions of the two predictors -/

/-- `f` is differentiable at `(a, b)` with partial derivatives `fa` and `fb`. -/
def D2 (f : ℝ → ℝ → ℝ) (fa fb a b : ℝ) : Prop :=
  HasFDerivAt (fun z : ℝ × ℝ => f z.1 z.2) (fa • ContinuousLinearMap.fst ℝ ℝ ℝ + fb • ContinuousLinearMap.snd ℝ ℝ ℝ) (a, b)

theorem D2.congr {f : ℝ → ℝ → ℝ} {fa fb ga gb a b : ℝ} (h : D2 f fa fb a b) (h1 : fa = ga) (h2 : fb = gb) : D2 f ga gb a b := h1 ▸ h2 ▸ h

theorem D2.add {f g : ℝ → ℝ → ℝ} {fa fb ga gb a b : ℝ} (hf : D2 f fa fb a b) (hg : D2 g ga gb a b) :
    D2 (fun x y => f x y + g x y) (fa + ga) (fb + gb) a b := by
  have := HasFDerivAt.add hf hg
  refine this.congr_fderiv ?_
  rw [add_smul, add_smul]; abel

theorem D2.prod {u v : ℝ → ℝ} {u' v' a b : ℝ} (hu : HasDerivAt u u' a) (hv : HasDerivAt v v' b) :
    D2 (fun x y => u x * v y) (u' * v b) (u a * v') a b := by
  have h1 : HasFDerivAt (fun z : ℝ × ℝ => u z.1) (u' • ContinuousLinearMap.fst ℝ ℝ ℝ) (a, b) :=
    HasDerivAt.comp_hasFDerivAt (f := fun z : ℝ × ℝ => z.1) (a, b) hu hasFDerivAt_fst
  have h2 : HasFDerivAt (fun z : ℝ × ℝ => v z.2) (v' • ContinuousLinearMap.snd ℝ ℝ ℝ) (a, b) :=
    HasDerivAt.comp_hasFDerivAt (f := fun z : ℝ × ℝ => z.2) (a, b) hv hasFDerivAt_snd
  refine (h1.mul h2).congr_fderiv ?_
  ext <;> simp [mul_comm]

theorem D2.snd {v : ℝ → ℝ} {v' a b : ℝ} (hv : HasDerivAt v v' b) : D2 (fun _ y => v y) 0 v' a b := by
  have := D2.prod (hasDerivAt_const a (1 : ℝ)) hv
  simpa using this

theorem D2.const (c a b : ℝ) : D2 (fun _ _ => c) 0 0 a b := D2.snd (hasDerivAt_const b c)

/-! ### The log likelihood -/

/-- `-(y - mu)^2 / 2` and its derivatives. -/
noncomputable def locF (y : ℝ) : ℕ → ℝ → ℝ
  | 0, mu => -(1 / 2) * (y - mu) ^ 2
  | 1, mu => y - mu
  | 2, _ => -1
  | _, _ => 0

/-- `tau^2` and its derivatives. -/
noncomputable def sqF : ℕ → ℝ → ℝ
  | 0, t => t ^ 2
  | 1, t => 2 * t
  | 2, _ => 2
  | _, _ => 0

/-- `log tau` and its derivatives. -/
noncomputable def logF : ℕ → ℝ → ℝ
  | 0, t => Real.log t
  | 1, t => 1 / t
  | 2, t => -(1 / t ^ 2)
  | 3, t => 2 / (t ^ 2 * t)
  | _, t => -6 / (t ^ 2) ^ 2

theorem locF_deriv (y mu : ℝ) : ∀ i, HasDerivAt (locF y i) (locF y (i + 1) mu) mu
  | 0 => by
    have := (((hasDerivAt_id mu).const_sub y).fun_pow 2).const_mul (-(1 / 2))
    refine this.congr_deriv ?_
    simp only [locF, id]; push_cast; ring
  | 1 => (hasDerivAt_id mu).const_sub y
  | 2 => hasDerivAt_const _ _
  | _ + 3 => hasDerivAt_const _ _

theorem sqF_deriv (t : ℝ) : ∀ i, HasDerivAt (sqF i) (sqF (i + 1) t) t
  | 0 => by
    refine ((hasDerivAt_id t).fun_pow 2).congr_deriv ?_
    simp only [sqF, id]; push_cast; ring
  | 1 => by
    refine ((hasDerivAt_id t).const_mul 2).congr_deriv ?_
    simp only [sqF]; ring
  | 2 => hasDerivAt_const _ _
  | _ + 3 => hasDerivAt_const _ _

theorem logF_deriv {t : ℝ} (h : t ≠ 0) : ∀ i < 4, HasDerivAt (logF i) (logF (i + 1) t) t
  | 0, _ => by
    have e : logF 0 = Real.log := funext fun _ => rfl
    rw [e]
    exact (Real.hasDerivAt_log h).congr_deriv (one_div t).symm
  | 1, _ => by
    have e : logF 1 = fun y => y⁻¹ := funext fun y => one_div y
    rw [e]
    exact (hasDerivAt_inv h).congr_deriv (by simp [logF])
  | 2, _ => by
    refine ((hasDerivAt_const t (1 : ℝ)).fun_div ((hasDerivAt_id t).fun_pow 2) (pow_ne_zero 2 h)).fun_neg.congr_deriv ?_
    simp only [logF, id]; push_cast; field_simp; norm_num
  | 3, _ => by
    refine ((hasDerivAt_const t (2 : ℝ)).fun_div (((hasDerivAt_id t).fun_pow 2).fun_mul (hasDerivAt_id t)) (mul_ne_zero (pow_ne_zero 2 h) h)).congr_deriv ?_
    simp only [logF, id]; push_cast; field_simp; norm_num

/-- The derivative of order `i` in the predictor of the location and `j` in that of the scale. -/
noncomputable def tab (lm ls : Lnk) (y : ℝ) (i j : ℕ) (a b : ℝ) : ℝ :=
  chain lm (locF y) i a * chain ls sqF j b + (if i = 0 then chain ls logF j b else 0)

theorem tab_deriv {lm ls : Lnk} {dm ds : ℝ → ℝ} (hm : LnkOk lm dm) (hs : LnkOk ls ds) {y a b : ℝ} (h0 : ls.inv b ≠ 0) {i j : ℕ} (hi : i < 4) (hj : j < 4) :
    D2 (tab lm ls y i j) (tab lm ls y (i + 1) j a b) (tab lm ls y i (j + 1) a b) a b := by
  have h1 := D2.prod (chain_deriv hm (e := a) (fun i _ => locF_deriv y (lm.inv a) i) hi) (chain_deriv hs (e := b) (fun i _ => sqF_deriv (ls.inv b) i) hj)
  have h2 := chain_deriv hs (e := b) (logF_deriv h0) hj
  by_cases h : i = 0
  · subst h
    refine (h1.add (D2.snd h2)).congr ?_ ?_ <;> simp [tab]
  · have e : tab lm ls y i j = fun x y' => chain lm (locF y) i x * chain ls sqF j y' := by
      funext x y'
      simp [tab, h]
    rw [e]
    refine h1.congr ?_ ?_ <;> simp [tab, h]

theorem tab_eq (lm ls : Lnk) (y a b : ℝ) :
    lik y (lm.inv a) (ls.inv b) = tab lm ls y 0 0 a b - 1 / 2 * Real.log (2 * Real.pi) ∧
    etaD lm ls y a b = ⟨tab lm ls y 1 0 a b, tab lm ls y 0 1 a b, tab lm ls y 2 0 a b, tab lm ls y 1 1 a b, tab lm ls y 0 2 a b,
      tab lm ls y 3 0 a b, tab lm ls y 2 1 a b, tab lm ls y 1 2 a b, tab lm ls y 0 3 a b,
      tab lm ls y 4 0 a b, tab lm ls y 3 1 a b, tab lm ls y 2 2 a b, tab lm ls y 1 3 a b, tab lm ls y 0 4 a b⟩ := by
  constructor
  · simp only [lik, tab, chain, locF, sqF, logF, if_true]; ring
  · simp only [etaD, toEta, muTau, tab, chain, locF, sqF, logF, if_true, D4.mk.injEq, if_false, one_ne_zero, OfNat.ofNat_ne_zero]
    refine ⟨?_, ?_, ?_, ?_, ?_, ?_, ?_, ?_, ?_, ?_, ?_, ?_, ?_, ?_⟩ <;> ring

/-- **C156** The columns of `ll_eta_derivs` are the derivatives of the log likelihood of an observation in the two linear predictors:
first, second, third and fourth, pure and mixed, for any links that meet the contract and wherever `tau` is not zero. -/
theorem C156_derivs {lm ls : Lnk} {dm ds : ℝ → ℝ} (hm : LnkOk lm dm) (hs : LnkOk ls ds) {y a b : ℝ} (h0 : ls.inv b ≠ 0) :
    let D := etaD lm ls y a b
    D2 (fun a b => lik y (lm.inv a) (ls.inv b)) D.m D.s a b ∧
    D2 (fun a b => (etaD lm ls y a b).m) D.mm D.ms a b ∧
    D2 (fun a b => (etaD lm ls y a b).s) D.ms D.ss a b ∧
    D2 (fun a b => (etaD lm ls y a b).mm) D.mmm D.mms a b ∧
    D2 (fun a b => (etaD lm ls y a b).ms) D.mms D.mss a b ∧
    D2 (fun a b => (etaD lm ls y a b).ss) D.mss D.sss a b ∧
    D2 (fun a b => (etaD lm ls y a b).mmm) D.mmmm D.mmms a b ∧
    D2 (fun a b => (etaD lm ls y a b).mms) D.mmms D.mmss a b ∧
    D2 (fun a b => (etaD lm ls y a b).mss) D.mmss D.msss a b ∧
    D2 (fun a b => (etaD lm ls y a b).sss) D.msss D.ssss a b := by
  have e1 := fun a b => (tab_eq lm ls y a b).1
  have e2 := fun a b => (tab_eq lm ls y a b).2
  simp only [e1, e2, sub_eq_add_neg]
  have T := fun i j hi hj => tab_deriv (y := y) (a := a) (b := b) (i := i) (j := j) hm hs h0 hi hj
  refine ⟨((T 0 0 (by norm_num) (by norm_num)).add (D2.const _ a b)).congr (add_zero _) (add_zero _), ?_, ?_, ?_, ?_, ?_, ?_, ?_, ?_, ?_⟩
  all_goals exact T _ _ (by norm_num) (by norm_num)

/-- **C156** In particular for the default links, at all predictors. -/
theorem C156_default (b y a e : ℝ) : D2 (fun a e => lik y (identity.inv a) ((logb b).inv e)) (etaD identity (logb b) y a e).m (etaD identity (logb b) y a e).s a e :=
  (C156_derivs C156_identity (C156_logb b) (logb_pos b e).ne').1

/-- **C156** With the identity link for the mean and any link for the scale the location block is negative: the working weight of the
location is the squared inverse standard deviation. -/
theorem C156_location (ls : Lnk) (y a b : ℝ) : (etaD identity ls y a b).mm = -ls.inv b ^ 2 := by
  simp [etaD, toEta, muTau, identity]

end Verif.Gam.Gauls
