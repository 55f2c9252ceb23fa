import Verif.Fa.OldRotation
import Verif.Fa.RotationProps
/-! # C182, C183: the criteria of `pyfa/rotation.py`, their gradients and their names -/
namespace Verif.Fa.Old
open Matrix Kronecker Verif.Calc

variable {p m : ℕ}

/-! ## stacked matrices -/

theorem fro_vec (X Y : Mat p m) : fro X Y = vec X ⬝ᵥ vec Y := by
  simp only [fro, dotProduct, vec, Fintype.sum_prod_type]
  exact Finset.sum_comm

theorem vec_invec (v : Fin m × Fin p → ℝ) : vec (invec v) = v := rfl

theorem kmat_mul {κ : Type*} (X : Matrix (Fin m × Fin p) κ ℝ) (x : Fin p × Fin m) (y : κ) :
    (kmat p m * X) x y = X (x.2, x.1) y := by
  simp [kmat, Matrix.mul_apply]

theorem mul_kmat {κ : Type*} (X : Matrix κ (Fin p × Fin m) ℝ) (x : κ) (y : Fin m × Fin p) :
    (X * kmat p m) x y = X x (y.2, y.1) := by
  rw [Matrix.mul_apply, Fintype.sum_eq_single (y.2, y.1)]
  · simp [kmat]
  · intro z hz
    simp only [kmat, of_apply]
    rw [if_neg, mul_zero]
    rintro rfl
    exact hz rfl

theorem kmat_mulVec (X : Mat p m) : kmat p m *ᵥ vec X = vec Xᵀ := by
  ext x
  simp [kmat, Matrix.mulVec, dotProduct, vec]

theorem kron_mulVec {a b : ℕ} (A : Mat a m) (B : Mat b p) (X : Mat p m) : (A ⊗ₖ B) *ᵥ vec X = vec (B * X * Aᵀ) := by
  ext x
  simp only [Matrix.mulVec, dotProduct, kroneckerMap_apply, vec, Fintype.sum_prod_type, Matrix.mul_apply, Matrix.transpose_apply,
    Finset.sum_mul]
  exact Finset.sum_congr rfl fun j _ => Finset.sum_congr rfl fun i _ => by ring

theorem had_comm (X Y : Mat p m) : had X Y = had Y X := by
  ext i j; exact mul_comm _ _

/-! ## C182: gradients -/

/-- `vgQ` returns the value and the gradient. -/
def GradOk (c : Method p m) : Prop :=
  (∀ L, c.vgQ L = (c.Q L, c.dQ L)) ∧
    ∀ (L : ℝ → Mat p m) (D), MD L D → HasDerivAt (fun t => c.Q (L t)) (fro (c.dQ (L 0)) D) 0

theorem colS_total (B : Mat p m) : ∑ j, colS B j = ∑ i, ∑ j, B i j := by
  simp only [colS]; exact Finset.sum_comm

theorem cfQ_eq (k : ℝ × ℝ × ℝ × ℝ) (L : Mat p m) : cfQ k L = gcfQ k L := by
  simp only [cfQ, gcfQ, colS_total, ← sq]
  ring

theorem cfW_eq (k : ℝ × ℝ × ℝ × ℝ) (L : Mat p m) : cfW k L = gcfW k L := by
  simp only [cfW, gcfW, colS_total]

theorem cfDQ_eq (k : ℝ × ℝ × ℝ × ℝ) (L : Mat p m) : cfDQ k L = gcfdQ k L := by
  ext i j
  simp only [cfDQ, had, gcfdQ, cfW_eq, of_apply, mul_comm]

/-- C182: `GeneralizedCrawfordFerguson`, for all constants. -/
theorem C182_cf (k : ℝ × ℝ × ℝ × ℝ) : GradOk (cf k : Method p m) := by
  refine ⟨fun L => rfl, fun L D h => ?_⟩
  have := (C82_gcf k).grad L D h
  simp only [cf, cfDQ_eq]
  exact this.congr_of_eventuallyEq (Filter.Eventually.of_forall fun t => cfQ_eq k (L t))

/-- The gradient of the criterion of `TargetRotation` has the squares of the weights. -/
theorem tg_deriv (H W : Mat p m) (L : ℝ → Mat p m) (D) (h : MD L D) :
    HasDerivAt (fun t => tgQ H W (L t)) (fro (had W (had W (L 0 - H))) D) 0 := by
  have := (HasDerivAt.fun_sum (u := Finset.univ) fun (i : Fin p) _ =>
    HasDerivAt.fun_sum (u := Finset.univ) fun (j : Fin m) _ => (((h i j).sub_const (H i j)).const_mul (W i j)).fun_pow 2).div_const 2
  refine this.congr_deriv ?_
  simp only [fro, had, of_apply, Matrix.sub_apply, Finset.sum_div]
  exact Finset.sum_congr rfl fun i _ => Finset.sum_congr rfl fun j _ => by push_cast; ring

/-- C182: `TargetRotation` with weights zero and one. -/
theorem C182_target_partial (H W : Mat p m) (hW : ∀ i j, W i j = 0 ∨ W i j = 1) : GradOk (tg H W) := by
  refine ⟨fun L => rfl, fun L D h => (tg_deriv H W L D h).congr_deriv ?_⟩
  congr 1
  ext i j
  simp only [tg, tgDQ, had, of_apply]
  rcases hW i j with e | e <;> rw [e] <;> ring

example : ∃ W : Mat 1 1, ∀ i j, W i j = 0 ∨ W i j = 1 := ⟨1, fun i j => by fin_cases i; fin_cases j; simp⟩

/-- C182: with another weight `dQ` is not the gradient: the criterion `(2 l)² / 2` has the derivative `4 l`, not `2 l`. -/
theorem C182_target_violated : ∃ (H W : Mat 1 1) (L : ℝ → Mat 1 1) (D : Mat 1 1), MD L D ∧
    HasDerivAt (fun t => (tg H W).Q (L t)) 4 0 ∧ fro ((tg H W).dQ (L 0)) D = 2 ∧ ¬ GradOk (tg H W) := by
  have h : MD (fun t : ℝ => (1 : Mat 1 1) + t • 1) 1 := MD.line _ _
  have h4 : HasDerivAt (fun t : ℝ => (tg (0 : Mat 1 1) (2 : Mat 1 1)).Q ((1 : Mat 1 1) + t • 1)) 4 0 :=
    (tg_deriv 0 2 _ _ h).congr_deriv (by
      have : (2 : Mat 1 1) 0 0 = 2 := rfl
      simp [fro, had, this]; norm_num)
  have h2 : fro ((tg (0 : Mat 1 1) (2 : Mat 1 1)).dQ ((1 : Mat 1 1) + (0 : ℝ) • 1)) 1 = 2 := by
    have : (2 : Mat 1 1) 0 0 = 2 := rfl
    simp [fro, tg, tgDQ, had, this]
  refine ⟨0, 2, _, 1, h, h4, h2, fun hg => ?_⟩
  have := (hg.2 _ _ h).unique h4
  rw [h2] at this
  norm_num at this

theorem row_N (L2 : Mat p m) (i : Fin p) (j : Fin m) : (L2 * (ones m m - 1) : Mat p m) i j = rowS L2 i - L2 i j := by
  rw [Matrix.mul_sub, Matrix.mul_one]
  simp [Matrix.mul_apply, ones, rowS]

theorem col_M (L2 : Mat p m) (i : Fin p) (j : Fin m) : ((ones p p - 1) * L2 : Mat p m) i j = colS L2 j - L2 i j := by
  rw [Matrix.sub_mul, Matrix.one_mul]
  simp [Matrix.mul_apply, ones, colS]

/-- The value and the gradient of `vgq_cf` are those of the class with the constants `(0, 1 - gamma, gamma, -1)`. -/
theorem vgqCf_eq (L : Mat p m) (gamma : ℝ) :
    vgqCf L gamma = (cfQ (0, 1 - gamma, gamma, -1) L, cfDQ (0, 1 - gamma, gamma, -1) L) := by
  refine Prod.ext ?_ ?_
  · simp only [vgqCf, cfQ, ← fro_trace]
    simp only [fro, row_N, col_M, mul_sub, Finset.sum_sub_distrib]
    have e1 : ∑ i, ∑ j, sqM L i j * rowS (sqM L) i = ∑ i, rowS (sqM L) i ^ 2 :=
      Finset.sum_congr rfl fun i _ => by rw [← Finset.sum_mul, sq]; rfl
    have e2 : ∑ i, ∑ j, sqM L i j * colS (sqM L) j = ∑ j, colS (sqM L) j ^ 2 := by
      rw [Finset.sum_comm]
      exact Finset.sum_congr rfl fun j _ => by rw [← Finset.sum_mul, sq]; rfl
    rw [e1, e2]
    norm_num
    ring
  · ext i j
    simp only [vgqCf, cfDQ, had, cfW, Matrix.add_apply, of_apply, Matrix.smul_apply, smul_eq_mul, row_N, col_M]
    norm_num
    ring

/-- C182: `vgq_cf`. -/
theorem C182_vgq_cf (gamma : ℝ) (L : ℝ → Mat p m) (D) (h : MD L D) :
    HasDerivAt (fun t => (vgqCf (L t) gamma).1) (fro (vgqCf (L 0) gamma).2 D) 0 := by
  simp only [vgqCf_eq]
  exact (C182_cf _).2 L D h

theorem quad_deriv (C : Mat p p) (N : Mat m m) (hC : Cᵀ = C) (hN : Nᵀ = N) (L : ℝ → Mat p m) (D) (h : MD L D) :
    HasDerivAt (fun t => ((sqM (L t))ᵀ * (C * (sqM (L t) * N))).trace / 4.0) (fro (had (L 0) (C * (sqM (L 0) * N))) D) 0 := by
  have hB := sqM_md h
  have h1 := trace_deriv (hB.transpose.mul ((MD.const C).mul (hB.mul (MD.const N))))
  refine (h1.div_const 4.0).congr_deriv ?_
  set B := sqM (L 0)
  set E : Mat p m := of fun i j => 2 * (L 0 i j * D i j)
  have e1 : (Eᵀ * (C * (B * N))).trace = 2 * fro (had (L 0) (C * (B * N))) D := by
    rw [← fro_trace]
    simp only [fro, had, of_apply, Finset.mul_sum, E]
    exact Finset.sum_congr rfl fun i _ => Finset.sum_congr rfl fun j _ => by ring
  have e2 : (Bᵀ * (C * (E * N))).trace = (Eᵀ * (C * (B * N))).trace := by
    rw [← trace_transpose]
    simp only [transpose_mul, transpose_transpose, hC, hN]
    rw [Matrix.mul_assoc, Matrix.mul_assoc, trace_mul_comm]
    simp only [Matrix.mul_assoc]
  simp only [Matrix.mul_zero, Matrix.zero_mul, add_zero, zero_add, trace_add]
  rw [e2, e1]
  norm_num
  ring

/-- C182: `vgq_ob`. -/
theorem C182_vgq_ob (gamma : ℝ) (L : ℝ → Mat p m) (D) (h : MD L D) :
    HasDerivAt (fun t => (vgqOb (L t) gamma).1) (fro (vgqOb (L 0) gamma).2 D) 0 := by
  refine quad_deriv _ _ ?_ ?_ L D h
  · rw [transpose_sub, transpose_smul, transpose_smul, transpose_one]; rfl
  · rw [transpose_sub, transpose_one]; rfl

/-- C182: `d_rotate` is the derivative of `rotate`. -/
theorem C182_rotate (ortho : Bool) (A : Mat p m) (T : ℝ → Mat m m) (T' : Mat m m) (h : MD T T')
    (hu : ortho = false → IsUnit (T 0).det) : ∃ L J, rotate ortho A (T 0) = some (L 0) ∧ dRotate ortho A (T 0) = some J ∧
      (∀ᶠ t in nhds 0, rotate ortho A (T t) = some (L t)) ∧ MD L (invec (J *ᵥ vec T')) := by
  cases ortho with
  | true =>
    refine ⟨fun t => A * T t, _, rfl, rfl, Filter.Eventually.of_forall fun t => rfl, ?_⟩
    refine ((MD.const A).mul h).congr ?_
    rw [kron_mulVec, transpose_one, Matrix.mul_one, Matrix.zero_mul, zero_add]
    rfl
  | false =>
    have h0 := hu rfl
    have h1 : IsUnit ((T 0)ᵀ).det := by rwa [det_transpose]
    have hi := h.transpose.inv h1
    have he := h.transpose.eventually_isUnit h1
    refine ⟨fun t => A * ((T t)ᵀ)⁻¹, -(kmat m p * ((A * ((T 0)ᵀ)⁻¹) ⊗ₖ (((T 0)ᵀ)⁻¹)ᵀ)), ?_, ?_, ?_, ?_⟩
    · simp only [rotate, Bool.false_eq_true, if_false, inv?_unit h1, Option.map_some]
    · simp only [dRotate, Bool.false_eq_true, if_false, inv?_unit h1, Option.map_some]
    · filter_upwards [he] with t ht
      simp only [rotate, Bool.false_eq_true, if_false, inv?_unit ht, Option.map_some]
    · refine ((MD.const A).mul hi).congr ?_
      ext i j
      simp only [invec, of_apply, neg_mulVec, Pi.neg_apply, Matrix.zero_mul, zero_add, Matrix.mul_neg, Matrix.neg_apply]
      rw [← mulVec_mulVec, kron_mulVec, kmat_mulVec]
      simp only [vec, transpose_mul, transpose_transpose, Matrix.transpose_apply]
      rw [← Matrix.transpose_apply (_ * _)]
      simp only [transpose_mul, transpose_transpose]
      simp only [Matrix.mul_assoc]

/-- C182: `df` is the gradient of `f` over both kinds of rotation, for every criterion with a right gradient. -/
theorem C182_df (c : Method p m) (hc : GradOk c) (ortho : Bool) (A : Mat p m) (T : ℝ → Mat m m) (T' : Mat m m) (h : MD T T')
    (hu : ortho = false → IsUnit (T 0).det) : ∃ G v, df c ortho A (T 0) = some G ∧
      (∀ᶠ t in nhds 0, f c ortho A (T t) = some (v t)) ∧ HasDerivAt v (fro G T') 0 := by
  obtain ⟨L, J, h1, h2, h3, h4⟩ := C182_rotate ortho A T T' h hu
  refine ⟨invec (vec (c.dQ (L 0)) ᵥ* J), fun t => c.Q (L t), ?_, ?_, ?_⟩
  · simp [df, h1, h2]
  · filter_upwards [h3] with t ht
    simp [f, ht]
  · refine (hc.2 L _ h4).congr_deriv ?_
    rw [fro_vec, fro_vec, vec_invec, vec_invec, dotProduct_mulVec]

example : ∃ T : ℝ → Mat 2 2, MD T 1 ∧ IsUnit (T 0).det := ⟨fun t => 1 + t • 1, MD.line _ _, by simp⟩

/-! ## C183: names -/

theorem gCf_var (p m : ℕ) : gammaCf "varimax" p m = 1 / p := by simp [gammaCf]; norm_num
theorem gCf_quart (p m : ℕ) : gammaCf "quartimax" p m = 0 := by simp [gammaCf]; norm_num
theorem gCf_equa (p m : ℕ) : gammaCf "equamax" p m = m / (2 * p) := by simp [gammaCf]; norm_num
theorem gCf_pars (p m : ℕ) : gammaCf "parsimax" p m = ((m : ℝ) - 1) / (p + m - 2) := by simp [gammaCf]; norm_num
theorem gOb_var (p : ℕ) (c) : gammaOb "varimax" p c = 1 := by simp [gammaOb]; norm_num
theorem gOb_quart (p : ℕ) (c) : gammaOb "quartimax" p c = 0 := by simp [gammaOb]; norm_num
theorem gOb_equa (p : ℕ) (c) : gammaOb "equamax" p c = p / 2 := by simp [gammaOb]; norm_num

/-- C183: the function and the method return the same constants. -/
theorem C183_consts (method : String) (p m : ℕ) : constsF method p m = consts method p m := by
  unfold constsF consts
  norm_num

/-- C183: under the names varimax, equamax and parsimax the class minimises the criterion of `vgq_cf` with the weight of
`get_gamma_cf`, value and gradient. -/
theorem C183_cf_partial (hp : 0 < p) (method : String) (h : method = "varimax" ∨ method = "equamax" ∨ method = "parsimax" ∧ p + m ≠ 2) :
    ∃ k, consts method p m = some k ∧ ∀ L : Mat p m, vgqCf L (gammaCf method p m) = (cf k).vgQ L := by
  have hp' : (p : ℝ) ≠ 0 := by exact_mod_cast hp.ne'
  rcases h with rfl | rfl | ⟨rfl, h⟩
  · refine ⟨_, by simp [consts, hp.ne']; rfl, fun L => ?_⟩
    rw [vgqCf_eq]
    have : (((p : ℝ) - 1) / p) = 1 - 1 / p := by field_simp
    rw [gCf_var, ← this]
    simp only [cf]
    norm_num
  · refine ⟨_, by simp [consts, hp.ne']; rfl, fun L => ?_⟩
    rw [vgqCf_eq, gCf_equa]
    simp only [cf]
    norm_num
  · refine ⟨_, by simp [consts, hp.ne', h]; rfl, fun L => ?_⟩
    rw [vgqCf_eq, gCf_pars]
    simp only [cf]
    norm_num

/-- C183: the class minimises another criterion than `vgq_cf` under the name quartimax, and prefers a rotation with a smaller
sum of fourth powers of the loadings, which quartimax is to maximise. -/
theorem C183_quartimax_violated : ∃ k, consts "quartimax" 2 2 = some k ∧ exT * exTᵀ = 1 ∧
    cfQ k (exA * exT) < cfQ k exA ∧ (vgqCf exA (gammaCf "quartimax" 2 2)).1 < (vgqCf (exA * exT) (gammaCf "quartimax" 2 2)).1 ∧
    ∑ i, ∑ j, (exA * exT) i j ^ 4 < ∑ i, ∑ j, exA i j ^ 4 := by
  refine ⟨_, by simp [consts]; rfl, ?_, ?_, ?_, ?_⟩
  · ext i j
    fin_cases i <;> fin_cases j <;> norm_num [exT, Matrix.mul_apply, Fin.sum_univ_two]
  · norm_num [cfQ, rowS, colS, sqM, exA, exT, Matrix.mul_apply, Fin.sum_univ_two]
  · rw [vgqCf_eq, vgqCf_eq, gCf_quart]
    norm_num [cfQ, rowS, colS, sqM, exA, exT, Matrix.mul_apply, Fin.sum_univ_two]
  · norm_num [exA, exT, Matrix.mul_apply, Fin.sum_univ_two]

/-- Value of `vgq_ob`. -/
theorem vgqOb_val (L : Mat p m) (gamma : ℝ) : (vgqOb L gamma).1 =
    ((∑ i, rowS (sqM L) i ^ 2 - ∑ i, ∑ j, sqM L i j * sqM L i j) -
      gamma / p * ((∑ i, ∑ j, sqM L i j) ^ 2 - ∑ j, colS (sqM L) j ^ 2)) / 4 := by
  simp only [vgqOb, ← fro_trace, Matrix.sub_mul, Matrix.one_mul]
  have e0 : ∀ i j, ((1 / (p : ℝ)) • (gamma • ones p p) * (sqM L * (ones m m - 1)) : Mat p m) i j =
      gamma / p * ((∑ a, ∑ b, sqM L a b) - colS (sqM L) j) := by
    intro i j
    rw [smul_mul, smul_mul, Matrix.smul_apply, Matrix.smul_apply, Matrix.mul_apply]
    simp only [row_N]
    simp only [ones, of_apply, one_mul, smul_eq_mul, Finset.sum_sub_distrib]
    simp only [rowS, colS]
    ring
  simp only [fro, Matrix.sub_apply, row_N, e0, mul_sub, Finset.sum_sub_distrib]
  have e1 : ∑ i, ∑ j, sqM L i j * rowS (sqM L) i = ∑ i, rowS (sqM L) i ^ 2 :=
    Finset.sum_congr rfl fun i _ => by rw [← Finset.sum_mul, sq]; rfl
  have e2 : ∑ i, ∑ j, sqM L i j * (gamma / p * colS (sqM L) j) = gamma / p * ∑ j, colS (sqM L) j ^ 2 := by
    rw [Finset.sum_comm, Finset.mul_sum]
    refine Finset.sum_congr rfl fun j _ => ?_
    rw [← Finset.sum_mul, sq]
    simp only [colS]
    ring
  have e3 : ∑ i, ∑ j, sqM L i j * (gamma / p * ∑ a, ∑ b, sqM L a b) = gamma / p * (∑ i, ∑ j, sqM L i j) ^ 2 := by
    simp only [← Finset.sum_mul]
    ring
  rw [e1, e2, e3]
  norm_num

/-- C183: over orthogonal rotations the oblimin criterion with parameter `gamma` and the Crawford–Ferguson criterion with
weight `gamma / p` differ by a constant. -/
theorem C183_families (_hp : 0 < p) (A : Mat p m) (gamma : ℝ) : ∃ c : ℝ, ∀ T : Mat m m, T * Tᵀ = 1 →
    (vgqOb (A * T) gamma).1 = (vgqCf (A * T) (gamma / p)).1 + c := by
  refine ⟨(gamma / p * ∑ i, rowS (sqM A) i ^ 2 - gamma / p * (∑ i, rowS (sqM A) i) ^ 2) / 4, fun T hT => ?_⟩
  rw [vgqCf_eq, vgqOb_val]
  have e : ∑ i, ∑ j, sqM (A * T) i j = ∑ i, rowS (sqM A) i :=
    Finset.sum_congr rfl fun i _ => rowS_rot A T hT i
  simp only [cfQ, rowS_rot A T hT, e]
  ring

/-- C183: so a name common to both families stands for the same orthogonal rotation for quartimax and varimax, and for
equamax when there are as many factors as variables. -/
theorem C183_names_partial (hp : 0 < p) (A : Mat p m) (name : String) (custom : Option ℝ)
    (h : name = "quartimax" ∨ name = "varimax" ∨ name = "equamax" ∧ p = m) : ∃ c : ℝ, ∀ T : Mat m m, T * Tᵀ = 1 →
      (vgqOb (A * T) (gammaOb name p custom)).1 = (vgqCf (A * T) (gammaCf name p m)).1 + c := by
  have hp' : (p : ℝ) ≠ 0 := by exact_mod_cast hp.ne'
  have e : gammaCf name p m = gammaOb name p custom / p := by
    rcases h with rfl | rfl | ⟨rfl, rfl⟩
    · rw [gCf_quart, gOb_quart, zero_div]
    · rw [gCf_var, gOb_var]
    · rw [gCf_equa, gOb_equa]
      field_simp
  rw [e]
  exact C183_families hp A _

/-- Three variables. -/
def exA3 : Mat 3 2 := !![1, 0; 1, 0; 0, 0]

/-- C183: with two factors and three variables `get_gamma_ob` gives equamax the parameter `p / 2` where the family has
`k / 2`: the criteria order two rotations differently. -/
theorem C183_equamax_violated : exT * exTᵀ = 1 ∧ gammaOb "equamax" 3 none / 3 ≠ gammaCf "equamax" 3 2 ∧
    ¬ ∃ c : ℝ, ∀ T : Mat 2 2, T * Tᵀ = 1 →
      (vgqOb (exA3 * T) (gammaOb "equamax" 3 none)).1 = (vgqCf (exA3 * T) (gammaCf "equamax" 3 2)).1 + c := by
  have hT : exT * exTᵀ = 1 := by
    ext i j
    fin_cases i <;> fin_cases j <;> norm_num [exT, Matrix.mul_apply, Fin.sum_univ_two]
  refine ⟨hT, by rw [gOb_equa, gCf_equa]; norm_num, ?_⟩
  rintro ⟨c, hc⟩
  have h1 := hc 1 (by simp)
  have h2 := hc exT hT
  rw [vgqCf_eq, vgqOb_val, gOb_equa, gCf_equa] at h1 h2
  have a0 : ∀ j, exA3 2 j = 0 := fun j => by fin_cases j <;> rfl
  norm_num [cfQ, rowS, colS, sqM, Matrix.mul_apply, Fin.sum_univ_two, Fin.sum_univ_three, a0] at h1 h2
  norm_num [exA3, exT] at h1 h2
  linarith

end Verif.Fa.Old
