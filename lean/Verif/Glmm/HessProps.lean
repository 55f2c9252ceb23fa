import Verif.Glmm.Model
import Mathlib.LinearAlgebra.Matrix.PosDef
import Mathlib.Analysis.Matrix.PosDef
import Mathlib.Algebra.Order.Star.Real
import Mathlib.Tactic.FinCases
/-!
# C199: the numerical Hessian and the standard errors of `glmm.py`
-/
namespace Verif.Glmm
open Matrix
variable {n p q : ℕ}

/-- A quadratic function. -/
noncomputable def quad (c : ℝ) (g : Fin p → ℝ) (H : Matrix (Fin p) (Fin p) ℝ) (x : Fin p → ℝ) : ℝ := c + g ⬝ᵥ x + x ⬝ᵥ (H *ᵥ x) / 2

/-- The difference on the diagonal is exact for polynomials of degree five along the axis. -/
theorem C199_diagonal (f : (Fin p → ℝ) → ℝ) (x : Fin p → ℝ) {eps : ℝ} (he : eps ≠ 0) (i : Fin p) (a : ℕ → ℝ)
    (hf : ∀ t : ℝ, f (x + t • Pi.single i 1) = ∑ k ∈ Finset.range 6, a k * t ^ k) : approxHess f x eps i i = 2 * a 2 := by
  have e : ∀ t : ℝ, (Pi.single i t : Fin p → ℝ) = t • Pi.single i 1 := fun t => by
    ext k; by_cases h : k = i <;> simp [Pi.single_apply, h]
  have h0 : f x = f (x + (0 : ℝ) • Pi.single i 1) := by simp
  have h1 : f (x + Pi.single i eps) = f (x + eps • Pi.single i 1) := by rw [e]
  have h2 : f (x + (2 : ℝ) • Pi.single i eps) = f (x + (2 * eps) • Pi.single i 1) := by rw [e, smul_smul]
  have h3 : f (x - Pi.single i eps) = f (x + (-eps) • Pi.single i 1) := by rw [e, neg_smul, sub_eq_add_neg]
  have h4 : f (x - (2 : ℝ) • Pi.single i eps) = f (x + (-(2 * eps)) • Pi.single i 1) := by rw [e, smul_smul, neg_smul, sub_eq_add_neg]
  simp only [approxHess, of_apply, if_true]
  rw [h2, h1, h3, h4, h0]
  simp only [hf, Finset.sum_range_succ, Finset.sum_range_zero]
  field_simp
  ring

theorem quad_line (c : ℝ) (g : Fin p → ℝ) {H : Matrix (Fin p) (Fin p) ℝ} (hH : H.IsSymm) (x : Fin p → ℝ) (i : Fin p) (t : ℝ) :
    quad c g H (x + t • Pi.single i 1) = quad c g H x + (g i + (H *ᵥ x) i) * t + H i i / 2 * t ^ 2 := by
  have hs : x ⬝ᵥ (H *ᵥ Pi.single i 1) = (H *ᵥ x) i := by
    rw [dotProduct_mulVec, ← mulVec_transpose, hH.eq, dotProduct_single, mul_one]
  have hd : (Pi.single i (1 : ℝ) : Fin p → ℝ) ⬝ᵥ (H *ᵥ x) = (H *ᵥ x) i := by rw [single_dotProduct, one_mul]
  have hi : (Pi.single i (1 : ℝ) : Fin p → ℝ) ⬝ᵥ (H *ᵥ Pi.single i 1) = H i i := by
    rw [single_dotProduct, one_mul, mulVec_single_one, col_apply]
  simp only [quad, dotProduct_add, add_dotProduct, mulVec_add, mulVec_smul, dotProduct_smul, smul_dotProduct, smul_eq_mul, hs, hd, hi,
    dotProduct_single, mul_one]
  ring

/-- For a quadratic objective the result is the diagonal of its Hessian. -/
theorem C199_quadratic (c : ℝ) (g : Fin p → ℝ) {H : Matrix (Fin p) (Fin p) ℝ} (hH : H.IsSymm) (x : Fin p → ℝ) {eps : ℝ} (he : eps ≠ 0) :
    approxHess (quad c g H) x eps = diagonal fun i => H i i := by
  ext i j
  by_cases h : i = j
  · subst h
    rw [diagonal_apply_eq]
    have := C199_diagonal (quad c g H) x he i (fun k => if k = 0 then quad c g H x else if k = 1 then g i + (H *ᵥ x) i else if k = 2 then H i i / 2 else 0)
      (fun t => by rw [quad_line c g hH]; simp [Finset.sum_range_succ])
    rw [this]; simp; ring
  · rw [diagonal_apply_ne _ h]
    simp [approxHess, h]

/-- The standard errors are those of a diagonal Hessian. -/
theorem C199_stdErr (c : ℝ) (g : Fin p → ℝ) {H : Matrix (Fin p) (Fin p) ℝ} (hH : H.PosDef) (x : Fin p → ℝ) {eps : ℝ} (he : eps ≠ 0) :
    stdErr (quad c g H) x eps = some fun i => Real.sqrt (1 / H i i) := by
  have hs : H.IsSymm := by have := hH.isHermitian; rwa [IsHermitian, conjTranspose_eq_transpose_of_trivial] at this
  have hd : ∀ i, 0 < H i i := fun i => hH.diag_pos
  rw [stdErr, C199_quadratic c g hs x he, if_neg]
  · congr 1
    funext i
    have : (diagonal fun i => H i i)⁻¹ = diagonal fun i => 1 / H i i := by
      refine inv_eq_right_inv ?_
      rw [diagonal_mul_diagonal, ← diagonal_one]
      congr 1
      funext i
      rw [mul_one_div, div_self (hd i).ne']
    rw [this, diagonal_apply_eq]
  · rw [det_diagonal]
    exact Finset.prod_ne_zero_iff.2 fun i _ => (hd i).ne'

/-- They never exceed those of the inverse Hessian. -/
theorem C199_understated {H : Matrix (Fin p) (Fin p) ℝ} (hH : H.PosDef) (i : Fin p) : 1 / H i i ≤ H⁻¹ i i := by
  have hd : 0 < H i i := hH.diag_pos
  have hu := isUnit_iff_ne_zero.2 hH.det_pos.ne'
  have hs : H.IsSymm := by have := hH.isHermitian; rwa [IsHermitian, conjTranspose_eq_transpose_of_trivial] at this
  set t := 1 / H i i with ht
  set e : Fin p → ℝ := Pi.single i 1 with he
  set w := H⁻¹ *ᵥ e with hw
  have hwe : H *ᵥ w = e := by rw [hw, mulVec_mulVec, mul_nonsing_inv _ hu, one_mulVec]
  have h0 := hH.posSemidef.dotProduct_mulVec_nonneg (w - t • e)
  have hwi : w i = H⁻¹ i i := by rw [hw, he, mulVec_single_one, col_apply]
  have hei : (H *ᵥ e) i = H i i := by rw [he, mulVec_single_one, col_apply]
  have hwHe : w ⬝ᵥ (H *ᵥ e) = e ⬝ᵥ e := by rw [dotProduct_mulVec, ← mulVec_transpose, hs.eq, hwe]
  have hee : e ⬝ᵥ e = 1 := by rw [he, single_dotProduct, one_mul, Pi.single_eq_same]
  have h1 : e ⬝ᵥ (H *ᵥ e) = H i i := by rw [he, single_dotProduct, one_mul, ← he, hei]
  have h2 : w ⬝ᵥ e = H⁻¹ i i := by rw [he, dotProduct_single, mul_one, hwi]
  simp only [star_trivial, mulVec_sub, mulVec_smul, hwe, dotProduct_sub, sub_dotProduct, dotProduct_smul, smul_dotProduct, smul_eq_mul, h1, h2, hwHe,
    hee] at h0
  have h3 : t * H i i = 1 := by rw [ht]; field_simp
  nlinarith

/-- Without cross terms they are right. -/
theorem C199_diagonal_partial (c : ℝ) (g h : Fin p → ℝ) (hh : ∀ i, 0 < h i) (x : Fin p → ℝ) {eps : ℝ} (he : eps ≠ 0) :
    stdErr (quad c g (diagonal h)) x eps = some fun i => Real.sqrt ((diagonal h)⁻¹ i i) := by
  rw [C199_stdErr c g (PosDef.diagonal hh) x he]
  congr 1
  funext i
  have : (diagonal h)⁻¹ = diagonal fun i => 1 / h i := by
    refine inv_eq_right_inv ?_
    rw [diagonal_mul_diagonal, ← diagonal_one]
    congr 1
    funext i
    rw [mul_one_div, div_self (hh i).ne']
  rw [this, diagonal_apply_eq, diagonal_apply_eq]

/-- A Hessian with a cross term. -/
def crossH : Matrix (Fin 2) (Fin 2) ℝ := !![2, 1; 1, 2]

theorem crossH_pd : crossH.PosDef := by
  refine PosDef.of_dotProduct_mulVec_pos (by ext i j; fin_cases i <;> fin_cases j <;> simp [crossH]) fun x hx => ?_
  have : star x ⬝ᵥ (crossH *ᵥ x) = (x 0 + x 1) ^ 2 + x 0 ^ 2 + x 1 ^ 2 := by
    simp [crossH, dotProduct, mulVec, Fin.sum_univ_two]; ring
  rw [this]
  by_contra hn
  have h0 : x 0 = 0 := by nlinarith [sq_nonneg (x 0 + x 1), sq_nonneg (x 0), sq_nonneg (x 1)]
  have h1 : x 1 = 0 := by nlinarith [sq_nonneg (x 0 + x 1), sq_nonneg (x 0), sq_nonneg (x 1)]
  exact hx (by ext i; fin_cases i <;> simp [h0, h1])

/-- The entries off the diagonal are dropped: the variance 2/3 is reported as 1/2. -/
theorem C199_cross_violated (c : ℝ) (g x : Fin 2 → ℝ) {eps : ℝ} (he : eps ≠ 0) :
    stdErr (quad c g crossH) x eps = some (fun _ => Real.sqrt (1 / 2)) ∧ ∀ i, crossH⁻¹ i i = 2 / 3 := by
  constructor
  · rw [C199_stdErr c g crossH_pd x he]
    congr 1
    funext i
    fin_cases i <;> simp [crossH]
  · have : crossH⁻¹ = !![2 / 3, -1 / 3; -1 / 3, 2 / 3] := by
      refine inv_eq_right_inv ?_
      ext i j
      fin_cases i <;> fin_cases j <;> simp [crossH, Matrix.mul_apply, Fin.sum_univ_two] <;> norm_num
    intro i
    rw [this]
    fin_cases i <;> simp

/-- A parameter that the objective does not use: the Hessian is singular and `inv` raises. -/
theorem C199_unused (f : (Fin p → ℝ) → ℝ) (x : Fin p → ℝ) (eps : ℝ) (i : Fin p) (hf : ∀ y t, f (y + Pi.single i t) = f y) :
    stdErr f x eps = none := by
  rw [stdErr, if_pos]
  refine det_eq_zero_of_row_eq_zero i fun j => ?_
  simp only [approxHess, of_apply]
  split_ifs with h
  · have e2 : ∀ t : ℝ, ((2 : ℝ) • Pi.single i t : Fin p → ℝ) = Pi.single i (2 * t) := fun t => by
      ext k; by_cases h : k = i <;> simp [Pi.single_apply, h]
    have en : ∀ t : ℝ, x - Pi.single i t = x + Pi.single i (-t) := fun t => by rw [Pi.single_neg, sub_eq_add_neg]
    simp only [e2, en, hf]
    ring_nf
  · rfl

/-- The parameters of a model with one variance: coefficients, the variance of the random effects and the residual variance, which
nothing uses — `pirls`, `loglike` 260-298, `make_theta` — model_matrices.py 94-105. -/
noncomputable def lapParams (F : Fam) (X : Matrix (Fin n) (Fin p) ℝ) (Z : Matrix (Fin n) (Fin q) ℝ) (y : Fin n → ℝ) (x : Fin (p + 2) → ℝ) :
    Option ℝ :=
  let th := x (Fin.natAdd p 0)
  laplace F ⟨y, X *ᵥ fun j => x (Fin.castAdd 2 j), Z, (1 / th) • 1⟩ (q * Real.log |th|)

/-- With a free residual variance (families other than binomial and Poisson) `fit` raises, whatever value
`c` stands for an undefined objective. -/
theorem C199_resid_violated (F : Fam) (X : Matrix (Fin n) (Fin p) ℝ) (Z : Matrix (Fin n) (Fin q) ℝ) (y : Fin n → ℝ)
    (c : ℝ) (x : Fin (p + 2) → ℝ) (eps : ℝ) : stdErr (fun x => (lapParams F X Z y x).getD c) x eps = none := by
  refine C199_unused _ x eps (Fin.natAdd p 1) fun v t => ?_
  have h : lapParams F X Z y (v + Pi.single (Fin.natAdd p 1) t) = lapParams F X Z y v := by
    have h0 : (v + (Pi.single (Fin.natAdd p 1) t : Fin (p + 2) → ℝ)) (Fin.natAdd p 0) = v (Fin.natAdd p 0) := by
      rw [Pi.add_apply, Pi.single_eq_of_ne, add_zero]
      simp [Fin.ext_iff]
    have h1 : (fun j => (v + (Pi.single (Fin.natAdd p 1) t : Fin (p + 2) → ℝ)) (Fin.castAdd 2 j)) = fun j => v (Fin.castAdd 2 j) := by
      funext j
      rw [Pi.add_apply, Pi.single_eq_of_ne, add_zero]
      simp only [ne_eq, Fin.ext_iff, Fin.val_castAdd, Fin.val_natAdd]
      omega
    simp only [lapParams, h0, h1]
  beta_reduce
  rw [h]

end Verif.Glmm
