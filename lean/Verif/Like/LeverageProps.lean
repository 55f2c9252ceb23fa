import Verif.Like.Leverage
import Verif.Fa.RotationProps
import Mathlib.Analysis.Matrix.Order
import Mathlib.Analysis.Matrix.PosDef
import Mathlib.LinearAlgebra.Matrix.Block
import Mathlib.Algebra.Order.BigOperators.Ring.Finset
/-!
# C96: leverages and heteroskedasticity-consistent weights
-/
namespace Verif.Like
open Matrix Verif.Fa
variable {n p : ℕ}

/-- The hat matrix. -/
noncomputable def hat (X : Mat n p) : Matrix (Fin n) (Fin n) ℝ := X * (Xᵀ * X)⁻¹ * Xᵀ

theorem hat_symm (X : Mat n p) : (hat X)ᵀ = hat X := by
  simp only [hat, transpose_mul, transpose_transpose, transpose_nonsing_inv, Matrix.mul_assoc]

theorem hat_mul {X : Mat n p} (h : IsUnit (Xᵀ * X).det) : hat X * X = X := by
  rw [hat, Matrix.mul_assoc, Matrix.mul_assoc, nonsing_inv_mul _ h, Matrix.mul_one]

theorem hat_idem {X : Mat n p} (h : IsUnit (Xᵀ * X).det) : hat X * hat X = hat X := by
  unfold hat
  rw [Matrix.mul_assoc (X * (Xᵀ * X)⁻¹) Xᵀ, ← Matrix.mul_assoc Xᵀ, ← Matrix.mul_assoc Xᵀ X,
    mul_nonsing_inv _ h, Matrix.one_mul]

theorem gram_qr {X Q : Mat n p} {R : Mat p p} (h : IsQR X Q R) : Xᵀ * X = Rᵀ * R := by
  rw [← h.mul, transpose_mul, Matrix.mul_assoc, ← Matrix.mul_assoc Qᵀ, h.orth, Matrix.one_mul]

theorem unit_qr {X Q : Mat n p} {R : Mat p p} (h : IsQR X Q R) (hu : IsUnit (Xᵀ * X).det) : IsUnit R.det := by
  rw [gram_qr h, det_mul] at hu
  exact isUnit_of_mul_isUnit_right hu

theorem hat_qr {X Q : Mat n p} {R : Mat p p} (h : IsQR X Q R) (hu : IsUnit (Xᵀ * X).det) : hat X = Q * Qᵀ := by
  have hR := unit_qr h hu
  have hRt : IsUnit (Rᵀ).det := by rwa [det_transpose]
  rw [hat, gram_qr h, Matrix.mul_inv_rev]
  conv_lhs => rw [← h.mul]
  rw [transpose_mul, Matrix.mul_assoc Q R, ← Matrix.mul_assoc R, mul_nonsing_inv _ hR, Matrix.one_mul,
    Matrix.mul_assoc Q, ← Matrix.mul_assoc _ Rᵀ, nonsing_inv_mul _ hRt, Matrix.one_mul]

theorem unit_chol {L : Mat p p} (h0 : ∀ i j, i < j → L i j = 0) (h1 : ∀ i, 0 < L i i) : IsUnit L.det := by
  have ht : L.BlockTriangular OrderDual.toDual := fun i j h => h0 i j (OrderDual.toDual_lt_toDual.1 h)
  rw [det_of_isLowerTriangular L ht]
  exact isUnit_iff_ne_zero.2 (Finset.prod_ne_zero_iff.2 fun i _ => (h1 i).ne')

theorem posDef_gram {X : Mat n p} (h : IsUnit (Xᵀ * X).det) : (Xᵀ * X).PosDef := by
  have := posSemidef_conjTranspose_mul_self X
  rw [conjTranspose_eq_transpose_of_trivial] at this
  exact this.posDef_iff_isUnit.2 ((isUnit_iff_isUnit_det _).2 h)

/-- For a design of full column rank both routines return the diagonal of the hat matrix. -/
theorem C96_leverage {X : Mat n p} (hu : IsUnit (Xᵀ * X).det) {chol : Mat p p → Option (Mat p p)} (hc : CholOk chol)
    {qr : Mat n p → Mat n p × Mat p p} (hq : IsQR X (qr X).1 (qr X).2) :
    levChol chol X = some (fun i => hat X i i) ∧ levQr qr X = fun i => hat X i i := by
  refine ⟨?_, ?_⟩
  · obtain ⟨L, hL⟩ := hc.total _ (posDef_gram hu)
    obtain ⟨h1, h2, h3⟩ := hc.ok _ _ hL
    have hLu := unit_chol h2 h3
    simp only [levChol, hL, inv?_unit hLu, Option.bind_eq_bind, Option.bind_some, pure]
    congr 1; funext i
    have e : hat X = (L⁻¹ * Xᵀ)ᵀ * (L⁻¹ * Xᵀ) := by
      rw [hat, ← h1, Matrix.mul_inv_rev, transpose_mul, transpose_transpose, transpose_nonsing_inv]
      simp only [Matrix.mul_assoc]
    rw [e, Matrix.mul_apply]
    simp only [transpose_apply, sq]
  · funext i
    rw [hat_qr hq hu, Matrix.mul_apply]
    simp only [levQr, transpose_apply, sq]

/-- The Cholesky route raises on a rank-deficient design. -/
theorem C96_chol_raises {X : Mat n p} (hu : ¬ IsUnit (Xᵀ * X).det) {chol : Mat p p → Option (Mat p p)}
    (hc : CholOk chol) : levChol chol X = none := by
  cases e : chol (Xᵀ * X) with
  | none => simp [levChol, e]
  | some L =>
    obtain ⟨h1, h2, h3⟩ := hc.ok _ _ e
    have := unit_chol h2 h3
    exact absurd (by rw [← h1, det_mul, det_transpose]; exact this.mul this) hu

/-- Leverages lie in `[0, 1]` and add up to the number of parameters. -/
theorem C96_range {X : Mat n p} (hu : IsUnit (Xᵀ * X).det) :
    (∀ i, 0 ≤ hat X i i ∧ hat X i i ≤ 1) ∧ ∑ i, hat X i i = p := by
  have key : ∀ i, hat X i i = ∑ j, hat X i j ^ 2 := by
    intro i
    conv_lhs => rw [← hat_idem hu]
    rw [Matrix.mul_apply]
    refine Finset.sum_congr rfl fun j _ => ?_
    have : hat X j i = hat X i j := by conv_lhs => rw [← hat_symm, transpose_apply]
    rw [this, sq]
  refine ⟨fun i => ⟨by rw [key]; positivity, ?_⟩, ?_⟩
  · have h1 : hat X i i ^ 2 ≤ hat X i i := by
      conv_rhs => rw [key]
      exact Finset.single_le_sum (f := fun j => hat X i j ^ 2) (fun j _ => sq_nonneg _) (Finset.mem_univ i)
    nlinarith
  · change trace (hat X) = p
    rw [hat, trace_mul_comm, ← Matrix.mul_assoc, mul_nonsing_inv _ hu, trace_one, Fintype.card_fin]

/-- With an intercept in the column space every leverage is at least `1/n`. -/
theorem C96_intercept {X : Mat n p} (hu : IsUnit (Xᵀ * X).det) {b : Fin p → ℝ} (hb : X *ᵥ b = fun _ => 1) (i : Fin n) :
    1 / (n : ℝ) ≤ hat X i i := by
  have hn : (0 : ℝ) < n := by exact_mod_cast i.pos
  have h1 : ∑ j, hat X i j = 1 := by
    have : hat X *ᵥ (X *ᵥ b) = X *ᵥ b := by rw [mulVec_mulVec, hat_mul hu]
    rw [hb] at this
    simpa [mulVec, dotProduct] using congrFun this i
  have key : hat X i i = ∑ j, hat X i j ^ 2 := by
    conv_lhs => rw [← hat_idem hu]
    rw [Matrix.mul_apply]
    refine Finset.sum_congr rfl fun j _ => ?_
    have : hat X j i = hat X i j := by conv_lhs => rw [← hat_symm, transpose_apply]
    rw [this, sq]
  have h2 : 0 ≤ ∑ j, (hat X i j - 1 / n) ^ 2 := Finset.sum_nonneg fun j _ => sq_nonneg _
  have h3 : ∑ j, (hat X i j - 1 / n) ^ 2 = hat X i i - 1 / n := by
    have : ∀ j, (hat X i j - 1 / n) ^ 2 = hat X i j ^ 2 - 2 / n * hat X i j + 1 / n ^ 2 := fun j => by ring
    simp only [this]
    rw [Finset.sum_add_distrib, Finset.sum_sub_distrib, ← Finset.mul_sum, h1, ← key]
    simp
    field_simp
    ring
  linarith

/-- Leverages depend on the column space only. -/
theorem C96_invariant {X : Mat n p} {K : Mat p p} (hK : IsUnit K.det) : hat (X * K) = hat X := by
  have hKt : IsUnit (Kᵀ).det := by rwa [det_transpose]
  have e : (X * K)ᵀ * (X * K) = Kᵀ * (Xᵀ * X) * K := by simp only [transpose_mul, Matrix.mul_assoc]
  rw [hat, e, Matrix.mul_inv_rev, Matrix.mul_inv_rev, transpose_mul, hat]
  simp only [Matrix.mul_assoc]
  rw [← Matrix.mul_assoc K, mul_nonsing_inv K hK, Matrix.one_mul, ← Matrix.mul_assoc _ Kᵀ, nonsing_inv_mul _ hKt,
    Matrix.one_mul]

/-- The QR route never notices rank deficiency: its leverages add up to the number of columns whatever the rank, so an
identically zero column is assigned leverage. -/
theorem C96_rank_violated :
    (∀ (n p : ℕ) (qr : Mat n p → Mat n p × Mat p p) (X : Mat n p), IsQR X (qr X).1 (qr X).2 →
      ∑ i, levQr qr X i = p) ∧
    ∃ qr : Mat 2 1 → Mat 2 1 × Mat 1 1, IsQR 0 (qr 0).1 (qr 0).2 ∧ levQr qr 0 0 = 1 ∧
      ∀ chol : Mat 1 1 → Option (Mat 1 1), CholOk chol → levChol chol (0 : Mat 2 1) = none := by
  refine ⟨fun n p qr X h => ?_, fun _ => (Matrix.of fun i _ => if i = 0 then 1 else 0, 0), ⟨by simp, ?_, by simp⟩, ?_,
    fun chol hc => C96_chol_raises (by simp) hc⟩
  · have h1 := congrArg trace h.orth
    rw [trace_one, Fintype.card_fin, Matrix.trace] at h1
    simp only [levQr, diag, Matrix.mul_apply, transpose_apply] at h1 ⊢
    rw [Finset.sum_comm, ← h1]
    simp only [sq]
  · ext i j
    fin_cases i; fin_cases j
    simp [Matrix.mul_apply]
  · simp [levQr]

/-! ## The sandwich weights -/

theorem posSemidef_weighted (X : Mat n p) {o : Fin n → ℝ} (ho : ∀ i, 0 ≤ o i) :
    ((Matrix.of fun i j => X i j * o i)ᵀ * X).PosSemidef := by
  have h := (PosSemidef.diagonal (show (0 : Fin n → ℝ) ≤ o from ho)).conjTranspose_mul_mul_same X
  have e : (Matrix.of fun i j => X i j * o i)ᵀ * X = Xᴴ * diagonal o * X := by
    congr 1
    ext i j
    simp [mul_diagonal]
  rwa [e]

theorem weighted_sub (X : Mat n p) (o o' : Fin n → ℝ) :
    (Matrix.of fun i j => X i j * o i)ᵀ * X - (Matrix.of fun i j => X i j * o' i)ᵀ * X =
      (Matrix.of fun i j => X i j * (o i - o' i))ᵀ * X := by
  rw [← Matrix.sub_mul]
  congr 1
  ext i j
  simp [mul_sub]

/-- Every kind is a positive semidefinite matrix `Xᵀ diag(ω) X`; HC0 is the sum of the outer products of the
gradients. -/
theorem C96_hc0 (w : Fin n → ℝ) (X : Mat n p) (h : Option (Fin n → ℝ)) :
    sandwichCov w X h "HC0" = some ((Matrix.of fun i j => w i * X i j)ᵀ * Matrix.of fun i j => w i * X i j) := by
  simp only [sandwichCov, hcOmega, if_pos, Option.bind_eq_bind, Option.bind_some, pure, Option.some.injEq]
  ext a b
  simp only [Matrix.mul_apply, transpose_apply, Matrix.of_apply]
  exact Finset.sum_congr rfl fun i _ => by ring

theorem omega_hc1 (w : Fin n → ℝ) (h : Option (Fin n → ℝ)) :
    hcOmega w p h "HC1" = some fun i => w i ^ 2 * n / (n - p) := by simp [hcOmega]
theorem omega_hc2 (w h : Fin n → ℝ) : hcOmega w p (some h) "HC2" = some fun i => w i ^ 2 / (1 - h i) := by
  simp [hcOmega]
theorem omega_hc3 (w h : Fin n → ℝ) : hcOmega w p (some h) "HC3" = some fun i => w i ^ 2 / (1 - h i) ^ 2 := by
  simp [hcOmega]
theorem omega_hc4 (w h : Fin n → ℝ) : hcOmega w p (some h) "HC4" =
    some fun i => w i ^ 2 / (1 - h i) ^ (min 4 (h i / ((∑ j, h j) / n)) : ℝ) := by
  simp [hcOmega]

theorem sandwich_of {w : Fin n → ℝ} {X : Mat n p} {h : Option (Fin n → ℝ)} {kind : String} {o : Fin n → ℝ}
    (ho : hcOmega w p h kind = some o) : sandwichCov w X h kind = some ((Matrix.of fun i j => X i j * o i)ᵀ * X) := by
  simp [sandwichCov, ho]

/-- HC1, HC2 and HC4 are at least HC0, and HC3 at least HC2, as quadratic forms. -/
theorem C96_order {w h : Fin n → ℝ} (X : Mat n p) (hp : p < n) (h0 : ∀ i, 0 ≤ h i) (h1 : ∀ i, h i < 1) :
    ∃ B0 B1 B2 B3 B4, sandwichCov w X (some h) "HC0" = some B0 ∧ sandwichCov w X (some h) "HC1" = some B1 ∧
      sandwichCov w X (some h) "HC2" = some B2 ∧ sandwichCov w X (some h) "HC3" = some B3 ∧
      sandwichCov w X (some h) "HC4" = some B4 ∧ B0.PosSemidef ∧ (B1 - B0).PosSemidef ∧ (B2 - B0).PosSemidef ∧
      (B3 - B2).PosSemidef ∧ (B4 - B0).PosSemidef := by
  have hn : (0 : ℝ) < (n : ℝ) - p := by
    have : (p : ℝ) < n := by exact_mod_cast hp
    linarith
  have e0 : hcOmega w p (some h) "HC0" = some fun i => w i ^ 2 := by simp [hcOmega]
  refine ⟨_, _, _, _, _, sandwich_of e0, sandwich_of (omega_hc1 w _), sandwich_of (omega_hc2 w h),
    sandwich_of (omega_hc3 w h), sandwich_of (omega_hc4 w h), posSemidef_weighted X fun i => sq_nonneg _, ?_, ?_, ?_, ?_⟩
  · rw [weighted_sub]
    refine posSemidef_weighted X fun i => ?_
    rw [sub_nonneg, le_div_iff₀ hn]
    have : (0 : ℝ) ≤ p := by positivity
    nlinarith [sq_nonneg (w i)]
  · rw [weighted_sub]
    refine posSemidef_weighted X fun i => ?_
    have := h0 i; have := h1 i
    rw [sub_nonneg, le_div_iff₀ (by linarith)]
    nlinarith [sq_nonneg (w i)]
  · rw [weighted_sub]
    refine posSemidef_weighted X fun i => ?_
    have := h0 i; have := h1 i
    have hpos : 0 < 1 - h i := by linarith
    rw [sub_nonneg]
    exact div_le_div_of_nonneg_left (sq_nonneg _) (by positivity) (by nlinarith)
  · rw [weighted_sub]
    refine posSemidef_weighted X fun i => ?_
    have := h0 i; have := h1 i
    have hpos : 0 < 1 - h i := by linarith
    have hm : (0 : ℝ) ≤ min 4 (h i / ((∑ j, h j) / n)) :=
      le_min (by norm_num) (div_nonneg (h0 i) (div_nonneg (Finset.sum_nonneg fun j _ => h0 j) (by positivity)))
    rw [sub_nonneg, le_div_iff₀ (Real.rpow_pos_of_pos hpos _)]
    have := Real.rpow_le_one hpos.le (by linarith) hm
    nlinarith [sq_nonneg (w i)]

/-- In a balanced design (all leverages equal to their mean `p/n`) HC1, HC2 and HC4 agree. -/
theorem C96_balanced {w h : Fin n → ℝ} (X : Mat n p) (hp : p < n) (hp0 : 0 < p) (hh : ∀ i, h i = (p : ℝ) / n) :
    sandwichCov w X (some h) "HC2" = sandwichCov w X none "HC1" ∧
      sandwichCov w X (some h) "HC4" = sandwichCov w X none "HC1" := by
  have hn0 : (0 : ℝ) < n := by exact_mod_cast (by omega : 0 < n)
  have hp0' : (0 : ℝ) < p := by exact_mod_cast hp0
  have hn : (0 : ℝ) < (n : ℝ) - p := by
    have : (p : ℝ) < n := by exact_mod_cast hp
    linarith
  have e : ∀ i, w i ^ 2 / (1 - h i) = w i ^ 2 * n / (n - p) := by
    intro i
    rw [hh]
    have : 1 - (p : ℝ) / n = (n - p) / n := by field_simp
    rw [this, div_div_eq_mul_div]
  have m : ∀ i, min 4 (h i / ((∑ j, h j) / n)) = (1 : ℝ) := by
    intro i
    simp only [hh, Finset.sum_const, Finset.card_univ, Fintype.card_fin, nsmul_eq_mul]
    have : (p : ℝ) / n / (n * (p / n) / n) = 1 := by field_simp
    rw [this]; norm_num
  refine ⟨?_, ?_⟩
  · rw [sandwich_of (omega_hc2 w h), sandwich_of (omega_hc1 w none)]
    simp only [e]
  · rw [sandwich_of (omega_hc4 w h), sandwich_of (omega_hc1 w none)]
    simp only [m, Real.rpow_one, e]

/-- An unknown kind, or a leverage-based kind without leverages, raises. -/
theorem C96_raises (w : Fin n → ℝ) (X : Mat n p) :
    (∀ h kind, kind ∉ ["HC0", "HC1", "HC2", "HC3", "HC4"] → sandwichCov w X h kind = none) ∧
      ∀ kind ∈ ["HC2", "HC3", "HC4"], sandwichCov w X none kind = none := by
  refine ⟨fun h kind hk => ?_, fun kind hk => ?_⟩
  · simp only [List.mem_cons, List.not_mem_nil, or_false, not_or] at hk
    simp [sandwichCov, hcOmega, hk]
  · simp only [List.mem_cons, List.not_mem_nil, or_false] at hk
    rcases hk with rfl | rfl | rfl <;> simp [sandwichCov, hcOmega]

example : IsQR (1 : Mat 2 2) 1 1 := ⟨by simp, by simp, fun i j h => one_apply_ne h.ne'⟩
example : (∀ i, 0 ≤ hat (1 : Mat 2 2) i i ∧ hat (1 : Mat 2 2) i i ≤ 1) := (C96_range (by simp)).1

end Verif.Like
