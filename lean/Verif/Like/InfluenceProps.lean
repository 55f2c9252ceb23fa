import Verif.Like.LeverageProps
import Verif.Lin.CholProps
/-!
# C97: one-step deletion, Cook's distance and residuals;  C98: weighted least squares
-/
namespace Verif.Like
open Matrix Verif.Fa
variable {n p : ℕ}

/-! ## The Cholesky contract can be met -/

theorem cholOk_exists (p : ℕ) : ∃ chol : Mat p p → Option (Mat p p), CholOk chol := by
  classical
  have key : ∀ G : Mat p p, G.PosDef → ∃ L : Mat p p, L * Lᵀ = G ∧ (∀ i j, i < j → L i j = 0) ∧ ∀ i, 0 < L i i := by
    intro G hG
    let A : ℕ → ℕ → ℝ := fun i j => if h : i < p ∧ j < p then G ⟨i, h.1⟩ ⟨j, h.2⟩ else 0
    have hs : ∀ a b, A a b = A b a := by
      intro a b
      by_cases h : a < p ∧ b < p
      · simp only [A, dif_pos h, dif_pos h.symm]
        have := hG.isHermitian.apply ⟨b, h.2⟩ ⟨a, h.1⟩
        simpa using this
      · simp only [A, dif_neg h, dif_neg fun h' => h (And.symm h')]
    have hpd : ∀ i, i ≤ p → Lin.PDOn i A := by
      intro m hm x ⟨i0, hi0, hx⟩
      let y : Fin p → ℝ := fun i => if (i : ℕ) < m then x i else 0
      have hy : y ≠ 0 := fun h => hx (by simpa [y, hi0] using congrFun h ⟨i0, hi0.trans_le hm⟩)
      have h2 := hG.dotProduct_mulVec_pos hy
      have conv : ∀ f : ℕ → ℝ, ∑ i ∈ Finset.range m, f i = ∑ i : Fin p, if (i : ℕ) < m then f i else 0 := by
        intro f
        rw [Fin.sum_univ_eq_sum_range (fun i => if i < m then f i else 0), ← Finset.sum_filter]
        refine Finset.sum_congr ?_ fun _ _ => rfl
        ext i; simp only [Finset.mem_range, Finset.mem_filter]; omega
      rw [star_trivial] at h2
      refine h2.trans_eq ?_
      rw [conv]
      simp only [dotProduct, mulVec, Finset.mul_sum]
      symm
      refine Finset.sum_congr rfl fun i _ => ?_
      by_cases hi : (i : ℕ) < m
      · rw [if_pos hi, conv]
        refine Finset.sum_congr rfl fun j _ => ?_
        by_cases hj : (j : ℕ) < m
        · simp [y, hi, hj, A, mul_assoc]
        · simp [y, hj]
      · simp [y, hi]
    obtain ⟨L, -, hL, -⟩ := Lin.C46_build A p hs hpd
    refine ⟨Matrix.of fun i j => L i j, ?_, fun i j h => hL.low i j i.2 j.2 h, fun i => hL.diag i i.2⟩
    ext i j
    have := hL.prod i j i.2 j.2
    simp only [A, i.2, j.2, and_self, dif_pos, Fin.eta] at this
    rw [← this, Matrix.mul_apply, ← Fin.sum_univ_eq_sum_range (fun c => L i c * L j c)]
    simp
  refine ⟨fun G => if h : G.PosDef then some (key G h).choose else none, fun G L h => ?_, fun G h => ⟨_, dif_pos h⟩⟩
  split at h
  · next hG => obtain rfl := Option.some.inj h; exact (key G hG).choose_spec
  · cases h

/-! ## C97 -/

/-- Spec: least squares. -/
noncomputable def ols (X : Mat n p) (y : Fin n → ℝ) : Fin p → ℝ := (Xᵀ * X)⁻¹ *ᵥ (Xᵀ *ᵥ y)

/-- Spec: the residuals. -/
noncomputable def olsResid (X : Mat n p) (y : Fin n → ℝ) : Fin n → ℝ := y - X *ᵥ ols X y

/-- Spec: the design and response without row `i`, as a zeroed row. -/
def dropX (X : Mat n p) (i : Fin n) : Mat n p := Matrix.of fun k j => if k = i then 0 else X k j

/-- Spec: the least squares estimate without observation `i`. -/
noncomputable def olsDrop (X : Mat n p) (y : Fin n → ℝ) (i : Fin n) : Fin p → ℝ := ols (dropX X i) y

theorem drop_gram (X : Mat n p) (i : Fin n) : (dropX X i)ᵀ * dropX X i = Xᵀ * X - vecMulVec (X i) (X i) := by
  ext a b
  simp only [Matrix.sub_apply, Matrix.mul_apply, transpose_apply, vecMulVec_apply, dropX, Matrix.of_apply]
  rw [eq_sub_iff_add_eq, ← Finset.sum_erase_add _ _ (Finset.mem_univ i), ← Finset.sum_erase_add (a := i) _ _ (Finset.mem_univ i)]
  simp only [if_true, mul_zero, add_zero]
  congr 1
  exact Finset.sum_congr rfl fun k hk => by rw [if_neg (Finset.ne_of_mem_erase hk)]; rw [if_neg (Finset.ne_of_mem_erase hk)]

theorem drop_xty (X : Mat n p) (y : Fin n → ℝ) (i : Fin n) : (dropX X i)ᵀ *ᵥ y = Xᵀ *ᵥ y - y i • X i := by
  funext a
  simp only [mulVec, dotProduct, transpose_apply, dropX, Matrix.of_apply, Pi.sub_apply, Pi.smul_apply, smul_eq_mul]
  rw [eq_sub_iff_add_eq, ← Finset.sum_erase_add _ _ (Finset.mem_univ i), ← Finset.sum_erase_add (a := i) _ _ (Finset.mem_univ i)]
  simp only [if_true, zero_mul, add_zero]
  congr 1
  · exact Finset.sum_congr rfl fun k hk => by rw [if_neg (Finset.ne_of_mem_erase hk)]
  · ring

theorem hat_diag (X : Mat n p) (i : Fin n) : hat X i i = X i ⬝ᵥ ((Xᵀ * X)⁻¹ *ᵥ X i) := by
  rw [hat, Matrix.mul_assoc, Matrix.mul_apply]
  simp only [dotProduct, mulVec, Matrix.mul_apply, transpose_apply]

/-- Deleting an observation keeps the design of full rank exactly when its leverage is not one, and then changes the
estimate by `(XᵀX)⁻¹ xᵢ eᵢ / (1 - hᵢ)`. -/
theorem C97_deletion {X : Mat n p} (hu : IsUnit (Xᵀ * X).det) (y : Fin n → ℝ) {i : Fin n} (hi : hat X i i ≠ 1) :
    IsUnit ((dropX X i)ᵀ * dropX X i).det ∧
      ols X y - olsDrop X y i = (olsResid X y i / (1 - hat X i i)) • ((Xᵀ * X)⁻¹ *ᵥ X i) := by
  set G := Xᵀ * X with hG
  set x := X i with hx
  set h := hat X i i with hh
  have h1 : 1 - h ≠ 0 := sub_ne_zero.2 (Ne.symm hi)
  have hxx : x ⬝ᵥ (G⁻¹ *ᵥ x) = h := (hat_diag X i).symm
  have hsym : (G⁻¹)ᵀ = G⁻¹ := by rw [transpose_nonsing_inv, hG, transpose_mul, transpose_transpose]
  have hprod : (G - vecMulVec x x) * (G⁻¹ + (1 / (1 - h)) • vecMulVec (G⁻¹ *ᵥ x) (G⁻¹ *ᵥ x)) = 1 := by
    have a1 : vecMulVec x x * G⁻¹ = vecMulVec x (G⁻¹ *ᵥ x) := by
      rw [vecMulVec_mul]
      congr 1
      rw [← mulVec_transpose, hsym]
    have a2 : G * vecMulVec (G⁻¹ *ᵥ x) (G⁻¹ *ᵥ x) = vecMulVec x (G⁻¹ *ᵥ x) := by
      rw [mul_vecMulVec, mulVec_mulVec, mul_nonsing_inv G hu, one_mulVec]
    have a3 : vecMulVec x x * vecMulVec (G⁻¹ *ᵥ x) (G⁻¹ *ᵥ x) = h • vecMulVec x (G⁻¹ *ᵥ x) := by
      rw [vecMulVec_mul_vecMulVec, hxx, vecMulVec_smul]
    rw [Matrix.mul_add, Matrix.mul_smul, Matrix.sub_mul, Matrix.sub_mul, mul_nonsing_inv G hu, a1, a2, a3]
    ext a b
    simp only [Matrix.add_apply, Matrix.sub_apply, Matrix.smul_apply, smul_eq_mul]
    field_simp
    ring
  have hinv : (G - vecMulVec x x)⁻¹ = G⁻¹ + (1 / (1 - h)) • vecMulVec (G⁻¹ *ᵥ x) (G⁻¹ *ᵥ x) :=
    inv_eq_right_inv hprod
  refine ⟨?_, ?_⟩
  · rw [drop_gram]
    have := congrArg det hprod
    rw [det_mul, det_one] at this
    exact IsUnit.of_mul_eq_one _ this
  · have hb : x ⬝ᵥ ols X y = (X *ᵥ ols X y) i := rfl
    have e : olsResid X y i = y i - x ⬝ᵥ ols X y := by rw [hb]; rfl
    have hq : (G⁻¹ *ᵥ x) ⬝ᵥ (Xᵀ *ᵥ y) = x ⬝ᵥ ols X y := by
      rw [ols, dotProduct_mulVec x, ← mulVec_transpose, hsym]
    rw [olsDrop, ols, ols, drop_gram, drop_xty, hinv, ← hG, e]
    rw [add_mulVec, mulVec_sub, smul_mulVec, vecMulVec_mulVec, dotProduct_sub, hq, mulVec_smul, dotProduct_smul,
      dotProduct_comm (G⁻¹ *ᵥ x) x, hxx]
    funext a
    simp only [Pi.sub_apply, Pi.add_apply, Pi.smul_apply, smul_eq_mul, MulOpposite.smul_eq_mul_unop,
      MulOpposite.unop_op]
    field_simp
    ring

/-- The one-step change computed by the code is the exact deletion change times `√(1 - hᵢ)`: it is exact for rows of
zero leverage or zero residual. -/
theorem C97_one_step_partial {X : Mat n p} (hu : IsUnit (Xᵀ * X).det) (y : Fin n → ℝ) :
    ∃ db, oneStep X (fun i => hat X i i) (olsResid X y) = some db ∧
      ∀ i, hat X i i ≠ 1 → db i = √(1 - hat X i i) • (ols X y - olsDrop X y i) := by
  refine ⟨_, by simp only [oneStep, inv?_unit hu, Option.bind_eq_bind, Option.bind_some, pure]; rfl, fun i hi => ?_⟩
  rw [(C97_deletion hu y hi).2]
  have h1 : 0 < 1 - hat X i i := by
    have := ((C96_range hu).1 i).2
    exact lt_of_le_of_ne (by linarith) (Ne.symm (sub_ne_zero.2 (Ne.symm hi)))
  have hs : √(1 - hat X i i) * √(1 - hat X i i) = 1 - hat X i i := Real.mul_self_sqrt h1.le
  have hs0 : √(1 - hat X i i) ≠ 0 := (Real.sqrt_pos.2 h1).ne'
  funext j
  have hsym : ((Xᵀ * X)⁻¹)ᵀ = (Xᵀ * X)⁻¹ := by rw [transpose_nonsing_inv, transpose_mul, transpose_transpose]
  have e : (X * (Xᵀ * X)⁻¹) i j = ((Xᵀ * X)⁻¹ *ᵥ X i) j := by
    rw [Matrix.mul_apply]
    simp only [mulVec, dotProduct]
    refine Finset.sum_congr rfl fun k _ => ?_
    conv_rhs => rw [← hsym, transpose_apply]
    ring
  simp only [Matrix.of_apply, Pi.smul_apply, smul_eq_mul, e]
  rw [mul_comm (√(1 - hat X i i)), mul_comm, div_mul_eq_mul_div, div_mul_eq_mul_div, div_mul_eq_mul_div,
    div_eq_div_iff hs0 h1.ne']
  conv_lhs => rw [← hs]
  ring

/-- So the "one-step" jackknife is not the leave-one-out estimate, even for least squares, where one step is exact. -/
theorem C97_one_step_violated : ∃ (X : Mat 2 1) (y : Fin 2 → ℝ) (db : Mat 2 1), IsUnit (Xᵀ * X).det ∧
    oneStep X (fun i => hat X i i) (olsResid X y) = some db ∧ ols X y 0 - db 0 0 ≠ olsDrop X y 0 0 := by
  set X : Mat 2 1 := Matrix.of fun _ _ => 1 with hX
  have hG : Xᵀ * X = diagonal fun _ => (2 : ℝ) := by
    ext i j; fin_cases i; fin_cases j; simp [hX, Matrix.mul_apply]
  have hu : IsUnit (Xᵀ * X).det := by rw [hG, det_diagonal]; simp
  have hi : (Xᵀ * X)⁻¹ = diagonal fun _ => (1 / 2 : ℝ) := by
    rw [hG]
    refine inv_eq_right_inv ?_
    rw [diagonal_mul_diagonal]; norm_num
  have hh : hat X 0 0 = 1 / 2 := by
    rw [hat_diag, hi]; simp [dotProduct, mulVec_diagonal, hX]
  have hb : ols X ![0, 1] 0 = 1 / 2 := by
    rw [ols, hi]; simp [mulVec_diagonal, mulVec, dotProduct, hX]
  obtain ⟨db, h1, h2⟩ := C97_one_step_partial hu ![0, 1]
  refine ⟨X, ![0, 1], db, hu, h1, fun h => ?_⟩
  have h3 := congrFun (h2 0 (by rw [hh]; norm_num)) 0
  have h4 := congrFun (C97_deletion hu ![0, 1] (i := 0) (by rw [hh]; norm_num)).2 0
  have he : olsResid X ![0, 1] 0 = -1 / 2 := by
    have hx0 : X 0 0 = 1 := rfl
    simp only [olsResid, Pi.sub_apply, mulVec, dotProduct, Finset.univ_unique, Fin.default_eq_zero,
      Finset.sum_singleton, hb, hx0]
    norm_num
  have hx0 : X 0 0 = 1 := rfl
  simp only [Pi.sub_apply, Pi.smul_apply, smul_eq_mul, he, hh, hi, mulVec_diagonal, hx0] at h3 h4
  have h5 : db 0 0 = ols X ![0, 1] 0 - olsDrop X ![0, 1] 0 0 := by linarith
  rw [h5] at h3
  rw [show ols X ![0, 1] 0 - olsDrop X ![0, 1] 0 0 = -1 / 2 from h4.trans (by norm_num)] at h3
  have h6 : √(1 - 1 / 2 : ℝ) = 1 := by linarith
  have h7 : √(1 - 1 / 2 : ℝ) * √(1 - 1 / 2 : ℝ) = 1 - 1 / 2 := Real.mul_self_sqrt (by norm_num)
  rw [h6] at h7
  norm_num at h7

/-- The middle of the sandwich built with the HC3 weights is the jackknife: the sum of squares of the exact deletion
changes is `A · HC3 · A`; the code's one-step changes give `A · HC2 · A` instead. -/
theorem C97_hc3 {X : Mat n p} (hu : IsUnit (Xᵀ * X).det) (y : Fin n → ℝ) (hi : ∀ i, hat X i i ≠ 1) :
    ∃ B2 B3 db, sandwichCov (olsResid X y) X (some fun i => hat X i i) "HC2" = some B2 ∧
      sandwichCov (olsResid X y) X (some fun i => hat X i i) "HC3" = some B3 ∧
      oneStep X (fun i => hat X i i) (olsResid X y) = some db ∧
      ∑ i, vecMulVec (ols X y - olsDrop X y i) (ols X y - olsDrop X y i) = (Xᵀ * X)⁻¹ * B3 * (Xᵀ * X)⁻¹ ∧
      dbᵀ * db = (Xᵀ * X)⁻¹ * B2 * (Xᵀ * X)⁻¹ := by
  obtain ⟨db, hdb, hd⟩ := C97_one_step_partial hu y
  have hsym : ((Xᵀ * X)⁻¹)ᵀ = (Xᵀ * X)⁻¹ := by rw [transpose_nonsing_inv, transpose_mul, transpose_transpose]
  have gen : ∀ o : Fin n → ℝ, (Xᵀ * X)⁻¹ * ((Matrix.of fun i j => X i j * o i)ᵀ * X) * (Xᵀ * X)⁻¹ =
      ∑ i, o i • vecMulVec ((Xᵀ * X)⁻¹ *ᵥ X i) ((Xᵀ * X)⁻¹ *ᵥ X i) := by
    intro o
    have e1 : (Matrix.of fun i j => X i j * o i)ᵀ * X = ∑ i, o i • vecMulVec (X i) (X i) := by
      ext a b
      simp only [Matrix.mul_apply, transpose_apply, Matrix.of_apply, Matrix.sum_apply, Matrix.smul_apply,
        vecMulVec_apply, smul_eq_mul]
      exact Finset.sum_congr rfl fun i _ => by ring
    rw [e1, Matrix.mul_sum, Matrix.sum_mul]
    refine Finset.sum_congr rfl fun i _ => ?_
    rw [Matrix.mul_smul, Matrix.smul_mul, mul_vecMulVec, vecMulVec_mul, ← mulVec_transpose, hsym]
  refine ⟨_, _, db, sandwich_of (omega_hc2 _ _), sandwich_of (omega_hc3 _ _), hdb, ?_, ?_⟩
  · rw [gen]
    refine Finset.sum_congr rfl fun i _ => ?_
    rw [(C97_deletion hu y (hi i)).2, smul_vecMulVec, vecMulVec_smul, smul_smul]
    congr 1
    rw [← sq, div_pow]
  · rw [gen]
    ext a b
    simp only [Matrix.mul_apply, transpose_apply, Matrix.sum_apply, Matrix.smul_apply, vecMulVec_apply, smul_eq_mul]
    refine Finset.sum_congr rfl fun i _ => ?_
    have h1 : 0 < 1 - hat X i i := by
      have := ((C96_range hu).1 i).2
      exact lt_of_le_of_ne (by linarith) (Ne.symm (sub_ne_zero.2 (Ne.symm (hi i))))
    have hs : √(1 - hat X i i) * √(1 - hat X i i) = 1 - hat X i i := Real.mul_self_sqrt h1.le
    rw [hd i (hi i), (C97_deletion hu y (hi i)).2]
    simp only [Pi.smul_apply, smul_eq_mul]
    field_simp
    rw [Real.sq_sqrt h1.le]

/-- Cook's distance of the code is the squared change of the fit, scaled by `p φ`, when one observation is left out. -/
theorem C97_cooks {X : Mat n p} (hu : IsUnit (Xᵀ * X).det) (y : Fin n → ℝ) {phi : ℝ} (hphi : 0 < phi) {i : Fin n}
    (hi : hat X i i ≠ 1) :
    cooks p (fun i => hat X i i) (pearsonSst phi (fun i => hat X i i) (olsResid X y)) i =
      (ols X y - olsDrop X y i) ⬝ᵥ ((Xᵀ * X) *ᵥ (ols X y - olsDrop X y i)) / (p * phi) := by
  have h1 : 0 < 1 - hat X i i := by
    have := ((C96_range hu).1 i).2
    exact lt_of_le_of_ne (by linarith) (Ne.symm (sub_ne_zero.2 (Ne.symm hi)))
  rw [(C97_deletion hu y hi).2, mulVec_smul, mulVec_mulVec, mul_nonsing_inv _ hu, one_mulVec, smul_dotProduct,
    dotProduct_smul, dotProduct_comm _ (X i), ← hat_diag]
  simp only [cooks, pearsonSst, smul_eq_mul, div_pow, Real.sq_sqrt hphi.le, Real.sq_sqrt h1.le]
  field_simp

/-- Spec: the residual sum of squares of the data without row `i`. -/
noncomputable def rss (X : Mat n p) (y : Fin n → ℝ) (b : Fin p → ℝ) : ℝ := ∑ k, (y k - (X *ᵥ b) k) ^ 2

theorem ols_orth {X : Mat n p} (hu : IsUnit (Xᵀ * X).det) (y : Fin n → ℝ) : Xᵀ *ᵥ olsResid X y = 0 := by
  rw [olsResid, mulVec_sub, mulVec_mulVec, ols, mulVec_mulVec, mul_nonsing_inv _ hu, one_mulVec, sub_self]

theorem rss_shift {X : Mat n p} (hu : IsUnit (Xᵀ * X).det) (y : Fin n → ℝ) (d : Fin p → ℝ) :
    rss X y (ols X y - d) = rss X y (ols X y) + d ⬝ᵥ ((Xᵀ * X) *ᵥ d) := by
  have e : ∀ k, y k - (X *ᵥ (ols X y - d)) k = olsResid X y k + (X *ᵥ d) k := by
    intro k; simp only [olsResid, mulVec_sub, Pi.sub_apply]; ring
  have h0 : olsResid X y ⬝ᵥ (X *ᵥ d) = 0 := by
    rw [dotProduct_mulVec, ← mulVec_transpose, ols_orth hu, zero_dotProduct]
  have h2 : d ⬝ᵥ ((Xᵀ * X) *ᵥ d) = (X *ᵥ d) ⬝ᵥ (X *ᵥ d) := by
    rw [← mulVec_mulVec, dotProduct_mulVec, vecMul_transpose]
  have h3 : rss X y (ols X y) = olsResid X y ⬝ᵥ olsResid X y := by
    simp only [rss, dotProduct, olsResid, Pi.sub_apply, sq]
  have h4 : rss X y (ols X y - d) = (olsResid X y + X *ᵥ d) ⬝ᵥ (olsResid X y + X *ᵥ d) := by
    simp only [rss, e, dotProduct, Pi.add_apply, sq]
  rw [h4, h3, h2, add_dotProduct, dotProduct_add, dotProduct_add, dotProduct_comm (X *ᵥ d) (olsResid X y), h0]
  ring

/-- For a Gaussian model (deviance residual equal to the Pearson residual) the squared likelihood residual is the exact
drop of the scaled deviance when the observation is deleted. -/
theorem C97_resid_lik {X : Mat n p} (hu : IsUnit (Xᵀ * X).det) (y : Fin n → ℝ) {phi : ℝ} (hphi : 0 < phi) {i : Fin n}
    (hi : hat X i i ≠ 1) :
    let sst := pearsonSst phi (fun i => hat X i i) (olsResid X y)
    residLik (fun i => hat X i i) (olsResid X y) sst sst i ^ 2 =
      (rss X y (ols X y) - (rss X y (olsDrop X y i) - (y i - (X *ᵥ olsDrop X y i) i) ^ 2)) / phi := by
  have h1 : 0 < 1 - hat X i i := by
    have := ((C96_range hu).1 i).2
    exact lt_of_le_of_ne (by linarith) (Ne.symm (sub_ne_zero.2 (Ne.symm hi)))
  have hd := (C97_deletion hu y hi).2
  have h2 : olsDrop X y i = ols X y - (ols X y - olsDrop X y i) := by simp
  have h3 : rss X y (olsDrop X y i) = rss X y (ols X y) +
      (olsResid X y i / (1 - hat X i i)) ^ 2 * hat X i i := by
    conv_lhs => rw [h2]
    rw [rss_shift hu, hd, mulVec_smul, mulVec_mulVec, mul_nonsing_inv _ hu, one_mulVec, smul_dotProduct,
      dotProduct_smul, dotProduct_comm _ (X i), ← hat_diag, smul_eq_mul, smul_eq_mul]
    ring
  have h4 : y i - (X *ᵥ olsDrop X y i) i = olsResid X y i / (1 - hat X i i) := by
    have : (X *ᵥ olsDrop X y i) i = (X *ᵥ ols X y) i - olsResid X y i / (1 - hat X i i) * hat X i i := by
      conv_lhs => rw [h2]
      rw [mulVec_sub, hd, mulVec_smul, Pi.sub_apply, Pi.smul_apply, smul_eq_mul]
      congr 2
      rw [hat_diag]; rfl
    rw [this]
    have e : olsResid X y i = y i - (X *ᵥ ols X y) i := rfl
    have : y i = olsResid X y i + (X *ᵥ ols X y) i := by rw [e]; ring
    rw [this]
    field_simp
    ring
  intro sst
  have hs : sst i ^ 2 = olsResid X y i ^ 2 / (phi * (1 - hat X i i)) := by
    simp only [sst, pearsonSst, div_div, div_pow, mul_pow, Real.sq_sqrt hphi.le, Real.sq_sqrt h1.le]
  rw [h3, h4]
  have e1 : hat X i i * sst i ^ 2 + (1 - hat X i i) * sst i ^ 2 = sst i ^ 2 := by ring
  have hr : ∀ c : ℝ, (c * √(hat X i i * sst i ^ 2 + (1 - hat X i i) * sst i ^ 2)) ^ 2 = c ^ 2 * sst i ^ 2 := by
    intro c
    rw [e1, mul_pow, Real.sq_sqrt (sq_nonneg _)]
  simp only [residLik]
  rw [hr, hs]
  rcases lt_trichotomy (olsResid X y i) 0 with h | h | h
  · rw [if_neg (not_lt.2 h.le), if_pos h]; field_simp; ring
  · simp [h]
  · rw [if_pos h]; field_simp; ring

theorem hat_smul {X : Mat n p} {c : ℝ} (hc : c ≠ 0) : hat (c • X) = hat X := by
  have := C96_invariant (X := X) (K := c • (1 : Mat p p)) (by rw [det_smul, det_one]; simp [hc])
  simpa using this

/-- The jackknife branch scales the design by the working weights instead of their square roots.  For a Gaussian model
the weights are `1/φ` and the standardised residual is `e/√φ`: the result is off by the factor `√φ`. -/
theorem C97_jackknife_partial {X : Mat n p} (hu : IsUnit (Xᵀ * X).det) (y : Fin n → ℝ) {phi : ℝ} (hphi : 0 < phi)
    {qr : Mat n p → Mat n p × Mat p p} (hq : IsQR ((1 / phi) • X) (qr ((1 / phi) • X)).1 (qr ((1 / phi) • X)).2) :
    ∃ js, jackOneStep qr X (fun _ => 1 / phi) (fun i => olsResid X y i / √phi) (ols X y) = some js ∧
      ∀ i, hat X i i ≠ 1 →
        js i = ols X y - (√phi * √(1 - hat X i i)) • (ols X y - olsDrop X y i) := by
  have hc : (1 / phi) ≠ 0 := by positivity
  have hphi0 : phi ≠ 0 := hphi.ne'
  have eW : (Matrix.of fun i j => X i j * (1 / phi) : Mat n p) = (1 / phi) • X := by
    ext i j; simp [mul_comm]
  have eG : ((1 / phi) • X)ᵀ * ((1 / phi) • X) = (1 / phi ^ 2) • (Xᵀ * X) := by
    rw [transpose_smul, Matrix.smul_mul, Matrix.mul_smul, smul_smul]; congr 1; field_simp
  have hu' : IsUnit (((1 / phi) • X)ᵀ * ((1 / phi) • X)).det := by
    rw [eG, det_smul]
    exact (isUnit_iff_ne_zero.2 (by positivity)).mul hu
  have eI : (((1 / phi) • X)ᵀ * ((1 / phi) • X))⁻¹ = phi ^ 2 • (Xᵀ * X)⁻¹ := by
    rw [eG]
    refine inv_eq_right_inv ?_
    rw [Matrix.smul_mul, Matrix.mul_smul, smul_smul, mul_nonsing_inv _ hu]
    rw [one_div, inv_mul_cancel₀ (by positivity), one_smul]
  have eh : levQr qr ((1 / phi) • X) = fun i => hat X i i := by
    obtain ⟨chol, hchol⟩ := cholOk_exists p
    rw [(C96_leverage hu' hchol hq).2, hat_smul hc]
  obtain ⟨db, h1, h2⟩ := C97_one_step_partial hu y
  simp only [oneStep, inv?_unit hu, Option.bind_eq_bind, Option.bind_some, pure, Option.some.injEq] at h1
  refine ⟨_, (by simp only [jackOneStep, oneStep, eW, eh, inv?_unit hu', Option.bind_eq_bind, Option.bind_some, pure] <;> rfl),
    fun i hi => ?_⟩
  rw [mul_smul, ← h2 i hi, ← h1, eI]
  funext j
  have hs : √phi * √phi = phi := Real.mul_self_sqrt hphi.le
  have hs0 : √phi ≠ 0 := (Real.sqrt_pos.2 hphi).ne'
  simp only [Matrix.of_apply, Pi.sub_apply, Pi.smul_apply, smul_eq_mul, Matrix.smul_mul, Matrix.mul_smul,
    Matrix.smul_apply]
  rw [sub_right_inj]
  have e3 : phi ^ 2 * (1 / phi * (X * (Xᵀ * X)⁻¹) i j) = √phi * √phi * (X * (Xᵀ * X)⁻¹) i j := by
    rw [hs]; field_simp
  rw [e3]
  field_simp

/-- With `φ = 4` the jackknife sample is not even the one-step value computed from the properly weighted design. -/
theorem C97_jackknife_violated : ∃ (X : Mat 2 1) (y : Fin 2 → ℝ) (qr : Mat 2 1 → Mat 2 1 × Mat 1 1) (db js : Mat 2 1),
    IsQR ((1 / 4 : ℝ) • X) (qr ((1 / 4 : ℝ) • X)).1 (qr ((1 / 4 : ℝ) • X)).2 ∧
      oneStep X (fun i => hat X i i) (olsResid X y) = some db ∧
      jackOneStep qr X (fun _ => 1 / 4) (fun i => olsResid X y i / √4) (ols X y) = some js ∧
      js 0 0 ≠ ols X y 0 - db 0 0 := by
  set X : Mat 2 1 := Matrix.of fun _ _ => 1 with hX
  have hG : Xᵀ * X = diagonal fun _ => (2 : ℝ) := by
    ext i j; fin_cases i; fin_cases j; simp [hX, Matrix.mul_apply]
  have hu : IsUnit (Xᵀ * X).det := by rw [hG, det_diagonal]; simp
  have hi : (Xᵀ * X)⁻¹ = diagonal fun _ => (1 / 2 : ℝ) := by
    rw [hG]
    refine inv_eq_right_inv ?_
    rw [diagonal_mul_diagonal]; norm_num
  have hh : hat X 0 0 = 1 / 2 := by
    rw [hat_diag, hi]; simp [dotProduct, mulVec_diagonal, hX]
  have hb : ols X ![0, 1] 0 = 1 / 2 := by
    rw [ols, hi]; simp [mulVec, dotProduct, hX]
  have hx0 : X 0 0 = 1 := rfl
  have he : olsResid X ![0, 1] 0 = -1 / 2 := by
    simp only [olsResid, Pi.sub_apply, mulVec, dotProduct, Finset.univ_unique, Fin.default_eq_zero,
      Finset.sum_singleton, hb, hx0]
    norm_num
  have hh1 : hat X 0 0 ≠ 1 := by rw [hh]; norm_num
  set qr : Mat 2 1 → Mat 2 1 × Mat 1 1 := fun _ => (Matrix.of fun _ _ => 1 / √2, Matrix.of fun _ _ => √2 / 4) with hqr
  have h2 : √2 * √2 = 2 := Real.mul_self_sqrt (by norm_num)
  have h20 : √2 ≠ 0 := (Real.sqrt_pos.2 (by norm_num)).ne'
  have hq : IsQR ((1 / 4 : ℝ) • X) (qr ((1 / 4 : ℝ) • X)).1 (qr ((1 / 4 : ℝ) • X)).2 := by
    refine ⟨?_, ?_, fun i j h => by omega⟩
    · ext i j
      simp only [hqr, hX, Matrix.mul_apply, Matrix.of_apply, Matrix.smul_apply, Finset.univ_unique,
        Finset.sum_singleton, smul_eq_mul]
      field_simp
    · ext i j
      fin_cases i; fin_cases j
      simp only [hqr, Matrix.mul_apply, Matrix.of_apply, transpose_apply, Fin.sum_univ_two]
      simp only [Fin.zero_eta, Matrix.one_apply_eq]
      rw [div_mul_div_comm, h2]; norm_num
  obtain ⟨db, h3, h4⟩ := C97_one_step_partial hu ![0, 1]
  obtain ⟨js, h5, h6⟩ := C97_jackknife_partial hu ![0, 1] (phi := 4) (by norm_num) hq
  refine ⟨X, ![0, 1], qr, db, js, hq, h3, h5, fun h => ?_⟩
  have h7 := congrFun (h4 0 hh1) 0
  have h8 := congrFun (h6 0 hh1) 0
  have h9 := congrFun (C97_deletion hu ![0, 1] hh1).2 0
  have hs : √(4 : ℝ) = 2 := by rw [show (4 : ℝ) = 2 ^ 2 by norm_num]; exact Real.sqrt_sq (by norm_num)
  simp only [Pi.sub_apply, Pi.smul_apply, smul_eq_mul, he, hh, hi, mulVec_diagonal, hx0, hs] at h7 h8 h9
  rw [h9] at h7 h8
  rw [h8, h7] at h
  have h10 : 0 < √(1 - 1 / 2 : ℝ) := Real.sqrt_pos.2 (by norm_num)
  linarith

/-! ## C98: weighted least squares -/

/-- Spec: the weighted normal equations. -/
def NormalEq (X : Mat n p) (y w : Fin n → ℝ) (b : Fin p → ℝ) : Prop :=
  (Xᵀ * diagonal w * X) *ᵥ b = (Xᵀ * diagonal w) *ᵥ y

theorem wls_unique {X : Mat n p} {y w : Fin n → ℝ} (hu : IsUnit (Xᵀ * diagonal w * X).det) {b c : Fin p → ℝ}
    (hb : NormalEq X y w b) (hc : NormalEq X y w c) : b = c := by
  have : (Xᵀ * diagonal w * X) *ᵥ b = (Xᵀ * diagonal w * X) *ᵥ c := hb.trans hc.symm
  have h2 := congrArg ((Xᵀ * diagonal w * X)⁻¹ *ᵥ ·) this
  simpa [mulVec_mulVec, nonsing_inv_mul _ hu] using h2

theorem xwt (X : Mat n p) (w : Fin n → ℝ) : (Matrix.of fun j i => X i j * w i : Mat p n) = Xᵀ * diagonal w := by
  ext j i; simp [mul_diagonal]

/-- Spec: the weighted sum of squares. -/
def wss (X : Mat n p) (y w : Fin n → ℝ) (b : Fin p → ℝ) : ℝ := ∑ i, w i * (y i - (X *ᵥ b) i) ^ 2

/-- With nonnegative weights a solution of the normal equations minimises the weighted sum of squares. -/
theorem C98_minimum {X : Mat n p} {y w : Fin n → ℝ} (hw : ∀ i, 0 ≤ w i) {b : Fin p → ℝ} (hb : NormalEq X y w b)
    (c : Fin p → ℝ) : wss X y w b ≤ wss X y w c := by
  set d := c - b with hd
  have hz : ∑ i, w i * (y i - (X *ᵥ b) i) * (X *ᵥ d) i = 0 := by
    have h1 : (Xᵀ * diagonal w) *ᵥ (y - X *ᵥ b) = 0 := by
      rw [mulVec_sub, mulVec_mulVec, ← hb, sub_self]
    have h2 : d ⬝ᵥ ((Xᵀ * diagonal w) *ᵥ (y - X *ᵥ b)) = 0 := by rw [h1, dotProduct_zero]
    rw [← mulVec_mulVec, dotProduct_mulVec, vecMul_transpose] at h2
    rw [← h2]
    simp only [dotProduct, mulVec_diagonal, Pi.sub_apply]
    exact Finset.sum_congr rfl fun i _ => by ring
  have e : wss X y w c = wss X y w b + ∑ i, w i * (X *ᵥ d) i ^ 2 -
      2 * ∑ i, w i * (y i - (X *ᵥ b) i) * (X *ᵥ d) i := by
    simp only [wss, Finset.mul_sum]
    rw [← Finset.sum_add_distrib, ← Finset.sum_sub_distrib]
    refine Finset.sum_congr rfl fun i _ => ?_
    have : (X *ᵥ c) i = (X *ᵥ b) i + (X *ᵥ d) i := by rw [hd, mulVec_sub]; simp
    rw [this]; ring
  rw [e, hz]
  have : 0 ≤ ∑ i, w i * (X *ᵥ d) i ^ 2 := Finset.sum_nonneg fun i _ => mul_nonneg (hw i) (sq_nonneg _)
  linarith

theorem solve?_unit {R : Mat p p} (h : IsUnit R.det) (c : Fin p → ℝ) : solve? R c = some (R⁻¹ *ᵥ c) := by
  simp [solve?, inv?_unit h]

/-- `wls_chol` solves the weighted normal equations whenever the weighted Gram matrix is positive definite. -/
theorem C98_chol {X : Mat n p} {y w : Fin n → ℝ} (hp : (Xᵀ * diagonal w * X).PosDef)
    {chol : Mat p p → Option (Mat p p)} (hc : CholOk chol) :
    ∃ b, wlsChol chol X y w = some b ∧ NormalEq X y w b := by
  obtain ⟨L, hL⟩ := hc.total _ hp
  obtain ⟨h1, h2, h3⟩ := hc.ok _ _ hL
  have hLu := unit_chol h2 h3
  have hLt : IsUnit (Lᵀ).det := by rwa [det_transpose]
  refine ⟨_, (by simp only [wlsChol, xwt, hL, solve?_unit hLu, solve?_unit hLt, Option.bind_eq_bind, Option.bind_some] <;> rfl),
    ?_⟩
  rw [NormalEq, ← h1, ← mulVec_mulVec, mulVec_mulVec (M := Lᵀ), mul_nonsing_inv _ hLt, one_mulVec, mulVec_mulVec,
    mul_nonsing_inv _ hLu, one_mulVec]

/-- `wls_qr` solves the weighted normal equations for nonnegative weights and a weighted design of full rank. -/
theorem C98_qr {X : Mat n p} {y w : Fin n → ℝ} (hw : ∀ i, 0 ≤ w i) (hu : IsUnit (Xᵀ * diagonal w * X).det)
    {qr : Mat n p → Mat n p × Mat p p}
    (hq : ∀ Z, Z = (Matrix.of fun i j => X i j * √(w i) : Mat n p) → IsQR Z (qr Z).1 (qr Z).2) :
    ∃ b, wlsQr qr X y w = some b ∧ NormalEq X y w b := by
  set Z : Mat n p := Matrix.of fun i j => X i j * √(w i) with hZ
  have h := hq Z rfl
  have eG : Zᵀ * Z = Xᵀ * diagonal w * X := by
    ext a b
    rw [Matrix.mul_apply, Matrix.mul_apply]
    simp only [transpose_apply, hZ, Matrix.of_apply, mul_diagonal]
    exact Finset.sum_congr rfl fun i _ => by
      rw [show X i a * √(w i) * (X i b * √(w i)) = X i a * (√(w i) * √(w i)) * X i b by ring,
        Real.mul_self_sqrt (hw i)]
  have hR : IsUnit (qr Z).2.det := unit_qr h (by rwa [eG])
  refine ⟨_, by simp only [wlsQr, ← hZ]; exact solve?_unit hR _, ?_⟩
  rw [NormalEq, ← eG, gram_qr h, ← mulVec_mulVec, mulVec_mulVec (M := (qr Z).2), mul_nonsing_inv _ hR, one_mulVec,
    mulVec_mulVec, ← transpose_mul, h.mul]
  funext a
  simp only [mulVec, dotProduct, hZ, transpose_apply, Matrix.of_apply, mul_diagonal]
  exact Finset.sum_congr rfl fun i _ => by
    rw [show X i a * √(w i) * (√(w i) * y i) = X i a * (√(w i) * √(w i)) * y i by ring, Real.mul_self_sqrt (hw i)]

/-- `nwls` solves the weighted normal equations for weights of any sign, as soon as they have one solution. -/
theorem C98_nwls {X : Mat n p} {y w : Fin n → ℝ} (hu : IsUnit (Xᵀ * diagonal w * X).det)
    {qr : Mat n p → Mat n p × Mat p p} {svd : Mat n p → Mat n p × (Fin p → ℝ) × Mat p p}
    (hq : ∀ Z, Z = (Matrix.of fun i j => X i j * √|w i| : Mat n p) → IsQR Z (qr Z).1 (qr Z).2 ∧
      ∀ M, M = (Matrix.of fun i j => (qr Z).1 i j * if w i ≤ 0 then 1 else 0 : Mat n p) →
        IsSvd M (svd M).1 (svd M).2.1 (svd M).2.2) :
    ∃ b, nwls qr svd X y w = some b ∧ NormalEq X y w b := by
  set Z : Mat n p := Matrix.of fun i j => X i j * √|w i| with hZ
  set Q := (qr Z).1 with hQ
  set R := (qr Z).2 with hRdef
  have h : IsQR Z Q R := (hq Z rfl).1
  set sg : Fin n → ℝ := fun i => if w i < 0 then -1 else 1 with hsg
  set D : Fin n → ℝ := fun i => if w i ≤ 0 then 1 else 0 with hD
  set M : Mat n p := Matrix.of fun i j => Q i j * D i with hM
  obtain ⟨m1, m2, m3⟩ := (hq Z rfl).2 M rfl
  set U := (svd M).1
  set s := (svd M).2.1
  set Vt := (svd M).2.2
  have m4 : Vtᵀ * Vt = 1 := mul_eq_one_comm.1 m3
  have hww : ∀ i, √|w i| * √|w i| * sg i = w i := by
    intro i
    rw [Real.mul_self_sqrt (abs_nonneg _), hsg]
    by_cases hi : w i < 0
    · simp [hi, abs_of_neg hi]
    · simp [hi, abs_of_nonneg (not_lt.1 hi)]
  have eG : Zᵀ * diagonal sg * Z = Xᵀ * diagonal w * X := by
    ext a b
    rw [Matrix.mul_apply, Matrix.mul_apply]
    simp only [transpose_apply, hZ, Matrix.of_apply, mul_diagonal]
    refine Finset.sum_congr rfl fun i _ => ?_
    rw [show X i a * √|w i| * sg i * (X i b * √|w i|) = X i a * (√|w i| * √|w i| * sg i) * X i b by ring, hww i]
  have eR : Xᵀ * diagonal w * X = Rᵀ * (Qᵀ * diagonal sg * Q) * R := by
    rw [← eG, ← h.mul, transpose_mul]; simp only [Matrix.mul_assoc]
  have hR : IsUnit R.det := by
    rw [eR, det_mul] at hu
    exact isUnit_of_mul_isUnit_right hu
  have hRt : IsUnit (Rᵀ).det := by rwa [det_transpose]
  have hQ0 : ∀ i a, w i = 0 → Q i a = 0 := by
    intro i a hi
    have : Q = Z * R⁻¹ := by rw [← h.mul, Matrix.mul_assoc, mul_nonsing_inv _ hR, Matrix.mul_one]
    rw [this, Matrix.mul_apply]
    exact Finset.sum_eq_zero fun j _ => by simp [hZ, hi]
  have eM : Mᵀ * M = Vtᵀ * diagonal (fun k => s k ^ 2) * Vt := by
    rw [← m1]
    have : (U * diagonal s * Vt)ᵀ * (U * diagonal s * Vt) = Vtᵀ * (diagonal s * (Uᵀ * U) * diagonal s) * Vt := by
      simp only [transpose_mul, diagonal_transpose, Matrix.mul_assoc]
    rw [this, m2, Matrix.mul_one, diagonal_mul_diagonal]
    simp only [sq]
  have eS : Qᵀ * diagonal sg * Q = Vtᵀ * diagonal (fun k => 1 - 2 * s k ^ 2) * Vt := by
    have e1 : Qᵀ * diagonal sg * Q = 1 - (2 : ℝ) • (Mᵀ * M) := by
      rw [← h.orth]
      ext a b
      rw [Matrix.sub_apply, Matrix.smul_apply, Matrix.mul_apply, Matrix.mul_apply, Matrix.mul_apply]
      simp only [transpose_apply, mul_diagonal, hM, Matrix.of_apply, smul_eq_mul, Finset.mul_sum]
      rw [← Finset.sum_sub_distrib]
      refine Finset.sum_congr rfl fun i _ => ?_
      rcases lt_trichotomy (w i) 0 with hi | hi | hi
      · simp only [hsg, hD, if_pos hi, if_pos hi.le]; ring
      · rw [hQ0 i a hi]; ring
      · simp only [hsg, hD, if_neg (not_lt.2 hi.le), if_neg (not_le.2 hi)]; ring
    have e2 : diagonal (fun k => 1 - 2 * s k ^ 2) = (1 : Mat p p) - (2 : ℝ) • diagonal (fun k => s k ^ 2) := by
      rw [← diagonal_one, ← diagonal_smul, diagonal_sub]; rfl
    rw [e1, eM, e2, Matrix.mul_sub, Matrix.sub_mul, Matrix.mul_one, m4, Matrix.mul_smul, Matrix.smul_mul]
  have hk : ∀ k, 1 - 2 * s k ^ 2 ≠ 0 := by
    rw [eR, eS] at hu
    simp only [det_mul, det_diagonal] at hu
    have h1 := isUnit_of_mul_isUnit_left hu
    have h2 := isUnit_of_mul_isUnit_right h1
    have h3 := isUnit_of_mul_isUnit_right (isUnit_of_mul_isUnit_left h2)
    exact fun k => (Finset.prod_ne_zero_iff.1 (isUnit_iff_ne_zero.1 h3)) k (Finset.mem_univ k)
  refine ⟨_, by simp only [nwls]; exact solve?_unit hR _, ?_⟩
  change NormalEq X y w (R⁻¹ *ᵥ (Vtᵀ *ᵥ fun k => 1 / (1 - 2 * s k ^ 2) *
    (Vt *ᵥ (Qᵀ *ᵥ fun i => √|w i| * sg i * y i)) k))
  set z : Fin p → ℝ := Qᵀ *ᵥ fun i => √|w i| * sg i * y i with hz
  have ea : (fun k => 1 / (1 - 2 * s k ^ 2) * (Vt *ᵥ z) k) = diagonal (fun k => 1 / (1 - 2 * s k ^ 2)) *ᵥ (Vt *ᵥ z) := by
    funext k; rw [mulVec_diagonal]
  have ed : diagonal (fun k => 1 - 2 * s k ^ 2) * diagonal (fun k => 1 / (1 - 2 * s k ^ 2)) = (1 : Mat p p) := by
    rw [diagonal_mul_diagonal, ← diagonal_one]
    congr 1; funext k; exact mul_one_div_cancel (hk k)
  rw [NormalEq, eR, eS, ea]
  have e1 : (Rᵀ * (Vtᵀ * diagonal (fun k => 1 - 2 * s k ^ 2) * Vt) * R) *ᵥ (R⁻¹ *ᵥ (Vtᵀ *ᵥ
      (diagonal (fun k => 1 / (1 - 2 * s k ^ 2)) *ᵥ (Vt *ᵥ z)))) = Rᵀ *ᵥ z := by
    rw [← mulVec_mulVec, mulVec_mulVec (M := R), mul_nonsing_inv _ hR, one_mulVec, ← mulVec_mulVec, ← mulVec_mulVec,
      mulVec_mulVec (M := Vt), m3, one_mulVec, ← mulVec_mulVec, mulVec_mulVec (M := diagonal _), ed, one_mulVec,
      mulVec_mulVec (M := Vtᵀ), m4, one_mulVec]
  rw [e1, hz, mulVec_mulVec, ← transpose_mul, h.mul]
  funext a
  simp only [mulVec, dotProduct, hZ, transpose_apply, Matrix.of_apply, mul_diagonal]
  exact Finset.sum_congr rfl fun i _ => by
    rw [show X i a * √|w i| * (√|w i| * sg i * y i) = X i a * (√|w i| * √|w i| * sg i) * y i by ring, hww i]

/-- The three solvers agree on nonnegative weights. -/
theorem C98_agree {X : Mat n p} {y w : Fin n → ℝ} (hw : ∀ i, 0 ≤ w i) (hu : IsUnit (Xᵀ * diagonal w * X).det)
    {chol : Mat p p → Option (Mat p p)} (hc : CholOk chol)
    {qr : Mat n p → Mat n p × Mat p p} {svd : Mat n p → Mat n p × (Fin p → ℝ) × Mat p p}
    (hq : ∀ Z, Z = (Matrix.of fun i j => X i j * √|w i| : Mat n p) → IsQR Z (qr Z).1 (qr Z).2 ∧
      ∀ M, M = (Matrix.of fun i j => (qr Z).1 i j * if w i ≤ 0 then 1 else 0 : Mat n p) →
        IsSvd M (svd M).1 (svd M).2.1 (svd M).2.2) :
    wlsQr qr X y w = wlsChol chol X y w ∧ nwls qr svd X y w = wlsChol chol X y w := by
  have hps : (Xᵀ * diagonal w * X).PosSemidef := by
    have := posSemidef_weighted X hw
    have e : (Matrix.of fun i j => X i j * w i)ᵀ = Xᵀ * diagonal w := by ext i j; simp [mul_diagonal]
    rwa [e] at this
  obtain ⟨b, h1, h2⟩ := C98_chol (y := y) (hps.posDef_iff_isUnit.2 ((isUnit_iff_isUnit_det _).2 hu)) hc
  obtain ⟨b', h3, h4⟩ := C98_qr (y := y) hw hu fun Z hZ => (hq Z (by simpa only [abs_of_nonneg (hw _)] using hZ)).1
  obtain ⟨b'', h5, h6⟩ := C98_nwls (y := y) hu hq
  rw [h1, h3, h5, wls_unique hu h4 h2, wls_unique hu h6 h2]
  exact ⟨rfl, rfl⟩

/-- `wls_qr` treats a negative weight as zero, so it does not solve the normal equations; the caller guards it. -/
theorem C98_qr_negative {X : Mat n p} {y w : Fin n → ℝ} (qr : Mat n p → Mat n p × Mat p p) :
    wlsQr qr X y w = wlsQr qr X y (fun i => max (w i) 0) := by
  have : ∀ i, √(w i) = √(max (w i) 0) := by
    intro i
    rcases le_total (w i) 0 with h | h
    · rw [max_eq_right h, Real.sqrt_zero, Real.sqrt_eq_zero_of_nonpos h]
    · rw [max_eq_left h]
  simp only [wlsQr, this]

example : ∃ b, wlsQr (fun Z => (Z, 1)) (1 : Mat 1 1) (fun _ => 2) (fun _ => 1) = some b ∧
    NormalEq (1 : Mat 1 1) (fun _ => 2) (fun _ => 1) b :=
  C98_qr (fun _ => zero_le_one) (by simp [det_diagonal]) fun Z hZ => by
    have : Z = 1 := by rw [hZ]; ext i j; simp
    subst this
    exact ⟨by simp, by simp, fun i j h => by omega⟩

/-- A negative weight. -/
example : ∃ b, nwls (fun Z => (Z, 1)) (fun M => (M, fun _ => 1, 1)) (1 : Mat 1 1) (fun _ => 2) (fun _ => -1) = some b ∧
    NormalEq (1 : Mat 1 1) (fun _ => 2) (fun _ => -1) b :=
  C98_nwls (by simp [det_diagonal]) fun Z hZ => by
    have : Z = 1 := by rw [hZ]; ext i j; simp
    subst this
    refine ⟨⟨by simp, by simp, fun i j h => by omega⟩, fun M hM => ?_⟩
    have : M = 1 := by rw [hM]; ext i j; simp
    subst this
    exact ⟨by simp, by simp, by simp⟩

end Verif.Like
