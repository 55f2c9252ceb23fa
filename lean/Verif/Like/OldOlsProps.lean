import Verif.Like.OldOls
import Verif.Like.OlsProps
import Verif.Like.InfluenceProps
/-!
# C155: least squares of `pyglm/ols.py`
-/
namespace Verif.Like.OldOls
open Matrix Verif.Fa Verif.Like Verif.Mv.Mvols
variable {n p : ℕ}

theorem svd_gram {X U : Mat n p} {S : Fin p → ℝ} {V : Mat p p} (h : IsSvd X U S V) :
    Xᵀ * X = V * diagonal (fun a => S a ^ 2) * Vᵀ := by
  rw [← h.eq, transpose_mul, transpose_mul, transpose_transpose, diagonal_transpose]
  calc V * (diagonal S * Uᵀ) * (U * diagonal S * Vᵀ) = V * (diagonal S * (Uᵀ * U) * diagonal S) * Vᵀ := by simp only [Matrix.mul_assoc]
    _ = _ := by rw [h.u, Matrix.mul_one, diagonal_mul_diagonal]; congr 2; funext i; simp [sq]

theorem svd_v' {V : Mat p p} (h : Vᵀ * V = 1) : V * Vᵀ = 1 := mul_eq_one_comm.1 h

theorem svd_inv {X U : Mat n p} {S : Fin p → ℝ} {V : Mat p p} (h : IsSvd X U S V) :
    IsUnit (Xᵀ * X).det ∧ (Xᵀ * X)⁻¹ = V * diagonal (fun a => (S a ^ 2)⁻¹) * Vᵀ := by
  have e : Xᵀ * X * (V * diagonal (fun a => (S a ^ 2)⁻¹) * Vᵀ) = 1 := by
    rw [svd_gram h]
    calc V * diagonal (fun a => S a ^ 2) * Vᵀ * (V * diagonal (fun a => (S a ^ 2)⁻¹) * Vᵀ) =
        V * (diagonal (fun a => S a ^ 2) * (Vᵀ * V) * diagonal (fun a => (S a ^ 2)⁻¹)) * Vᵀ := by simp only [Matrix.mul_assoc]
      _ = 1 := by
        rw [h.v, Matrix.mul_one, diagonal_mul_diagonal]
        have : (fun i => S i ^ 2 * (S i ^ 2)⁻¹) = fun _ => 1 := by funext i; have := h.pos i; field_simp
        rw [this, diagonal_one, Matrix.mul_one, svd_v' h.v]
  exact ⟨(isUnit_iff_isUnit_det _).1 ⟨⟨_, _, e, mul_eq_one_comm.1 e⟩, rfl⟩, inv_eq_right_inv e⟩

/-- The constructor: `W` is the pseudo-inverse of the design and `h` the diagonal of its hat matrix. -/
theorem C155_svd {X U : Mat n p} {S : Fin p → ℝ} {V : Mat p p} (h : IsSvd X U S V) :
    wMat U S V = (Xᵀ * X)⁻¹ * Xᵀ ∧ ∀ i, hDiag U i = hat X i i := by
  have e1 : wMat U S V = V * diagonal (fun a => (S a)⁻¹) * Uᵀ := by
    unfold wMat
    congr 1
    ext i a
    rw [mul_diagonal, of_apply, div_eq_mul_inv]
  have hX : Xᵀ = V * diagonal S * Uᵀ := by
    rw [← h.eq, transpose_mul, transpose_mul, transpose_transpose, diagonal_transpose, Matrix.mul_assoc]
  have e2 : (Xᵀ * X)⁻¹ * Xᵀ = V * diagonal (fun a => (S a)⁻¹) * Uᵀ := by
    rw [(svd_inv h).2, hX]
    calc V * diagonal (fun a => (S a ^ 2)⁻¹) * Vᵀ * (V * diagonal S * Uᵀ) =
        V * (diagonal (fun a => (S a ^ 2)⁻¹) * (Vᵀ * V) * diagonal S) * Uᵀ := by simp only [Matrix.mul_assoc]
      _ = _ := by
        rw [h.v, Matrix.mul_one, diagonal_mul_diagonal]
        congr 3
        funext i
        have := h.pos i
        field_simp
  refine ⟨by rw [e1, e2], fun i => ?_⟩
  have e3 : hat X = U * Uᵀ := by
    rw [hat, Matrix.mul_assoc, e2]
    nth_rw 1 [← h.eq]
    calc U * diagonal S * Vᵀ * (V * diagonal (fun a => (S a)⁻¹) * Uᵀ) =
        U * (diagonal S * (Vᵀ * V) * diagonal (fun a => (S a)⁻¹)) * Uᵀ := by simp only [Matrix.mul_assoc]
      _ = _ := by
        rw [h.v, Matrix.mul_one, diagonal_mul_diagonal]
        have : (fun i => S i * (S i)⁻¹) = fun _ => 1 := by funext i; have := h.pos i; field_simp
        rw [this, diagonal_one, Matrix.mul_one]
  rw [e3, mul_apply]
  rfl

/-- What the column `VIF` holds: the reciprocal of the diagonal of the inverse cross products. -/
theorem C155_vif_partial {X U : Mat n p} {S : Fin p → ℝ} {V : Mat p p} (h : IsSvd X U S V) (j : Fin p) :
    vif S V j = 1 / (Xᵀ * X)⁻¹ j j := by
  have e : (of fun i a => V i a * 1 / S a ^ 2 : Mat p p) = V * diagonal (fun a => (S a ^ 2)⁻¹) := by
    ext i a
    rw [mul_diagonal, of_apply, mul_one, div_eq_mul_inv]
  rw [(svd_inv h).2, vif, e]

/-- Spec: the variance inflation factor of a column, the ratio of the variance of its coefficient to the variance it would have if the
column were orthogonal to the constant and the other columns. -/
noncomputable def vifSpec (X : Mat n p) (j : Fin p) : ℝ := (Xᵀ * X)⁻¹ j j * ∑ i, (X i j - (∑ k, X k j) / n) ^ 2

/-- The column holds the total sum of squares divided by the factor. -/
theorem C155_vif_spec_partial {X U : Mat n p} {S : Fin p → ℝ} {V : Mat p p} (h : IsSvd X U S V) {j : Fin p}
    (hn : ∑ i, (X i j - (∑ k, X k j) / n) ^ 2 ≠ 0) : vif S V j = (∑ i, (X i j - (∑ k, X k j) / n) ^ 2) / vifSpec X j := by
  rw [C155_vif_partial h, vifSpec]
  generalize (∑ i, (X i j - (∑ k, X k j) / n) ^ 2) = T at *
  rw [mul_comm, ← div_div, div_self hn]

/-- For an orthogonal centred column the inflation factor is one; the table has two. -/
theorem C155_vif_violated : ∃ (X U : Mat 2 2) (S : Fin 2 → ℝ) (V : Mat 2 2), IsSvd X U S V ∧ vifSpec X 1 = 1 ∧ vif S V 1 = 2 := by
  have hs : √2 * √2 = (2:ℝ) := Real.mul_self_sqrt (by norm_num)
  have hp : (0:ℝ) < √2 := Real.sqrt_pos.2 (by norm_num)
  let X : Mat 2 2 := !![1, 1; 1, -1]
  have hS : IsSvd X ((√2)⁻¹ • X) (fun _ => √2) 1 := by
    refine ⟨?_, ?_, by simp, fun _ => hp⟩
    · rw [transpose_one, Matrix.mul_one]
      ext i j
      rw [mul_diagonal, Matrix.smul_apply, smul_eq_mul]
      field_simp
    · ext i j
      fin_cases i <;> fin_cases j <;> simp [X, mul_apply, Fin.sum_univ_two] <;> field_simp <;> nlinarith
  have hv : vif (fun _ : Fin 2 => √2) (1 : Mat 2 2) 1 = 2 := by
    simp [vif]
  have hinv : (Xᵀ * X)⁻¹ 1 1 = 1 / 2 := by
    have := C155_vif_partial hS 1
    rw [hv] at this
    have hne : (Xᵀ * X)⁻¹ 1 1 ≠ 0 := fun h0 => by rw [h0] at this; norm_num at this
    field_simp at this
    linarith
  refine ⟨X, _, _, _, hS, ?_, hv⟩
  rw [vifSpec, hinv]
  simp [X, Fin.sum_univ_two]
  norm_num

/-- The column `VDP` holds no proportions: it is the reciprocal of the squared singular value, whatever the vectors. -/
theorem C155_vdp_partial {X U : Mat n p} {S : Fin p → ℝ} {V : Mat p p} (h : IsSvd X U S V) (j : Fin p) : vdp S V j = 1 / S j ^ 2 := by
  have : ∑ i, V i j ^ 2 = 1 := by
    have := congrFun (congrFun h.v j) j
    rw [mul_apply, one_apply_eq] at this
    rw [← this]
    exact Finset.sum_congr rfl fun i _ => by rw [transpose_apply, sq]
  rw [vdp, this]

/-- A value of the column `VDP` above one. -/
theorem C155_vdp_violated : ∃ (X U : Mat 1 1) (S : Fin 1 → ℝ) (V : Mat 1 1), IsSvd X U S V ∧ 1 < vdp S V 0 := by
  have h : IsSvd (diagonal fun _ : Fin 1 => (1 / 2 : ℝ)) 1 (fun _ => 1 / 2) 1 := by
    refine ⟨by simp, by simp, by simp, fun _ => by norm_num⟩
  exact ⟨_, _, _, _, h, by rw [C155_vdp_partial h]; norm_num⟩

/-- The condition indices are ratios of eigenvalues of the cross products to the largest one. -/
theorem C155_cond {X U : Mat n p} {S : Fin p → ℝ} {V : Mat p p} (h : IsSvd X U S V) (i0 j : Fin p) :
    (Xᵀ * X) *ᵥ (fun i => V i j) = (S j ^ 2 • fun i => V i j) ∧ condIdx S i0 j * S j ^ 2 = S i0 ^ 2 ∧
      ((∀ i, S i ≤ S i0) → 1 ≤ condIdx S i0 j) := by
  have hj := h.pos j
  refine ⟨?_, ?_, fun hm => ?_⟩
  · have e : Xᵀ * X * V = V * diagonal (fun a => S a ^ 2) := by rw [svd_gram h, Matrix.mul_assoc, h.v, Matrix.mul_one]
    funext i
    have := congrFun (congrFun e i) j
    rw [mul_diagonal, mul_apply] at this
    rw [Pi.smul_apply, smul_eq_mul, mul_comm]
    exact this
  · rw [condIdx]; field_simp
  · rw [condIdx, one_le_div (by positivity)]
    exact pow_le_pow_left₀ hj.le (hm j) 2

/-- The fit: least squares with standard errors from the unbiased error variance; refitting with the stored factor is the same. -/
theorem C155_fit {ch : Mat p p → Option (Mat p p)} (hc : CholOk ch) {X : Mat n p} {L : Mat p p} (hL : ch (Xᵀ * X) = some L) (y : Fin n → ℝ) :
    fitMats ch X y = fitY L L⁻¹ X y ∧
      fitMats ch X y = some (ols X y, fun j => √(Ols.rss X y (ols X y) / ((n : ℝ) - p) * (Xᵀ * X)⁻¹ j j)) := by
  obtain ⟨a1, a2, a3, a4, a5, a6⟩ := chol_facts hc hL
  have a7 : inv? Lᵀ = some (L⁻¹)ᵀ := by
    rw [inv?_unit (by rwa [det_transpose]), transpose_nonsing_inv]
  have e : fitMats ch X y = fitY L L⁻¹ X y := by
    unfold fitMats fitY
    simp only [Option.bind_eq_bind, hL, Option.bind_some, a3, a7]
  refine ⟨e, ?_⟩
  have e2 := Ols.sse_eq a4 a6 y
  rw [e]
  unfold fitY
  simp only [Option.bind_eq_bind, Option.bind_some, a3, a7, a4]
  rw [ols]
  generalize Xᵀ *ᵥ y = c at *
  rw [mulVec_mulVec, a4, e2]
  rfl

theorem w_apply (X : Mat n p) (j : Fin p) (i : Fin n) : ((Xᵀ * X)⁻¹ * Xᵀ) j i = ((Xᵀ * X)⁻¹ *ᵥ X i) j := by
  rw [mul_apply]; rfl

/-- The robust standard errors are the roots of the diagonal of the sandwich. -/
theorem C155_robust {X U : Mat n p} {S : Fin p → ℝ} {V : Mat p p} (h : IsSvd X U S V) {r om : Fin n → ℝ} {kind : String}
    (ho : omega p r (fun i => hat X i i) kind = some om) :
    robustSe U S V r kind = some fun j => √(((Xᵀ * X)⁻¹ * (Xᵀ * diagonal om * X) * (Xᵀ * X)⁻¹) j j) := by
  obtain ⟨h1, h2⟩ := C155_svd h
  have hh : hDiag U = fun i => hat X i i := funext h2
  unfold robustSe
  rw [hh, ho, h1]
  simp only [Option.bind_eq_bind, Option.bind_some]
  congr 1
  funext j
  congr 1
  have hsym : ((Xᵀ * X)⁻¹)ᵀ = (Xᵀ * X)⁻¹ := by rw [transpose_nonsing_inv, transpose_mul, transpose_transpose]
  have e : (Xᵀ * X)⁻¹ * (Xᵀ * diagonal om * X) * (Xᵀ * X)⁻¹ = ((Xᵀ * X)⁻¹ * Xᵀ) * diagonal om * ((Xᵀ * X)⁻¹ * Xᵀ)ᵀ := by
    rw [transpose_mul, transpose_transpose, hsym]
    simp only [Matrix.mul_assoc]
  rw [e, mul_apply]
  exact Finset.sum_congr rfl fun i _ => by rw [mul_diagonal, transpose_apply]

/-- The kinds: which weights each has, and no others exist. -/
theorem C155_kinds (r h : Fin n → ℝ) (kind : String) :
    (omega p r h kind).isSome ↔ kind ∈ ["HC0", "HC1", "HC2", "HC3", "HC4"] := by
  unfold omega
  by_cases h0 : kind = "HC0" <;> by_cases h1 : kind = "HC1" <;> by_cases h2 : kind = "HC2" <;> by_cases h3 : kind = "HC3" <;>
    by_cases h4 : kind = "HC4" <;> simp [h0, h1, h2, h3, h4]

/-- The weights are the ones of `sandwich_cov` of the newer module. -/
theorem C155_omega (p : ℕ) (r h : Fin n → ℝ) (kind : String) : omega p r h kind = hcOmega r p (some h) kind := by
  unfold omega hcOmega
  have e : (fun i => (n : ℝ) / ((n : ℝ) - p) * r i ^ 2) = fun i => r i ^ 2 * n / (n - p) := by funext i; ring
  simp only [e, Option.map_some]

/-- The jackknife coefficients are the least squares coefficients without the observation, and `dfbeta` is the difference. -/
theorem C155_jackknife {ch : Mat p p → Option (Mat p p)} (hc : CholOk ch) {X U : Mat n p} {S : Fin p → ℝ} {V : Mat p p} (h : IsSvd X U S V)
    {L : Mat p p} (hL : ch (Xᵀ * X) = some L) (y : Fin n → ℝ) {i : Fin n} (hi : hat X i i ≠ 1) (j : Fin p) :
    jackknife L⁻¹ X (hDiag U) (olsResid X y) (ols X y) i j = olsDrop X y i j ∧
      dfbeta (wMat U S V) (hDiag U) (olsResid X y) j i = ols X y j - olsDrop X y i j := by
  obtain ⟨a1, a2, a3, a4, a5, a6⟩ := chol_facts hc hL
  obtain ⟨h1, h2⟩ := C155_svd h
  have e := congrFun (C97_deletion a6 y hi).2 j
  rw [Pi.sub_apply, Pi.smul_apply, smul_eq_mul] at e
  have hsym : ((Xᵀ * X)⁻¹)ᵀ = (Xᵀ * X)⁻¹ := by rw [transpose_nonsing_inv, transpose_mul, transpose_transpose]
  have e2 : (X * (Xᵀ * X)⁻¹) i j = ((Xᵀ * X)⁻¹ *ᵥ X i) j := by
    rw [← w_apply, ← transpose_apply ((Xᵀ * X)⁻¹ * Xᵀ), transpose_mul, transpose_transpose, hsym]
  constructor
  · rw [jackknife, a4]
    simp only [of_apply]
    rw [e2, h2]
    linarith
  · rw [dfbeta, of_apply, h1, w_apply, h2, e]

/-- The residual sum of squares without an observation. -/
theorem rss_drop {X : Mat n p} (hu : IsUnit (Xᵀ * X).det) (y : Fin n → ℝ) {i : Fin n} (hi : hat X i i ≠ 1) :
    Ols.rss X y (olsDrop X y i) - (y i - (X *ᵥ olsDrop X y i) i) ^ 2 =
      (∑ k, olsResid X y k ^ 2) - olsResid X y i ^ 2 / (1 - hat X i i) := by
  have e := (C97_deletion hu y hi).2
  have e' : olsDrop X y i - ols X y = -((olsResid X y i / (1 - hat X i i)) • ((Xᵀ * X)⁻¹ *ᵥ X i)) := by rw [← e]; abel
  have h1 : 1 - hat X i i ≠ 0 := sub_ne_zero.2 (Ne.symm hi)
  have hr : Ols.rss X y (ols X y) = ∑ k, olsResid X y k ^ 2 := by
    simp only [Ols.rss, dotProduct, sq]; rfl
  have hx : (X *ᵥ (Xᵀ * X)⁻¹ *ᵥ X i) ⬝ᵥ (X *ᵥ (Xᵀ * X)⁻¹ *ᵥ X i) = hat X i i := by
    rw [dotProduct_mulVec, ← mulVec_transpose, mulVec_mulVec _ Xᵀ, mulVec_mulVec _ (Xᵀ * X), mul_nonsing_inv _ hu, one_mulVec, hat_diag]
  have hy : y i - (X *ᵥ olsDrop X y i) i = olsResid X y i / (1 - hat X i i) := by
    have : olsDrop X y i = ols X y + (olsDrop X y i - ols X y) := by abel
    rw [this, mulVec_add, e', mulVec_neg, mulVec_smul, Pi.add_apply, Pi.neg_apply, Pi.smul_apply, smul_eq_mul]
    have h2 : (X *ᵥ ((Xᵀ * X)⁻¹ *ᵥ X i)) i = hat X i i := (hat_diag X i).symm
    rw [h2]
    have h3 : y i - (X *ᵥ ols X y) i = olsResid X y i := rfl
    generalize olsResid X y i = q at *
    have h4 : y i = (X *ᵥ ols X y) i + q := by linarith
    rw [h4]
    field_simp
    ring
  rw [Ols.rss_eq (Ols.normal_eq hu y) (olsDrop X y i)]
  change Ols.rss X y (ols X y) + (X *ᵥ (olsDrop X y i - ols X y)) ⬝ᵥ (X *ᵥ (olsDrop X y i - ols X y)) - _ = _
  rw [hr, e', mulVec_neg, neg_dotProduct_neg, mulVec_smul, smul_dotProduct, dotProduct_smul, hx, hy, smul_eq_mul, smul_eq_mul]
  field_simp
  ring

/-- Spec: the externally studentised residual, with the error variance of the fit without the observation. -/
noncomputable def rstudentSpec (X : Mat n p) (y : Fin n → ℝ) (i : Fin n) : ℝ :=
  olsResid X y i / (√((Ols.rss X y (olsDrop X y i) - (y i - (X *ᵥ olsDrop X y i) i) ^ 2) / ((n : ℝ) - 1 - p)) * √(1 - hat X i i))

/-- Spec: Cook's distance. -/
noncomputable def cooksSpec (X : Mat n p) (y : Fin n → ℝ) (i : Fin n) : ℝ :=
  (X *ᵥ (ols X y - olsDrop X y i)) ⬝ᵥ (X *ᵥ (ols X y - olsDrop X y i)) / (p * (Ols.rss X y (ols X y) / ((n : ℝ) - p)))

/-- Cook's distance from residual and leverage. -/
theorem cooks_eq {X : Mat n p} (hu : IsUnit (Xᵀ * X).det) (y : Fin n → ℝ) {i : Fin n} (hi : hat X i i ≠ 1) :
    cooksSpec X y i = olsResid X y i ^ 2 * hat X i i / (1 - hat X i i) ^ 2 / (p * ((∑ k, olsResid X y k ^ 2) / ((n : ℝ) - p))) := by
  have hr : Ols.rss X y (ols X y) = ∑ k, olsResid X y k ^ 2 := by
    simp only [Ols.rss, dotProduct, sq]; rfl
  have hx : (X *ᵥ (Xᵀ * X)⁻¹ *ᵥ X i) ⬝ᵥ (X *ᵥ (Xᵀ * X)⁻¹ *ᵥ X i) = hat X i i := by
    rw [dotProduct_mulVec, ← mulVec_transpose, mulVec_mulVec _ Xᵀ, mulVec_mulVec _ (Xᵀ * X), mul_nonsing_inv _ hu, one_mulVec, hat_diag]
  rw [cooksSpec, (C97_deletion hu y hi).2, hr, mulVec_smul, smul_dotProduct, dotProduct_smul, hx, smul_eq_mul, smul_eq_mul]
  congr 1
  rw [← mul_assoc, ← sq, div_pow, div_mul_eq_mul_div]

/-- What the distance of the code is: Cook's distance for one more column and a leverage greater by `1/n` — the ones of a centred design
without its constant. -/
theorem C155_cooks_partial (h r : Fin n → ℝ) (i : Fin n) (hr : 0 ≤ (∑ k, r k ^ 2) / ((n : ℝ) - (p + 1))) :
    (influence p h r i).cooks = r i ^ 2 * (h i + 1 / n) / (1 - (h i + 1 / n)) ^ 2 /
      (((p + 1 : ℕ) : ℝ) * ((∑ k, r k ^ 2) / ((n : ℝ) - ((p + 1 : ℕ) : ℝ)))) := by
  have e : (n : ℝ) - p - 1 = (n : ℝ) - ((p + 1 : ℕ) : ℝ) := by push_cast; ring
  simp only [influence]
  rw [e, Real.sq_sqrt (by push_cast; exact hr), div_pow, add_comm (1 / (n : ℝ)), mul_comm _ ((p : ℝ) + 1)]
  push_cast
  rw [div_mul_eq_mul_div]

/-- The diagnostics of a fit with a constant are wrong: for the mean of `0, 0, 1, 3` the last studentised residual is 4 and Cook's
distance 8/9; the code gives `√(8/3)` and 4/3. -/
theorem C155_influence_violated : ∃ (X : Mat 4 1) (y : Fin 4 → ℝ), IsUnit (Xᵀ * X).det ∧ (∀ i j, X i j = 1) ∧
    rstudentSpec X y 3 = 4 ∧ (influence 1 (fun i => hat X i i) (olsResid X y) 3).rstudent = √(8 / 3) ∧
    cooksSpec X y 3 = 8 / 9 ∧ (influence 1 (fun i => hat X i i) (olsResid X y) 3).cooks = 4 / 3 := by
  let X : Mat 4 1 := of fun _ _ => 1
  let y : Fin 4 → ℝ := fun i => if i = 3 then 3 else if i = 2 then 1 else 0
  have hG : (Xᵀ * X) = (4 : ℝ) • (1 : Mat 1 1) := by
    ext i j
    rw [Subsingleton.elim i 0, Subsingleton.elim j 0]
    simp [X, mul_apply]
  have hI : (Xᵀ * X)⁻¹ = (1 / 4 : ℝ) • (1 : Mat 1 1) := by
    rw [hG]
    refine inv_eq_right_inv ?_
    rw [smul_mul_smul_comm, Matrix.one_mul]; norm_num
  have hu : IsUnit (Xᵀ * X).det := by rw [hG, det_fin_one]; simp
  have hh : ∀ i, hat X i i = 1 / 4 := fun i => by
    rw [hat_diag, hI, smul_mulVec, one_mulVec]; simp [X, dotProduct]
  have hb : ols X y = fun _ => 1 := by
    funext j
    rw [ols, hI, smul_mulVec, one_mulVec]
    simp [X, y, mulVec, dotProduct, Fin.sum_univ_four]
    norm_num
  have hr : olsResid X y = fun i => y i - 1 := by
    funext i
    rw [olsResid, hb]
    simp [X, mulVec, dotProduct]
  have hss : ∑ k, olsResid X y k ^ 2 = 6 := by
    have y0 : y 0 = 0 := by simp [y]
    have y1 : y 1 = 0 := by simp [y]
    have y2 : y 2 = 1 := by simp [y]
    have y3 : y 3 = 3 := by simp [y]
    rw [hr, Fin.sum_univ_four]
    dsimp only
    rw [y0, y1, y2, y3]
    norm_num
  have hr3 : olsResid X y 3 = 2 := by rw [hr]; norm_num [y]
  have hne : hat X 3 3 ≠ 1 := by rw [hh]; norm_num
  have s4 : ∀ x : ℝ, 0 ≤ x → √(x ^ 2) = x := fun x hx => Real.sqrt_sq hx
  refine ⟨X, y, hu, fun _ _ => rfl, ?_, ?_, ?_, ?_⟩
  · rw [rstudentSpec, rss_drop hu y hne, hss, hr3, hh, ← Real.sqrt_mul (by norm_num)]
    have : ((6 - 2 ^ 2 / (1 - 1 / 4)) / ((4 : ℕ) - 1 - (1 : ℕ)) * (1 - 1 / 4) : ℝ) = (1 / 2) ^ 2 := by norm_num
    rw [this, s4 _ (by norm_num)]
    norm_num
  · simp only [influence, hss, hr3, hh]
    rw [← Real.sqrt_mul (by norm_num), div_eq_iff (by positivity), ← Real.sqrt_mul (by norm_num)]
    have : (8 / 3 * ((6 - 2 ^ 2) / ((4 : ℕ) - (1 : ℕ) - 1 - 1) * (1 - 1 / 4)) : ℝ) = 2 ^ 2 := by norm_num
    rw [this, s4 _ (by norm_num)]
  · rw [cooks_eq hu y hne, hss, hr3, hh]; norm_num
  · rw [C155_cooks_partial _ _ _ (by rw [hss]; norm_num), hss, hr3, hh]; norm_num

/-- The likelihood without a scale is the maximum over the scale. -/
theorem C155_profile {X : Mat n p} {y : Fin n → ℝ} {b : Fin p → ℝ} (hr : 0 < Ols.rss X y b) (hn : 0 < n) (ls : ℝ) :
    loglike X y b (some ls) ≤ loglike X y b none ∧
      (loglike X y b (some ls) = loglike X y b none → Real.exp ls ^ 2 = Ols.rss X y b / n) := by
  have hn' : (0:ℝ) < n := by exact_mod_cast hn
  set R := Ols.rss X y b with hR
  have hS : 0 < √(R / n) ^ 2 := by rw [Real.sq_sqrt (by positivity)]; positivity
  have key : ∀ v : ℝ, 0 < v → -(n : ℝ) / 2 * Real.log v - 1 / (2 * v) * R ≤ -(n : ℝ) / 2 * Real.log (R / n) - 1 / (2 * (R / n)) * R ∧
      (-(n : ℝ) / 2 * Real.log v - 1 / (2 * v) * R = -(n : ℝ) / 2 * Real.log (R / n) - 1 / (2 * (R / n)) * R → v = R / n) := by
    intro v hv
    have hu : 0 < R / n / v := by positivity
    have e1 : Real.log (R / n / v) = Real.log (R / n) - Real.log v := Real.log_div (by positivity) hv.ne'
    have e2 : 1 / (2 * v) * R = n / 2 * (R / n / v) := by field_simp
    have e3 : 1 / (2 * (R / n)) * R = n / 2 := by field_simp
    rw [e2, e3]
    constructor
    · nlinarith [Real.log_le_sub_one_of_pos hu]
    · intro e
      by_contra hne
      have h1 : R / n / v ≠ 1 := fun h1 => hne ((div_eq_one_iff_eq hv.ne').1 h1).symm
      nlinarith [Real.log_lt_sub_one_of_pos hu h1]
  have h1 := key (Real.exp ls ^ 2) (by positivity)
  have e0 : ∀ s, loglikeAt X y b s = -(n : ℝ) / 2 * Real.log (2 * Real.pi) + (-(n : ℝ) / 2 * Real.log (s ^ 2) - 1 / (2 * s ^ 2) * R) := fun s => by
    unfold loglikeAt; rw [hR, Ols.rss]; ring
  have e4 : loglike X y b none = -(n : ℝ) / 2 * Real.log (2 * Real.pi) + (-(n : ℝ) / 2 * Real.log (R / n) - 1 / (2 * (R / n)) * R) := by
    change loglikeAt X y b √(R / n) = _
    rw [e0, Real.sq_sqrt (by positivity)]
  rw [e4, loglike, e0]
  refine ⟨by linarith [h1.1], fun e => h1.2 (by linarith)⟩

/-- Stored permutation samples: the comparison for the familywise values fails unless there are as many rounds as coefficients, or one
of either. -/
theorem C155_stored_violated : broadcasts 5000 3 = false ∧
    ∃ (tv : Fin 1 → ℝ) (ts : List (Fin 1 → ℝ)), storedP tv ts 0 = 0 ∧ (Ols.tallies (fun j => |tv j|) (ts.map fun t j => |t j|) 0).2 = 1 := by
  refine ⟨by decide, fun _ => 2, [fun _ => -3], ?_, ?_⟩
  · simp [storedP]
    norm_num
  · rw [(Ols.C153_tallies _ _ _).1]
    simp
    norm_num

/-- For nonnegative samples the stored values are right. -/
theorem C155_stored_partial (tv : Fin p → ℝ) (ts : List (Fin p → ℝ)) (j : Fin p) (h : ∀ t ∈ ts, 0 ≤ t j) :
    storedP tv ts j = (Ols.tallies (fun j => |tv j|) (ts.map fun t j => |t j|) j).2 := by
  rw [(Ols.C153_tallies _ _ _).1, storedP]
  simp only [List.countP_map, List.length_map]
  congr 2
  refine List.countP_congr fun t ht => ?_
  simp [abs_of_nonneg (h t ht)]

/-- The hypotheses are satisfiable. -/
example : ∃ (ch : Mat 1 1 → Option (Mat 1 1)) (X U : Mat 2 1) (S : Fin 1 → ℝ) (V L : Mat 1 1), CholOk ch ∧ IsSvd X U S V ∧
    ch (Xᵀ * X) = some L ∧ hat X 1 1 ≠ 1 := by
  obtain ⟨ch, hc⟩ := cholOk_exists 1
  let X : Mat 2 1 := of fun i _ => if i = 0 then 1 else 0
  have hX : IsSvd X X (fun _ => 1) 1 := by
    refine ⟨by simp, ?_, by simp, fun _ => one_pos⟩
    ext i j
    rw [Subsingleton.elim i 0, Subsingleton.elim j 0]
    simp [X, mul_apply]
  obtain ⟨L, hL⟩ := hc.total _ (posDef_gram (svd_inv hX).1)
  refine ⟨ch, X, X, _, 1, L, hc, hX, hL, ?_⟩
  rw [← (C155_svd hX).2, hDiag]
  simp [X]

end Verif.Like.OldOls
