import Verif.Fa.OldScores
import Verif.Fa.OldConcProps
import Verif.Cov.PsdProps
import Mathlib.Data.Fin.Tuple.Sort
/-! # C189: factor scores in `pyfa/efa.py` and `pyfa/factor_analysis.py` -/
namespace Verif.Fa.Old
open Matrix

variable {p m : ℕ}

theorem spec_apply {n : ℕ} (V : Mat n n) (w : Fin n → ℝ) : (of fun a i => V a i * w i : Mat n n) = V * diagonal w := by
  ext a i; rw [Matrix.mul_diagonal, of_apply]

/-- What the proofs use of `eigh`: valid decompositions of symmetric matrices. -/
def EighFn (eigh : Eigh) : Prop := ∀ {n : ℕ} (A : Mat n n), Aᵀ = A → EighOk A (eigh n A).1 (eigh n A).2

/-- All eigenvalues are above the cutoff. -/
def Above (eigh : Eigh) {n : ℕ} (A : Mat n n) : Prop := ∀ i, (eigh n A).1 i > 1e-12

theorem roots {eigh : Eigh} (he : EighFn eigh) {n : ℕ} {A : Mat n n} (hA : Aᵀ = A) (ha : Above eigh A) :
    (matSqrt eigh A)ᵀ = matSqrt eigh A ∧ (invSqrt eigh A)ᵀ = invSqrt eigh A ∧ matSqrt eigh A * matSqrt eigh A = A ∧
      invSqrt eigh A * A * invSqrt eigh A = 1 ∧ invSqrt eigh A * invSqrt eigh A * A = 1 := by
  have h := he A hA
  have hpos : ∀ i, 0 < (eigh n A).1 i := fun i => lt_trans (by norm_num) (ha i)
  have hm : ∀ x y : Fin n → ℝ, (eigh n A).2 * diagonal x * (eigh n A).2ᵀ * ((eigh n A).2 * diagonal y * (eigh n A).2ᵀ) =
      (eigh n A).2 * diagonal (fun j => x j * y j) * (eigh n A).2ᵀ := fun x y => by
    rw [show (eigh n A).2 * diagonal x * (eigh n A).2ᵀ * ((eigh n A).2 * diagonal y * (eigh n A).2ᵀ) =
      (eigh n A).2 * (diagonal x * ((eigh n A).2ᵀ * (eigh n A).2) * diagonal y) * (eigh n A).2ᵀ by simp only [Matrix.mul_assoc],
      h.orth, Matrix.mul_one, diagonal_mul_diagonal]
  have ht : ∀ x : Fin n → ℝ, ((eigh n A).2 * diagonal x * (eigh n A).2ᵀ)ᵀ = (eigh n A).2 * diagonal x * (eigh n A).2ᵀ := fun x => by
    rw [transpose_mul, transpose_mul, transpose_transpose, diagonal_transpose, Matrix.mul_assoc]
  have e1 : matSqrt eigh A = (eigh n A).2 * diagonal (fun i => Real.sqrt ((eigh n A).1 i)) * (eigh n A).2ᵀ := by
    simp only [matSqrt, spec_apply, if_pos (ha _)]
  have e2 : invSqrt eigh A = (eigh n A).2 * diagonal (fun i => 1 / Real.sqrt ((eigh n A).1 i)) * (eigh n A).2ᵀ := by
    have e : (1.0 : ℝ) = 1 := by norm_num
    simp only [invSqrt, spec_apply, if_pos (ha _), e]
  have e3 : A = (eigh n A).2 * diagonal (eigh n A).1 * (eigh n A).2ᵀ := eig_decomp h
  have hVV : (eigh n A).2 * (eigh n A).2ᵀ = 1 := mul_eq_one_comm.1 h.orth
  refine ⟨by rw [e1, ht], by rw [e2, ht], ?_, ?_, ?_⟩
  · rw [e1, hm]
    conv_rhs => rw [e3]
    congr 3; funext i; exact Real.mul_self_sqrt (hpos i).le
  · have e4 : invSqrt eigh A * A = (eigh n A).2 * diagonal (fun j => 1 / Real.sqrt ((eigh n A).1 j) * (eigh n A).1 j) * (eigh n A).2ᵀ := by
      rw [e2, ← hm, ← e3]
    rw [e4, e2, hm]
    have : (fun j => 1 / Real.sqrt ((eigh n A).1 j) * (eigh n A).1 j * (1 / Real.sqrt ((eigh n A).1 j))) = fun _ => (1 : ℝ) := funext fun j => by
      have h1 := Real.mul_self_sqrt (hpos j).le
      have h2 := (Real.sqrt_pos.2 (hpos j)).ne'
      field_simp
      rw [sq, h1]
    rw [this, diagonal_one, Matrix.mul_one, hVV]
  · have e4 : invSqrt eigh A * invSqrt eigh A * A = (eigh n A).2 * diagonal (fun j => 1 / Real.sqrt ((eigh n A).1 j) * (1 / Real.sqrt ((eigh n A).1 j)) * (eigh n A).1 j) * (eigh n A).2ᵀ := by
      rw [← hm, ← hm, ← e2, ← e3]
    rw [e4]
    have : (fun j => 1 / Real.sqrt ((eigh n A).1 j) * (1 / Real.sqrt ((eigh n A).1 j)) * (eigh n A).1 j) = fun _ => (1 : ℝ) := funext fun j => by
      have h1 := Real.mul_self_sqrt (hpos j).le
      have h2 := (Real.sqrt_pos.2 (hpos j)).ne'
      field_simp
      rw [sq, h1]
    rw [this, diagonal_one, Matrix.mul_one, hVV]

/-- C189: `thurstone` solves the normal equations, and for a positive semidefinite `S` each column minimises the mean squared
error of the prediction of its factor. -/
theorem C189_thurstone (S : Mat p p) (hS : Sᵀ = S) (L : Mat p m) (Phi : Mat m m) (B : Mat p m) (h : coefThurstone S L Phi = some B) :
    S * B = L * Phi ∧ ((∀ x, 0 ≤ x ⬝ᵥ (S *ᵥ x)) → ∀ (j : Fin m) (b : Fin p → ℝ),
      (fun a => B a j) ⬝ᵥ (S *ᵥ fun a => B a j) - 2 * ((fun a => B a j) ⬝ᵥ fun a => (L * Phi) a j) ≤
        b ⬝ᵥ (S *ᵥ b) - 2 * (b ⬝ᵥ fun a => (L * Phi) a j)) := by
  have h1 : S * B = L * Phi := by
    rw [coefThurstone] at h
    obtain ⟨Si, hi, rfl⟩ := Option.map_eq_some_iff.1 h
    obtain ⟨hu, rfl⟩ := inv?_eq hi
    rw [← Matrix.mul_assoc, mul_nonsing_inv _ hu, Matrix.one_mul]
  refine ⟨h1, fun hp j b => ?_⟩
  have h2 : (S *ᵥ fun a => B a j) = fun a => (L * Phi) a j := by
    funext a; rw [← h1]; rfl
  set c : Fin p → ℝ := fun a => B a j with hc
  rw [← h2]
  have h3 := hp (b - c)
  have h4 : c ⬝ᵥ (S *ᵥ b) = b ⬝ᵥ (S *ᵥ c) := by
    rw [dotProduct_mulVec, ← mulVec_transpose, hS, dotProduct_comm]
  rw [mulVec_sub, sub_dotProduct, dotProduct_sub, dotProduct_sub, h4] at h3
  linarith

/-- C189: `bartlett` is conditionally unbiased, and has the least error variances among all such coefficients. -/
theorem C189_bartlett (L : Mat p m) (psi : Fin p → ℝ) (hp : ∀ i, 0 < psi i) (B : Mat p m) (h : coefBartlett L (diagonal psi) = some B) :
    Bᵀ * L = 1 ∧ ∀ B' : Mat p m, B'ᵀ * L = 1 → ∀ j, (Bᵀ * diagonal psi * B) j j ≤ (B'ᵀ * diagonal psi * B') j j := by
  have e0 : (diagonal fun i => 1.0 / (diagonal psi : Mat p p) i i : Mat p p) = diagonal fun i => (psi i)⁻¹ := by
    congr 1; funext i; rw [diagonal_apply_eq]; norm_num
  rw [coefBartlett, e0] at h
  obtain ⟨Gi, hi, rfl⟩ := Option.map_eq_some_iff.1 h
  obtain ⟨hu, rfl⟩ := inv?_eq hi
  set D : Mat p p := diagonal fun i => (psi i)⁻¹ with hD
  set G : Mat m m := Lᵀ * D * L with hG
  have hDt : Dᵀ = D := diagonal_transpose _
  have hGt : Gᵀ = G := by rw [hG, transpose_mul, transpose_mul, transpose_transpose, hDt, Matrix.mul_assoc]
  have hGi : (G⁻¹)ᵀ = G⁻¹ := by rw [transpose_nonsing_inv, hGt]
  have hDp : D * diagonal psi = 1 := by
    rw [hD, diagonal_mul_diagonal, ← diagonal_one]; congr 1; funext i; exact inv_mul_cancel₀ (hp i).ne'
  have hb : (G⁻¹ * (Lᵀ * D))ᵀ = D * L * G⁻¹ := by
    rw [transpose_mul, transpose_mul, transpose_transpose, hDt, hGi]
  rw [hb]
  have hu1 : (D * L * G⁻¹)ᵀ * L = 1 := by
    rw [transpose_mul, transpose_mul, hDt, hGi, Matrix.mul_assoc, ← hG, nonsing_inv_mul _ hu]
  refine ⟨hu1, fun B' hB' j => ?_⟩
  -- the difference is orthogonal
  set E := B' - D * L * G⁻¹ with hE
  have hEL : Eᵀ * L = 0 := by rw [hE, transpose_sub, Matrix.sub_mul, hB', hu1, sub_self]
  have hB2 : B' = D * L * G⁻¹ + E := by rw [hE]; abel
  have hcross : Eᵀ * diagonal psi * (D * L * G⁻¹) = 0 := by
    have : diagonal psi * D = 1 := mul_eq_one_comm.1 hDp
    rw [show Eᵀ * diagonal psi * (D * L * G⁻¹) = Eᵀ * (diagonal psi * D) * L * G⁻¹ by simp only [Matrix.mul_assoc], this, Matrix.mul_one, hEL,
      Matrix.zero_mul]
  have hcross' : (D * L * G⁻¹)ᵀ * diagonal psi * E = 0 := by
    have := congrArg transpose hcross
    rwa [transpose_mul, transpose_mul Eᵀ, transpose_transpose, diagonal_transpose, transpose_zero, ← Matrix.mul_assoc] at this
  have key : B'ᵀ * diagonal psi * B' = (D * L * G⁻¹)ᵀ * diagonal psi * (D * L * G⁻¹) + Eᵀ * diagonal psi * E := by
    rw [hB2, transpose_add, Matrix.add_mul, Matrix.add_mul, Matrix.mul_add, Matrix.mul_add, hcross, hcross']; abel
  rw [key, Matrix.add_apply]
  have : 0 ≤ (Eᵀ * diagonal psi * E) j j := by
    rw [Matrix.mul_apply]
    refine Finset.sum_nonneg fun a _ => ?_
    rw [Matrix.mul_diagonal, transpose_apply]
    have := mul_nonneg (mul_self_nonneg (E a j)) (hp a).le
    linarith
  linarith

/-- Coefficients built from orthonormal columns keep the correlations of the factors. -/
theorem keep_corr {eigh : Eigh} (he : EighFn eigh) {S : Mat p p} (hS : Sᵀ = S) (hs : Above eigh S) {Phi : Mat m m} (hP : Phiᵀ = Phi)
    (hp : Above eigh Phi) (C : Mat p m) (hC : Cᵀ * C = 1) :
    (invSqrt eigh S * C * matSqrt eigh Phi)ᵀ * S * (invSqrt eigh S * C * matSqrt eigh Phi) = Phi := by
  obtain ⟨-, h2, -, h4, -⟩ := roots he hS hs
  obtain ⟨k1, -, k3, -, -⟩ := roots he hP hp
  rw [transpose_mul, transpose_mul, h2, k1,
    show matSqrt eigh Phi * (Cᵀ * invSqrt eigh S) * S * (invSqrt eigh S * C * matSqrt eigh Phi) =
      matSqrt eigh Phi * (Cᵀ * (invSqrt eigh S * S * invSqrt eigh S) * C) * matSqrt eigh Phi by simp only [Matrix.mul_assoc],
    h4, Matrix.mul_one, hC, Matrix.mul_one, k3]

/-- C189: `mcdonald` keeps the correlations of the factors. -/
theorem C189_mcdonald {eigh : Eigh} (he : EighFn eigh) (svd : Mat p m → Mat p m × (Fin m → ℝ) × Mat m m) (S : Mat p p) (hS : Sᵀ = S)
    (hs : Above eigh S) (L : Mat p m) (Phi : Mat m m) (hP : Phiᵀ = Phi) (hp : Above eigh Phi) (Psi : Mat p p)
    (hv : ThinOk (tempMcdonald eigh S L Phi Psi) (svd (tempMcdonald eigh S L Phi Psi)).1 (svd (tempMcdonald eigh S L Phi Psi)).2.1
      (svd (tempMcdonald eigh S L Phi Psi)).2.2) :
    (coefMcdonald eigh svd S L Phi Psi)ᵀ * S * coefMcdonald eigh svd S L Phi Psi = Phi := by
  refine keep_corr he hS hs hP hp _ ?_
  rw [transpose_mul, Matrix.mul_assoc, ← Matrix.mul_assoc (svd (tempMcdonald eigh S L Phi Psi)).1ᵀ, hv.g, Matrix.one_mul, mul_eq_one_comm.1 hv.o]

theorem polar {eigh : Eigh} (he : EighFn eigh) (R : Mat p m) (hr : Above eigh (Rᵀ * R)) :
    (R * invSqrt eigh (Rᵀ * R))ᵀ * (R * invSqrt eigh (Rᵀ * R)) = 1 := by
  obtain ⟨-, h2, -, h4, -⟩ := roots he (by rw [transpose_mul, transpose_transpose] : (Rᵀ * R)ᵀ = Rᵀ * R) hr
  rw [transpose_mul, h2, Matrix.mul_assoc, ← Matrix.mul_assoc Rᵀ, ← Matrix.mul_assoc, h4]

/-- C189: `tenBerge` keeps the correlations of the factors. -/
theorem C189_tenBerge {eigh : Eigh} (he : EighFn eigh) (S : Mat p p) (hS : Sᵀ = S) (hs : Above eigh S) (L : Mat p m) (Phi : Mat m m)
    (hP : Phiᵀ = Phi) (hp : Above eigh Phi) (hr : Above eigh ((rBerge eigh S L Phi)ᵀ * rBerge eigh S L Phi)) :
    (coefBerge eigh S L Phi)ᵀ * S * coefBerge eigh S L Phi = Phi :=
  keep_corr he hS hs hP hp _ (polar he _ hr)

/-- Squares of the elements of a matrix with orthonormal columns times a unit vector. -/
theorem cauchy_col (C G : Mat p m) (hC : Cᵀ * C = 1) (hG : Gᵀ * G = 1) (i : Fin m) : ∑ a, C a i * G a i ≤ 1 := by
  have h1 := congrFun (congrFun hC i) i
  have h2 := congrFun (congrFun hG i) i
  rw [Matrix.mul_apply, Matrix.one_apply_eq] at h1 h2
  simp only [transpose_apply] at h1 h2
  have : 0 ≤ ∑ a, (C a i - G a i) ^ 2 := Finset.sum_nonneg fun a _ => sq_nonneg _
  have e : ∑ a, (C a i - G a i) ^ 2 = ∑ a, C a i * C a i + ∑ a, G a i * G a i - 2 * ∑ a, C a i * G a i := by
    rw [Finset.mul_sum, ← Finset.sum_add_distrib, ← Finset.sum_sub_distrib]
    exact Finset.sum_congr rfl fun a _ => by ring
  linarith

/-- C189: among all coefficients that keep the correlations, `tenBerge` comes closest to the factors: it maximises
`tr(Phi^(-1/2) Bᵀ L Phi^(1/2))`, the sum of the correlations of the standardised scores with the standardised factors. -/
theorem C189_tenBerge_optimal {eigh : Eigh} (he : EighFn eigh) (S : Mat p p) (L : Mat p m) (Phi : Mat m m)
    (hr : Above eigh ((rBerge eigh S L Phi)ᵀ * rBerge eigh S L Phi)) (C : Mat p m) (hC : Cᵀ * C = 1) :
    let R := rBerge eigh S L Phi
    (Cᵀ * R).trace ≤ ((R * invSqrt eigh (Rᵀ * R))ᵀ * R).trace := by
  intro R
  have hsym : (Rᵀ * R)ᵀ = Rᵀ * R := by rw [transpose_mul, transpose_transpose]
  have h := he (Rᵀ * R) hsym
  obtain ⟨k1, h2, k3, h4, h5⟩ := roots he hsym hr
  set Q := R * invSqrt eigh (Rᵀ * R) with hQ
  have hQQ : Qᵀ * Q = 1 := polar he R hr
  -- R = Q * sqrt(RᵀR)
  have hpos : ∀ i, 0 < (eigh m (Rᵀ * R)).1 i := fun i => lt_trans (by norm_num) (hr i)
  set V := (eigh m (Rᵀ * R)).2 with hV
  set w : Fin m → ℝ := fun i => Real.sqrt ((eigh m (Rᵀ * R)).1 i) with hw
  have e1 : matSqrt eigh (Rᵀ * R) = V * diagonal w * Vᵀ := by
    simp only [matSqrt, spec_apply]; congr 3; funext i; exact if_pos (hr i)
  have e2 : invSqrt eigh (Rᵀ * R) = V * diagonal (fun i => 1 / w i) * Vᵀ := by
    have e : (1.0 : ℝ) = 1 := by norm_num
    simp only [invSqrt, spec_apply, e]; congr 3; funext i; exact if_pos (hr i)
  have hVV : V * Vᵀ = 1 := mul_eq_one_comm.1 h.orth
  have e3 : invSqrt eigh (Rᵀ * R) * matSqrt eigh (Rᵀ * R) = 1 := by
    rw [e1, e2, show V * diagonal (fun i => 1 / w i) * Vᵀ * (V * diagonal w * Vᵀ) = V * (diagonal (fun i => 1 / w i) * (Vᵀ * V) * diagonal w) * Vᵀ by
      simp only [Matrix.mul_assoc], h.orth, Matrix.mul_one, diagonal_mul_diagonal]
    have : (fun i => 1 / w i * w i) = fun _ => (1 : ℝ) := funext fun i => one_div_mul_cancel (Real.sqrt_pos.2 (hpos i)).ne'
    rw [this, diagonal_one, Matrix.mul_one, hVV]
  have hR : R = Q * matSqrt eigh (Rᵀ * R) := by rw [hQ, Matrix.mul_assoc, e3, Matrix.mul_one]
  have htr : ∀ X : Mat p m, (Xᵀ * R).trace = ∑ i, (∑ a, (X * V) a i * (Q * V) a i) * w i := fun X => by
    conv_lhs => rw [hR]
    rw [e1, show Xᵀ * (Q * (V * diagonal w * Vᵀ)) = (Xᵀ * (Q * V) * diagonal w) * Vᵀ by simp only [Matrix.mul_assoc], trace_mul_comm,
      show Vᵀ * (Xᵀ * (Q * V) * diagonal w) = ((X * V)ᵀ * (Q * V)) * diagonal w by rw [transpose_mul]; simp only [Matrix.mul_assoc]]
    simp only [Matrix.trace, Matrix.diag_apply, Matrix.mul_diagonal]
    exact Finset.sum_congr rfl fun i _ => by rw [Matrix.mul_apply]; rfl
  have horth : ∀ X : Mat p m, Xᵀ * X = 1 → (X * V)ᵀ * (X * V) = 1 := fun X hX => by
    rw [transpose_mul, Matrix.mul_assoc, ← Matrix.mul_assoc Xᵀ, hX, Matrix.one_mul, h.orth]
  rw [htr C, htr Q]
  refine Finset.sum_le_sum fun i _ => mul_le_mul_of_nonneg_right ?_ (Real.sqrt_nonneg _)
  have h6 := congrFun (congrFun (horth Q hQQ) i) i
  rw [Matrix.mul_apply, Matrix.one_apply_eq] at h6
  simp only [transpose_apply] at h6
  rw [h6]
  exact cauchy_col _ _ (horth C hC) (horth Q hQQ) i

/-- C189: the scores have mean zero, and their cross products are those of `S` seen through the coefficients. -/
theorem C189_scores {n : ℕ} (hn : n ≠ 0) (X : Matrix (Fin n) (Fin p) ℝ) (B : Mat p m) (c : ℝ) (S : Mat p p)
    (hS : ∀ a b, S a b = (∑ i, (X i a - (∑ k, X k a) / n) * (X i b - (∑ k, X k b) / n)) / c) :
    (∀ j, ∑ i, scores X B i j = 0) ∧ (1 / c) • ((scores X B)ᵀ * scores X B) = Bᵀ * S * B := by
  set Xc : Matrix (Fin n) (Fin p) ℝ := of fun i j => X i j - (∑ k, X k j) / n with hX
  have hs : scores X B = Xc * B := rfl
  have hS' : S = (1 / c) • (Xcᵀ * Xc) := by
    ext a b
    rw [hS, Matrix.smul_apply, Matrix.mul_apply, smul_eq_mul]
    simp only [hX, transpose_apply, of_apply]
    ring
  constructor
  · intro j
    have h0 : ∀ a, ∑ i, Xc i a = 0 := fun a => by
      simp only [hX, of_apply, Finset.sum_sub_distrib, Finset.sum_const, Finset.card_univ, Fintype.card_fin, nsmul_eq_mul]
      have : (n : ℝ) ≠ 0 := by exact_mod_cast hn
      field_simp; ring
    simp only [hs, Matrix.mul_apply]
    rw [Finset.sum_comm]
    exact Finset.sum_eq_zero fun a _ => by rw [← Finset.sum_mul, h0, zero_mul]
  · rw [hs, hS', transpose_mul, Matrix.mul_smul, Matrix.smul_mul]
    simp only [Matrix.mul_assoc]

/-! ## `factor_analysis.py` -/

/-- C189: `compute_factors` takes the matrix of correlations where `estimate_factors` takes the one analysed; the two agree
when the variables are standardised. -/
theorem C189_compute_partial {eigh : Eigh} (he : EighFn eigh) (S : Mat p p) (hS : Sᵀ = S) (hs : Above eigh S) (L : Mat p m) (Phi : Mat m m)
    (h1 : ∀ i, S i i = 1) (hu : IsUnit S.det) :
    faThurstone (corrOf S) L Phi = coefThurstone S L Phi ∧ faBerge eigh (corrOf S) L Phi = some (coefBerge eigh S L Phi) := by
  have hc : corrOf S = S := by ext i j; simp [corrOf, h1]
  rw [hc]
  refine ⟨rfl, ?_⟩
  obtain ⟨-, h2, -, h4, h5⟩ := roots he hS hs
  have hSi : S⁻¹ = invSqrt eigh S * invSqrt eigh S := Matrix.inv_eq_left_inv h5
  simp only [faBerge, inv?_unit hu, Option.map_some, coefBerge, rBerge]
  have e : (L * matSqrt eigh Phi)ᵀ * (S⁻¹ * (L * matSqrt eigh Phi)) =
      (invSqrt eigh S * (L * matSqrt eigh Phi))ᵀ * (invSqrt eigh S * (L * matSqrt eigh Phi)) := by
    rw [hSi, transpose_mul (invSqrt eigh S), h2]
    simp only [Matrix.mul_assoc]
  rw [e]

theorem one_eig {eigh : Eigh} (he : EighFn eigh) (c : ℝ) : (eigh 1 (of fun _ _ => c : Mat 1 1)).1 0 = c := by
  have h := he (of fun _ _ => c : Mat 1 1) (by ext i j; rfl)
  have := h.quad fun _ => 1
  have h2 := h.len fun _ => 1
  simp [dotProduct, mulVec] at this h2
  rw [← h2] at this
  linarith

/-- C189: otherwise the scores do not have the correlations of the factors: one variable with variance 4. -/
theorem C189_compute_violated {eigh : Eigh} (he : EighFn eigh) : ∃ (S : Mat 1 1) (L : Mat 1 1) (Phi : Mat 1 1) (B : Mat 1 1), Sᵀ = S ∧
    (∀ x, 0 ≤ x ⬝ᵥ (S *ᵥ x)) ∧ Phi = 1 ∧ faBerge eigh (corrOf S) L Phi = some B ∧ Bᵀ * S * B ≠ Phi ∧
    ∃ B', faThurstone (corrOf S) L Phi = some B' ∧ S * B' ≠ L * Phi := by
  have h1 : ∀ c : ℝ, (of fun _ _ => c : Mat 1 1)ᵀ = of fun _ _ => c := fun c => rfl
  have hone : (1 : Mat 1 1) = of fun _ _ => (1 : ℝ) := by ext i j; have := Subsingleton.elim i j; subst this; simp
  have hcorr : corrOf (of fun _ _ => (4 : ℝ) : Mat 1 1) = 1 := by
    rw [hone]; ext i j; simp only [corrOf, of_apply, Real.mul_self_sqrt (by norm_num : (0:ℝ) ≤ 4)]; norm_num
  have hab : Above eigh (1 : Mat 1 1) := fun i => by
    have := Subsingleton.elim i 0; subst this
    rw [hone, one_eig he]; norm_num
  obtain ⟨-, -, k3, -, k5⟩ := roots he (transpose_one : (1 : Mat 1 1)ᵀ = 1) hab
  have hi : inv? (1 : Mat 1 1) = some 1⁻¹ := inv?_unit (by rw [det_one]; exact isUnit_one)
  have k6 : (invSqrt eigh 1 : Mat 1 1) * invSqrt eigh 1 = 1 := by rw [Matrix.mul_one] at k5; exact k5
  have k7 : (invSqrt eigh 1 : Mat 1 1) 0 0 ^ 2 = 1 := by
    have := congrFun (congrFun k6 0) 0
    rw [Matrix.mul_apply, Fin.sum_univ_one, Matrix.one_apply_eq] at this; rw [sq, this]
  have k8 : (matSqrt eigh 1 : Mat 1 1) 0 0 ^ 2 = 1 := by
    have := congrFun (congrFun k3 0) 0
    rw [Matrix.mul_apply, Fin.sum_univ_one, Matrix.one_apply_eq] at this; rw [sq, this]
  have hP : (1 * matSqrt eigh 1 : Mat 1 1)ᵀ * (1⁻¹ * (1 * matSqrt eigh 1)) = 1 := by
    rw [inv_one, Matrix.one_mul, Matrix.one_mul, (roots he transpose_one hab).1, k3]
  refine ⟨of fun _ _ => 4, 1, 1, _, h1 4, fun x => ?_, rfl, by rw [hcorr]; simp only [faBerge, hi, Option.map_some]; rfl, fun h => ?_, 1, ?_, fun h => ?_⟩
  · simp [dotProduct, mulVec]; nlinarith [sq_nonneg (x 0)]
  · rw [hP] at h
    have h2 := congrFun (congrFun h 0) 0
    simp only [Matrix.mul_apply, Fin.sum_univ_one, transpose_apply, of_apply, Matrix.one_apply_eq, Matrix.one_mul] at h2
    generalize invSqrt eigh (1 : Mat 1 1) 0 0 = a at h2 k7
    generalize matSqrt eigh (1 : Mat 1 1) 0 0 = b at h2 k8
    have h3 : a * (a * b * a) * b * 4 * (a * (a * b * a) * b) = 4 * (a ^ 2) ^ 3 * (b ^ 2) ^ 2 := by ring
    rw [h3, k7, k8] at h2
    norm_num at h2
  · rw [hcorr]; simp [faThurstone, hi]
  · have h2 := congrFun (congrFun h 0) 0
    simp [Matrix.mul_apply] at h2

/-- A valid `eigh` exists. -/
example : ∃ eigh : Eigh, EighFn eigh := by
  have h : ∀ (n : ℕ) (A : Mat n n), ∃ q : (Fin n → ℝ) × Mat n n, Aᵀ = A → EighOk A q.1 q.2 := fun n A => by
    obtain ⟨e, he⟩ := Verif.Cov.eigh_exists n
    refine ⟨((e A).1 ∘ Tuple.sort (e A).1, (e A).2.submatrix id (Tuple.sort (e A).1)), fun hA => ⟨?_, ?_, Tuple.monotone_sort _⟩⟩
    · obtain ⟨h1, -⟩ := he A hA
      have h2 : ((e A).2.submatrix id (Tuple.sort (e A).1))ᵀ * (e A).2.submatrix id (Tuple.sort (e A).1) =
          ((e A).2ᵀ * (e A).2).submatrix (Tuple.sort (e A).1) (Tuple.sort (e A).1) := rfl
      show ((e A).2.submatrix id (Tuple.sort (e A).1))ᵀ * (e A).2.submatrix id (Tuple.sort (e A).1) = 1
      rw [h2, h1, submatrix_one_equiv]
    · obtain ⟨h1, h2⟩ := he A hA
      have h3 : A * (e A).2 = (e A).2 * diagonal (e A).1 := by
        have h4 := congrArg (· * (e A).2) h2
        beta_reduce at h4
        rw [h4, Matrix.mul_assoc, h1, Matrix.mul_one]
      ext a i
      have := congrFun (congrFun h3 a) (Tuple.sort (e A).1 i)
      rw [Matrix.mul_diagonal] at this ⊢
      exact this
  choose q hq using h
  exact ⟨q, fun {n} A => hq n A⟩

end Verif.Fa.Old
