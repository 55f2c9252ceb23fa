import Verif.Sim.Factor
import Mathlib.Analysis.Matrix.PosDef
import Mathlib.Algebra.Order.Star.Real
import Mathlib.LinearAlgebra.Matrix.NonsingularInverse
import Mathlib.LinearAlgebra.Matrix.Block
import Mathlib.Tactic.FinCases
import Mathlib.Tactic.NormNum
import Mathlib.Tactic.FieldSimp
import Mathlib.Tactic.LinearCombination
/-!
# C218, C219: alignment and simulation of factor models
-/
namespace Verif.Sim
open Matrix Finset

variable {m k : ℕ}

/-! ## Alignment -/

/-- **C218, partial.** If the columns found are different and no sign is zero, alignment leaves the
model covariance unchanged. -/
theorem C218_cov_partial (L : Matrix (Fin m) (Fin k) ℝ) (Phi : Matrix (Fin k) (Fin k) ℝ)
    (j : Fin k → Fin k) (s : Fin k → ℝ) (hj : Function.Bijective j) (hs : ∀ r, s r * s r = 1) :
    alignL L j s * alignPhi Phi j s * (alignL L j s)ᵀ = L * Phi * Lᵀ := by
  funext a b
  have e : ∀ (c : Fin k), ∑ x, alignL L j s a x * alignPhi Phi j s x c =
      (∑ x, L a (j x) * Phi (j x) (j c)) * s c := by
    intro c
    rw [Finset.sum_mul]
    refine Finset.sum_congr rfl fun x _ => ?_
    simp only [alignL, alignPhi]
    linear_combination (L a (j x) * s c * Phi (j x) (j c)) * hs x
  simp only [Matrix.mul_apply, Matrix.transpose_apply, e]
  have e2 : ∀ c, (∑ x, L a (j x) * Phi (j x) (j c)) * s c * alignL L j s b c =
      (∑ x, L a x * Phi x (j c)) * L b (j c) := by
    intro c
    have h : (∑ x, L a (j x) * Phi (j x) (j c)) = ∑ x, L a x * Phi x (j c) :=
      hj.sum_comp (fun x => L a x * Phi x (j c))
    rw [h]
    simp only [alignL]
    linear_combination ((∑ x, L a x * Phi x (j c)) * L b (j c)) * hs c
  rw [Finset.sum_congr rfl fun c _ => e2 c]
  exact hj.sum_comp (fun c => (∑ x, L a x * Phi x c) * L b c)

/-- **C218, violated.** The columns found need not be different: the row-wise largest entries can lie
in one column, and the aligned model is another model. -/
theorem C218_cov_violated :
    ∃ (T L B Phi : Matrix (Fin 2) (Fin 2) ℝ) (j : Fin 2 → Fin 2), IsUnit (Tᵀ * T).det ∧ IsUnit L.det ∧
      IsLstsq T L B ∧ IsArgmax B j ∧
      alignL L j (permSigns B j) * alignPhi Phi j (permSigns B j) * (alignL L j (permSigns B j))ᵀ ≠
        L * Phi * Lᵀ := by
  refine ⟨1, !![2, 1; 2, 0], !![2, 1; 2, 0], 1, fun _ => 0, by simp, ?_, by simp [IsLstsq], ?_, ?_⟩
  · simp [Matrix.det_fin_two]
  · intro r
    refine ⟨fun c => ?_, fun c hc => absurd hc (by simp)⟩
    fin_cases r <;> fin_cases c <;> norm_num
  · intro h
    have := congrFun (congrFun h 0) 0
    have s0 : ∀ r, permSigns !![2, 1; 2, 0] (fun _ => 0) r = (1 : ℝ) := by
      intro r
      unfold permSigns
      fin_cases r <;> simp
    simp [Matrix.mul_apply, Fin.sum_univ_two, alignL, alignPhi, s0] at this
    norm_num at this

/-- **C218.** The columns are determined by the matrix. -/
theorem C218_columns (B : Matrix (Fin k) (Fin k) ℝ) : ∃! j, IsArgmax B j := by
  have ex : ∀ r, ∃ c0, (∀ c, |B r c| ≤ |B r c0|) ∧ ∀ c, c < c0 → |B r c| < |B r c0| := by
    intro r
    obtain ⟨a, -, ha⟩ := Finset.exists_max_image Finset.univ (fun c => |B r c|) ⟨r, Finset.mem_univ r⟩
    let S := Finset.univ.filter fun c => |B r a| ≤ |B r c|
    have hS : S.Nonempty := ⟨a, by simp [S]⟩
    have hm := Finset.min'_mem S hS
    simp only [S, Finset.mem_filter, Finset.mem_univ, true_and] at hm
    refine ⟨S.min' hS, fun c => (ha c (Finset.mem_univ c)).trans hm, fun c hc => ?_⟩
    refine lt_of_lt_of_le ?_ hm
    by_contra h
    exact absurd (Finset.min'_le S c (by simp only [S, Finset.mem_filter, Finset.mem_univ, true_and]; exact not_lt.1 h)) (not_le.2 hc)
  choose j hj using ex
  refine ⟨j, hj, fun j' hj' => ?_⟩
  funext r
  rcases lt_trichotomy (j' r) (j r) with h | h | h
  · exact absurd ((hj r).2 _ h) (not_lt.2 ((hj' r).1 _))
  · exact h
  · exact absurd ((hj' r).2 _ h) (not_lt.2 ((hj r).1 _))

/-- A signed permutation of the columns. -/
def signedPerm (π : Equiv.Perm (Fin k)) (σ : Fin k → ℝ) : Matrix (Fin k) (Fin k) ℝ :=
  fun r c => if c = π r then σ r else 0

/-- **C218, partial.** The alignment undoes any signed permutation of the columns of the target. -/
theorem C218_recover_partial (T L : Matrix (Fin m) (Fin k) ℝ) (B : Matrix (Fin k) (Fin k) ℝ)
    (j : Fin k → Fin k) (π : Equiv.Perm (Fin k)) (σ : Fin k → ℝ) (hσ : ∀ r, σ r = 1 ∨ σ r = -1)
    (hT : IsUnit (Tᵀ * T).det) (hL : L = T * signedPerm π σ) (hB : IsLstsq T L B) (hj : IsArgmax B j) :
    j = π ∧ permSigns B j = σ ∧ alignL L j (permSigns B j) = T := by
  have hBe : B = signedPerm π σ := by
    have h1 : Tᵀ * T * B = Tᵀ * T * signedPerm π σ := by
      rw [hB, hL, Matrix.mul_assoc]
    calc B = (Tᵀ * T)⁻¹ * (Tᵀ * T * B) := by
          rw [← Matrix.mul_assoc, Matrix.nonsing_inv_mul _ hT, Matrix.one_mul]
      _ = signedPerm π σ := by
          rw [h1, ← Matrix.mul_assoc, Matrix.nonsing_inv_mul _ hT, Matrix.one_mul]
  have hj' : j = π := by
    funext r
    by_contra h
    have h1 := (hj r).1 (π r)
    rw [hBe] at h1
    simp only [signedPerm, if_true, if_neg h, abs_zero] at h1
    rcases hσ r with e | e <;> rw [e] at h1 <;> norm_num at h1
  have hs : permSigns B j = σ := by
    funext r
    rw [hBe, hj']
    simp only [permSigns, signedPerm, if_true]
    rcases hσ r with e | e <;> rw [e] <;> simp
  refine ⟨hj', hs, ?_⟩
  rw [hs, hj', hL]
  funext i r
  simp only [alignL, Matrix.mul_apply, signedPerm]
  have : ∀ x, T i x * (if π r = π x then σ x else 0) = if x = r then T i x * σ x else 0 := by
    intro x
    by_cases h : x = r
    · rw [if_pos h, h, if_pos rfl]
    · rw [if_neg h, if_neg fun e => h (π.injective e).symm, mul_zero]
  rw [Finset.sum_congr rfl fun x _ => this x, Finset.sum_ite_eq', if_pos (Finset.mem_univ _)]
  rcases hσ r with e | e <;> rw [e] <;> ring

/-- **C218.** The standard errors go with the entries, whatever the columns and signs: an aligned entry
has the absolute value of the one whose standard error it gets. -/
theorem C218_se (L : Matrix (Fin m) (Fin k) ℝ) (Phi : Matrix (Fin k) (Fin k) ℝ) (j : Fin k → Fin k)
    (s : Fin k → ℝ) (hs : ∀ r, s r = 1 ∨ s r = -1) (i : Fin m) (a b : Fin k) :
    |alignL L j s i a| = alignLse (fun i c => |L i c|) j i a ∧
      |alignPhi Phi j s a b| = alignPhise (fun a b => |Phi a b|) j a b := by
  have h : ∀ r, |s r| = 1 := fun r => by rcases hs r with e | e <;> simp [e]
  simp [alignL, alignLse, alignPhi, alignPhise, abs_mul, h]

/-! ## Loadings -/

theorem splitStart_mono (p m j : ℕ) : splitStart p m j ≤ splitStart p m (j + 1) := by
  unfold splitStart
  have h : (j + 1) * (p / m) = j * (p / m) + p / m := by ring
  rw [h]
  generalize p / m = q
  generalize j * q = a
  generalize p % m = c
  omega

theorem splitStart_last (p m : ℕ) (hm : 0 < m) : splitStart p m m = p := by
  unfold splitStart
  rw [Nat.min_eq_right (Nat.mod_lt p hm).le]
  exact Nat.div_add_mod p m

/-- **C219.** Every variable loads on exactly one factor. -/
theorem C219_simple (p m i : ℕ) (hm : 0 < m) (hi : i < p) :
    ∃! j, j < m ∧ splitStart p m j ≤ i ∧ i < splitStart p m (j + 1) := by
  have hmono : Monotone (splitStart p m) := monotone_nat_of_le_succ (splitStart_mono p m)
  have hex : ∃ j, i < splitStart p m (j + 1) := by
    refine ⟨m - 1, ?_⟩
    rw [Nat.sub_add_cancel hm, splitStart_last p m hm]
    exact hi
  classical
  let j := Nat.find hex
  have h1 : i < splitStart p m (j + 1) := Nat.find_spec hex
  have h2 : splitStart p m j ≤ i := by
    rcases Nat.eq_zero_or_pos j with h | h
    · rw [h]; simp [splitStart]
    · have := Nat.find_min hex (m := j - 1) (by omega)
      rw [Nat.sub_add_cancel h] at this
      omega
  have h3 : j < m := by
    by_contra h
    have := hmono (show m ≤ j by omega)
    rw [splitStart_last p m hm] at this
    omega
  refine ⟨j, ⟨h3, h2, h1⟩, fun j' ⟨_, h4, h5⟩ => ?_⟩
  rcases Nat.lt_trichotomy j' j with h | h | h
  · have := hmono (show j' + 1 ≤ j by omega)
    omega
  · exact h
  · have := hmono (show j + 1 ≤ j' by omega)
    omega

theorem linspace_mem (low high : ℝ) (h : low ≤ high) (n t : ℕ) (ht : t < n) :
    low ≤ linspace high low n t ∧ linspace high low n t ≤ high := by
  unfold linspace
  split_ifs with hn
  · exact ⟨h, le_rfl⟩
  · have hn' : (0 : ℝ) < ((n - 1 : ℕ) : ℝ) := by exact_mod_cast (by omega : 0 < n - 1)
    have ht' : (t : ℝ) ≤ ((n - 1 : ℕ) : ℝ) := by exact_mod_cast (by omega : t ≤ n - 1)
    have ht0 : (0 : ℝ) ≤ t := Nat.cast_nonneg t
    rw [mul_div_assoc']
    constructor
    · rw [← sub_nonneg, show high + t * (low - high) / ((n - 1 : ℕ) : ℝ) - low =
        (high - low) * (((n - 1 : ℕ) : ℝ) - t) / ((n - 1 : ℕ) : ℝ) by field_simp; ring]
      exact div_nonneg (mul_nonneg (by linarith) (by linarith)) hn'.le
    · have : t * (low - high) / ((n - 1 : ℕ) : ℝ) ≤ 0 :=
        div_nonpos_of_nonpos_of_nonneg (by nlinarith) hn'.le
      linarith

/-- **C219.** Its loading lies between the limits, the others are zero. -/
theorem C219_loadings (p m : ℕ) (low high : ℝ) (h : low ≤ high) (i j : ℕ) :
    (splitStart p m j ≤ i ∧ i < splitStart p m (j + 1) →
      low ≤ genLoadings p m low high i j ∧ genLoadings p m low high i j ≤ high) ∧
    (¬ (splitStart p m j ≤ i ∧ i < splitStart p m (j + 1)) → genLoadings p m low high i j = 0) := by
  unfold genLoadings
  refine ⟨fun hc => ?_, fun hc => if_neg hc⟩
  rw [if_pos hc]
  exact linspace_mem low high h _ _ (by omega)

/-- **C219.** With at least as many variables as factors every factor has a variable. -/
theorem C219_nonempty (p m j : ℕ) (hm : 0 < m) (hp : m ≤ p) : splitStart p m j < splitStart p m (j + 1) := by
  unfold splitStart
  have h1 : 0 < p / m := Nat.div_pos hp hm
  have h : (j + 1) * (p / m) = j * (p / m) + p / m := by ring
  rw [h]
  generalize p / m = q at h1 ⊢
  generalize j * q = a
  generalize p % m = c
  omega

/-- **C219.** So the columns are orthogonal and not zero. -/
theorem C219_orthogonal (p m : ℕ) (low high : ℝ) (j j' : ℕ) (hj : j < m) (hj' : j' < m) (h : j ≠ j') :
    ∑ i ∈ range p, genLoadings p m low high i j * genLoadings p m low high i j' = 0 := by
  refine Finset.sum_eq_zero fun i hi => ?_
  obtain ⟨c, _, hc⟩ := C219_simple p m i (by omega) (Finset.mem_range.1 hi)
  by_cases h1 : splitStart p m j ≤ i ∧ i < splitStart p m (j + 1)
  · by_cases h2 : splitStart p m j' ≤ i ∧ i < splitStart p m (j' + 1)
    · exact absurd ((hc j ⟨hj, h1⟩).trans (hc j' ⟨hj', h2⟩).symm) h
    · rw [show genLoadings p m low high i j' = 0 from if_neg h2, mul_zero]
  · rw [show genLoadings p m low high i j = 0 from if_neg h1, zero_mul]

/-! ## Factor correlations -/

theorem genCorr_eq (m : ℕ) (rho : ℝ) (i j : Fin m) : genCorr m rho i j = (-rho) ^ lag i j := by
  unfold genCorr
  have : ∀ a b : ℕ, (-1 : ℝ) ^ a * rho ^ lag a b * (-1) ^ b = (-rho) ^ lag a b := by
    intro a b
    have hpar : (-1 : ℝ) ^ a * (-1) ^ b = (-1) ^ lag a b := by
      unfold lag
      rcases le_total a b with h | h
      · obtain ⟨d, rfl⟩ := Nat.exists_eq_add_of_le h
        rw [max_eq_right h, min_eq_left h, Nat.add_sub_cancel_left, pow_add, ← mul_assoc,
          ← mul_pow]
        norm_num
      · obtain ⟨d, rfl⟩ := Nat.exists_eq_add_of_le h
        rw [max_eq_left h, min_eq_right h, Nat.add_sub_cancel_left, pow_add, mul_right_comm,
          ← mul_pow]
        norm_num
    rw [neg_pow rho, ← hpar]
    ring
  exact this i j

/-- The lower triangular factor of the correlations of an autoregression. -/
noncomputable def arFactor (m : ℕ) (r : ℝ) : Matrix (Fin m) (Fin m) ℝ :=
  fun i k => if (k : ℕ) ≤ i then
    r ^ ((i : ℕ) - k) * (if (k : ℕ) = 0 then 1 else Real.sqrt (1 - r ^ 2)) else 0

theorem sum_cut (f : ℕ → ℝ) {i M : ℕ} (h : i < M) :
    ∑ k ∈ range M, (if k ≤ i then f k else 0) = ∑ k ∈ range (i + 1), f k := by
  obtain ⟨d, rfl⟩ := Nat.exists_eq_add_of_le (show i + 1 ≤ M from h)
  rw [Finset.sum_range_add, Finset.sum_eq_zero (s := range d) fun k _ => if_neg (by omega), add_zero]
  exact Finset.sum_congr rfl fun k hk => if_pos (by have := Finset.mem_range.1 hk; omega)

theorem ar_sum (r : ℝ) (i : ℕ) :
    ∑ k ∈ range (i + 1), r ^ (2 * (i - k)) * (if k = 0 then 1 else 1 - r ^ 2) = 1 := by
  induction i with
  | zero => simp
  | succ i ih =>
    rw [Finset.sum_range_succ, Nat.sub_self, if_neg (Nat.succ_ne_zero i)]
    have : ∑ k ∈ range (i + 1), r ^ (2 * (i + 1 - k)) * (if k = 0 then 1 else 1 - r ^ 2) =
        r ^ 2 * ∑ k ∈ range (i + 1), r ^ (2 * (i - k)) * (if k = 0 then 1 else 1 - r ^ 2) := by
      rw [Finset.mul_sum]
      refine Finset.sum_congr rfl fun k hk => ?_
      have hk := Finset.mem_range.1 hk
      rw [show 2 * (i + 1 - k) = 2 + 2 * (i - k) by omega, pow_add]
      ring
    rw [this, ih]
    ring

theorem arFactor_mul (m : ℕ) (r : ℝ) (hr : r ^ 2 ≤ 1) (i j : Fin m) :
    (arFactor m r * (arFactor m r)ᵀ) i j = r ^ lag i j := by
  have key : ∀ i j : Fin m, (i : ℕ) ≤ j → (arFactor m r * (arFactor m r)ᵀ) i j = r ^ lag i j := by
    intro i j hij
    rw [Matrix.mul_apply]
    have hsq : Real.sqrt (1 - r ^ 2) * Real.sqrt (1 - r ^ 2) = 1 - r ^ 2 :=
      Real.mul_self_sqrt (by linarith)
    have e : ∀ k : Fin m, arFactor m r i k * (arFactor m r)ᵀ k j =
        (fun k : ℕ => if k ≤ i then r ^ ((j : ℕ) - i) *
          (r ^ (2 * ((i : ℕ) - k)) * (if k = 0 then 1 else 1 - r ^ 2)) else 0) k := by
      intro k
      simp only [Matrix.transpose_apply, arFactor]
      by_cases hk : (k : ℕ) ≤ i
      · rw [if_pos hk, if_pos hk, if_pos (hk.trans hij)]
        have : r ^ ((i : ℕ) - k) * r ^ ((j : ℕ) - k) = r ^ ((j : ℕ) - i) * r ^ (2 * ((i : ℕ) - k)) := by
          rw [← pow_add, ← pow_add]
          congr 1
          omega
        by_cases h0 : (k : ℕ) = 0
        · simp only [h0, if_true] at this ⊢
          linear_combination this
        · simp only [h0, if_false]
          linear_combination (Real.sqrt (1 - r ^ 2) * Real.sqrt (1 - r ^ 2)) * this +
            (r ^ ((j : ℕ) - i) * r ^ (2 * ((i : ℕ) - k))) * hsq
      · rw [if_neg hk, if_neg hk, zero_mul]
    rw [Finset.sum_congr rfl fun k _ => e k, Fin.sum_univ_eq_sum_range (fun k : ℕ => if k ≤ i then
      r ^ ((j : ℕ) - i) * (r ^ (2 * ((i : ℕ) - k)) * (if k = 0 then 1 else 1 - r ^ 2)) else 0) m]
    rw [sum_cut _ i.2, ← Finset.mul_sum, ar_sum, mul_one]
    unfold lag
    rw [max_eq_right hij, min_eq_left hij]
  rcases le_total (i : ℕ) j with h | h
  · exact key i j h
  · have h1 := key j i h
    have hs : (arFactor m r * (arFactor m r)ᵀ)ᵀ = arFactor m r * (arFactor m r)ᵀ := by
      rw [Matrix.transpose_mul, Matrix.transpose_transpose]
    rw [← hs, Matrix.transpose_apply, h1]
    unfold lag
    rw [max_comm, min_comm]

/-- **C219.** The factor correlations have unit diagonal and are positive definite for `|ρ| < 1`. -/
theorem C219_corr (m : ℕ) (rho : ℝ) (h : |rho| < 1) :
    (∀ i, genCorr m rho i i = 1) ∧ (genCorr m rho).PosDef := by
  refine ⟨fun i => by rw [genCorr_eq]; simp [lag], ?_⟩
  have hr : (-rho) ^ 2 < 1 := by
    rw [neg_sq]
    exact (sq_lt_one_iff_abs_lt_one rho).2 h
  have e : genCorr m rho = arFactor m (-rho) * (arFactor m (-rho))ᴴ := by
    funext i j
    rw [genCorr_eq, Matrix.conjTranspose_eq_transpose_of_trivial, arFactor_mul m _ hr.le]
  rw [e]
  apply Matrix.PosDef.mul_conjTranspose_self
  have hdet : IsUnit (arFactor m (-rho)).det := by
    rw [Matrix.det_of_isLowerTriangular _ (by
      intro i j hij
      have hij : (i : ℕ) < j := hij
      exact if_neg (by omega))]
    rw [isUnit_iff_ne_zero, Finset.prod_ne_zero_iff]
    intro i _
    simp only [arFactor, le_refl, if_true, Nat.sub_self, pow_zero, one_mul]
    split_ifs
    · exact one_ne_zero
    · exact (Real.sqrt_pos.2 (by linarith)).ne'
  exact Matrix.vecMul_injective_iff_isUnit.2 ((Matrix.isUnit_iff_isUnit_det _).2 hdet)

/-- **C219, violated.** At `ρ = 1`, which the argument allows, the matrix is singular. -/
theorem C219_corr_violated : ¬ (genCorr 2 1).PosDef := by
  intro h
  have := h.det_pos
  simp [Matrix.det_fin_two, genCorr, lag] at this

/-! ## Model covariance and data -/

/-- **C219.** The model covariance is positive definite for positive unique variances. -/
theorem C219_sigma (L : Matrix (Fin m) (Fin k) ℝ) (Phi : Matrix (Fin k) (Fin k) ℝ) (psi : Fin m → ℝ)
    (hP : Phi.PosSemidef) (hpsi : ∀ i, 0 < psi i) : (modelSigma L Phi psi).PosDef := by
  unfold modelSigma
  rw [add_comm]
  refine (Matrix.PosDef.diagonal hpsi).add_posSemidef ?_
  have := hP.mul_mul_conjTranspose_same L
  rwa [Matrix.conjTranspose_eq_transpose_of_trivial] at this

/-- **C219.** If the factors and errors drawn have exactly the asked second moments, so have the data. -/
theorem C219_data {n : ℕ} (Z1 : Matrix (Fin n) (Fin k) ℝ) (Z2 : Matrix (Fin n) (Fin m) ℝ)
    (L : Matrix (Fin m) (Fin k) ℝ) (Phi : Matrix (Fin k) (Fin k) ℝ) (psi : Fin m → ℝ) (c : ℝ)
    (h11 : Z1ᵀ * Z1 = c • Phi) (h22 : Z2ᵀ * Z2 = c • diagonal psi) (h12 : Z1ᵀ * Z2 = 0) :
    (simX Z1 Z2 L)ᵀ * simX Z1 Z2 L = c • modelSigma L Phi psi := by
  have h21 : Z2ᵀ * Z1 = 0 := by
    have := congrArg Matrix.transpose h12
    rwa [Matrix.transpose_mul, Matrix.transpose_transpose, Matrix.transpose_zero] at this
  unfold simX modelSigma
  rw [Matrix.transpose_add, Matrix.transpose_mul, Matrix.transpose_transpose, Matrix.add_mul,
    Matrix.mul_add, Matrix.mul_add, Matrix.mul_assoc L, ← Matrix.mul_assoc Z1ᵀ, h11,
    Matrix.mul_assoc L Z1ᵀ Z2, h12, ← Matrix.mul_assoc Z2ᵀ, h21, h22]
  simp [Matrix.mul_assoc, smul_add]

/-- **C219, violated.** With random factor correlations the constructor raises: the sample keeps its
two batch axes. -/
theorem C219_random_violated (p m : ℕ) (hp : 1 < p) : factorModelShape p m (lkjShape m) = none := by
  have h : ¬ p ≤ 1 := by omega
  simp [factorModelShape, lkjShape, matmulShape, h]

/-- **C219, partial.** For a matrix of correlations it does not. -/
theorem C219_random_partial (p m : ℕ) : factorModelShape p m [m, m] = some [p, p] := by
  simp [factorModelShape, matmulShape]

/-- **C219, violated.** The simulation study raises in its first replication. -/
theorem C219_run_violated (n : ℕ) : runLoop (n + 1) = none := by
  unfold runLoop
  rw [List.range_succ_eq_map]
  rfl

end Verif.Sim
