import Verif.Cov.Psd
import Verif.Like.LeverageProps
import Verif.Like.InfluenceProps
import Verif.Fa.RotationProps
import Mathlib.Analysis.Matrix.PosDef
import Mathlib.Analysis.Matrix.Spectrum

namespace Verif.Cov
open Matrix Verif.Fa Verif.Like

/-! ### Eigendecompositions -/

section
variable {m : ℕ} {Q : Matrix (Fin m) (Fin m) ℝ}

theorem orth' (h : Qᵀ * Q = 1) : Q * Qᵀ = 1 := mul_eq_one_comm.1 h

theorem spec_mul (h : Qᵀ * Q = 1) (a b : Fin m → ℝ) : (Q * diagonal a * Qᵀ) * (Q * diagonal b * Qᵀ) = Q * diagonal (fun i => a i * b i) * Qᵀ := by
  rw [← diagonal_mul_diagonal, show Q * diagonal a * Qᵀ * (Q * diagonal b * Qᵀ) = Q * diagonal a * (Qᵀ * Q) * diagonal b * Qᵀ by simp only [Matrix.mul_assoc], h,
    Matrix.mul_one, Matrix.mul_assoc Q (diagonal a)]

theorem spec_symm (a : Fin m → ℝ) : (Q * diagonal a * Qᵀ).IsSymm := by
  rw [Matrix.IsSymm, transpose_mul, transpose_mul, diagonal_transpose, transpose_transpose, Matrix.mul_assoc]

theorem spec_psd {a : Fin m → ℝ} (h : ∀ i, 0 ≤ a i) : (Q * diagonal a * Qᵀ).PosSemidef := by
  rw [← conjTranspose_eq_transpose_of_trivial]
  exact (PosSemidef.diagonal h).mul_mul_conjTranspose_same Q

theorem spec_sub_smul (h : Qᵀ * Q = 1) (a : Fin m → ℝ) (c : ℝ) : Q * diagonal a * Qᵀ - c • (1 : Matrix (Fin m) (Fin m) ℝ) = Q * diagonal (fun i => a i - c) * Qᵀ := by
  have : diagonal (fun i => a i - c) = diagonal a - c • (1 : Matrix (Fin m) (Fin m) ℝ) := by
    rw [smul_one_eq_diagonal, diagonal_sub]
  rw [this, Matrix.mul_sub, Matrix.sub_mul, Matrix.mul_smul, Matrix.mul_one, Matrix.smul_mul, orth' h]

/-- Undoing an orthogonal change of basis. -/
theorem spec_diag (h : Qᵀ * Q = 1) (a : Fin m → ℝ) : Qᵀ * (Q * diagonal a * Qᵀ) * Q = diagonal a := by
  rw [show Qᵀ * (Q * diagonal a * Qᵀ) * Q = (Qᵀ * Q) * diagonal a * (Qᵀ * Q) by simp only [Matrix.mul_assoc], h, Matrix.one_mul, Matrix.mul_one]

theorem spec_ge (h : Qᵀ * Q = 1) {a : Fin m → ℝ} {c : ℝ} (hp : (Q * diagonal a * Qᵀ - c • (1 : Matrix (Fin m) (Fin m) ℝ)).PosSemidef) (i : Fin m) : c ≤ a i := by
  have h1 := hp.conjTranspose_mul_mul_same Q
  rw [spec_sub_smul h, conjTranspose_eq_transpose_of_trivial, spec_diag h] at h1
  have := h1.diag_nonneg (i := i)
  simpa using this

end

theorem eigh_exists (m : ℕ) : ∃ eigh : Matrix (Fin m) (Fin m) ℝ → (Fin m → ℝ) × Matrix (Fin m) (Fin m) ℝ, EighOk eigh := by
  have key : ∀ A : Matrix (Fin m) (Fin m) ℝ, ∃ e : (Fin m → ℝ) × Matrix (Fin m) (Fin m) ℝ, A.IsSymm → e.2ᵀ * e.2 = 1 ∧ A = e.2 * diagonal e.1 * e.2ᵀ := by
    intro A
    by_cases hA : A.IsSymm
    · have hH : A.IsHermitian := by rw [Matrix.IsHermitian, conjTranspose_eq_transpose_of_trivial]; exact hA
      refine ⟨(hH.eigenvalues, hH.eigenvectorUnitary.1), fun _ => ⟨?_, ?_⟩⟩
      · have := (Unitary.mem_iff.1 hH.eigenvectorUnitary.2).1
        rwa [star_eq_conjTranspose, conjTranspose_eq_transpose_of_trivial] at this
      · have := hH.spectral_theorem
        rw [Unitary.conjStarAlgAut_apply, star_eq_conjTranspose, conjTranspose_eq_transpose_of_trivial] at this
        exact this
    · exact ⟨(0, 0), fun h => absurd h hA⟩
  choose e he using key
  exact ⟨e, he⟩

section
variable {m : ℕ} {eigh : Matrix (Fin m) (Fin m) ℝ → (Fin m → ℝ) × Matrix (Fin m) (Fin m) ℝ} {A : Matrix (Fin m) (Fin m) ℝ} {tolE : ℝ}

/-- **C130** `project_psd` gives a symmetric matrix with all eigenvalues at least the tolerance. -/
theorem C130_project (he : EighOk eigh) (hA : A.IsSymm) : (projectPsd eigh tolE A).IsSymm ∧ (projectPsd eigh tolE A - tolE • (1 : Matrix (Fin m) (Fin m) ℝ)).PosSemidef := by
  refine ⟨spec_symm _, ?_⟩
  rw [projectPsd, spec_sub_smul (he A hA).1]
  exact spec_psd fun i => sub_nonneg.2 (le_max_right _ _)

/-- **C130** It changes nothing when all eigenvalues are at least the tolerance. -/
theorem C130_project_id (he : EighOk eigh) (hA : A.IsSymm) (hp : (A - tolE • (1 : Matrix (Fin m) (Fin m) ℝ)).PosSemidef) : projectPsd eigh tolE A = A := by
  have h := he A hA
  conv_rhs => rw [h.2]
  rw [projectPsd]
  congr 2
  refine congrArg diagonal (funext fun i => max_eq_left ?_)
  refine spec_ge h.1 (a := (eigh A).1) ?_ i
  rwa [← h.2]

theorem fro_sum (M : Matrix (Fin m) (Fin m) ℝ) : fro M ^ 2 = ∑ i, ∑ j, M i j ^ 2 :=
  Real.sq_sqrt (Finset.sum_nonneg fun i _ => Finset.sum_nonneg fun j _ => sq_nonneg _)

theorem fro_sq (M : Matrix (Fin m) (Fin m) ℝ) : fro M ^ 2 = (Mᵀ * M).trace := by
  rw [fro_sum, Finset.sum_comm]
  simp only [trace, diag_apply, Matrix.mul_apply, transpose_apply, sq]

theorem fro_conj {Q : Matrix (Fin m) (Fin m) ℝ} (h : Qᵀ * Q = 1) (M : Matrix (Fin m) (Fin m) ℝ) : fro (Qᵀ * M * Q) ^ 2 = fro M ^ 2 := by
  rw [fro_sq, fro_sq, transpose_mul, transpose_mul, transpose_transpose,
    show Qᵀ * (Mᵀ * Q) * (Qᵀ * M * Q) = Qᵀ * (Mᵀ * (Q * Qᵀ) * M) * Q by simp only [Matrix.mul_assoc], orth' h, Matrix.mul_one, trace_mul_cycle, ← Matrix.mul_assoc, orth' h,
    Matrix.one_mul]

/-- **C130** `project_psd` is the nearest such matrix in the Frobenius norm. -/
theorem C130_project_nearest (he : EighOk eigh) (hA : A.IsSymm) {X : Matrix (Fin m) (Fin m) ℝ} (hX : (X - tolE • (1 : Matrix (Fin m) (Fin m) ℝ)).PosSemidef) :
    fro (A - projectPsd eigh tolE A) ≤ fro (A - X) := by
  have h := he A hA
  obtain ⟨Q, hQ⟩ : ∃ Q, Q = (eigh A).2 := ⟨_, rfl⟩
  obtain ⟨u, hu⟩ : ∃ u, u = (eigh A).1 := ⟨_, rfl⟩
  rw [projectPsd]
  rw [← hQ, ← hu] at h ⊢
  have hp := hX.conjTranspose_mul_mul_same Q
  rw [conjTranspose_eq_transpose_of_trivial, Matrix.mul_sub, Matrix.sub_mul, Matrix.mul_smul, Matrix.mul_one, Matrix.smul_mul, h.1] at hp
  have e1 : fro (A - Q * diagonal (fun i => max (u i) tolE) * Qᵀ) ^ 2 = ∑ i, (u i - max (u i) tolE) ^ 2 := by
    rw [← fro_conj h.1, Matrix.mul_sub, Matrix.sub_mul, spec_diag h.1]
    conv_lhs => rw [h.2, spec_diag h.1]
    rw [diagonal_sub, fro_sq, diagonal_transpose, diagonal_mul_diagonal, trace_diagonal]
    exact Finset.sum_congr rfl fun i _ => by ring
  have e2 : fro (A - X) ^ 2 = ∑ i, ∑ j, ((diagonal u - Qᵀ * X * Q) i j) ^ 2 := by
    rw [← fro_conj h.1, Matrix.mul_sub, Matrix.sub_mul]
    conv_lhs => rw [h.2, spec_diag h.1]
    exact fro_sum _
  have h0 : ∀ M : Matrix (Fin m) (Fin m) ℝ, 0 ≤ fro M := fun M => Real.sqrt_nonneg _
  refine (sq_le_sq₀ (h0 _) (h0 _)).1 ?_
  rw [e1, e2]
  refine Finset.sum_le_sum fun i _ => le_trans ?_ (Finset.single_le_sum (f := fun j => ((diagonal u - Qᵀ * X * Q) i j) ^ 2) (fun j _ => sq_nonneg _) (Finset.mem_univ i))
  have hd := hp.diag_nonneg (i := i)
  simp only [Matrix.sub_apply, Matrix.smul_apply, one_apply_eq, smul_eq_mul, mul_one, diagonal_apply_eq] at hd ⊢
  rcases le_total tolE (u i) with hc | hc
  · rw [max_eq_left hc, sub_self]; nlinarith [sq_nonneg (u i - (Qᵀ * X * Q) i i)]
  · rw [max_eq_right hc]
    nlinarith

end

section
variable {m : ℕ} {eigh : Matrix (Fin (m + 1)) (Fin (m + 1)) ℝ → (Fin (m + 1) → ℝ) × Matrix (Fin (m + 1)) (Fin (m + 1)) ℝ} {A : Matrix (Fin (m + 1)) (Fin (m + 1)) ℝ}
  {o : Opts} {tol tolE : ℝ} {k : ℕ}

theorem setDiag_symm {d : Fin (m + 1) → ℝ} {X : Matrix (Fin (m + 1)) (Fin (m + 1)) ℝ} (h : X.IsSymm) : (setDiag d X).IsSymm := by
  ext i j
  simp only [transpose_apply, setDiag]
  by_cases hij : i = j
  · subst hij; rfl
  · rw [if_neg hij, if_neg (Ne.symm hij), h.apply]

theorem putDiag_symm {d : Option (Fin (m + 1) → ℝ)} {X : Matrix (Fin (m + 1)) (Fin (m + 1)) ℝ} (h : X.IsSymm) : (putDiag d X).IsSymm := by
  cases d with
  | none => exact h
  | some d => exact setDiag_symm h

theorem nearStep_symm (dg : Option (Fin (m + 1) → ℝ)) (R D Q : Matrix (Fin (m + 1)) (Fin (m + 1)) ℝ) (d : Fin (m + 1) → ℝ) : (nearStep o dg tolE R D d Q).1.IsSymm := by
  refine putDiag_symm ?_
  split_ifs
  · rw [(spec_symm _).eq]
    exact ((spec_symm _).add (spec_symm _)).smul _
  · exact spec_symm _

theorem nearLoop_symm (dg : Option (Fin (m + 1) → ℝ)) : ∀ (k : ℕ) (Y D : Matrix (Fin (m + 1)) (Fin (m + 1)) ℝ), Y.IsSymm → (nearLoop eigh o dg tol tolE k Y D).IsSymm := by
  intro k
  induction k with
  | zero => intro Y D h; exact h
  | succ k ih =>
    intro Y D h
    simp only [nearLoop]
    split_ifs
    all_goals first | exact h | exact nearStep_symm _ _ _ _ _ | exact ih _ _ (nearStep_symm _ _ _ _ _)

/-- **C130** `near_psd` gives a symmetric matrix, with ones on the diagonal by default. -/
theorem C130_near_diag : (nearPsd eigh o k tol tolE A).IsSymm ∧ (o.unitDiag = true → ∀ i, nearPsd eigh o k tol tolE A i i = 1) := by
  refine ⟨putDiag_symm (spec_symm _), fun h i => ?_⟩
  rw [nearPsd, Opts.dgs, if_pos h]
  exact if_pos rfl

/-- **C130** When the diagonal is free the result is positive semidefinite. -/
theorem C130_near_psd_partial (he : EighOk eigh) (hA : A.IsSymm) (hu : o.unitDiag = false) (hk : o.keepDiag = false) :
    (nearPsd eigh o k tol tolE A - tolE • (1 : Matrix (Fin (m + 1)) (Fin (m + 1)) ℝ)).PosSemidef := by
  rw [nearPsd, Opts.dgs, hu, hk]
  exact (C130_project he (nearLoop_symm _ _ _ _ hA)).2

theorem putDiag_self {d : Option (Fin (m + 1) → ℝ)} (h : ∀ v ∈ d, ∀ i, v i = A i i) : putDiag d A = A := by
  cases d with
  | none => rfl
  | some d =>
    ext i j
    simp only [putDiag, setDiag]
    split_ifs with hij
    · rw [← hij]; exact h d rfl i
    · rfl

theorem near_fix (he : EighOk eigh) (hA : A.IsSymm) {dg : Option (Fin (m + 1) → ℝ)} (hd : ∀ v ∈ dg, ∀ i, v i = A i i)
    (hm : ∀ i, tolE * dmax (eigh A).1 < (eigh A).1 i) : ∀ k, nearLoop eigh o dg tol tolE k A 0 = A := by
  have hR : (if o.dykstra = true then A - 0 else A) = A := by split_ifs <;> simp
  have hX : (eigh A).2 * diagonal (fun i => if tolE * dmax (eigh A).1 < (eigh A).1 i then (eigh A).1 i else 0) * (eigh A).2ᵀ = A := by
    conv_rhs => rw [(he A hA).2]
    congr 2
    exact congrArg diagonal (funext fun i => if_pos (hm i))
  have hS : nearStep o dg tolE A 0 (eigh A).1 (eigh A).2 = (A, 0) := by
    simp only [nearStep, hX]
    refine Prod.ext ?_ ?_
    · have : (if o.symmetrize = true then (1 / 2 : ℝ) • (A + Aᵀ) else A) = A := by
        split_ifs
        · rw [hA.eq, ← two_smul ℝ A, smul_smul]; norm_num
        · rfl
      simp only [this, putDiag_self hd]
    · simp
  intro k
  induction k with
  | zero => rfl
  | succ k ih =>
    simp only [nearLoop, hR, hS, ih, ite_self]

/-- **C130** A matrix with the right diagonal and eigenvalues above the tolerances is returned unchanged. -/
theorem C130_near_id (he : EighOk eigh) (hA : A.IsSymm) (h1 : o.unitDiag = true → ∀ i, A i i = 1) (hm : ∀ i, tolE * dmax (eigh A).1 < (eigh A).1 i)
    (hp : (A - tolE • (1 : Matrix (Fin (m + 1)) (Fin (m + 1)) ℝ)).PosSemidef) : nearPsd eigh o k tol tolE A = A := by
  have hd : ∀ v ∈ o.dgs A, ∀ i, v i = A i i := by
    intro v hv i
    rw [Opts.dgs] at hv
    split_ifs at hv with h h'
    · rw [← Option.some.inj hv, h1 h]
    · rw [← Option.some.inj hv]; rfl
    · simp at hv
  rw [nearPsd, near_fix he hA hd hm, C130_project_id he hA hp, putDiag_self hd]

end

section
variable {eigh : Matrix (Fin 2) (Fin 2) ℝ → (Fin 2 → ℝ) × Matrix (Fin 2) (Fin 2) ℝ} {b : ℝ}

theorem two_eig (he : EighOk eigh) (hb : 0 < b) : ((eigh !![1, b; b, 1]).1 0 = 1 + b ∧ (eigh !![1, b; b, 1]).1 1 = 1 - b) ∨
    ((eigh !![1, b; b, 1]).1 0 = 1 - b ∧ (eigh !![1, b; b, 1]).1 1 = 1 + b) := by
  have hA : (!![1, b; b, 1] : Matrix (Fin 2) (Fin 2) ℝ).IsSymm := by
    ext i j; fin_cases i <;> fin_cases j <;> rfl
  obtain ⟨h1, h2⟩ := he _ hA
  have ht := congrArg trace h2
  have hd := congrArg det h2
  rw [trace_mul_cycle, h1, Matrix.one_mul, trace_diagonal, Fin.sum_univ_two, trace_fin_two] at ht
  rw [det_mul, det_mul, mul_comm, ← mul_assoc, ← det_mul, h1, det_one, one_mul, det_diagonal, Fin.prod_univ_two, det_fin_two] at hd
  simp at ht hd
  have : ((eigh !![1, b; b, 1]).1 0 - (1 + b)) * ((eigh !![1, b; b, 1]).1 0 - (1 - b)) = 0 := by
    have e : (eigh !![1, b; b, 1]).1 1 = 2 - (eigh !![1, b; b, 1]).1 0 := by linarith
    rw [e] at hd
    linarith
  rcases mul_eq_zero.1 this with h | h
  · left; constructor <;> linarith
  · right; constructor <;> linarith

theorem two_fun (he : EighOk eigh) (hb : 0 < b) (f : ℝ → ℝ) : (eigh !![1, b; b, 1]).2 * diagonal (fun i => f ((eigh !![1, b; b, 1]).1 i)) * (eigh !![1, b; b, 1]).2ᵀ =
    !![(f (1 + b) + f (1 - b)) / 2, (f (1 + b) - f (1 - b)) / 2; (f (1 + b) - f (1 - b)) / 2, (f (1 + b) + f (1 - b)) / 2] := by
  have hA : (!![1, b; b, 1] : Matrix (Fin 2) (Fin 2) ℝ).IsSymm := by
    ext i j; fin_cases i <;> fin_cases j <;> rfl
  obtain ⟨h1, h2⟩ := he _ hA
  have h3 := orth' h1
  have hf : (fun i => f ((eigh !![1, b; b, 1]).1 i)) = fun i => (f (1 + b) - f (1 - b)) / (2 * b) * (eigh !![1, b; b, 1]).1 i +
      ((f (1 + b) + f (1 - b)) / 2 - (f (1 + b) - f (1 - b)) / (2 * b)) := by
    funext i
    rcases two_eig he hb with ⟨e0, e1⟩ | ⟨e0, e1⟩ <;> fin_cases i <;> simp only [Fin.zero_eta, Fin.mk_one, e0, e1] <;> field_simp <;> ring
  have hg : ∀ α β : ℝ, (eigh !![1, b; b, 1]).2 * diagonal (fun i => α * (eigh !![1, b; b, 1]).1 i + β) * (eigh !![1, b; b, 1]).2ᵀ = α • !![1, b; b, 1] + β • 1 := by
    intro α β
    have : diagonal (fun i => α * (eigh !![1, b; b, 1]).1 i + β) = α • diagonal (eigh !![1, b; b, 1]).1 + β • (1 : Matrix (Fin 2) (Fin 2) ℝ) := by
      rw [smul_one_eq_diagonal, ← diagonal_smul, diagonal_add]; rfl
    rw [this, Matrix.mul_add, Matrix.add_mul, Matrix.mul_smul, Matrix.smul_mul, ← h2, Matrix.mul_smul, Matrix.mul_one, Matrix.smul_mul, h3]
  rw [hf, hg]
  ext i j
  fin_cases i <;> fin_cases j <;> simp <;> field_simp <;> ring

theorem two_max (he : EighOk eigh) (hb : 0 < b) : dmax (eigh !![1, b; b, 1]).1 = 1 + b := by
  refine le_antisymm (Finset.sup'_le _ _ fun i _ => ?_) ?_
  · rcases two_eig he hb with ⟨e0, e1⟩ | ⟨e0, e1⟩ <;> fin_cases i <;> simp only [Fin.zero_eta, Fin.mk_one, e0, e1] <;> linarith
  · rcases two_eig he hb with ⟨e0, e1⟩ | ⟨e0, e1⟩
    · rw [← e0]; exact Finset.le_sup' _ (Finset.mem_univ 0)
    · rw [← e1]; exact Finset.le_sup' _ (Finset.mem_univ 1)

theorem two_step (he : EighOk eigh) (hb : 1 < b) {o : Opts} (hs : o.symmetrize = false) {D : Matrix (Fin 2) (Fin 2) ℝ} :
    (nearStep o (some fun _ => 1) (1 / 10 ^ 7) !![1, b; b, 1] D (eigh !![1, b; b, 1]).1 (eigh !![1, b; b, 1]).2).1 = !![1, (1 + b) / 2; (1 + b) / 2, 1] := by
  have h := two_fun he (by linarith : 0 < b) fun x => if 1 / 10 ^ 7 * (1 + b) < x then x else 0
  simp only [nearStep, hs, two_max he (by linarith : 0 < b)]
  rw [if_pos (by linarith : 1 / 10 ^ 7 * (1 + b) < 1 + b), if_neg (by linarith : ¬ 1 / 10 ^ 7 * (1 + b) < 1 - b)] at h
  rw [h]
  ext i j
  fin_cases i <;> fin_cases j <;> simp [putDiag, setDiag]

/-- **C130** Violated: with the default arguments `near_psd` of this matrix is not positive semidefinite: the diagonal
is written after the eigenvalues have been raised. -/
theorem C130_near_violated (he : EighOk eigh) : ¬ (nearPsd eigh {} 200 (1 / 10 ^ 7) (1 / 10 ^ 7) !![1, 1 + 24 / 10 ^ 8; 1 + 24 / 10 ^ 8, 1]).PosSemidef := by
  have hl : nearLoop eigh {} (some fun _ => 1) (1 / 10 ^ 7) (1 / 10 ^ 7) 200 !![1, 1 + 24 / 10 ^ 8; 1 + 24 / 10 ^ 8, 1] 0 = !![1, 1 + 12 / 10 ^ 8; 1 + 12 / 10 ^ 8, 1] := by
    rw [nearLoop]
    simp only [if_true, sub_zero]
    have hst := two_step (b := 1 + 24 / 10 ^ 8) he (by norm_num) (o := {}) rfl (D := 0)
    rw [if_neg, if_pos, hst]
    · norm_num
    · rw [hst]
      have e1 : fro (!![1, 1 + 24 / 10 ^ 8; 1 + 24 / 10 ^ 8, 1] : Matrix (Fin 2) (Fin 2) ℝ) ^ 2 = 2 + 2 * (1 + 24 / 10 ^ 8) ^ 2 := by
        rw [fro_sum]; simp [Fin.sum_univ_two]; ring
      have e2 : fro ((!![1, 1 + 24 / 10 ^ 8; 1 + 24 / 10 ^ 8, 1] : Matrix (Fin 2) (Fin 2) ℝ) - !![1, (1 + (1 + 24 / 10 ^ 8)) / 2; (1 + (1 + 24 / 10 ^ 8)) / 2, 1]) ^ 2 = 2 * (12 / 10 ^ 8) ^ 2 := by
        rw [fro_sum]; simp [Fin.sum_univ_two]; ring
      have h0 : ∀ M : Matrix (Fin 2) (Fin 2) ℝ, 0 ≤ fro M := fun M => Real.sqrt_nonneg _
      have hp : 0 < fro (!![1, 1 + 24 / 10 ^ 8; 1 + 24 / 10 ^ 8, 1] : Matrix (Fin 2) (Fin 2) ℝ) := by
        refine lt_of_le_of_ne (h0 _) fun h => ?_
        rw [← h] at e1; norm_num at e1
      refine ⟨hp.ne', ?_⟩
      rw [div_lt_iff₀ hp]
      refine (sq_lt_sq₀ (h0 _) (by positivity)).1 ?_
      rw [mul_pow, e1, e2]
      norm_num
    · intro hn
      rw [two_max he (by norm_num)] at hn
      rcases two_eig (b := 1 + 24 / 10 ^ 8) he (by norm_num) with ⟨e0, e1⟩ | ⟨e0, e1⟩
      · exact hn 0 (by rw [e0]; norm_num)
      · exact hn 1 (by rw [e1]; norm_num)
  intro hp
  have e : nearPsd eigh {} 200 (1 / 10 ^ 7) (1 / 10 ^ 7) !![1, 1 + 24 / 10 ^ 8; 1 + 24 / 10 ^ 8, 1] = !![1, 1 + 1 / 10 ^ 8; 1 + 1 / 10 ^ 8, 1] := by
    rw [nearPsd]
    change putDiag (some fun _ => 1) (projectPsd eigh (1 / 10 ^ 7) (nearLoop eigh {} (some fun _ => 1) (1 / 10 ^ 7) (1 / 10 ^ 7) 200 _ 0)) = _
    rw [hl, projectPsd, two_fun he (by norm_num) fun x => max x (1 / 10 ^ 7)]
    rw [max_eq_left (by norm_num), max_eq_right (by norm_num)]
    ext i j
    fin_cases i <;> fin_cases j <;> simp [putDiag, setDiag] <;> norm_num
  rw [e] at hp
  have h := hp.dotProduct_mulVec_nonneg ![1, -1]
  simp [Matrix.mulVec, dotProduct, Fin.sum_univ_two] at h
  norm_num at h

end

end Verif.Cov
