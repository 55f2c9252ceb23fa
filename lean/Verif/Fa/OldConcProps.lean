import Verif.Fa.OldConc
import Verif.Fa.OldEfaProps
import Verif.Fa.ConcentratedProps
/-! # C187: the concentrated likelihood in `pyfa/efa.py` and `pyfa/factor_analysis.py` -/
namespace Verif.Fa.Old
open Matrix Verif.Calc

variable {p m : ℕ}

theorem PenroseOk.unique {A X Y : Mat p p} (hX : PenroseOk A X) (hY : PenroseOk A Y) : X = Y := by
  have h1 : A * X = A * Y := by
    calc A * X = (A * X)ᵀ := hX.c.symm
      _ = Xᵀ * Aᵀ := transpose_mul _ _
      _ = Xᵀ * (A * Y * A)ᵀ := by rw [hY.a]
      _ = Xᵀ * (Aᵀ * (A * Y)ᵀ) := by rw [transpose_mul (A * Y)]
      _ = (A * X)ᵀ * (A * Y)ᵀ := by rw [transpose_mul A X, Matrix.mul_assoc]
      _ = A * X * (A * Y) := by rw [hX.c, hY.c]
      _ = A * X * A * Y := by simp only [Matrix.mul_assoc]
      _ = A * Y := by rw [hX.a]
  have h2 : X * A = Y * A := by
    calc X * A = (X * A)ᵀ := hX.d.symm
      _ = Aᵀ * Xᵀ := transpose_mul _ _
      _ = (A * Y * A)ᵀ * Xᵀ := by rw [hY.a]
      _ = (Y * A)ᵀ * Aᵀ * Xᵀ := by rw [Matrix.mul_assoc A Y A, transpose_mul A]
      _ = (Y * A)ᵀ * (X * A)ᵀ := by rw [transpose_mul X A, Matrix.mul_assoc]
      _ = Y * A * (X * A) := by rw [hX.d, hY.d]
      _ = Y * (A * X * A) := by simp only [Matrix.mul_assoc]
      _ = Y * A := by rw [hX.a]
  calc X = X * A * X := hX.b.symm
    _ = Y * A * X := by rw [h2]
    _ = Y * (A * X) := Matrix.mul_assoc _ _ _
    _ = Y * (A * Y) := by rw [h1]
    _ = Y := by rw [← Matrix.mul_assoc, hY.b]

/-- The Moore–Penrose inverse of a symmetric matrix from its decomposition. -/
theorem penrose_eig {V : Mat p p} (hV : Vᵀ * V = 1) (e : Fin p → ℝ) :
    PenroseOk (V * diagonal e * Vᵀ) (V * diagonal (fun j => (e j)⁻¹) * Vᵀ) := by
  have hm : ∀ x y : Fin p → ℝ, V * diagonal x * Vᵀ * (V * diagonal y * Vᵀ) = V * diagonal (fun j => x j * y j) * Vᵀ := fun x y => by
    rw [show V * diagonal x * Vᵀ * (V * diagonal y * Vᵀ) = V * (diagonal x * (Vᵀ * V) * diagonal y) * Vᵀ by simp only [Matrix.mul_assoc],
      hV, Matrix.mul_one, diagonal_mul_diagonal]
  have ht : ∀ x : Fin p → ℝ, (V * diagonal x * Vᵀ)ᵀ = V * diagonal x * Vᵀ := fun x => by
    rw [transpose_mul, transpose_mul, transpose_transpose, diagonal_transpose, Matrix.mul_assoc]
  refine ⟨?_, ?_, ?_, ?_⟩
  · rw [hm, hm]; congr 3; funext j
    by_cases h : e j = 0
    · simp [h]
    · field_simp
  · rw [hm, hm]; congr 3; funext j
    by_cases h : e j = 0
    · simp [h]
    · field_simp
  · rw [hm, ht]
  · rw [hm, ht]

theorem whitC_eq (S : Mat p p) (psi : Fin p → ℝ) : whitC S psi = whit S psi := rfl
theorem loglikeC_eq (q : ℕ) (u : Fin p → ℝ) : loglikeC q u = logPsi q u := rfl
theorem gradientC_eq (q : ℕ) (u : Fin p → ℝ) (V : Mat p p) (psi : Fin p → ℝ) : gradientC q u V psi = gradPsi q u V psi := rfl
theorem loadC_eq (hm : m ≤ p) (u : Fin p → ℝ) (V : Mat p p) (psi : Fin p → ℝ) : loadC hm u V psi = loadPsi m u V psi := by
  ext a j
  have hlt : p - m + (j : ℕ) < p := by have := j.2; omega
  have h3 := entry_fin V a ⟨p - m + j, hlt⟩
  simp only [loadC, loadPsi, of_apply, vent, dif_pos hlt, h3]

theorem hessianC_eq (pinv : Mat p p → Mat p p) (q : ℕ) (S : Mat p p) (u : Fin p → ℝ) (V : Mat p p) (psi : Fin p → ℝ) (a b : Fin p) :
    hessianC pinv q S u V psi a b = hessW (fun i => pinv (u i • (1 : Mat p p) - whitC S psi)) q u V psi a b := by
  have e : (1.0 : ℝ) = 1 := by norm_num
  rw [hessianC, Matrix.mul_diagonal, Matrix.diagonal_mul, hessW, bC, Matrix.sum_apply, e]
  congr 2
  refine Finset.sum_congr rfl fun i _ => ?_
  split
  · simp only [had, of_apply, Matrix.add_apply, Matrix.smul_apply, smul_eq_mul]
  · rfl

theorem pinv_gap {pinv : Mat p p → Mat p p} (hpv : ∀ A, PenroseOk A (pinv A)) {W V : Mat p p} {u : Fin p → ℝ} (h : EighOk W u V) {i : Fin p}
    (hi : ∀ j, j ≠ i → u i ≠ u j) (a b : Fin p) : pinv (u i • (1 : Mat p p) - W) a b = gapInv u V i a b := by
  have e : u i • (1 : Mat p p) - W = V * diagonal (fun j => u i - u j) * Vᵀ := by
    have h1 : V * Vᵀ = 1 := mul_eq_one_comm.1 h.orth
    have : (diagonal fun j => u i - u j) = u i • (1 : Mat p p) - diagonal u := by
      ext k l
      by_cases hk : k = l
      · subst hk; simp
      · simp [hk]
    rw [this, Matrix.mul_sub, Matrix.sub_mul, Matrix.mul_smul, Matrix.smul_mul, Matrix.mul_one, h1, ← eig_decomp h]
  have h2 : pinv (u i • (1 : Mat p p) - W) = V * diagonal (fun j => (u i - u j)⁻¹) * Vᵀ :=
    PenroseOk.unique (hpv _) (e ▸ penrose_eig h.orth fun j => u i - u j)
  rw [h2, Matrix.mul_apply, gapInv]
  refine Finset.sum_congr rfl fun j _ => ?_
  rw [Matrix.mul_diagonal, transpose_apply]
  by_cases hj : j = i
  · subst hj; rw [sub_self, _root_.inv_zero, if_pos rfl]
  · rw [if_neg hj, one_div]

/-- C187: at the loadings of `loadings_from_psi` and uncorrelated factors the full discrepancy is the concentrated one up
to a constant, the gradient in the loadings vanishes, and the gradient in the unique variances is the concentrated one. -/
theorem C187_profile (hm : m ≤ p) (pinv : Mat p p → Mat p p) (hpv : PinvOk pinv) (S V : Mat p p) (u psi : Fin p → ℝ) (hp : ∀ a, 0 < psi a)
    (h : EighOk (whitC S psi) u V) (hu : ∀ i, 0 < u i) (h1 : ∀ i : Fin p, p - m ≤ i → 1 ≤ u i) :
    let th := toParams (loadC hm u V psi) 1 psi
    loglikeP S th = some (loglikeC (p - m) u + Real.log |S.det| + p) ∧
    (∀ x, gradientP pinv S th (.inl x) = 0) ∧
    ∀ a, gradientP pinv S th (.inr (.inr a)) = gradientC (p - m) u V psi a := by
  intro th
  obtain ⟨hL, hPhi, hPsi, -⟩ := C186_params (loadC hm u V psi) 1 psi transpose_one fun i => Matrix.one_apply_eq i
  have hSg : sigma th = loadPsi m u V psi * (loadPsi m u V psi)ᵀ + diagonal psi := by
    show parL th * parPhi th * (parL th)ᵀ + parPsi th = _
    rw [hL, hPhi, hPsi, Matrix.mul_one, loadC_eq]
  obtain ⟨hun, e1, e2, e3⟩ := profile_core hm S V u psi hp h hu h1 _ hSg
  have hpi : pinv (sigma th) = (sigma th)⁻¹ := hpv _ hun
  refine ⟨?_, ?_, ?_⟩
  · unfold loglikeP mlOf
    exact (if_pos hun).trans (congrArg some e1)
  · rintro ⟨j, a⟩
    have h5 : gradientP pinv S th (.inl (j, a)) = 2 * (pinv (sigma th) * (sigma th - S) * pinv (sigma th) * (parL th * parPhi th)) a j := rfl
    rw [h5, hpi, hPhi, hL, Matrix.mul_one, loadC_eq, e2, mul_zero]
  · intro a
    have h5 : gradientP pinv S th (.inr (.inr a)) = (pinv (sigma th) * (sigma th - S) * pinv (sigma th)) a a := rfl
    rw [h5, hpi, e3]; rfl

/-- C187: `gradient` is the gradient of `loglike` along every differentiable path of unique variances, whatever valid
decompositions are returned, where the eigenvalues used are simple. -/
theorem C187_gradient {S : Mat p p} (hS : Sᵀ = S) {psi : ℝ → Fin p → ℝ} {d : Fin p → ℝ} (hd : VD psi d) (hp : ∀ a, 0 < psi 0 a)
    {u : ℝ → Fin p → ℝ} {V : ℝ → Mat p p} (h : ∀ t, EighOk (whitC S (psi t)) (u t) (V t)) (q : ℕ)
    (hi : ∀ i : Fin p, (i : ℕ) < q → ∀ j, j ≠ i → u 0 i ≠ u 0 j) (hu : ∀ i : Fin p, (i : ℕ) < q → 0 < u 0 i) :
    HasDerivAt (fun t => loglikeC q (u t)) (gradientC q (u 0) (V 0) (psi 0) ⬝ᵥ d) 0 :=
  C91_grad_simple hS hd hp h q hi hu

/-- C187: `hessian` of `efa.py` is the Jacobian of `gradient` where the eigenvalues used are simple. -/
theorem C187_hessian_partial {S : Mat p p} (hS : Sᵀ = S) {psi : ℝ → Fin p → ℝ} {d : Fin p → ℝ} (hd : VD psi d) (hp : ∀ a, 0 < psi 0 a)
    {u : ℝ → Fin p → ℝ} {V : ℝ → Mat p p} (h : ∀ t, EighOk (whitC S (psi t)) (u t) (V t)) (q : ℕ)
    (hi : ∀ i : Fin p, (i : ℕ) < q → ∀ j, j ≠ i → u 0 i ≠ u 0 j) (pinv : Mat p p → Mat p p) (hpv : ∀ A, PenroseOk A (pinv A)) :
    VD (fun t => gradientC q (u t) (V t) (psi t)) (hessianC pinv q S (u 0) (V 0) (psi 0) *ᵥ d) := fun a => by
  have := hess_simple hS hd hp h q hi (fun i => pinv (u 0 i • (1 : Mat p p) - whitC S (psi 0)))
    (fun i hr a b => pinv_gap hpv (h 0) (hi i hr) a b) a
  refine this.congr_deriv ?_
  simp only [mulVec, dotProduct, hessianC_eq]

/-- C187: the functions of the logarithms have the gradient and the Hessian of `gradient_exp` and `hessian_exp`. -/
theorem C187_exp_partial {S : Mat p p} (hS : Sᵀ = S) {rho : ℝ → Fin p → ℝ} {d : Fin p → ℝ} (hd : VD rho d)
    {u : ℝ → Fin p → ℝ} {V : ℝ → Mat p p} (h : ∀ t, EighOk (whitC S fun a => Real.exp (rho t a)) (u t) (V t)) (q : ℕ)
    (hi : ∀ i : Fin p, (i : ℕ) < q → ∀ j, j ≠ i → u 0 i ≠ u 0 j) (hu : ∀ i : Fin p, (i : ℕ) < q → 0 < u 0 i)
    (pinv : Mat p p → Mat p p) (hpv : ∀ A, PenroseOk A (pinv A)) :
    let ps := fun t (a : Fin p) => Real.exp (rho t a)
    let g := fun t => gradientC q (u t) (V t) (ps t)
    HasDerivAt (fun t => loglikeC q (u t)) (gradientE (ps 0) (g 0) ⬝ᵥ d) 0 ∧
    VD (fun t => gradientE (ps t) (g t)) (hessianE (ps 0) (g 0) (hessianC pinv q S (u 0) (V 0) (ps 0)) *ᵥ d) := by
  intro ps g
  have hps : VD ps (fun a => ps 0 a * d a) := fun a => (hd a).exp
  have hpos : ∀ a, 0 < ps 0 a := fun a => Real.exp_pos _
  have h1 := C187_gradient hS hps hpos h q hi hu
  have h2 := C187_hessian_partial hS hps hpos h q hi pinv hpv
  refine ⟨h1.congr_deriv (Finset.sum_congr rfl fun a _ => by simp only [gradientE, g]; ring), fun a => ?_⟩
  refine ((hps a).fun_mul (h2 a)).congr_deriv ?_
  simp only [mulVec, dotProduct, hessianE, of_apply]
  have e : ∀ b, (if a = b then ps 0 b * hessianC pinv q S (u 0) (V 0) (ps 0) a b * ps 0 a + ps 0 a * g 0 a else
      ps 0 b * hessianC pinv q S (u 0) (V 0) (ps 0) a b * ps 0 a) * d b =
      ps 0 a * (hessianC pinv q S (u 0) (V 0) (ps 0) a b * (ps 0 b * d b)) + if a = b then ps 0 a * g 0 a * d a else 0 := fun b => by
    by_cases hab : a = b
    · subst hab; simp only [if_true]; ring
    · simp only [hab, if_false]; ring
  simp only [e, Finset.sum_add_distrib, ← Finset.mul_sum, Finset.sum_ite_eq, Finset.mem_univ, if_true]
  simp only [g]
  ring

/-- C187: with tied eigenvalues `hessian` depends on which valid eigenvectors are returned. -/
theorem C187_ties_violated (pinv : Mat 3 3 → Mat 3 3) : ∃ (S V V' : Mat 3 3) (u psi : Fin 3 → ℝ), Sᵀ = S ∧ (∀ a, 0 < psi a) ∧
    EighOk (whitC S psi) u V ∧ EighOk (whitC S psi) u V' ∧ hessianC pinv 2 S u V psi 0 1 ≠ hessianC pinv 2 S u V' psi 0 1 := by
  refine ⟨_, _, _, _, _, diagonal_transpose _, fun _ => one_pos, tie_ok.1, tie_ok.2, ?_⟩
  simp only [hessianC_eq, hessW, Fin.sum_univ_three, rot3]
  norm_num [Matrix.one_apply]

/-- C187: `hessian_canonical` is the Hessian with the wrong sign. -/
theorem C187_canonical (pinv : Mat p p → Mat p p) (q : ℕ) (S : Mat p p) (u : Fin p → ℝ) (V : Mat p p) (psi : Fin p → ℝ) :
    hessianCan pinv q S u V psi = -hessianC pinv q S u V psi := by
  simp only [hessianCan, hessianC, Matrix.neg_mul]

theorem one_ok (psi : Fin 1 → ℝ) (hp : 0 < psi 0) : EighOk (whitC (1 : Mat 1 1) psi) (fun _ => (psi 0)⁻¹) 1 := by
  refine ⟨by simp, ?_, fun _ _ _ => le_rfl⟩
  ext i j
  have hi := Subsingleton.elim i 0; have hj := Subsingleton.elim j 0
  subst hi hj
  have h1 := Real.mul_self_sqrt hp.le
  have h2 := (Real.sqrt_pos.2 hp).ne'
  simp only [whitC, Matrix.mul_one, Matrix.one_mul, of_apply, Matrix.one_apply_eq, diagonal_apply_eq]
  rw [← h1]
  norm_num

/-- C187: so it is not the Jacobian of `gradient_canonical`: one variable, no factor, `S = psi = 1`. -/
theorem C187_canonical_violated : ∃ (S : Mat 1 1) (psi : ℝ → Fin 1 → ℝ) (d : Fin 1 → ℝ) (u : ℝ → Fin 1 → ℝ) (V : ℝ → Mat 1 1),
    Sᵀ = S ∧ VD psi d ∧ (∀ a, 0 < psi 0 a) ∧ (∀ᶠ t in nhds 0, EighOk (whitC S (psi t)) (u t) (V t)) ∧
    (∀ i : Fin 1, (i : ℕ) < 1 → ∀ j, j ≠ i → u 0 i ≠ u 0 j) ∧ ∀ pinv : Mat 1 1 → Mat 1 1,
      ¬VD (fun t => gradientC 1 (u t) (V t) (psi t)) (hessianCan pinv 1 S (u 0) (V 0) (psi 0) *ᵥ d) := by
  refine ⟨1, fun t _ => 1 + t, fun _ => 1, fun t _ => (1 + t)⁻¹, fun _ => 1, transpose_one, fun a => ?_, fun a => by norm_num, ?_,
    fun i _ j hj => absurd (Subsingleton.elim j i) hj, fun pinv hV => ?_⟩
  · simpa using (hasDerivAt_id (0 : ℝ)).const_add 1
  · have : ∀ᶠ t in nhds (0 : ℝ), -1 < t := eventually_gt_nhds (by norm_num)
    exact this.mono fun t ht => one_ok (fun _ => 1 + t) (by show (0 : ℝ) < 1 + t; linarith)
  · have h1 := hV 0
    have e : (fun t : ℝ => gradientC 1 (fun _ : Fin 1 => (1 + t)⁻¹) (1 : Mat 1 1) (fun _ => 1 + t) 0) = fun t => (1 - (1 + t)⁻¹) / (1 + t) := funext fun t => by
      simp [gradientC]
    rw [e] at h1
    have hb : HasDerivAt (fun t : ℝ => 1 + t) 1 0 := by simpa using (hasDerivAt_id (0 : ℝ)).const_add 1
    have h2 := ((hb.fun_inv (by norm_num)).const_sub 1).fun_div hb (by norm_num)
    have h3 := h1.unique h2
    simp only [C187_canonical, mulVec, dotProduct, Finset.univ_unique, Fin.default_eq_zero, Finset.sum_singleton, Matrix.neg_apply, hessianC_eq,
      hessW] at h3
    norm_num at h3

/-- The hypotheses of the theorems can be met: one variable. -/
example : ∀ t : ℝ, EighOk (whitC (1 : Mat 1 1) fun _ => Real.exp t) (fun _ => (Real.exp t)⁻¹) 1 := fun t => one_ok _ (Real.exp_pos t)

example : ∃ pinv : Mat 1 1 → Mat 1 1, ∀ A, PenroseOk A (pinv A) := by
  refine ⟨fun A => diagonal fun _ => (A 0 0)⁻¹, fun A => ?_⟩
  have hA : A = 1 * diagonal (fun _ => A 0 0) * (1 : Mat 1 1)ᵀ := by
    ext i j
    have hi := Subsingleton.elim i 0; have hj := Subsingleton.elim j 0
    subst hi hj; simp
  have := penrose_eig (V := (1 : Mat 1 1)) (by simp) fun _ => A 0 0
  rw [← hA] at this
  simpa using this

end Verif.Fa.Old
