import Verif.Fa.OldAug
import Verif.Fa.OldConcProps
import Verif.Fa.OldConstraintProps
/-! # C188: identification constraints and standard errors in `pyfa/efa.py` and `pyfa/factor_analysis.py` -/
namespace Verif.Fa.Old
open Matrix Kronecker Verif.Calc

variable {p m : ℕ}

theorem canCon_apply (L : Mat p m) (Psi : Mat p p) (q : Low m) :
    canCon L Psi q = (Lᵀ * diagonal (fun i => 1 / Psi i i) * L) q.1.2 q.1.1 := rfl

theorem dPsi_row (A : Mat m p) (w : Fin p → ℝ) (x : Fin m × Fin m) (i : Fin p) :
    (((of fun x i => if x = (i, i) then w i else 0 : Matrix (Fin p × Fin p) (Fin p) ℝ)ᵀ * (-(A ⊗ₖ A))ᵀ)ᵀ) x i = -(w i * (A x.1 i * A x.2 i)) := by
  rw [transpose_apply, Matrix.mul_apply]
  simp only [transpose_apply, of_apply, Matrix.neg_apply, kroneckerMap_apply, ite_mul, zero_mul]
  rw [Finset.sum_ite_eq' Finset.univ (i, i), if_pos (Finset.mem_univ _)]
  ring

theorem dCanon_row (L : Mat p m) (psi : Fin p → ℝ) (q : Low m) :
    dCanon L (diagonal psi) q = Sum.elim (unrotRow L psi q.1.2 q.1.1).1 (Sum.elim (fun _ => 0) (unrotRow L psi q.1.2 q.1.1).2) := by
  funext a
  rcases a with x | x | i
  · simp only [dCanon, of_apply, Sum.elim_inl, unrotRow, diagonal_apply_eq]; rfl
  · rfl
  · have := dPsi_row (Lᵀ * diagonal fun i => 1.0 / psi i) (fun _ => 1) q.1 i
    simp only [dCanon, of_apply, Sum.elim_inr, diagonal_apply_eq]
    refine this.trans ?_
    simp only [unrotRow, kroneckerMap_apply, one_mul]

theorem sumElim3 (a b : Fin m × Fin p → ℝ) (c d : Low m → ℝ) (e f : Fin p → ℝ) :
    (Sum.elim a (Sum.elim c e) : Par p m → ℝ) ⬝ᵥ Sum.elim b (Sum.elim d f) = a ⬝ᵥ b + (c ⬝ᵥ d + e ⬝ᵥ f) := by
  simp only [dotProduct, Fintype.sum_sum_type, Sum.elim_inl, Sum.elim_inr]

theorem par_eta (v : Par p m → ℝ) : v = Sum.elim (vec (parL v)) (Sum.elim (fun q => v (.inr (.inl q))) fun i => v (.inr (.inr i))) := by
  funext a; rcases a with x | x | i <;> rfl

theorem md_L {th : ℝ → Par p m → ℝ} {v : Par p m → ℝ} (h : VD th v) : MD (fun t => parL (th t)) (parL v) := fun _ _ => h _

/-- C188: `constraint_derivs` of `efa.py` without rotation is the Jacobian of the canonical constraints in the parameters. -/
theorem C188_canonical (th : ℝ → Par p m → ℝ) (v : Par p m → ℝ) (h : VD th v) (h0 : ∀ i, th 0 (.inr (.inr i)) ≠ 0) :
    VD (fun t => canCon (parL (th t)) (parPsi (th t))) (dCanon (parL (th 0)) (parPsi (th 0)) *ᵥ v) := fun q => by
  have := C184_unrotated_rows_partial (fun t => parL (th t)) (parL v) (md_L h) (fun t i => th t (.inr (.inr i))) (fun i => v (.inr (.inr i)))
    (fun i => h _) h0 q.1.2 q.1.1
  have e : (fun t => canCon (parL (th t)) (parPsi (th t)) q) =
      fun t => ((parL (th t))ᵀ * diagonal (fun i => 1 / th t (.inr (.inr i))) * parL (th t)) q.1.2 q.1.1 := by
    funext t; rw [canCon_apply]; simp only [parPsi, diagonal_apply_eq]
  rw [e]
  refine this.congr_deriv ?_
  show _ = dCanon (parL (th 0)) (parPsi (th 0)) q ⬝ᵥ v
  conv_rhs => rw [par_eta v]
  rw [parPsi, dCanon_row, sumElim3]
  simp [dotProduct]

/-- C188: the loadings of `loadings_from_psi` satisfy the canonical constraints. -/
theorem C188_unrotated_solution (hm : m ≤ p) (S V : Mat p p) (u psi : Fin p → ℝ) (hp : ∀ a, 0 < psi a)
    (h : EighOk (whitC S psi) u V) : canCon (loadC hm u V psi) (diagonal psi) = 0 := by
  funext q
  rw [canCon_apply, Pi.zero_apply, Matrix.mul_apply]
  simp only [Matrix.mul_diagonal, transpose_apply, loadC, of_apply, diagonal_apply_eq]
  have hne : (⟨p - m + q.1.2, by have := q.1.2.2; omega⟩ : Fin p) ≠ ⟨p - m + q.1.1, by have := q.1.1.2; omega⟩ := fun e => by
    have h2 := q.2
    have := Fin.mk.inj_iff.1 e
    rw [Fin.lt_def] at h2
    omega
  have h3 := h.dot ⟨p - m + q.1.2, by have := q.1.2.2; omega⟩ ⟨p - m + q.1.1, by have := q.1.1.2; omega⟩
  rw [if_neg hne] at h3
  rw [show (0 : ℝ) = Real.sqrt (u ⟨p - m + q.1.2, by have := q.1.2.2; omega⟩ - 1) * Real.sqrt (u ⟨p - m + q.1.1, by have := q.1.1.2; omega⟩ - 1) * 0 by rw [mul_zero],
    ← h3, Finset.mul_sum]
  refine Finset.sum_congr rfl fun a _ => ?_
  have h4 := Real.mul_self_sqrt (hp a).le
  have h5 := (hp a).ne'
  field_simp
  rw [Real.sq_sqrt (hp a).le]
  ring

/-- C188: with an orthogonal rotation `constraint_derivs` is the Jacobian of `vecl(ortho_constraints)`. -/
theorem C188_ortho (k : ℝ × ℝ × ℝ × ℝ) (th : ℝ → Par p m → ℝ) (v : Par p m → ℝ) (h : VD th v) :
    VD (fun t => vecl (orthoCon (cf k) (parL (th t)))) (dOrtho k (parL (th 0)) *ᵥ v) := fun q => by
  refine (C184_ortho k _ _ (md_L h) q.1.2 q.1.1).congr_deriv ?_
  show _ = dOrtho k (parL (th 0)) q ⬝ᵥ v
  conv_rhs => rw [par_eta v]
  rw [show dOrtho k (parL (th 0)) q = Sum.elim (dCdLOrtho k (parL (th 0)) q.1) (Sum.elim (fun _ => 0) fun _ => 0) from rfl, sumElim3]
  simp [dotProduct, invec, mulVec]

theorem sum_low (f : Fin m → Fin m → ℝ) : ∑ x, ∑ y, (if y < x then f x y else 0) = ∑ q : Low m, f q.1.2 q.1.1 := by
  have h1 : ∑ x, ∑ y, (if y < x then f x y else 0) = ∑ z : Fin m × Fin m, if z.1 < z.2 then f z.2 z.1 else 0 := by
    rw [Finset.sum_comm, ← Finset.univ_product_univ, Finset.sum_product]
  rw [h1, ← Finset.sum_filter]
  exact Finset.sum_subtype _ (fun z => by simp) fun z : Fin m × Fin m => f z.2 z.1

theorem md_P {th : ℝ → Par p m → ℝ} {v : Par p m → ℝ} (h : VD th v) :
    MD (fun t => parPhi (th t)) (parPhi v - 1) := fun i j => by
  rcases lt_trichotomy i j with e | e | e
  · simp only [parPhi, invecl, of_apply, dif_neg e.not_gt, dif_pos e, Matrix.sub_apply, Matrix.one_apply_ne e.ne, sub_zero]; exact h _
  · subst e
    simp only [parPhi, invecl, of_apply, lt_irrefl, dite_false, Matrix.sub_apply, Matrix.one_apply_eq, sub_self]; exact hasDerivAt_const _ _
  · simp only [parPhi, invecl, of_apply, dif_pos e, Matrix.sub_apply, Matrix.one_apply_ne e.ne', sub_zero]; exact h _

/-- C188: with an oblique rotation `constraint_derivs` is the Jacobian of the constraints where they hold. -/
theorem C188_oblique_partial (k : ℝ × ℝ × ℝ × ℝ) (th : ℝ → Par p m → ℝ) (v : Par p m → ℝ) (h : VD th v)
    (hu : IsUnit (parPhi (th 0)).det)
    (hst : ∀ C, obliCon (cf k) (parL (th 0)) (parPhi (th 0)) = some C → ∀ u v, u ≠ v → C u v = 0) :
    ∃ (J : _) (C : ℝ → Mat m m), dObl k (parL (th 0)) (parPhi (th 0)) = some J ∧
      (∀ᶠ t in nhds 0, obliCon (cf k) (parL (th t)) (parPhi (th t)) = some (C t)) ∧
      VD (fun t (q : Off m) => vec (C t) q.1) (J *ᵥ v) := by
  have hP := md_P h
  have hPs : (parPhi v - 1)ᵀ = parPhi v - 1 := by rw [transpose_sub, transpose_one, parPhi_t]
  have hPd : ∀ i, (parPhi v - 1) i i = 0 := fun i => by simp [parPhi, invecl]
  obtain ⟨J1, C1, hJ1, hC1, hd1⟩ := C184_oblique_loadings k (fun t => parL (th t)) _ (md_L h) (parPhi (th 0)) hu
  obtain ⟨J2, C2, hJ2, hC2, hd2⟩ := C184_oblique_correlations_partial k (parL (th 0)) (fun t => parPhi (th t)) _ hP hu hPs hPd hst
  have hpu := hP.eventually_isUnit hu
  refine ⟨_, fun t => of fun u v => if u = v then 1.0 else ((parL (th t))ᵀ * cfDQ k (parL (th t)) * (parPhi (th t))⁻¹) u v,
    by rw [dObl, hJ1, hJ2]; rfl, ?_, fun q => ?_⟩
  · filter_upwards [hpu] with t ht
    rw [obliCon, inv?_unit ht]; rfl
  have hq : q.1.2 ≠ q.1.1 := fun e => q.2 e.symm
  have hLQ := (md_L h).transpose.mul (cfDQ_md k _ _ (md_L h))
  have hall := (hLQ.mul (hP.inv hu)) q.1.2 q.1.1
  simp only [vec, of_apply, if_neg hq]
  refine hall.congr_deriv ?_
  -- the two parts
  have e1 := (hd1 q.1.2 q.1.1).unique <| by
    have : ∀ t, C1 t q.1.2 q.1.1 = ((parL (th t))ᵀ * cfDQ k (parL (th t)) * (parPhi (th 0))⁻¹) q.1.2 q.1.1 := fun t => by
      have := hC1 t
      rw [obliCon, inv?_unit hu, Option.map_some, Option.some.injEq] at this
      rw [← this]; simp only [of_apply, if_neg hq]; rfl
    simp only [this]
    exact (hLQ.mul (MD.const (parPhi (th 0))⁻¹)) q.1.2 q.1.1
  have e2 := (hd2 q.1.2 q.1.1).unique <| by
    refine HasDerivAt.congr_of_eventuallyEq (((MD.const ((parL (th 0))ᵀ * cfDQ k (parL (th 0)))).mul (hP.inv hu)) q.1.2 q.1.1) ?_
    filter_upwards [hpu, hC2] with t ht h2
    rw [obliCon, inv?_unit ht, Option.map_some, Option.some.injEq] at h2
    rw [← h2]; simp only [of_apply, if_neg hq]; rfl
  rw [Matrix.mul_zero, add_zero] at e1
  rw [Matrix.zero_mul, zero_add] at e2
  rw [Matrix.add_apply, ← e1, ← e2]
  show _ = (Sum.elim (fun x => J1 q.1.2 q.1.1 x.2 x.1) (Sum.elim (fun y : Low m => J2 q.1.2 q.1.1 y.1.2 y.1.1) fun _ => 0) : Par p m → ℝ) ⬝ᵥ v
  conv_rhs => rw [par_eta v]
  rw [sumElim3]
  congr 1
  · simp only [of_apply, dotProduct, vec]
    rw [← Finset.univ_product_univ, Finset.sum_product, Finset.sum_comm]
  · simp only [of_apply]
    rw [sum_low fun x y => J2 q.1.2 q.1.1 x y * (parPhi v - 1) x y]
    simp only [dotProduct, zero_mul, Finset.sum_const_zero, add_zero]
    refine Finset.sum_congr rfl fun y _ => ?_
    have hy : y.1.1 < y.1.2 := y.2
    simp only [parPhi, invecl, Matrix.sub_apply, of_apply, dif_pos hy, Matrix.one_apply_ne hy.ne', sub_zero]

/-- C188: the covariance behind the standard errors: orthogonal to the constraints, a reflexive generalised inverse of
`(n/2) H`, inverse to it on the tangent space of the constraints. -/
theorem C188_covariance {κ ι γ : Type} [Fintype κ] [Fintype ι] [DecidableEq ι] [Fintype γ] [DecidableEq γ] (keep : ι → κ)
    (H : Matrix κ κ ℝ) (C : Matrix γ κ ℝ) (n : ℝ) (hn : n ≠ 0) (X : Matrix ι ι ℝ) (h : acov (augm keep H C) n = some X) :
    let Hk := H.submatrix keep keep
    let Ck := C.submatrix id keep
    Ck * X = 0 ∧ X * Ckᵀ = 0 ∧ X * ((n / 2) • Hk) * X = X ∧
      ∀ v, Ck *ᵥ v = 0 → (X * ((n / 2) • Hk)) *ᵥ v = v ∧ v ᵥ* (((n / 2) • Hk) * X) = v := by
  intro Hk Ck
  have hA : augm keep H C = fromBlocks Hk Ckᵀ Ck 0 := by
    ext a b
    rcases a with a | a <;> rcases b with b | b <;> rfl
  have hu : IsUnit (augm keep H C).det := by
    by_contra hu; unfold acov at h; rw [if_neg hu] at h; cases h
  unfold acov at h
  rw [if_pos hu, Option.some.injEq] at h
  set B := (augm keep H C)⁻¹
  have hX := h
  have hinv : augm keep H C * B = 1 ∧ B * augm keep H C = 1 := ⟨mul_nonsing_inv _ hu, nonsing_inv_mul _ hu⟩
  have hBb : B = fromBlocks B.toBlocks₁₁ B.toBlocks₁₂ B.toBlocks₂₁ B.toBlocks₂₂ := (fromBlocks_toBlocks B).symm
  set E := B.toBlocks₁₁
  have hXE : X = (2 / n) • E := by
    rw [← hX]; ext i j
    simp only [of_apply, Matrix.smul_apply, smul_eq_mul]
    show B (.inl i) (.inl j) / n * 2.0 = 2 / n * B (.inl i) (.inl j)
    norm_num; ring
  rw [hA, hBb, fromBlocks_multiply, fromBlocks_multiply, ← fromBlocks_one, fromBlocks_inj, fromBlocks_inj] at hinv
  obtain ⟨⟨a1, -, a3, -⟩, b1, b2, -, -⟩ := hinv
  rw [Matrix.zero_mul, add_zero] at a3
  rw [Matrix.mul_zero, add_zero] at b2
  have hs : ∀ Y Z : Matrix ι ι ℝ, ((2 / n) • Y) * ((n / 2) • Z) = Y * Z := fun Y Z => by
    rw [Matrix.smul_mul, Matrix.mul_smul, smul_smul, show 2 / n * (n / 2) = 1 by field_simp, one_smul]
  have hs' : ∀ Y Z : Matrix ι ι ℝ, ((n / 2) • Y) * ((2 / n) • Z) = Y * Z := fun Y Z => by
    rw [Matrix.smul_mul, Matrix.mul_smul, smul_smul, show n / 2 * (2 / n) = 1 by field_simp, one_smul]
  refine ⟨?_, ?_, ?_, fun v hv => ⟨?_, ?_⟩⟩
  · rw [hXE, Matrix.mul_smul, a3, smul_zero]
  · rw [hXE, Matrix.smul_mul, b2, smul_zero]
  · rw [hXE, hs, eq_sub_of_add_eq b1, Matrix.sub_mul, Matrix.one_mul, Matrix.mul_smul, Matrix.mul_assoc, a3, Matrix.mul_zero, smul_zero, sub_zero]
  · rw [hXE, hs, eq_sub_of_add_eq b1, sub_mulVec, one_mulVec, ← mulVec_mulVec, hv, mulVec_zero, sub_zero]
  · rw [hXE, hs', eq_sub_of_add_eq a1, vecMul_sub, vecMul_one, ← vecMul_vecMul, vecMul_transpose, hv, zero_vecMul, sub_zero]

/-- C188: without correlations the kept parameters are the loadings and the unique variances, and the correlations drop out
of the Jacobians of the constraints. -/
theorem C188_kept (L : Mat p m) (psi : Fin p → ℝ) (k : ℝ × ℝ × ℝ × ℝ) (v : Par p m → ℝ) :
    dCanon L (diagonal psi) *ᵥ v = (dCanon L (diagonal psi)).submatrix id keepO *ᵥ (v ∘ keepO) ∧
    dOrtho k L *ᵥ v = (dOrtho k L).submatrix id keepO *ᵥ (v ∘ keepO) := by
  constructor <;>
  · funext q
    simp only [mulVec, dotProduct, Fintype.sum_sum_type, submatrix_apply, keepO, Sum.elim_inl, Sum.elim_inr, Function.comp, dCanon, dOrtho, of_apply,
      zero_mul, Finset.sum_const_zero, zero_add, id]

/-! ## `factor_analysis.py` -/

/-- C188: `_unrotated_constraint_derivs` is the Jacobian of the canonical constraints in the loadings and in the logarithms
of the unique variances. -/
theorem C188_log_variances (th : ℝ → Theta p m → ℝ) (v : Theta p m → ℝ) (h : VD th v) :
    VD (fun t => canCon (thL (th t)) (thPsi (th t))) (dUnrot (thL (th 0)) (thPsi (th 0)) *ᵥ v) := fun q => by
  have hL : MD (fun t => thL (th t)) (thL v) := fun _ _ => h _
  have he : VD (fun t i => Real.exp (th t (.inr i))) (fun i => Real.exp (th 0 (.inr i)) * v (.inr i)) := fun i => (h _).exp
  have := C184_unrotated_rows_partial (fun t => thL (th t)) (thL v) hL _ _ he (fun i => (Real.exp_pos _).ne') q.1.2 q.1.1
  have e : (fun t => canCon (thL (th t)) (thPsi (th t)) q) =
      fun t => ((thL (th t))ᵀ * diagonal (fun i => 1 / Real.exp (th t (.inr i))) * thL (th t)) q.1.2 q.1.1 := by
    funext t; rw [canCon_apply]; simp only [thPsi, diagonal_apply_eq]
  rw [e]
  refine this.congr_deriv ?_
  have hd : ∀ i, dUnrot (thL (th 0)) (thPsi (th 0)) q (.inr i) =
      (unrotRow (thL (th 0)) (fun i => Real.exp (th 0 (.inr i))) q.1.2 q.1.1).2 i * Real.exp (th 0 (.inr i)) := fun i => by
    have := dPsi_row ((thL (th 0))ᵀ * diagonal fun i => 1.0 / Real.exp (th 0 (.inr i))) (fun i => Real.exp (th 0 (.inr i))) q.1 i
    simp only [dUnrot, thPsi, diagonal_apply_eq, of_apply, Sum.elim_inr]
    refine this.trans ?_
    simp only [unrotRow, kroneckerMap_apply]
    ring
  have hl : ∀ x, dUnrot (thL (th 0)) (thPsi (th 0)) q (.inl x) = (unrotRow (thL (th 0)) (fun i => Real.exp (th 0 (.inr i))) q.1.2 q.1.1).1 x := fun x => by
    simp only [dUnrot, thPsi, diagonal_apply_eq, of_apply, Sum.elim_inl, unrotRow]; rfl
  simp only [mulVec, dotProduct, Fintype.sum_sum_type, hd, hl]
  congr 1
  exact Finset.sum_congr rfl fun i _ => by ring

/-- The loadings of the counterexample. -/
def exCan : Mat 2 2 := !![1, 1; 1, -1]

/-- C188: but it is bordered to the Hessian in the unique variances themselves: with `psi = 2` its elements are twice the
derivatives in those parameters. -/
theorem C188_augmented_violated : ∃ (L : Mat 2 2) (psi : Fin 2 → ℝ) (q : Low 2) (i : Fin 2), (∀ a, 0 < psi a) ∧
    canCon L (diagonal psi) = 0 ∧ dUnrot L (diagonal psi) q (.inr i) = 2 * dCanon L (diagonal psi) q (.inr (.inr i)) ∧
    dCanon L (diagonal psi) q (.inr (.inr i)) ≠ 0 := by
  refine ⟨exCan, fun _ => 2, ⟨(0, 1), by decide⟩, 0, fun _ => two_pos, ?_, ?_, ?_⟩
  · funext q
    have hq : q.1 = (0, 1) := by
      obtain ⟨⟨a, b⟩, h⟩ := q
      have : a = 0 ∧ b = 1 := by revert h; revert a b; decide
      simp [this.1, this.2]
    rw [canCon_apply, hq]
    norm_num [Matrix.mul_apply, exCan, Fin.sum_univ_two, diagonal_apply]
  · have h1 := dPsi_row (exCanᵀ * diagonal fun _ => 1.0 / (2 : ℝ)) (fun _ => 2) (0, 1) 0
    have h2 := dPsi_row (exCanᵀ * diagonal fun _ => 1.0 / (2 : ℝ)) (fun _ => 1) (0, 1) 0
    simp only [dUnrot, dCanon, of_apply, Sum.elim_inr, diagonal_apply_eq]
    refine (h1.trans ?_).trans (congrArg (2 * ·) h2.symm)
    ring
  · have h2 := dPsi_row (exCanᵀ * diagonal fun _ => 1.0 / (2 : ℝ)) (fun _ => 1) (0, 1) 0
    simp only [dCanon, of_apply, Sum.elim_inr, diagonal_apply_eq]
    refine fun h => absurd (h2.symm.trans h) ?_
    norm_num [exCan]

/-- C188: `constraint_jac` without rotation raises for every number of factors. -/
theorem C188_jac_violated (m : ℕ) (hm : 1 ≤ m) : jacRows m = none := by
  refine if_neg fun h => ?_
  have h1 : m * (m - 1) / 2 ≤ m * (m - 1) := Nat.div_le_self _ _
  have h2 : m * (m - 1) < m * m := Nat.mul_lt_mul_of_pos_left (by omega) hm
  omega

/-- The hypotheses of `C188_covariance` can be met: one parameter and no constraint. -/
example : acov (augm (fun i : Fin 1 => i) (1 : Mat 1 1) (0 : Matrix (Fin 0) (Fin 1) ℝ)) 4 ≠ none := by
  unfold acov
  rw [if_pos]
  · simp
  · have : augm (fun i : Fin 1 => i) (1 : Mat 1 1) (0 : Matrix (Fin 0) (Fin 1) ℝ) = 1 := by
      ext a b
      rcases a with a | a
      · rcases b with b | b
        · have := Subsingleton.elim a b; subst this; simp [augm]
        · exact b.elim0
      · exact a.elim0
    rw [this]; simp

/-- The hypotheses of `C188_oblique_partial` hold at zero loadings and uncorrelated factors. -/
example (k : ℝ × ℝ × ℝ × ℝ) : IsUnit (parPhi (0 : Par p m → ℝ)).det ∧
    ∀ C, obliCon (cf k) (parL (0 : Par p m → ℝ)) (parPhi (0 : Par p m → ℝ)) = some C → ∀ u v, u ≠ v → C u v = 0 := by
  have hP : parPhi (0 : Par p m → ℝ) = 1 := by
    ext i j
    rcases eq_or_ne i j with h | h
    · subst h; simp [parPhi, invecl]
    · simp [parPhi, invecl, Matrix.one_apply_ne h]
      exact fun hle => lt_of_le_of_ne hle h
  have hL : parL (0 : Par p m → ℝ) = 0 := by ext i j; simp [parL, invec]
  have hu : IsUnit (1 : Mat m m).det := by rw [det_one]; exact isUnit_one
  rw [hP, hL]
  refine ⟨hu, fun C h u v huv => ?_⟩
  rw [obliCon, inv?_unit hu, Option.map_some, Option.some.injEq] at h
  subst h
  simp [huv]

end Verif.Fa.Old
