import Verif.Transf.CovCorrLemmas
import Mathlib.Analysis.SpecialFunctions.Log.Deriv
import Mathlib.Tactic.FieldSimp
/-! # C43: covariance/correlation and log-scale transforms -/
namespace Verif.Transf
open Verif.Np Verif.Vec Real

variable {n : ℕ}

/-- Half-vectorised matrices of order `n` with positive diagonal. -/
def PosDiag (n : ℕ) (x : ℕ → ℝ) : Prop := ∀ k, k < n → 0 < x (hp n k k)

theorem PosDiag.mem {x : ℕ → ℝ} (hx : PosDiag n x) {p : ℕ} (h : p ∈ diagInds n) : 0 < x p := by
  obtain ⟨k, hk, rfl⟩ := mem_diagInds.1 h
  exact hx k hk

/-- C43: the positions are the cells of the lower triangle, and in terms of cells the forward map
divides each covariance by the two standard deviations and keeps the variances. -/
theorem C43_fwd_cells (x : ℕ → ℝ) {r s : ℕ} (h1 : s < r) (h2 : r < n) :
    ccFwd n x (hp n r s) = x (hp n r s) / (sqrt (x (hp n r r)) * sqrt (x (hp n s s))) ∧
    ccFwd n x (hp n r r) = x (hp n r r) := by
  unfold ccFwd
  constructor
  · rw [if_neg, rowDiag_hp h1.le h2, colDiag_hp h1.le h2]
    intro h
    obtain ⟨k, hk, e⟩ := mem_diagInds.1 h
    have := hp_inj h1.le h2 le_rfl hk e
    omega
  · rw [if_pos (mem_diagInds.2 ⟨r, h2, rfl⟩)]

/-- C43: the diagonal stays positive in both directions. -/
theorem C43_posDiag (x : ℕ → ℝ) (hx : PosDiag n x) : PosDiag n (ccFwd n x) ∧ PosDiag n (ccRvs n x) := by
  constructor <;> intro k hk
  · unfold ccFwd; rw [if_pos (mem_diagInds.2 ⟨k, hk, rfl⟩)]; exact hx k hk
  · unfold ccRvs; rw [if_pos (mem_diagInds.2 ⟨k, hk, rfl⟩)]; exact hx k hk

/-- C43: `CovCorr._rvs (CovCorr._fwd x) = x`. -/
theorem C43_rvs_fwd (x : ℕ → ℝ) (hx : PosDiag n x) (p : ℕ) (hp' : p < matSizeToHvSize n) :
    ccRvs n (ccFwd n x) p = x p := by
  by_cases h : p ∈ diagInds n
  · simp [ccRvs, ccFwd, h]
  · obtain ⟨-, -, -, f4, f5⟩ := off_facts hp' h
    have a := sqrt_pos.2 (hx.mem f4)
    have b := sqrt_pos.2 (hx.mem f5)
    simp only [ccRvs, ccFwd, h, f4, f5, if_true, if_false]
    field_simp

/-- C43: `CovCorr._fwd (CovCorr._rvs y) = y`. -/
theorem C43_fwd_rvs (y : ℕ → ℝ) (hy : PosDiag n y) (p : ℕ) (hp' : p < matSizeToHvSize n) :
    ccFwd n (ccRvs n y) p = y p := by
  by_cases h : p ∈ diagInds n
  · simp [ccRvs, ccFwd, h]
  · obtain ⟨-, -, -, f4, f5⟩ := off_facts hp' h
    have a := sqrt_pos.2 (hy.mem f4)
    have b := sqrt_pos.2 (hy.mem f5)
    simp only [ccRvs, ccFwd, h, f4, f5, if_true, if_false]
    field_simp

/-- C43: `CovCorr._jac_fwd` is the derivative of `_fwd`. -/
theorem C43_jac_fwd (x : ℕ → ℝ) (hx : PosDiag n x) :
    IsJac (matSizeToHvSize n) (matSizeToHvSize n) (ccFwd n) (ccJacFwd n x) x := by
  intro X x' hX h0 p hp'
  unfold ccJacFwd
  by_cases h : p ∈ diagInds n
  · beta_reduce
    rw [ccJac_diag_dot h]
    simpa [ccFwd, h] using hX p hp'
  · obtain ⟨-, -, -, f4, f5⟩ := off_facts hp' h
    have a := hx.mem f4
    have b := hx.mem f5
    have a' := sqrt_pos.2 a
    have b' := sqrt_pos.2 b
    beta_reduce
    rw [ccJac_off_dot hp' h]
    simp only [ccFwd, h, if_false]
    have dj := (hX _ (diag_facts f4).1).sqrt (by rw [h0]; exact a.ne')
    have dk := (hX _ (diag_facts f5).1).sqrt (by rw [h0]; exact b.ne')
    have := (hX p hp').fun_div (dj.fun_mul dk) (by rw [h0]; exact (mul_pos a' b').ne')
    refine this.congr_deriv ?_
    rw [h0]
    field_simp
    ring

/-- C43: `CovCorr._jac_rvs` is the derivative of `_rvs`. -/
theorem C43_jac_rvs (y : ℕ → ℝ) (hy : PosDiag n y) :
    IsJac (matSizeToHvSize n) (matSizeToHvSize n) (ccRvs n) (ccJacRvs n y) y := by
  intro X x' hX h0 p hp'
  unfold ccJacRvs
  by_cases h : p ∈ diagInds n
  · beta_reduce
    rw [ccJac_diag_dot h]
    simpa [ccRvs, h] using hX p hp'
  · obtain ⟨-, -, -, f4, f5⟩ := off_facts hp' h
    have a := hy.mem f4
    have b := hy.mem f5
    have a' := sqrt_pos.2 a
    have b' := sqrt_pos.2 b
    beta_reduce
    rw [ccJac_off_dot hp' h]
    simp only [ccRvs, h, if_false]
    have dj := (hX _ (diag_facts f4).1).sqrt (by rw [h0]; exact a.ne')
    have dk := (hX _ (diag_facts f5).1).sqrt (by rw [h0]; exact b.ne')
    have := ((hX p hp').fun_mul dj).fun_mul dk
    refine this.congr_deriv ?_
    rw [h0]
    field_simp

/-- C43: `CovCorr._hess_fwd` is the derivative of `_jac_fwd`. -/
theorem C43_hess_fwd (x : ℕ → ℝ) (hx : PosDiag n x) :
    IsHess (matSizeToHvSize n) (matSizeToHvSize n) (ccJacFwd n) (ccHessFwd n x) x := by
  intro X x' hX h0 q hq p hp'
  unfold ccHessFwd ccJacFwd
  by_cases h : p ∈ diagInds n
  · beta_reduce
    simp only [ccJac_diag h]
    refine (hasDerivAt_const _ _).congr_deriv ?_
    simp [dotN, ccHess_diag _ _ _ _ _ _ h]
  · obtain ⟨f1, f2, f3, f4, f5⟩ := off_facts hp' h
    have a := hx.mem f4
    have b := hx.mem f5
    have a' := sqrt_pos.2 a
    have b' := sqrt_pos.2 b
    have sa := sq_sqrt a.le
    have sb := sq_sqrt b.le
    beta_reduce
    simp only [ccJac_off hp' h]
    rw [ccHess_off _ _ _ _ _ _ hp' h]
    have di := hX p hp'
    have dj := (hX _ (diag_facts f4).1).sqrt (by rw [h0]; exact a.ne')
    have dk := (hX _ (diag_facts f5).1).sqrt (by rw [h0]; exact b.ne')
    rw [sqrt_mul a.le]
    generalize hu : sqrt (x (rowDiag n p)) = u at *
    generalize hw : sqrt (x (colDiag n p)) = w at *
    by_cases c1 : q = p
    · simp only [c1, if_true]
      refine ((dj.fun_mul dk).fun_inv (by rw [h0, hu, hw]; positivity)).congr_of_eventuallyEq
        (.of_forall fun t => by simp) |>.congr_deriv ?_
      rw [h0, hu, hw, ← sa, ← sb]
      field_simp
      ring
    · by_cases c2 : q = colDiag n p
      · simp only [c2, f3, if_true, if_false]
        refine ((di.const_mul (-1 / 2)).fun_div ((dk.fun_pow 3).fun_mul dj)
          (by rw [h0, hu, hw]; positivity)).congr_deriv ?_
        rw [h0, hu, hw, ← sa, ← sb]
        field_simp
        ring
      · by_cases c3 : q = rowDiag n p
        · simp only [c3, f1, f2, if_true, if_false]
          refine ((di.const_mul (-1 / 2)).fun_div ((dj.fun_pow 3).fun_mul dk)
            (by rw [h0, hu, hw]; positivity)).congr_deriv ?_
          rw [h0, hu, hw, ← sa, ← sb]
          field_simp
          ring
        · simp only [c1, c2, c3, if_false]
          exact hasDerivAt_const _ _

/-- C43: `CovCorr._hess_rvs` is the derivative of `_jac_rvs`. -/
theorem C43_hess_rvs (y : ℕ → ℝ) (hy : PosDiag n y) :
    IsHess (matSizeToHvSize n) (matSizeToHvSize n) (ccJacRvs n) (ccHessRvs n y) y := by
  intro X x' hX h0 q hq p hp'
  unfold ccHessRvs ccJacRvs
  by_cases h : p ∈ diagInds n
  · beta_reduce
    simp only [ccJac_diag h]
    refine (hasDerivAt_const _ _).congr_deriv ?_
    simp [dotN, ccHess_diag _ _ _ _ _ _ h]
  · obtain ⟨f1, f2, f3, f4, f5⟩ := off_facts hp' h
    have a := hy.mem f4
    have b := hy.mem f5
    have a' := sqrt_pos.2 a
    have b' := sqrt_pos.2 b
    beta_reduce
    simp only [ccJac_off hp' h]
    rw [ccHess_off _ _ _ _ _ _ hp' h]
    have di := hX p hp'
    have dj := (hX _ (diag_facts f4).1).sqrt (by rw [h0]; exact a.ne')
    have dk := (hX _ (diag_facts f5).1).sqrt (by rw [h0]; exact b.ne')
    rw [sqrt_mul a.le]
    generalize hu : sqrt (y (rowDiag n p)) = u at *
    generalize hw : sqrt (y (colDiag n p)) = w at *
    by_cases c1 : q = p
    · simp only [c1, if_true]
      refine (dj.fun_mul dk).congr_deriv ?_
      rw [h0, hu, hw]
      field_simp
    · by_cases c2 : q = colDiag n p
      · simp only [c2, f3, if_true, if_false]
        refine (((di.const_mul (1 / 2)).fun_mul dj).fun_div dk
          (by rw [h0, hw]; positivity)).congr_deriv ?_
        rw [h0, hu, hw]
        field_simp
        ring
      · by_cases c3 : q = rowDiag n p
        · simp only [c3, f1, f2, if_true, if_false]
          refine (((di.const_mul (1 / 2)).fun_mul dk).fun_div dj
            (by rw [h0, hu]; positivity)).congr_deriv ?_
          rw [h0, hu, hw]
          field_simp
          ring
        · simp only [c1, c2, c3, if_false]
          exact hasDerivAt_const _ _

/-! ## `LogScale` -/

/-- C43: `LogScale._rvs` undoes `_fwd` on positive diagonals, and `_fwd` undoes `_rvs` everywhere. -/
theorem C43_log_inverse (x : ℕ → ℝ) (p : ℕ) :
    (PosDiag n x → lsRvs n (lsFwd n x) p = x p) ∧ lsFwd n (lsRvs n x) p = x p := by
  constructor
  · intro hx
    by_cases h : p ∈ diagInds n
    · simp [lsRvs, lsFwd, h, exp_log (hx.mem h)]
    · simp [lsRvs, lsFwd, h]
  · by_cases h : p ∈ diagInds n <;> simp [lsRvs, lsFwd, h]

/-- C43: `LogScale._rvs` of any real vector has a positive diagonal. -/
theorem C43_log_range (y : ℕ → ℝ) : PosDiag n (lsRvs n y) := by
  intro k hk
  unfold lsRvs
  rw [if_pos (mem_diagInds.2 ⟨k, hk, rfl⟩)]
  exact exp_pos _

theorem diagJac_dot {m : ℕ} {J : ℕ → ℕ → ℝ} {p : ℕ} (hp' : p < m) {c : ℝ}
    (hJ : ∀ q, J p q = if q = p then c else 0) (v : ℕ → ℝ) : dotN m (J p) v = c * v p := by
  rw [dotN_sub (B := {p})]
  · rw [Finset.sum_singleton, hJ]; simp
  · simpa using hp'
  · intro q _ hq
    rw [hJ]; simp at hq; simp [hq]

/-- C43: the `LogScale` Jacobians are the derivatives. -/
theorem C43_log_jac (x : ℕ → ℝ) :
    (PosDiag n x → IsJac (matSizeToHvSize n) (matSizeToHvSize n) (lsFwd n) (lsJacFwd n x) x) ∧
    IsJac (matSizeToHvSize n) (matSizeToHvSize n) (lsRvs n) (lsJacRvs n x) x := by
  constructor
  · intro hx X x' hX h0 p hp'
    by_cases h : p ∈ diagInds n
    · beta_reduce
      rw [diagJac_dot (c := 1 / x p) hp' (fun q => by
        rw [lsJacFwd, scatter2_zip_self]; simp only [h, and_true, eq_comm (a := p)]
        split_ifs <;> rfl)]
      simp only [lsFwd, h, if_true]
      refine ((hX p hp').log (by rw [h0]; exact (hx.mem h).ne')).congr_deriv ?_
      rw [h0]; ring
    · beta_reduce
      rw [diagJac_dot (c := 1) hp' (fun q => by
        rw [lsJacFwd, scatter2_zip_self]; simp [h, eq_comm (a := p)])]
      simpa [lsFwd, h] using hX p hp'
  · intro X x' hX h0 p hp'
    by_cases h : p ∈ diagInds n
    · beta_reduce
      rw [diagJac_dot (c := exp (x p)) hp' (fun q => by
        rw [lsJacRvs, scatter2_zip_self]; simp only [h, and_true, eq_comm (a := p)]
        split_ifs <;> rfl)]
      simp only [lsRvs, h, if_true]
      refine ((hX p hp').exp).congr_deriv ?_
      rw [h0]
    · beta_reduce
      rw [diagJac_dot (c := 1) hp' (fun q => by
        rw [lsJacRvs, scatter2_zip_self]; simp [h, eq_comm (a := p)])]
      simpa [lsRvs, h] using hX p hp'

theorem put3s_dot {m : ℕ} {l : List ℕ} {w : ℕ → ℝ} {p : ℕ} (hp' : p < m) (q : ℕ) (v : ℕ → ℝ) :
    dotN m (put3s l w p q) v = if p ∈ l ∧ q = p then w p * v p else 0 := by
  unfold put3s
  by_cases h : p ∈ l ∧ q = p
  · rw [if_pos h]
    rw [dotN_sub (B := {p})]
    · rw [Finset.sum_singleton, put3s_at]; simp [h]
    · simpa using hp'
    · intro r _ hr
      rw [put3s_at]; simp at hr; simp [hr]
  · rw [if_neg h]
    refine Finset.sum_eq_zero fun r _ => ?_
    rw [put3s_at, if_neg (fun c => h ⟨c.1, c.2.1⟩), zero_mul]

/-- C43: the `LogScale` Hessians are the derivatives of the Jacobians. -/
theorem C43_log_hess (x : ℕ → ℝ) :
    (PosDiag n x → IsHess (matSizeToHvSize n) (matSizeToHvSize n) (lsJacFwd n) (lsHessFwd n x) x) ∧
    IsHess (matSizeToHvSize n) (matSizeToHvSize n) (lsJacRvs n) (lsHessRvs n x) x := by
  constructor
  · intro hx X x' hX h0 q hq p hp'
    beta_reduce
    rw [lsHessFwd, put3s_dot hp']
    simp only [lsJacFwd, scatter2_zip_self]
    by_cases h : p ∈ diagInds n ∧ q = p
    · obtain ⟨h, rfl⟩ := h
      simp only [h, true_and, if_true]
      have hne : X 0 q ≠ 0 := by rw [h0]; exact (hx.mem h).ne'
      have hne' : x q ≠ 0 := (hx.mem h).ne'
      refine ((hasDerivAt_const (0 : ℝ) (1 : ℝ)).fun_div (hX q hp') hne).congr_deriv ?_
      rw [h0]; field_simp; ring
    · rw [if_neg h]
      simp only [show ¬ (p = q ∧ p ∈ diagInds n) from fun c => h ⟨c.2, c.1.symm⟩, if_false]
      exact hasDerivAt_const _ _
  · intro X x' hX h0 q hq p hp'
    beta_reduce
    rw [lsHessRvs, put3s_dot hp']
    simp only [lsJacRvs, scatter2_zip_self]
    by_cases h : p ∈ diagInds n ∧ q = p
    · obtain ⟨h, rfl⟩ := h
      simp only [h, true_and, if_true]
      refine ((hX q hp').exp).congr_deriv ?_
      rw [h0]
    · rw [if_neg h]
      simp only [show ¬ (p = q ∧ p ∈ diagInds n) from fun c => h ⟨c.2, c.1.symm⟩, if_false]
      exact hasDerivAt_const _ _

theorem posDiag_eventually {X : ℝ → ℕ → ℝ} {x' x : ℕ → ℝ} (hX : PathN (matSizeToHvSize n) X x')
    (h0 : X 0 = x) (hx : PosDiag n x) : ∀ᶠ t in nhds (0 : ℝ), PosDiag n (X t) := by
  have : ∀ k ∈ Finset.range n, ∀ᶠ t in nhds (0 : ℝ), 0 < X t (hp n k k) := fun k hk => by
    have hk' := Finset.mem_range.1 hk
    exact (hX _ (hp_lt le_rfl hk')).continuousAt.eventually
      (lt_mem_nhds (by beta_reduce; rw [h0]; exact hx k hk'))
  filter_upwards [(Filter.eventually_all_finset _).2 this] with t ht k hk
  exact ht k (Finset.mem_range.2 hk)

/-- C43: the two reported Jacobians are inverse matrices at corresponding points. -/
theorem C43_jac_inverse (x : ℕ → ℝ) (hx : PosDiag n x) (k p : ℕ) (hk : k < matSizeToHvSize n)
    (hp' : p < matSizeToHvSize n) :
    ∑ q ∈ Finset.range (matSizeToHvSize n), ccJacRvs n (ccFwd n x) k q * ccJacFwd n x q p =
      if k = p then 1 else 0 :=
  jac_inverse (PosDiag n) (C43_jac_fwd x hx) (C43_jac_rvs _ (C43_posDiag x hx).1)
    (fun _ _ hX h0 => posDiag_eventually hX h0 hx) (fun z hz q hq => C43_rvs_fwd z hz q hq) k p hk hp'

/-! ## examples -/

/-- A half-vectorised `2 × 2` covariance matrix with positive diagonal. -/
example : PosDiag 2 (fun p => if p = 0 then 4 else if p = 1 then 1 else 9) := by
  intro k hk
  beta_reduce
  split_ifs <;> norm_num

example : (diagInds 3, trilInds 3, drPerm 3, dcPerm 3) =
    ([0, 3, 5], [1, 2, 4], [0, 3, 0, 5, 3, 5], [1, 1, 2, 2, 4, 4]) := by decide

end Verif.Transf
