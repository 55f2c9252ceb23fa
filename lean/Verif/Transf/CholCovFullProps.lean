import Verif.Transf.CorrCholDerivProps
import Verif.Transf.ComposeProps
import Verif.Transf.UcholDerivProps
/-! # C81: derivatives of the composed covariance parameterisation -/
namespace Verif.Transf
open Verif.Np Verif.Vec Verif.Index Verif.Lin Real

variable {n m : ℕ}

/-! ## the unconstrained stage on arrays -/

theorem pathD_zArr {X : ℝ → ℕ → ℝ} {x' : ℕ → ℝ} (hX : PathN m X x') :
    PathD m (fun t => zArr (X t)) (zArr x') := fun k _ h1 => hX k.toNat (by omega)

theorem dot_zArr (g : ℤ → ℝ) (v : ℕ → ℝ) : dot m g (zArr v) = dotN m (fun q => g q) v :=
  Finset.sum_congr rfl fun q _ => by rw [zArr]; rfl

theorem uc_jac_fwd (hm : 2 * m = n * (n - 1)) (hn : 1 ≤ n) (x : ℕ → ℝ) (hx : InBalls n (zArr x)) :
    IsJac m m (ucTr m).fwd ((ucTr m).jacF x) x := by
  intro X x' hX h0 k hk
  have := C75_jac_fwd hm hn _ _ (pathD_zArr hX) (by rw [h0]; exact hx) k (by omega) (by omega)
  beta_reduce at this
  rw [dot_zArr, h0] at this
  exact this

theorem uc_jac_rvs (hm : 2 * m = n * (n - 1)) (hn : 1 ≤ n) (x : ℕ → ℝ) (hx : InCube m (zArr x)) :
    IsJac m m (ucTr m).rvs ((ucTr m).jacR x) x := by
  intro X x' hX h0 k hk
  have := C75_jac_rvs hm hn _ _ (pathD_zArr hX) (by rw [h0]; exact hx) k (by omega) (by omega)
  beta_reduce at this
  rw [dot_zArr, h0] at this
  exact this

theorem uc_hess_fwd (hm : 2 * m = n * (n - 1)) (hn : 1 ≤ n) (x : ℕ → ℝ) (hx : InBalls n (zArr x)) :
    IsHess m m (ucTr m).jacF ((ucTr m).hessF x) x := by
  intro X x' hX h0 p _ k hk
  have := C75_hess_fwd hm hn _ _ (pathD_zArr hX) (by rw [h0]; exact hx) p k (by omega) (by omega)
  beta_reduce at this
  rw [dot_zArr, h0] at this
  exact this

theorem uc_hess_rvs (hm : 2 * m = n * (n - 1)) (hn : 1 ≤ n) (x : ℕ → ℝ) (hx : InCube m (zArr x)) :
    IsHess m m (ucTr m).jacR ((ucTr m).hessR x) x := by
  intro X x' hX h0 p _ k hk
  have := C75_hess_rvs hm hn _ _ (pathD_zArr hX) (by rw [h0]; exact hx) p k (by omega) (by omega)
  beta_reduce at this
  rw [dot_zArr, h0] at this
  exact this

/-! ## the points at which the stages are evaluated -/

theorem gather_ix (y : ℕ → ℝ) {r s : ℕ} (h1 : s < r) (h2 : r < n) :
    gatherN (trilInds n) y (ix n r s) = y (hp n r s) := by rw [gatherN, getD_ix h1 h2]

theorem RV_gather (y : ℕ → ℝ) {i j : ℕ} (hi : i < n) (hj : j < n) :
    RV n (gatherN (trilInds n) y) i j = corrOf n y i j := by
  have key : ∀ i j, j < i → i < n → RV n (gatherN (trilInds n) y) i j = corrOf n y i j := by
    intro i j a b
    rw [RV, if_neg (by omega), gather_ix y a b, corrOf, if_neg (by omega), symM_low a.le]
  rcases lt_trichotomy i j with g | rfl | g
  · rw [RV_symm, key j i g hj, corrOf, corrOf, if_neg (by omega), if_neg (by omega), symM_symm]
  · rw [RV, corrOf, if_pos rfl, if_pos rfl]
  · exact key i j g hi

theorem fwdV_balls (chol) (hc : CholOk chol) (hn : 1 ≤ n) {x : ℕ → ℝ} (h : PDV n x) : BV n (fwdV chol n x) := by
  obtain ⟨L, l1, -, l3⟩ := fwdV_defined chol hc hn h
  intro i hi
  have hp := l1.prod i i hi hi
  rw [RV, if_pos rfl, ← Finset.sum_range_add_sum_Ico _ (show i + 1 ≤ n by omega),
    Finset.sum_eq_zero (s := Finset.Ico (i + 1) n), add_zero, Finset.sum_range_succ] at hp
  · have e : ∑ j ∈ Finset.range i, LV n (fwdV chol n x) i j ^ 2 = ∑ j ∈ Finset.range i, L i j * L i j :=
      Finset.sum_congr rfl fun j hj => by rw [LV, l3 i j (Finset.mem_range.1 hj) hi, sq]
    have := mul_pos (l1.diag i hi) (l1.diag i hi)
    rw [e]; linarith
  · intro c hc'
    rw [Finset.mem_Ico] at hc'
    rw [l1.low i c hi hc'.2 (by omega), mul_zero]

theorem BV_congr {x y : ℕ → ℝ} (h : ∀ k, k < (trilInds n).length → x k = y k) (hx : BV n x) : BV n y := by
  intro i hi
  refine lt_of_eq_of_lt (Finset.sum_congr rfl fun j hj => ?_) (hx i hi)
  rw [LV, LV, h _ (ix_lt (Finset.mem_range.1 hj) hi)]

theorem BV_iff_balls (z : ℕ → ℝ) :
    BV n (gatherN (trilInds n) z) ↔ InBalls n (zArr (gatherN (trilInds n) z)) := by
  refine forall₂_congr fun i hi => ?_
  have : rowSum (zArr (gatherN (trilInds n) z)) (pos n i) i =
      ∑ j ∈ Finset.range i, LV n (gatherN (trilInds n) z) i j ^ 2 :=
    Finset.sum_congr rfl fun l hl => by
      rw [zArr_gather_pos (Finset.mem_range.1 hl) hi, LV, gather_ix z (Finset.mem_range.1 hl) hi]
  rw [this]

theorem gather_map (y : ℕ → ℝ) : (trilInds n).map y = listN (trilInds n).length (gatherN (trilInds n) y) := by
  unfold listN gatherN
  apply List.ext_getElem
  · simp
  · intro k h1 h2
    simp only [List.length_map] at h1
    simp [h1]

/-- Facts about the four intermediate forward points. -/
structure FwdPts (chol : ℕ → (ℕ → ℕ → ℝ) → Option (ℕ → ℕ → ℝ)) (n : ℕ) (x : ℕ → ℝ) : Prop where
  diag0 : PosDiag n x
  pd : PDV n (gatherN (trilInds n) (ccFwd n x))
  balls : InBalls n (zArr (gatherN (trilInds n) (odMap n (fwdV chol n) (ccFwd n x))))
  cube : ∀ k, k < (trilInds n).length → gatherN (trilInds n) (odMap n (ucFwdN (trilInds n).length)
    (odMap n (fwdV chol n) (ccFwd n x))) k ^ 2 < 1
  diag4 : PosDiag n (odMap n tanhFwd (odMap n (ucFwdN (trilInds n).length)
    (odMap n (fwdV chol n) (ccFwd n x))))

theorem fwdPts (chol) (hc : CholOk chol) (hn : 1 ≤ n) (x : ℕ → ℝ) (hx : PDOn n (symM n x)) :
    FwdPts chol n x := by
  obtain ⟨L, hL⟩ := (pd_iff_chol (symM_symm n x)).1 hx
  have hd := hL.posDiag
  obtain ⟨L', hL'⟩ := corrOf_chol hL
  have pd : PDV n (gatherN (trilInds n) (ccFwd n x)) :=
    (pd_iff_chol (RV_symm _)).2 ⟨L', hL'.congr fun i j hi hj => (RV_gather _ hi hj).symm⟩
  have balls : InBalls n (zArr (gatherN (trilInds n) (odMap n (fwdV chol n) (ccFwd n x)))) := by
    rw [← BV_iff_balls]
    exact BV_congr (fun k hk => (gather_odMap hk).symm) (fwdV_balls chol hc hn pd)
  refine ⟨hd, pd, balls, fun k hk => ?_, fun k hk => ?_⟩
  · rw [gather_odMap hk]
    exact C41_fwd_range (tril_two n) hn _ balls k (by omega) (by omega)
  · rw [odMap_off (diag_not_tril hk), odMap_off (diag_not_tril hk), odMap_off (diag_not_tril hk)]
    exact (C43_posDiag x hd).1 k hk

/-- C81: on positive definite matrices the stage list computes the map of C77. -/
theorem C81_fwd (chol inv) (hc : CholOk chol) (hn : 1 ≤ n) (x : ℕ → ℝ) (hx : PDOn n (symM n x)) :
    cholCovFwd chol n x = some (compFwd (cholCovTs chol inv n) x) := by
  have hp := fwdPts chol hc hn x hx
  obtain ⟨L, -, l2, -⟩ := fwdV_defined chol hc hn hp.pd
  simp only [cholCovFwd, odMapO, gather_map, l2, Option.bind_eq_bind, Option.bind_some, Option.pure_def]
  simp only [compFwd, cholCovTs, List.foldl_cons, List.foldl_nil, ccTr, odTr, corrTr, ucTr, tanhTr, lsTr]
  rw [show odMap n (fwdV chol n) (ccFwd n x) = maskSet (trilInds n) (ccFwd n x)
    (fun k => (vecl L n).getD k 0) by rw [odMap]; unfold fwdV; rw [l2]; rfl]

theorem fwd_stages (chol inv) (hc : CholOk chol) (hn : 1 ≤ n) (x : ℕ → ℝ) (hx : PDOn n (symM n x))
    (j : ℕ) (hj : j < (cholCovTs chol inv n).length) :
    IsJac (matSizeToHvSize n) (matSizeToHvSize n) (cholCovTs chol inv n)[j].fwd
      ((cholCovTs chol inv n)[j].jacF (compFwd ((cholCovTs chol inv n).take j) x))
      (compFwd ((cholCovTs chol inv n).take j) x) ∧
    IsHess (matSizeToHvSize n) (matSizeToHvSize n) (cholCovTs chol inv n)[j].jacF
      ((cholCovTs chol inv n)[j].hessF (compFwd ((cholCovTs chol inv n).take j) x))
      (compFwd ((cholCovTs chol inv n).take j) x) := by
  have hp := fwdPts chol hc hn x hx
  have hj' : j < 5 := hj
  interval_cases j
  · exact ⟨C43_jac_fwd x hp.diag0, C43_hess_fwd x hp.diag0⟩
  · exact ⟨C77_mask_jac _ _ _ (C80_jac_fwd chol hc hn _ hp.pd),
      C77_mask_hess _ _ _ (C80_hess_fwd hn _ hp.pd)⟩
  · exact ⟨C77_mask_jac _ _ _ (uc_jac_fwd (tril_two n) hn _ hp.balls),
      C77_mask_hess _ _ _ (uc_hess_fwd (tril_two n) hn _ hp.balls)⟩
  · obtain ⟨-, -, -, -, h⟩ := C78_tanh (n := (trilInds n).length)
      (gatherN (trilInds n) (odMap n (ucFwdN (trilInds n).length) (odMap n (fwdV chol n) (ccFwd n x))))
    exact ⟨C77_mask_jac _ _ _ (h hp.cube).2.1, C77_mask_hess _ _ _ (h hp.cube).2.2⟩
  · exact ⟨(C43_log_jac _).1 hp.diag4, (C43_log_hess _).1 hp.diag4⟩

/-- C81: the composed forward Jacobian is the Jacobian of the forward map at every positive definite
matrix. -/
theorem C81_jac_fwd (chol inv) (hc : CholOk chol) (hn : 1 ≤ n) (x : ℕ → ℝ) (hx : PDOn n (symM n x)) :
    IsJac (matSizeToHvSize n) (matSizeToHvSize n) (compFwd (cholCovTs chol inv n))
      (compJacFwd (matSizeToHvSize n) (cholCovTs chol inv n) x) x :=
  C44_jac_fwd _ _ x fun j hj => (fwd_stages chol inv hc hn x hx j hj).1

/-- C81: the composed forward Hessian is the second derivative at every positive definite matrix. -/
theorem C81_hess_fwd (chol inv) (hc : CholOk chol) (hn : 1 ≤ n) (x : ℕ → ℝ) (hx : PDOn n (symM n x)) :
    ∃ H, compHessFwd (matSizeToHvSize n) (cholCovTs chol inv n) x = some H ∧
      IsHess (matSizeToHvSize n) (matSizeToHvSize n)
        (compJacFwd (matSizeToHvSize n) (cholCovTs chol inv n)) H x :=
  C44_hess_fwd _ _ x (by simp [cholCovTs]) (fun j hj => (fwd_stages chol inv hc hn x hx j hj).1)
    fun j hj => (fwd_stages chol inv hc hn x hx j hj).2

/-! ## reverse -/

/-- Facts about the intermediate reverse points. -/
structure RvsPts (n : ℕ) (u : ℕ → ℝ) : Prop where
  cube : InCube (trilInds n).length (zArr (gatherN (trilInds n) (odMap n tanhRvs (lsRvs n u))))
  balls : BV n (gatherN (trilInds n) (odMap n (ucRvsN (trilInds n).length) (odMap n tanhRvs (lsRvs n u))))
  diag : PosDiag n (odMap n (rvsV n) (odMap n (ucRvsN (trilInds n).length) (odMap n tanhRvs (lsRvs n u))))

theorem rvsPts (u : ℕ → ℝ) : RvsPts n u := by
  have cube : InCube (trilInds n).length (zArr (gatherN (trilInds n) (odMap n tanhRvs (lsRvs n u)))) := by
    intro k h0 h1
    rw [zArr, gather_odMap (by omega)]
    exact tanh_sq _
  refine ⟨cube, fun i hi => ?_, fun k hk => ?_⟩
  · refine lt_of_eq_of_lt (Finset.sum_congr rfl fun l hl => ?_) (C41_rvs_range (tril_two n) _ cube i hi)
    have hl' := Finset.mem_range.1 hl
    rw [LV, gather_ix _ hl' hi, odMap, maskSet, if_pos (mem_tril_hp hl' hi), ucRvsN, idxOf_tril hl' hi]
  · rw [odMap_off (diag_not_tril hk), odMap_off (diag_not_tril hk), odMap_off (diag_not_tril hk)]
    exact C43_log_range u k hk

/-- C81: the stage list computes the reverse map of C77. -/
theorem C81_rvs (chol inv) (hn : 1 ≤ n) (u : ℕ → ℝ) :
    cholCovRvs n u = some (compRvs (cholCovTs chol inv n) u) := by
  simp only [cholCovRvs, odMapO, gather_map, rvsV_defined hn, Option.bind_eq_bind, Option.bind_some,
    Option.pure_def]
  simp only [compRvs, cholCovTs, List.reverse_cons, List.reverse_nil, List.nil_append, List.cons_append,
    List.foldl_cons, List.foldl_nil, ccTr, odTr, corrTr, ucTr, tanhTr, lsTr]
  have e : ∀ z, odMap n (rvsV n) z = maskSet (trilInds n) z fun k =>
      (vecl (corrR n (low (LV n (gatherN (trilInds n) z)))) n).getD k 0 := fun z => by
    rw [odMap]; unfold rvsV; rw [rvsV_defined hn]; rfl
  rw [e]

theorem rvs_stages (chol inv) (hv : InvOk inv) (hn : 1 ≤ n) (u : ℕ → ℝ)
    (j : ℕ) (hj : j < (cholCovTs chol inv n).reverse.length) :
    IsJac (matSizeToHvSize n) (matSizeToHvSize n) (cholCovTs chol inv n).reverse[j].rvs
      ((cholCovTs chol inv n).reverse[j].jacR
        (((cholCovTs chol inv n).reverse.take j).foldl (fun y t => t.rvs y) u))
      (((cholCovTs chol inv n).reverse.take j).foldl (fun y t => t.rvs y) u) ∧
    IsHess (matSizeToHvSize n) (matSizeToHvSize n) (cholCovTs chol inv n).reverse[j].jacR
      ((cholCovTs chol inv n).reverse[j].hessR
        (((cholCovTs chol inv n).reverse.take j).foldl (fun y t => t.rvs y) u))
      (((cholCovTs chol inv n).reverse.take j).foldl (fun y t => t.rvs y) u) := by
  have hp := rvsPts (n := n) u
  have hj' : j < 5 := by simpa [cholCovTs] using hj
  interval_cases j
  · exact ⟨(C43_log_jac _).2, (C43_log_hess _).2⟩
  · obtain ⟨-, -, h1, h2, -⟩ := C78_tanh (n := (trilInds n).length) (gatherN (trilInds n) (lsRvs n u))
    exact ⟨C77_mask_jac _ _ _ h1, C77_mask_hess _ _ _ h2⟩
  · exact ⟨C77_mask_jac _ _ _ (uc_jac_rvs (tril_two n) hn _ hp.cube),
      C77_mask_hess _ _ _ (uc_hess_rvs (tril_two n) hn _ hp.cube)⟩
  · exact ⟨C77_mask_jac _ _ _ (C80_jac_rvs inv hv hn _ hp.balls),
      C77_mask_hess _ _ _ (C80_hess_rvs inv hv hn _ hp.balls).2⟩
  · exact ⟨C43_jac_rvs _ hp.diag, C43_hess_rvs _ hp.diag⟩

/-- C81: the composed reverse Jacobian is the Jacobian of the reverse map at every real vector. -/
theorem C81_jac_rvs (chol inv) (hv : InvOk inv) (hn : 1 ≤ n) (u : ℕ → ℝ) :
    IsJac (matSizeToHvSize n) (matSizeToHvSize n) (compRvs (cholCovTs chol inv n))
      (compJacRvs (matSizeToHvSize n) (cholCovTs chol inv n) u) u :=
  C44_jac_rvs _ _ u fun j hj => (rvs_stages chol inv hv hn u j hj).1

/-- C81: the composed reverse Hessian is the second derivative at every real vector. -/
theorem C81_hess_rvs (chol inv) (hv : InvOk inv) (hn : 1 ≤ n) (u : ℕ → ℝ) :
    ∃ H, compHessRvs (matSizeToHvSize n) (cholCovTs chol inv n) u = some H ∧
      IsHess (matSizeToHvSize n) (matSizeToHvSize n)
        (compJacRvs (matSizeToHvSize n) (cholCovTs chol inv n)) H u :=
  C44_hess_rvs _ _ u (by simp [cholCovTs]) (fun j hj => (rvs_stages chol inv hv hn u j hj).1)
    fun j hj => (rvs_stages chol inv hv hn u j hj).2

/-- The hypothesis on the matrix is satisfiable: every reverse image qualifies. -/
example (chol) (hc : CholOk chol) : ∃ x, PDOn 3 (symM 3 x) := by
  obtain ⟨x, _, _, h, _⟩ := C77_surjective chol hc (n := 3) (by omega) fun _ => 0
  exact ⟨x, h⟩

end Verif.Transf
