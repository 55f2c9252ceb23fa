import Verif.Like.Lane
import Verif.Like.OldOlsProps

namespace Verif.Like.OldOls
open Matrix Verif.Fa Verif.Like Verif.Mv.Mvols
variable {n p q : ℕ}

/-- Spec: the `t` statistics of a response. -/
noncomputable def tOf (X : Mat n p) (z : Fin n → ℝ) (j : Fin p) : ℝ := ols X z j / √(Ols.rss X z (ols X z) / ((n : ℝ) - p) * (Xᵀ * X)⁻¹ j j)

/-- Spec: `d` at the places `ixc`, zero elsewhere. -/
def embed (ixc : Fin q → Fin p) (d : Fin q → ℝ) (j : Fin p) : ℝ := ∑ k, if ixc k = j then d k else 0

theorem embed_mul (X : Mat n p) (ixc : Fin q → Fin p) (d : Fin q → ℝ) : X *ᵥ embed ixc d = X.submatrix id ixc *ᵥ d := by
  funext i
  simp only [mulVec, dotProduct, embed, submatrix_apply, id, Finset.mul_sum]
  rw [Finset.sum_comm]
  refine Finset.sum_congr rfl fun k _ => ?_
  simp [Finset.sum_ite_eq]

theorem embed_off (ixc : Fin q → Fin p) (d : Fin q → ℝ) (j : Fin p) (hj : ∀ k, ixc k ≠ j) : embed ixc d j = 0 :=
  Finset.sum_eq_zero fun k _ => if_neg (hj k)

theorem ols_shift {X : Mat n p} (hu : IsUnit (Xᵀ * X).det) (z : Fin n → ℝ) (d : Fin p → ℝ) : ols X (z + X *ᵥ d) = ols X z + d := by
  rw [ols, ols, mulVec_add, mulVec_add, mulVec_mulVec d, mulVec_mulVec d, nonsing_inv_mul _ hu, one_mulVec]

theorem tOf_shift {X : Mat n p} (hu : IsUnit (Xᵀ * X).det) (z : Fin n → ℝ) (d : Fin p → ℝ) (j : Fin p) (hj : d j = 0) :
    tOf X (z + X *ᵥ d) j = tOf X z j := by
  have h1 : Ols.rss X (z + X *ᵥ d) (ols X z + d) = Ols.rss X z (ols X z) := by
    rw [Ols.rss, Ols.rss, mulVec_add, add_sub_add_right_eq_sub]
  rw [tOf, tOf, ols_shift hu, h1, Pi.add_apply, hj, add_zero]

theorem tOf_scale (X : Mat n p) (z : Fin n → ℝ) (c : ℝ) (hc : c ≠ 0) (j : Fin p) : |tOf X (c • z) j| = |tOf X z j| := by
  have h0 : ols X (c • z) = c • ols X z := by rw [ols, ols, mulVec_smul, mulVec_smul]
  have h1 : Ols.rss X (c • z) (c • ols X z) = c ^ 2 * Ols.rss X z (ols X z) := by
    rw [Ols.rss, Ols.rss, mulVec_smul, ← smul_sub, smul_dotProduct, dotProduct_smul, smul_eq_mul, smul_eq_mul]; ring
  rw [tOf, tOf, h0, h1, show c ^ 2 * Ols.rss X z (ols X z) / ((n : ℝ) - p) * (Xᵀ * X)⁻¹ j j =
    c ^ 2 * (Ols.rss X z (ols X z) / ((n : ℝ) - p) * (Xᵀ * X)⁻¹ j j) by ring, Real.sqrt_mul (sq_nonneg c), Real.sqrt_sq_eq_abs, Pi.smul_apply,
    smul_eq_mul, abs_div, abs_div, abs_mul, abs_mul, abs_abs, mul_div_mul_left _ _ (abs_ne_zero.2 hc)]

theorem gram_sub (X : Mat n p) (ixc : Fin q → Fin p) : (X.submatrix id ixc)ᵀ * X.submatrix id ixc = (Xᵀ * X).submatrix ixc ixc := by
  ext i j
  simp [mul_apply]

/-- The columns that are not of interest have a factor when the design has. -/
theorem nuisance_chol {chol : ∀ k, Mat k k → Option (Mat k k)} (hc : ∀ k, CholOk (chol k)) {X : Mat n p} {L : Mat p p}
    (hL : chol p (Xᵀ * X) = some L) {ixc : Fin q → Fin p} (hi : Function.Injective ixc) :
    ∃ Lc, chol q ((X.submatrix id ixc)ᵀ * X.submatrix id ixc) = some Lc := by
  obtain ⟨-, -, -, -, a5, -⟩ := chol_facts (hc p) hL
  refine (hc q).total _ ?_
  rw [gram_sub]
  exact a5.submatrix hi

/-- **C245** The observed statistics are those of the least-squares fit. -/
theorem C245_observed {chol : ∀ k, Mat k k → Option (Mat k k)} (hc : ∀ k, CholOk (chol k)) {X : Mat n p} {L : Mat p p}
    (hL : chol p (Xᵀ * X) = some L) (y : Fin n → ℝ) : tValues chol X y = some (tOf X y) := by
  rw [tValues, (C155_fit (hc p) hL y).2]
  rfl

/-- **C245** The response of a round: the fit of the columns that are not of interest and their permuted residuals. -/
theorem C245_response {chol : ∀ k, Mat k k → Option (Mat k k)} (hc : ∀ k, CholOk (chol k)) {X : Mat n p} {L : Mat p p}
    (hL : chol p (Xᵀ * X) = some L) {ixc : Fin q → Fin p} (hi : Function.Injective ixc) (y : Fin n → ℝ) (perm : Equiv.Perm (Fin n)) :
    laneResponse chol X ixc y perm =
      some (X.submatrix id ixc *ᵥ ols (X.submatrix id ixc) y + fun i => olsResid (X.submatrix id ixc) y (perm i)) := by
  obtain ⟨Lc, hLc⟩ := nuisance_chol hc hL hi
  rw [laneResponse]
  simp only [(C155_fit (hc q) hLc y).2]
  rfl

theorem laneRound_eq {chol : ∀ k, Mat k k → Option (Mat k k)} (hc : ∀ k, CholOk (chol k)) {X : Mat n p} {L : Mat p p}
    (hL : chol p (Xᵀ * X) = some L) {ixc : Fin q → Fin p} (hi : Function.Injective ixc) (y : Fin n → ℝ) (perm : Equiv.Perm (Fin n)) :
    laneRound chol X ixc y perm =
      some (tOf X (X.submatrix id ixc *ᵥ ols (X.submatrix id ixc) y + fun i => olsResid (X.submatrix id ixc) y (perm i))) := by
  obtain ⟨-, -, a3, -, -, -⟩ := chol_facts (hc p) hL
  rw [laneRound, C245_response hc hL hi]
  simp only [Option.bind_eq_bind, Option.bind_some, hL, a3, ← (C155_fit (hc p) hL _).1, (C155_fit (hc p) hL _).2]
  rfl

/-- **C245** A round gives the variables of interest the statistics of the permuted residuals alone: the fit that is added back has no influence
on them. -/
theorem C245_round {chol : ∀ k, Mat k k → Option (Mat k k)} (hc : ∀ k, CholOk (chol k)) {X : Mat n p} {L : Mat p p}
    (hL : chol p (Xᵀ * X) = some L) {ixc : Fin q → Fin p} (hi : Function.Injective ixc) (y : Fin n → ℝ) (perm : Equiv.Perm (Fin n)) :
    ∃ t, laneRound chol X ixc y perm = some t ∧
      ∀ j, (∀ k, ixc k ≠ j) → t j = tOf X (fun i => olsResid (X.submatrix id ixc) y (perm i)) j := by
  obtain ⟨-, -, -, -, -, a6⟩ := chol_facts (hc p) hL
  refine ⟨_, laneRound_eq hc hL hi y perm, fun j hj => ?_⟩
  rw [← embed_mul, add_comm]
  exact tOf_shift a6 _ _ _ (embed_off _ _ _ hj)

/-- **C245** The values do not depend on the coefficients of the other columns: adding any combination of them to the response changes no
observed statistic of interest and no statistic of a round. -/
theorem C245_nuisance {chol : ∀ k, Mat k k → Option (Mat k k)} (hc : ∀ k, CholOk (chol k)) {X : Mat n p} {L : Mat p p}
    (hL : chol p (Xᵀ * X) = some L) {ixc : Fin q → Fin p} (hi : Function.Injective ixc) {m : ℕ} (vars : Fin m → Fin p)
    (hv : ∀ a k, ixc k ≠ vars a) (y : Fin n → ℝ) (d : Fin q → ℝ) (perms : List (Equiv.Perm (Fin n))) (j : Fin m) :
    freedmanLane chol X vars ixc (y + X.submatrix id ixc *ᵥ d) perms j = freedmanLane chol X vars ixc y perms j := by
  obtain ⟨-, -, -, -, -, a6⟩ := chol_facts (hc p) hL
  obtain ⟨Lc, hLc⟩ := nuisance_chol hc hL hi
  obtain ⟨-, -, -, -, -, c6⟩ := chol_facts (hc q) hLc
  have hr : olsResid (X.submatrix id ixc) (y + X.submatrix id ixc *ᵥ d) = olsResid (X.submatrix id ixc) y := by
    rw [olsResid, olsResid, ols_shift c6, mulVec_add, add_sub_add_right_eq_sub]
  have hz : ∀ perm : Equiv.Perm (Fin n), (X.submatrix id ixc *ᵥ ols (X.submatrix id ixc) (y + X.submatrix id ixc *ᵥ d) +
      fun i => olsResid (X.submatrix id ixc) (y + X.submatrix id ixc *ᵥ d) (perm i)) =
      (X.submatrix id ixc *ᵥ ols (X.submatrix id ixc) y + fun i => olsResid (X.submatrix id ixc) y (perm i)) + X *ᵥ embed ixc d := by
    intro perm
    rw [hr, ols_shift c6, mulVec_add, embed_mul]
    abel
  have hmap : ∀ (f : Equiv.Perm (Fin n) → Fin p → ℝ) (l : List (Equiv.Perm (Fin n))), l.mapM (fun x => some (f x)) = some (l.map f) := by
    intro f l
    induction l with
    | nil => rfl
    | cons a l ih => rw [List.mapM_cons, ih]; rfl
  have e : ∀ y', laneRound chol X ixc y' = fun perm =>
      some (tOf X (X.submatrix id ixc *ᵥ ols (X.submatrix id ixc) y' + fun i => olsResid (X.submatrix id ixc) y' (perm i))) :=
    fun y' => funext fun perm => laneRound_eq hc hL hi y' perm
  simp only [freedmanLane, C245_observed hc hL, e, hmap, Option.bind_eq_bind, Option.bind_some, List.map_map]
  have h1 : (fun k => |tOf X (y + X.submatrix id ixc *ᵥ d) (vars k)|) = fun k => |tOf X y (vars k)| := by
    funext k
    rw [← embed_mul, tOf_shift a6 _ _ _ (embed_off _ _ _ (hv k))]
  rw [h1]
  congr 2
  refine List.map_congr_left fun perm _ => ?_
  funext k
  simp only [Function.comp_apply]
  rw [hz, tOf_shift a6 _ _ _ (embed_off _ _ _ (hv k))]

/-- **C245** Nor on the unit of the response, or its sign. -/
theorem C245_unit {chol : ∀ k, Mat k k → Option (Mat k k)} (hc : ∀ k, CholOk (chol k)) {X : Mat n p} {L : Mat p p}
    (hL : chol p (Xᵀ * X) = some L) {ixc : Fin q → Fin p} (hi : Function.Injective ixc) (y : Fin n → ℝ) (c : ℝ) (h0 : c ≠ 0)
    (perm : Equiv.Perm (Fin n)) :
    ∃ t t', laneRound chol X ixc y perm = some t ∧ laneRound chol X ixc (c • y) perm = some t' ∧ (∀ j, |t' j| = |t j|) ∧
      ∀ j, |tOf X (c • y) j| = |tOf X y j| := by
  refine ⟨_, _, laneRound_eq hc hL hi y perm, laneRound_eq hc hL hi _ perm, fun j => ?_, tOf_scale X y c h0⟩
  set Xc := X.submatrix id ixc
  have h1 : ols Xc (c • y) = c • ols Xc y := by rw [ols, ols, mulVec_smul, mulVec_smul]
  have h2 : (Xc *ᵥ ols Xc (c • y) + fun i => olsResid Xc (c • y) (perm i)) = c • (Xc *ᵥ ols Xc y + fun i => olsResid Xc y (perm i)) := by
    funext i
    simp only [olsResid, h1, mulVec_smul, Pi.add_apply, Pi.smul_apply, Pi.sub_apply, smul_eq_mul]
    ring
  rw [h2, tOf_scale X _ c h0]

/-- **C245** With a constant column as the only other one, a round is a round of the plain permutation test. -/
theorem C245_intercept {chol : ∀ k, Mat k k → Option (Mat k k)} (hc : ∀ k, CholOk (chol k)) {X : Mat n p} {L : Mat p p}
    (hL : chol p (Xᵀ * X) = some L) (ixc : Fin 1 → Fin p) (h1 : ∀ i, X i (ixc 0) = 1) (y : Fin n → ℝ) (perm : Equiv.Perm (Fin n)) :
    laneRound chol X ixc y perm = permRound chol X y perm := by
  obtain ⟨-, -, a3, -, -, -⟩ := chol_facts (hc p) hL
  have hi : Function.Injective ixc := fun a b _ => Subsingleton.elim a b
  rw [laneRound_eq hc hL hi, permRound]
  simp only [Option.bind_eq_bind, Option.bind_some, hL, a3, ← (C155_fit (hc p) hL _).1, (C155_fit (hc p) hL _).2]
  have : (X.submatrix id ixc *ᵥ ols (X.submatrix id ixc) y + fun i => olsResid (X.submatrix id ixc) y (perm i)) = fun i => y (perm i) := by
    funext i
    simp [olsResid, mulVec, dotProduct, h1]
  rw [this]
  rfl

/-- **C245** The identity gives the observed statistics. -/
theorem C245_identity {chol : ∀ k, Mat k k → Option (Mat k k)} (hc : ∀ k, CholOk (chol k)) {X : Mat n p} {L : Mat p p}
    (hL : chol p (Xᵀ * X) = some L) {ixc : Fin q → Fin p} (hi : Function.Injective ixc) (y : Fin n → ℝ) :
    laneRound chol X ixc y 1 = tValues chol X y := by
  rw [laneRound_eq hc hL hi, C245_observed hc hL]
  congr 2
  funext i
  simp [olsResid]

/-- Three observations, a constant and a trend. -/
def laneX : Mat 3 2 := of fun i j => if j = 0 then 1 else (i : ℝ) - 1

theorem laneX_gram : laneXᵀ * laneX = diagonal ![3, 2] := by
  ext i j
  fin_cases i <;> fin_cases j <;> simp [laneX, mul_apply, Fin.sum_univ_three] <;> norm_num

theorem laneX_inv : (laneXᵀ * laneX)⁻¹ = diagonal ![1 / 3, 1 / 2] := by
  rw [laneX_gram]
  refine inv_eq_right_inv ?_
  rw [diagonal_mul_diagonal]
  ext i j
  fin_cases i <;> fin_cases j <;> simp

theorem laneX_ols (y : Fin 3 → ℝ) : ols laneX y = ![(y 0 + y 1 + y 2) / 3, (y 2 - y 0) / 2] := by
  rw [ols, laneX_inv]
  funext j
  fin_cases j <;> simp [laneX, mulVec, dotProduct, Fin.sum_univ_three, diagonal_apply] <;> ring

theorem laneX_rss (y : Fin 3 → ℝ) : Ols.rss laneX y (ols laneX y) = (y 0 - 2 * y 1 + y 2) ^ 2 / 6 := by
  have e : ∀ i, (y - laneX *ᵥ ols laneX y) i = y i - ((y 0 + y 1 + y 2) / 3 + ((i : ℝ) - 1) * ((y 2 - y 0) / 2)) := by
    intro i
    rw [Pi.sub_apply, mulVec, dotProduct, Fin.sum_univ_two, laneX_ols]
    have h0 : laneX i 0 = 1 := by simp [laneX]
    have h1 : laneX i 1 = (i : ℝ) - 1 := by simp [laneX]
    rw [h0, h1, one_mul]
    rfl
  rw [Ols.rss, dotProduct, Fin.sum_univ_three, e, e, e]
  simp only [Fin.val_zero, Fin.val_one, Fin.val_two]
  push_cast
  ring

/-- **C245** The comparison is strict and the observed arrangement is not counted.  For the response `(0, 0, 1)` against a trend no permutation
has a greater statistic, so the value is zero whatever permutations are drawn, although a third of the arrangements are as extreme with the other
sign and a third are the observed one. -/
theorem C245_strict_violated {chol : ∀ k, Mat k k → Option (Mat k k)} (hc : ∀ k, CholOk (chol k)) (perms : List (Equiv.Perm (Fin 3))) :
    freedmanLane chol laneX (fun _ : Fin 1 => 1) (fun _ : Fin 1 => 0) ![0, 0, 1] perms 0 = some (0, 0) ∧
      ∀ perm : Equiv.Perm (Fin 3), perm 1 ≠ 2 → |tOf laneX (fun i => (![0, 0, 1] : Fin 3 → ℝ) (perm i)) 1| = |tOf laneX ![0, 0, 1] 1| := by
  have hu : IsUnit (laneXᵀ * laneX).det := by rw [laneX_gram, det_diagonal]; simp
  obtain ⟨L, hL⟩ := (hc 2).total _ (posDef_gram hu)
  have hobs : |tOf laneX ![0, 0, 1] 1| = |1 / 2 / √(1 / 6 * (1 / 2))| := by
    have h0 : (![0, 0, 1] : Fin 3 → ℝ) 0 = 0 := rfl
    have h1 : (![0, 0, 1] : Fin 3 → ℝ) 1 = 0 := rfl
    have h2 : (![0, 0, 1] : Fin 3 → ℝ) 2 = 1 := rfl
    rw [tOf, laneX_rss, laneX_ols, laneX_inv, h0, h1, h2]
    norm_num
  have hpt : ∀ perm : Equiv.Perm (Fin 3), (perm 1 = 2 ∧ tOf laneX (fun i => (![0, 0, 1] : Fin 3 → ℝ) (perm i)) 1 = 0) ∨
      (perm 1 ≠ 2 ∧ |tOf laneX (fun i => (![0, 0, 1] : Fin 3 → ℝ) (perm i)) 1| = |1 / 2 / √(1 / 6 * (1 / 2))|) := by
    intro perm
    have hcase : (perm 0 ≠ 2 ∧ perm 1 = 2 ∧ perm 2 ≠ 2) ∨ (perm 0 = 2 ∧ perm 1 ≠ 2 ∧ perm 2 ≠ 2) ∨ (perm 0 ≠ 2 ∧ perm 1 ≠ 2 ∧ perm 2 = 2) := by
      revert perm; decide
    have hv : ∀ k : Fin 3, (![0, 0, 1] : Fin 3 → ℝ) k = if k = 2 then 1 else 0 := by intro k; fin_cases k <;> simp
    rw [tOf, laneX_rss, laneX_ols, laneX_inv]
    rcases hcase with ⟨a, b, c⟩ | ⟨a, b, c⟩ | ⟨a, b, c⟩
    · left; refine ⟨b, ?_⟩; simp [hv, a, c]
    · right; refine ⟨b, ?_⟩; simp only [hv, a, b, c]; norm_num
    · right; refine ⟨b, ?_⟩; simp only [hv, a, b, c]; norm_num
  refine ⟨?_, fun perm h => ?_⟩
  · have hi : Function.Injective (fun _ : Fin 1 => (0 : Fin 2)) := fun a b _ => Subsingleton.elim a b
    have hround : ∀ perm, laneRound chol laneX (fun _ : Fin 1 => (0 : Fin 2)) ![0, 0, 1] perm =
        some (tOf laneX fun i => (![0, 0, 1] : Fin 3 → ℝ) (perm i)) := by
      intro perm
      rw [laneRound_eq hc hL hi]
      congr 2
      funext i
      simp [olsResid, mulVec, dotProduct, laneX]
    have hmap : ∀ l : List (Equiv.Perm (Fin 3)), l.mapM (laneRound chol laneX (fun _ : Fin 1 => (0 : Fin 2)) ![0, 0, 1]) =
        some (l.map fun perm => tOf laneX fun i => (![0, 0, 1] : Fin 3 → ℝ) (perm i)) := by
      intro l
      induction l with
      | nil => rfl
      | cons a l ih => rw [List.mapM_cons, ih, hround]; rfl
    rw [freedmanLane, C245_observed hc hL, hmap]
    simp only [Option.bind_eq_bind, Option.bind_some, List.map_map]
    show some _ = some _
    congr 1
    rw [(Ols.C153_tallies _ _ _).1]
    have hle : ∀ perm : Equiv.Perm (Fin 3), ¬ |tOf laneX ![0, 0, 1] 1| < |tOf laneX (fun i => (![0, 0, 1] : Fin 3 → ℝ) (perm i)) 1| := by
      intro perm
      rw [hobs]
      rcases hpt perm with ⟨-, e⟩ | ⟨-, e⟩
      · rw [e, abs_zero]; exact not_lt.2 (abs_nonneg _)
      · rw [e]; exact lt_irrefl _
    simp [hle]
  · rcases hpt perm with ⟨e, -⟩ | ⟨-, e⟩
    · exact absurd e h
    · rw [e, hobs]

end Verif.Like.OldOls
