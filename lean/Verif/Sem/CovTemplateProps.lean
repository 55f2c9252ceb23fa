import Verif.Sem.CovTemplate
import Mathlib.LinearAlgebra.Matrix.PosDef
import Mathlib.Tactic

/-!
C260: starting values, bounds and constraint of the covariance structure.
-/

namespace Verif.Sem
open Matrix Finset

/-- **C260** Free cells start at one on the diagonal of a symmetric matrix and at a hundredth elsewhere, whatever the fixed values; the other cells have their
fixed value, or zero. -/
theorem C260_cells (sym : Bool) (free : ℕ → ℕ → ℕ) (fixed : ℕ → ℕ → ℝ) (loc : ℕ → ℕ → Bool) (r c : ℕ) :
    (free r c ≠ 0 → sym = true → r = c → covTmpl sym free fixed loc r c = 1) ∧
      (free r c ≠ 0 → (sym = true → c < r) → covTmpl sym free fixed loc r c = 1 / 100) ∧
      (free r c = 0 → loc r c = true → covTmpl sym free fixed loc r c = fixed r c) ∧
      (free r c = 0 → loc r c = false → covTmpl sym free fixed loc r c = 0) := by
  refine ⟨fun h1 h2 h3 => ?_, fun h1 h2 => ?_, fun h1 h2 => ?_, fun h1 h2 => ?_⟩
  · rw [covTmpl, if_pos ⟨h1, fun _ => h3.ge⟩, if_pos ⟨h2, h3⟩]
  · rw [covTmpl, if_pos ⟨h1, fun h => (h2 h).le⟩, if_neg (fun h => by have := h2 h.1; omega)]
  · rw [covTmpl, if_neg (fun h => h.1 h1), if_pos h2]
  · rw [covTmpl, if_neg (fun h => h.1 h1), h2]; rfl

/-- **C260 (violated)** A value fixed only above the diagonal of a symmetric matrix is lost: the matrix read back has zero in both cells. -/
theorem C260_upper_violated (v : ℝ) (hv : v ≠ 0) :
    let loc : ℕ → ℕ → Bool := fun r c => decide (r = 0 ∧ c = 1)
    covTmpl true (fun _ _ => 0) (fun _ _ => v) loc 0 1 = v ∧ covSym 2 (fun _ _ => 0) (fun _ _ => v) loc 0 1 = 0 ∧
      covSym 2 (fun _ _ => 0) (fun _ _ => v) loc 1 0 = 0 := by
  simp [covTmpl, covSym, covFree]

/-- **C260** The symmetric matrix read back has the template in its lower triangle and the same above. -/
theorem C260_symm (d : ℕ) (free : ℕ → ℕ → ℕ) (fixed : ℕ → ℕ → ℝ) (loc : ℕ → ℕ → Bool) :
    (covSym d free fixed loc).IsSymm ∧ ∀ i j : Fin d, j ≤ i → covSym d free fixed loc i j = covTmpl true free fixed loc i j := by
  refine ⟨?_, fun i j h => ?_⟩
  · ext i j
    simp [covSym, max_comm, min_comm]
  · have h' : (j : ℕ) ≤ i := h
    simp [covSym, max_eq_left h', min_eq_right h']

/-- The starting matrix of free variances and covariances. -/
noncomputable def adjMat (d : ℕ) (A : Fin d → Fin d → Bool) : Matrix (Fin d) (Fin d) ℝ := of fun i j => if i = j then 1 else if A i j then 1 / 100 else 0

theorem covSym_adj (d : ℕ) (free : ℕ → ℕ → ℕ) (fixed : ℕ → ℕ → ℝ) (hd : ∀ r < d, free r r ≠ 0) :
    covSym d free fixed (fun _ _ => false) = adjMat d fun i j => decide (free (max (i : ℕ) j) (min (i : ℕ) j) ≠ 0) := by
  ext i j
  simp only [covSym, adjMat, Matrix.of_apply]
  by_cases h : i = j
  · subst h
    simp [covTmpl, covFree, hd i i.2]
  · have hne : (i : ℕ) ≠ j := fun hh => h (Fin.ext hh)
    rw [if_neg h]
    have hlt : min (i : ℕ) j < max (i : ℕ) j := by
      rcases lt_or_gt_of_ne hne with h1 | h1
      · rw [min_eq_left h1.le, max_eq_right h1.le]; exact h1
      · rw [min_eq_right h1.le, max_eq_left h1.le]; exact h1
    by_cases hf : free (max (i : ℕ) j) (min (i : ℕ) j) = 0
    · simp [covTmpl, covFree, hf]
    · simp [covTmpl, covFree, hf, hlt.le, hlt.ne']

theorem adj_quad (d : ℕ) (A : Fin d → Fin d → Bool) (x : Fin d → ℝ) :
    x ⬝ᵥ (adjMat d A *ᵥ x) = ∑ i, x i ^ 2 + ∑ i, ∑ j, (if i ≠ j ∧ A i j = true then 1 / 100 * (x i * x j) else 0) := by
  simp only [dotProduct, Matrix.mulVec, adjMat, Matrix.of_apply, ← Finset.sum_add_distrib, Finset.mul_sum]
  refine Finset.sum_congr rfl fun i _ => ?_
  have e : x i ^ 2 = ∑ j, if i = j then x i * x j else 0 := by simp [sq]
  rw [e, ← Finset.sum_add_distrib]
  refine Finset.sum_congr rfl fun j _ => ?_
  by_cases h : i = j
  · subst h; simp
  · by_cases ha : A i j = true
    · simp [h, ha]; ring
    · simp [h, ha]

/-- **C260** The starting matrix of a symmetric matrix with free variances is positive definite if no variable has a hundred free covariances. -/
theorem C260_start_partial (d : ℕ) (free : ℕ → ℕ → ℕ) (fixed : ℕ → ℕ → ℝ) (hd : ∀ r < d, free r r ≠ 0)
    (hdeg : ∀ i : Fin d, ((univ.filter fun j : Fin d => i ≠ j ∧ free (max (i : ℕ) j) (min (i : ℕ) j) ≠ 0).card) < 100) :
    (covSym d free fixed fun _ _ => false).PosDef := by
  have hsymm := (C260_symm d free fixed fun _ _ => false).1
  refine Matrix.PosDef.of_dotProduct_mulVec_pos (by rw [Matrix.IsHermitian, Matrix.conjTranspose_eq_transpose_of_trivial]; exact hsymm) fun x hx => ?_
  rw [star_trivial, covSym_adj d free fixed hd, adj_quad]
  set A : Fin d → Fin d → Bool := fun i j => decide (free (max (i : ℕ) j) (min (i : ℕ) j) ≠ 0) with hA
  have hAs : ∀ i j, A i j = A j i := fun i j => by simp only [hA, max_comm, min_comm]
  set D : Fin d → ℝ := fun i => ((univ.filter fun j : Fin d => i ≠ j ∧ A i j = true).card : ℝ) with hD
  have hDlt : ∀ i, D i < 100 := fun i => by
    have := hdeg i
    simp only [hD, hA, decide_eq_true_eq]
    exact_mod_cast this
  have e1 : ∀ i, ∑ j, (if i ≠ j ∧ A i j = true then 1 / 200 * x i ^ 2 else 0) = D i / 200 * x i ^ 2 := fun i => by
    rw [← Finset.sum_filter, Finset.sum_const, nsmul_eq_mul]; ring
  have e2 : ∑ i, ∑ j, (if i ≠ j ∧ A i j = true then 1 / 200 * x j ^ 2 else 0) = ∑ i, D i / 200 * x i ^ 2 := by
    rw [Finset.sum_comm]
    refine Finset.sum_congr rfl fun i _ => ?_
    rw [← e1 i]
    refine Finset.sum_congr rfl fun j _ => ?_
    rw [hAs j i]
    exact if_congr (by rw [ne_comm]) rfl rfl
  have hb : -(∑ i, D i / 100 * x i ^ 2) ≤ ∑ i, ∑ j, (if i ≠ j ∧ A i j = true then 1 / 100 * (x i * x j) else 0) := by
    have : ∑ i, D i / 100 * x i ^ 2 = ∑ i, ∑ j, ((if i ≠ j ∧ A i j = true then 1 / 200 * x i ^ 2 else 0) + (if i ≠ j ∧ A i j = true then 1 / 200 * x j ^ 2 else 0)) := by
      simp only [Finset.sum_add_distrib, e1, e2]
      rw [← Finset.sum_add_distrib]
      exact Finset.sum_congr rfl fun i _ => by ring
    rw [this, ← Finset.sum_neg_distrib]
    refine Finset.sum_le_sum fun i _ => ?_
    rw [← Finset.sum_neg_distrib]
    refine Finset.sum_le_sum fun j _ => ?_
    split_ifs
    · nlinarith [sq_nonneg (x i + x j)]
    · simp
  have hpos : 0 < ∑ i, (1 - D i / 100) * x i ^ 2 := by
    obtain ⟨k, hk⟩ := Function.ne_iff.1 hx
    refine Finset.sum_pos' (fun i _ => mul_nonneg (by linarith [hDlt i]) (sq_nonneg _)) ⟨k, Finset.mem_univ k, ?_⟩
    exact mul_pos (by linarith [hDlt k]) (sq_pos_of_ne_zero hk)
  have : ∑ i, (1 - D i / 100) * x i ^ 2 = ∑ i, x i ^ 2 - ∑ i, D i / 100 * x i ^ 2 := by
    rw [← Finset.sum_sub_distrib]; exact Finset.sum_congr rfl fun i _ => by ring
  linarith

/-- Two blocks of `m` variables with a free covariance between any two of different blocks. -/
def twoBlocks (m r c : ℕ) : ℕ := if r = c ∨ (m ≤ r ∧ c < m) then 1 else 0

/-- **C260 (violated)** With two hundred and two variables in two blocks, and free covariances between the blocks, the starting matrix is indefinite. -/
theorem C260_start_violated : ¬ (covSym 202 (twoBlocks 101) (fun _ _ => 0) fun _ _ => false).PosDef := by
  intro h
  let x : Fin 202 → ℝ := fun i => if (i : ℕ) < 101 then 1 else -1
  have hx : x ≠ 0 := fun hh => by
    have := congrFun hh 0
    simp [x] at this
  have hq := h.dotProduct_mulVec_pos hx
  rw [star_trivial, covSym_adj 202 _ _ (fun r _ => by simp [twoBlocks]), adj_quad] at hq
  have h1 : ∑ i, x i ^ 2 = 202 := by
    have : ∀ i, x i ^ 2 = 1 := fun i => by simp only [x]; split_ifs <;> norm_num
    simp [this]
  have h2 : ∀ i j : Fin 202, (if i ≠ j ∧ decide (twoBlocks 101 (max (i : ℕ) j) (min (i : ℕ) j) ≠ 0) = true then 1 / 100 * (x i * x j) else 0) =
      if (i : ℕ) < 101 then (if (j : ℕ) < 101 then 0 else -1 / 100) else (if (j : ℕ) < 101 then -1 / 100 else 0) := fun i j => by
    have ht : decide (twoBlocks 101 (max (i : ℕ) j) (min (i : ℕ) j) ≠ 0) = decide (max (i : ℕ) j = min (i : ℕ) j ∨ (101 ≤ max (i : ℕ) j ∧ min (i : ℕ) j < 101)) := by
      unfold twoBlocks
      split_ifs with hc
      · rw [decide_eq_true hc]; rfl
      · rw [decide_eq_false hc]; rfl
    rw [ht]
    simp only [x, decide_eq_true_eq]
    by_cases hi : (i : ℕ) < 101 <;> by_cases hj : (j : ℕ) < 101
    · have : ¬ (101 ≤ max (i : ℕ) j) := by simp [hi, hj]
      by_cases he : i = j
      · simp [he, hj]
      · have hm : max (i : ℕ) j ≠ min (i : ℕ) j := fun hh => he (Fin.ext (by omega))
        rw [if_neg (by simp [this, hm]), if_pos hi, if_pos hj]
    · have : 101 ≤ max (i : ℕ) j ∧ min (i : ℕ) j < 101 := ⟨le_max_of_le_right (not_lt.1 hj), min_lt_of_left_lt hi⟩
      have hne : i ≠ j := fun hh => hj (hh ▸ hi)
      simp only [hi, hj, hne, this, ne_eq, not_false_eq_true, true_and, or_true, if_true, if_false, one_ne_zero, and_self]
      norm_num
    · have : 101 ≤ max (i : ℕ) j ∧ min (i : ℕ) j < 101 := ⟨le_max_of_le_left (not_lt.1 hi), min_lt_of_right_lt hj⟩
      have hne : i ≠ j := fun hh => hi (hh ▸ hj)
      simp only [hi, hj, hne, this, ne_eq, not_false_eq_true, true_and, or_true, if_true, if_false, one_ne_zero, and_self]
      norm_num
    · have : ¬ (min (i : ℕ) j < 101) := by
        have := not_lt.1 hi; have := not_lt.1 hj
        simp only [not_lt]; exact le_min ‹_› ‹_›
      by_cases he : i = j
      · simp [he, hj]
      · have hm : max (i : ℕ) j ≠ min (i : ℕ) j := fun hh => he (Fin.ext (by omega))
        rw [if_neg (by simp only [hm, this]; simp), if_neg hi, if_neg hj]
  have c1 : ((univ : Finset (Fin 202)).filter fun i : Fin 202 => (i : ℕ) < 101).card = 101 := by decide +kernel
  have c2 : ((univ : Finset (Fin 202)).filter fun i : Fin 202 => ¬ (i : ℕ) < 101).card = 101 := by decide +kernel
  have s1 : ∀ a b : ℝ, ∑ j : Fin 202, (if (j : ℕ) < 101 then a else b) = 101 * a + 101 * b := fun a b => by
    rw [Finset.sum_ite, Finset.sum_const, Finset.sum_const, c1, c2]; simp
  have h3 : ∑ i : Fin 202, ∑ j : Fin 202, (if (i : ℕ) < 101 then (if (j : ℕ) < 101 then (0 : ℝ) else -1 / 100) else (if (j : ℕ) < 101 then -1 / 100 else 0)) =
      101 * (101 * 0 + 101 * (-1 / 100)) + 101 * (101 * (-1 / 100) + 101 * 0) := by
    rw [← s1]
    refine Finset.sum_congr rfl fun i _ => ?_
    by_cases hi : (i : ℕ) < 101
    · simp only [if_pos hi]; exact s1 _ _
    · simp only [if_neg hi]; exact s1 _ _
  simp only [h2] at hq
  rw [h1, h3] at hq
  norm_num at hq

/-- **C260 (violated)** For a symmetric matrix of labels `mat_inds_comb` counts a covariance twice: two free variances and their covariance give four columns
for three parameters. -/
theorem C260_comb_violated : combCount 2 2 (fun r c => r + c + 1) = 4 ∧ freeCount true 2 2 (fun r c => r + c + 1) = 3 := by
  constructor <;> decide +kernel

/-- **C260** For the other matrices, and for symmetric ones given by their lower triangle, the two counts agree. -/
theorem C260_comb_partial (sym : Bool) (rows cols : ℕ) (free : ℕ → ℕ → ℕ) (h : sym = true → ∀ r c, r < c → free r c = 0) :
    combCount rows cols free = freeCount sym rows cols free := by
  unfold combCount freeCount
  congr 1
  refine Finset.filter_congr fun x _ => ⟨fun hx => ⟨hx, fun hs => ?_⟩, fun hx => hx.1⟩
  by_contra hlt
  exact hx (h hs _ _ (not_le.1 hlt))

/-- **C260** The constraint is the determinant over one plus its size: it lies between minus one and one and has the sign of the determinant. -/
theorem C260_constraint {d : ℕ} (S : Matrix (Fin d) (Fin d) ℝ) :
    covConstraint S = S.det / (1 + |S.det|) ∧ |covConstraint S| < 1 ∧ (0 ≤ covConstraint S ↔ 0 ≤ S.det) ∧ (covConstraint S = 0 ↔ S.det = 0) := by
  have e : covConstraint S = S.det / (1 + |S.det|) := by
    unfold covConstraint
    simp only
    by_cases h : S.det = 0
    · simp [h]
    · rw [Real.exp_log (abs_pos.2 h)]
      congr 1
      rcases lt_or_gt_of_ne h with h1 | h1
      · rw [Real.sign_of_neg h1, abs_of_neg h1]; ring
      · rw [Real.sign_of_pos h1, abs_of_pos h1]; ring
  have hp : 0 < 1 + |S.det| := by positivity
  refine ⟨e, ?_, ?_, ?_⟩
  · rw [e, abs_div, abs_of_pos hp, div_lt_one hp]; linarith
  · rw [e]
    exact ⟨fun h => by have := mul_nonneg h hp.le; rwa [div_mul_cancel₀ _ hp.ne'] at this, fun h => div_nonneg h hp.le⟩
  · rw [e, div_eq_zero_iff]
    exact ⟨fun h => h.resolve_right hp.ne', Or.inl⟩

/-- **C260 (violated)** The constraint does not keep a covariance matrix positive definite: minus the identity in two dimensions satisfies it. -/
theorem C260_constraint_violated : 0 ≤ covConstraint (-1 : Matrix (Fin 2) (Fin 2) ℝ) ∧ ¬ (-1 : Matrix (Fin 2) (Fin 2) ℝ).PosSemidef := by
  constructor
  · rw [(C260_constraint _).2.2.1]
    simp [Matrix.det_fin_two]
  · intro h
    have := h.diag_nonneg (i := 0)
    simp at this
    linarith

/-- **C260** A label that is used once is bounded below by zero exactly when its cell is on a diagonal. -/
theorem C260_bounds_partial (labels : List ℕ) (hnd : labels.Nodup) (diag : ℕ → Bool) (k : ℕ) (hk : k < labels.length) :
    covLower labels diag labels[k] = some 0 ↔ diag k = true := by
  rw [covLower, hnd.idxOf_getElem k hk]
  cases diag k <;> simp

/-- **C260 (violated)** A label shared by a loading and a variance has no bound: only its first cell counts. -/
theorem C260_bounds_violated : covLower [1, 2, 1] (fun k => decide (1 ≤ k)) 1 = none ∧ covLower [1, 2, 1] (fun k => decide (1 ≤ k)) 2 = some 0 := by
  decide

/-- The hypotheses of the starting matrix are satisfiable: three variables with all covariances free. -/
example : (∀ r < 3, (fun _ _ => 1 : ℕ → ℕ → ℕ) r r ≠ 0) ∧
    ∀ i : Fin 3, ((univ.filter fun j : Fin 3 => i ≠ j ∧ (fun _ _ => 1 : ℕ → ℕ → ℕ) (max (i : ℕ) j) (min (i : ℕ) j) ≠ 0).card) < 100 := by
  decide

end Verif.Sem
