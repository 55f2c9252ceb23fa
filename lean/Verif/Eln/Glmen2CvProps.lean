import Verif.Eln.Glmen2Cv
import Mathlib.Tactic
/-!
# C274: the cross-validated deviance of the elastic net GLM

A fold is fitted on the columns standardised by the mean and spread of its own rows.  Its predictions for other rows standardise these by
the same numbers.
-/
namespace Verif.Eln
variable {n p nf nv : ℕ} {X : ℕ → ℕ → ℝ}

/-- The average deviance of the predictions of a fold's model. -/
noncomputable def g2Right (d : ℝ → ℝ → ℝ) (inv : ℝ → ℝ) (p : ℕ) (X : ℕ → ℕ → ℝ) (y w : ℕ → ℝ) (nf : ℕ) (f : ℕ → ℕ) (nv : ℕ)
    (v : ℕ → ℕ) (b : ℝ × (ℕ → ℝ)) : ℝ :=
  let m := g2Mean nf fun i => X (f i)
  let s := g2Sd nf fun i => X (f i)
  (∑ i ∈ Finset.range nv, w (v i) * d (y (v i)) (inv (gEta p (fun i j => (X (v i) j - m j) / s j) b.2 b.1 i))) /
    ∑ i ∈ Finset.range nv, w (v i)

theorem g2Std_some (h : ∀ j, j < p → g2Sd n X j ≠ 0) :
    g2Std n p X = some fun i j => (X i j - g2Mean n X j) / g2Sd n X j := by
  unfold g2Std
  rw [if_neg]
  rintro ⟨j, hj, h0⟩
  exact h j hj h0

/-- A column without spread over the rows fitted gives nan. -/
theorem C274_constant (j : ℕ) (hj : j < p) (h : g2Sd n X j = 0) (fit) (y w : ℕ → ℝ) : g2Path n p fit X y w = none := by
  unfold g2Path g2Std
  rw [if_pos ⟨j, hj, h⟩, Option.map_none]

/-- The standardised columns have mean zero and spread one. -/
theorem C274_standard (hn : 0 < n) {Z : ℕ → ℕ → ℝ} (h : g2Std n p X = some Z) {j : ℕ} (hj : j < p) :
    g2Mean n Z j = 0 ∧ g2Sd n Z j = 1 := by
  have hn' : (n : ℝ) ≠ 0 := by exact_mod_cast hn.ne'
  unfold g2Std at h
  split at h
  · simp at h
  · rename_i hs
    have hs' : g2Sd n X j ≠ 0 := fun h0 => hs ⟨j, hj, h0⟩
    obtain rfl := (Option.some.inj h).symm
    have hm : g2Mean n (fun i j => (X i j - g2Mean n X j) / g2Sd n X j) j = 0 := by
      unfold g2Mean
      rw [← Finset.sum_div, Finset.sum_sub_distrib, Finset.sum_const, Finset.card_range, nsmul_eq_mul, mul_div_cancel₀ _ hn', sub_self,
        zero_div, zero_div]
    refine ⟨hm, ?_⟩
    rw [g2Sd, hm]
    simp only [sub_zero, div_pow]
    rw [← Finset.sum_div]
    have hq : 0 ≤ (∑ i ∈ Finset.range n, (X i j - g2Mean n X j) ^ 2) / n := by positivity
    have h2 : g2Sd n X j ^ 2 = (∑ i ∈ Finset.range n, (X i j - g2Mean n X j) ^ 2) / n := Real.sq_sqrt hq
    rw [div_right_comm, ← h2, div_self (pow_ne_zero 2 hs'), Real.sqrt_one]

/-- So the path over all the data, whose columns `__init__` has standardised, is fitted to the columns the predictions use. -/
theorem C274_full (hn : 0 < n) {Z : ℕ → ℕ → ℝ} (h : g2Std n p X = some Z) :
    ∃ Z', g2Std n p Z = some Z' ∧ ∀ i j, j < p → Z' i j = Z i j := by
  refine ⟨_, g2Std_some fun j hj => by rw [(C274_standard hn h hj).2]; exact one_ne_zero, fun i j hj => ?_⟩
  rw [(C274_standard hn h hj).1, (C274_standard hn h hj).2, sub_zero, div_one]

theorem gEta_congr {X' : ℕ → ℕ → ℝ} {b : ℕ → ℝ} {b0 : ℝ} {i : ℕ} (h : ∀ j, j < p → X i j = X' i j) : gEta p X b b0 i = gEta p X' b b0 i := by
  unfold gEta
  rw [Finset.sum_congr rfl fun j hj => by rw [h j (Finset.mem_range.mp hj)]]

/-- If the rows fitted have mean zero and spread one, the values are the average deviances of the fold's predictions. -/
theorem C274_fold_partial (d : ℝ → ℝ → ℝ) (inv : ℝ → ℝ) (fit) (y w : ℕ → ℝ) (f v : ℕ → ℕ)
    (h : ∀ j, j < p → g2Mean nf (fun i => X (f i)) j = 0 ∧ g2Sd nf (fun i => X (f i)) j = 1) :
    ∃ bs, g2Path nf p fit (fun i => X (f i)) (fun i => y (f i)) (fun i => w (f i)) = some bs ∧
      g2Fold d inv p fit X y w nf f nv v = some (bs.map (g2Right d inv p X y w nf f nv v)) := by
  have hs := g2Std_some (n := nf) (p := p) (X := fun i => X (f i)) fun j hj => by rw [(h j hj).2]; exact one_ne_zero
  refine ⟨_, by rw [g2Path, hs, Option.map_some], ?_⟩
  rw [g2Fold, g2Path, hs, Option.map_some, Option.map_some]
  congr 1
  refine List.map_congr_left fun b _ => ?_
  unfold g2Val g2Right
  simp only
  congr 1
  refine Finset.sum_congr rfl fun i _ => ?_
  rw [gEta_congr fun j hj => ?_]
  rw [(h j hj).1, (h j hj).2, sub_zero, div_one]

/-- The values do not depend on the size of the weights. -/
theorem C274_weights (d : ℝ → ℝ → ℝ) (inv : ℝ → ℝ) (y w : ℕ → ℝ) {c : ℝ} (hc : c ≠ 0) (b : ℝ × (ℕ → ℝ)) :
    g2Val d inv n p X y (fun i => c * w i) b = g2Val d inv n p X y w b := by
  unfold g2Val
  simp only [mul_assoc, ← Finset.mul_sum]
  exact mul_div_mul_left _ _ hc

/-- A column with mean zero and spread one. -/
noncomputable def g2Col (i : ℕ) : ℝ := if i = 0 then 1 / 5 else if i = 1 then -1 / 5 else if i = 2 then 7 / 5 else -7 / 5

/-- Least squares through the origin for the last two rows. -/
noncomputable def g2Ls (Z : ℕ → ℕ → ℝ) (y _w : ℕ → ℝ) : List (ℝ × (ℕ → ℝ)) :=
  [(0, fun _ => (Z 0 0 * y 0 + Z 1 0 * y 1) / (Z 0 0 ^ 2 + Z 1 0 ^ 2))]

/-- In general they are not: the response is the one column, which has mean zero and spread one.  The first two rows are left out, least
squares predicts them without error, and the value is not zero. -/
theorem C274_fold_violated : g2Mean 4 (fun i _ => g2Col i) 0 = 0 ∧ g2Sd 4 (fun i _ => g2Col i) 0 = 1 ∧
    g2Path 2 1 g2Ls (fun i _ => g2Col (i + 2)) (fun i => g2Col (i + 2)) (fun _ => 1 / 4) = some [(0, fun _ => 7 / 5)] ∧
    g2Right (fun y m => (y - m) ^ 2) id 1 (fun i _ => g2Col i) g2Col (fun _ => 1 / 4) 2 (· + 2) 2 id (0, fun _ => 7 / 5) = 0 ∧
    g2Fold (fun y m => (y - m) ^ 2) id 1 g2Ls (fun i _ => g2Col i) g2Col (fun _ => 1 / 4) 2 (· + 2) 2 id = some [4 / 625] := by
  have hm : g2Mean 4 (fun i _ => g2Col i) 0 = 0 := by norm_num [g2Mean, g2Col, Finset.sum_range_succ]
  have hm2 : g2Mean 2 (fun i _ => g2Col (i + 2)) 0 = 0 := by norm_num [g2Mean, g2Col, Finset.sum_range_succ]
  have hs2 : g2Sd 2 (fun i _ => g2Col (i + 2)) 0 = 7 / 5 := by
    rw [g2Sd, hm2]
    rw [Real.sqrt_eq_iff_mul_self_eq_of_pos (by norm_num)]
    norm_num [g2Col, Finset.sum_range_succ]
  have hp : g2Path 2 1 g2Ls (fun i _ => g2Col (i + 2)) (fun i => g2Col (i + 2)) (fun _ => 1 / 4) = some [(0, fun _ => 7 / 5)] := by
    rw [g2Path, g2Std_some (fun j hj => by obtain rfl : j = 0 := by omega
                                           rw [hs2]; norm_num), Option.map_some, g2Ls]
    simp only [hm2, hs2]
    norm_num [g2Col]
  refine ⟨hm, ?_, hp, ?_, ?_⟩
  · rw [g2Sd, hm]
    norm_num [g2Col, Finset.sum_range_succ]
  · unfold g2Right
    simp only [gEta, Finset.sum_range_succ, Finset.sum_range_zero, hm2, hs2, id, clipEta]
    norm_num [g2Col]
  · rw [g2Fold, hp, Option.map_some]
    unfold g2Val
    simp only [gEta, Finset.sum_range_succ, Finset.sum_range_zero, List.map_cons, List.map_nil, id, clipEta]
    norm_num [g2Col]

/-- The hypotheses of `C274_fold_partial` hold for the four rows of `g2Col`. -/
example : ∀ j, j < 1 → g2Mean 4 (fun i _ => g2Col (id i)) j = 0 ∧ g2Sd 4 (fun i _ => g2Col (id i)) j = 1 := by
  intro j hj
  obtain rfl : j = 0 := by omega
  exact ⟨C274_fold_violated.1, C274_fold_violated.2.1⟩

end Verif.Eln
