import Verif.Like.ClmBoot
import Mathlib.Tactic
/-!
# C279: the bootstrap of the older cumulative link model
-/
namespace Verif.Like
open Real Verif.Transf
variable {β : Type*}

/-- What is optimised is the model of the resampled rows: responses and predictors of the same row stay together. -/
theorem C279_resample (q : ℕ) (cat : ℕ → ℕ) (X : ℕ → ℕ → ℝ) (j : ℕ → ℕ) :
    bootData (oclmData q cat X) j = oclmData q (fun i => cat (j i)) fun i => X (j i) := rfl

/-- Each sample is the optimum for its resample, and the model is as before, if no optimisation raises. -/
theorem C279_samples_partial (d : ClmData) (opt : ClmData → β) (js : List (ℕ → ℕ)) :
    clmBoot d (fun x => some (opt x)) js = (d, some (js.map fun j => opt (bootData d j))) := by
  induction js with
  | nil => rfl
  | cons j js ih => simp [clmBoot, ih]

/-- If one raises, the offsets stay those of the resample next to the rows of the data: the two rows of the data change their categories. -/
theorem C279_restored_violated : ∃ (cat : ℕ → ℕ) (j : ℕ → ℕ),
    (clmBoot (oclmData 1 cat fun _ _ => 0) (fun _ => (none : Option β)) [j]).1.o1 0 ≠ (oclmData 1 cat fun _ _ => 0).o1 0 := by
  refine ⟨id, fun _ => 1, ?_⟩
  norm_num [clmBoot, bootAttr, oclmData]

/-- Moving the first threshold does not change the first predictor of a row that is not in the first category. -/
theorem boot_dot1 {q k : ℕ} (hq : 0 < q) {cat : ℕ → ℕ} {X : ℕ → ℕ → ℝ} {i : ℕ} (hi : cat i ≠ 0) (th : ℕ → ℝ) (a : ℝ) :
    dotN k ((oclmData q cat X).B1 i) (Function.update th 0 a) = dotN k ((oclmData q cat X).B1 i) th := by
  refine Finset.sum_congr rfl fun c _ => ?_
  by_cases hc : c = 0
  · subst hc; simp [oclmData, hq, hi]
  · rw [Function.update_of_ne hc]

/-- It moves the second predictor of a row in the second category. -/
theorem boot_dot2 {q k : ℕ} (hq : 0 < q) (hk : 0 < k) {cat : ℕ → ℕ} {X : ℕ → ℕ → ℝ} {i : ℕ} (th : ℕ → ℝ) (a : ℝ) :
    dotN k ((oclmData q cat X).B2 i) (Function.update th 0 a) = dotN k ((oclmData q cat X).B2 i) th + if cat i = 1 then a - th 0 else 0 := by
  obtain ⟨k, rfl⟩ : ∃ m, k = m + 1 := ⟨k - 1, by omega⟩
  unfold dotN
  rw [Finset.sum_range_succ', Finset.sum_range_succ']
  have : ∀ c ∈ Finset.range k, (oclmData q cat X).B2 i (c + 1) * Function.update th 0 a (c + 1) = (oclmData q cat X).B2 i (c + 1) * th (c + 1) := by
    intro c _
    rw [Function.update_of_ne (by omega)]
  rw [Finset.sum_congr rfl this, Function.update_self]
  have h0 : (oclmData q cat X).B2 i 0 = if cat i = 1 then 1 else 0 := by simp [oclmData, hq]
  rw [h0]
  split <;> ring

/-- A resample without the first category, but with the second, has no estimate: a lower first threshold is always better. -/
theorem C279_missing_violated {l : CLink} (hF : StrictMono l.F) {n q k : ℕ} (hq : 0 < q) (hk : 0 < k) {cat : ℕ → ℕ} {X : ℕ → ℕ → ℝ} {j : ℕ → ℕ}
    (h0 : ∀ i, i < n → cat (j i) ≠ 0) (h1 : ∃ i, i < n ∧ cat (j i) = 1) (th : ℕ → ℝ)
    (hp : ∀ i, i < n → 0 < l.F (dotN k ((bootData (oclmData q cat X) j).B1 i) th + (bootData (oclmData q cat X) j).o1 i) -
      l.F (dotN k ((bootData (oclmData q cat X) j).B2 i) th + (bootData (oclmData q cat X) j).o2 i)) :
    oclmLoglike l (bootData (oclmData q cat X) j) n k (Function.update th 0 (th 0 - 1)) < oclmLoglike l (bootData (oclmData q cat X) j) n k th := by
  rw [C279_resample] at *
  set d := oclmData q (fun i => cat (j i)) fun i => X (j i) with hd
  unfold oclmLoglike
  simp only
  rw [neg_lt_neg_iff]
  have hw : ∀ i, d.w i = 1 := fun _ => rfl
  have e1 : ∀ i, i < n → dotN k (d.B1 i) (Function.update th 0 (th 0 - 1)) = dotN k (d.B1 i) th := fun i hi =>
    boot_dot1 hq (cat := fun i => cat (j i)) (h0 i hi) th _
  have e2 : ∀ i, dotN k (d.B2 i) (Function.update th 0 (th 0 - 1)) = dotN k (d.B2 i) th + if cat (j i) = 1 then th 0 - 1 - th 0 else 0 := fun i =>
    boot_dot2 hq hk (cat := fun i => cat (j i)) th _
  obtain ⟨i1, hi1, hc1⟩ := h1
  refine Finset.sum_lt_sum (fun i hi => ?_) ⟨i1, Finset.mem_range.mpr hi1, ?_⟩
  · have hi' := Finset.mem_range.mp hi
    rw [hw, one_mul, one_mul, e1 i hi', e2 i]
    refine log_le_log (hp i hi') (sub_le_sub_left (hF.monotone ?_) _)
    split <;> linarith
  · rw [hw, one_mul, one_mul, e1 i1 hi1, e2 i1, if_pos hc1]
    exact log_lt_log (hp i1 hi1) (sub_lt_sub_left (hF (by linarith)) _)

/-- How often a row is drawn. -/
def drawn (n : ℕ) (j : ℕ → ℕ) (r : ℕ) : ℕ := ((Finset.range n).filter fun i => j i = r).card

theorem sum_drawn {n m : ℕ} {j : ℕ → ℕ} (hj : ∀ i, i < n → j i < m) (f : ℕ → ℝ) :
    ∑ i ∈ Finset.range n, f (j i) = ∑ r ∈ Finset.range m, drawn n j r * f r := by
  rw [← Finset.sum_fiberwise_of_maps_to (t := Finset.range m) (g := j) fun i hi => Finset.mem_range.mpr (hj i (Finset.mem_range.mp hi))]
  refine Finset.sum_congr rfl fun r _ => ?_
  rw [Finset.sum_congr rfl (g := fun _ => f r) fun i hi => by rw [(Finset.mem_filter.mp hi).2], Finset.sum_const, nsmul_eq_mul]
  rfl

/-- So the objective of a pass is that of the data with each row weighted by how often it was drawn. -/
theorem C279_counts (l : CLink) (q : ℕ) (cat : ℕ → ℕ) (X : ℕ → ℕ → ℝ) {n : ℕ} (k : ℕ) {j : ℕ → ℕ} (hj : ∀ i, i < n → j i < n) (th : ℕ → ℝ) :
    oclmLoglike l (bootData (oclmData q cat X) j) n k th = oclmLoglike l { oclmData q cat X with w := fun r => drawn n j r } n k th := by
  have := sum_drawn hj fun r =>
    log (l.F (dotN k ((oclmData q cat X).B1 r) th + (oclmData q cat X).o1 r) - l.F (dotN k ((oclmData q cat X).B2 r) th + (oclmData q cat X).o2 r))
  unfold oclmLoglike
  simp only
  rw [neg_inj, ← this]
  refine Finset.sum_congr rfl fun i _ => ?_
  exact one_mul _

/-- The newer model resamples the weights too: its objective is that of the data with the weights multiplied by the numbers of draws, for the
thresholds and for their increments. -/
theorem C279_newer (l : CLink) (d : ClmData) {n : ℕ} (k q : ℕ) {j : ℕ → ℕ} (hj : ∀ i, i < n → j i < n) (th : ℕ → ℝ) :
    clmLoglike l (newBootData d j) n k th = clmLoglike l { d with w := fun r => drawn n j r * d.w r } n k th ∧
    clmLoglikeU l (newBootData d j) n k q th = clmLoglikeU l { d with w := fun r => drawn n j r * d.w r } n k q th := by
  have h : ∀ th, clmLoglike l (newBootData d j) n k th = clmLoglike l { d with w := fun r => drawn n j r * d.w r } n k th := by
    intro th
    have := sum_drawn hj fun r => d.w r * log (l.F (eta1 d k th r) - l.F (eta2 d k th r))
    unfold clmLoglike
    simp only
    rw [neg_inj]
    refine this.trans (Finset.sum_congr rfl fun r _ => ?_)
    exact (mul_assoc _ _ _).symm
  exact ⟨h th, h (ordRvs q th)⟩

/-- The hypotheses hold for a resample that is twice the second row of two. -/
example : oclmLoglike ⟨id, fun _ => 1, fun _ => 0⟩ (bootData (oclmData 1 id fun _ _ => 0) fun _ => 1) 2 1 (Function.update (fun _ => 0) 0 (0 - 1)) <
    oclmLoglike ⟨id, fun _ => 1, fun _ => 0⟩ (bootData (oclmData 1 id fun _ _ => 0) fun _ => 1) 2 1 fun _ => 0 :=
  C279_missing_violated (l := ⟨id, fun _ => 1, fun _ => 0⟩) strictMono_id one_pos one_pos (by simp) ⟨0, by simp⟩ (fun _ => 0)
    (by intro i _; norm_num [bootData, bootAttr, oclmData, dotN])

end Verif.Like
