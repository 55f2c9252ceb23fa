import Mathlib.Analysis.SpecialFunctions.Pow.Real
import Verif.Eln.Props
import Verif.Eln.Path
/-!
# C104: intercept, penalty path and screening of the Gaussian elastic net
-/
namespace Verif.Eln
open Verif.Func
section gen
variable {α : Type*} [Field α] [LinearOrder α] [IsStrictOrderedRing α]
variable {n p : ℕ} {X : ℕ → ℕ → α} {y b c : ℕ → α} {al lam : α}

theorem mean_sum (hn : 0 < n) : ∑ i ∈ Finset.range n, (y i - mean n y) = 0 := by
  have hn' : (0 : α) < n := by exact_mod_cast hn
  rw [Finset.sum_sub_distrib, Finset.sum_const, Finset.card_range, nsmul_eq_mul, mean]
  field_simp
  ring

/-- With centred columns an intercept costs half the squared distance from the mean response. -/
theorem obj_intercept (hn : 0 < n) (hX : ∀ j, j < p → ∑ i ∈ Finset.range n, X i j = 0) (b0 : α) :
    obj n p X (fun i => y i - b0) al lam b = obj n p X (fun i => y i - mean n y) al lam b + (mean n y - b0) ^ 2 / 2 := by
  have hn' : (0 : α) < n := by exact_mod_cast hn
  have hs : ∑ i ∈ Finset.range n, ∑ j ∈ Finset.range p, X i j * b j = 0 := by
    rw [Finset.sum_comm]
    refine Finset.sum_eq_zero fun j hj => ?_
    rw [← Finset.sum_mul, hX j (Finset.mem_range.1 hj), zero_mul]
  have e : ∀ i, (y i - b0 - ∑ j ∈ Finset.range p, X i j * b j) ^ 2 =
      (y i - mean n y - ∑ j ∈ Finset.range p, X i j * b j) ^ 2 + 2 * (mean n y - b0) * (y i - mean n y) -
        2 * (mean n y - b0) * (∑ j ∈ Finset.range p, X i j * b j) + (mean n y - b0) ^ 2 := fun i => by ring
  unfold obj
  simp only [e, Finset.sum_add_distrib, Finset.sum_sub_distrib, ← Finset.mul_sum, mean_sum hn, hs, Finset.sum_const,
    Finset.card_range, nsmul_eq_mul]
  field_simp
  ring

/-- With centred columns, coefficients that are optimal for the centred response are jointly optimal with the mean as
intercept, the one used by `predict`. -/
theorem C104_intercept_partial (hn : 0 < n) (hX : ∀ j, j < p → ∑ i ∈ Finset.range n, X i j = 0)
    (hb : ∀ c, obj n p X (fun i => y i - mean n y) al lam b ≤ obj n p X (fun i => y i - mean n y) al lam c) :
    (∀ b0 c, obj n p X (fun i => y i - mean n y) al lam b ≤ obj n p X (fun i => y i - b0) al lam c) ∧
      ∀ i, predict n p X b y true i = mean n y + ∑ j ∈ Finset.range p, X i j * b j := by
  refine ⟨fun b0 c => ?_, fun i => ?_⟩
  · rw [obj_intercept hn hX b0]
    have := hb c
    have := sq_nonneg (mean n y - b0)
    nlinarith
  · simp only [predict, if_true, one_mul]
    ring

/-- Without centring, the mean response is not the best intercept. -/
theorem C104_intercept_violated : ∃ t, elnet 2 1 (fun i _ => if i = 0 then 1 else 0) (fun i => if i = 0 then 1 else 0)
      (1 / 8) (1 : ℚ) none none 1000 (1 / 10 ^ 9) true = some t ∧ t.1.b 0 = 1 / 4 ∧
      obj 2 1 (fun i _ => if i = 0 then 1 else 0) (fun i => (if i = 0 then 1 else 0) - 3 / 8) (1 : ℚ) (1 / 8) t.1.b <
        obj 2 1 (fun i _ => if i = 0 then 1 else 0)
          (fun i => (if i = 0 then 1 else 0) - mean 2 fun i => if i = 0 then 1 else 0) (1 : ℚ) (1 / 8) t.1.b :=
  ⟨_, rfl, by decide +kernel, by decide +kernel⟩

/-! ## The largest penalty -/

theorem soft_zero {u t : α} (ht : 0 ≤ t) : softThreshold u t = 0 ↔ |u| ≤ t := by
  rw [C21_soft_threshold_cases u t ht, abs_le]
  split_ifs with h1 h2
  · exact ⟨fun h => by linarith, fun h => by linarith [h.2]⟩
  · exact ⟨fun h => by linarith, fun h => by linarith [h.1]⟩
  · exact ⟨fun _ => ⟨by linarith, by linarith⟩, fun _ => rfl⟩

theorem zCoef_zero (H : Good n p X al lam) {j : ℕ} (hj : j < p) :
    zCoef n p X y al lam (fun _ => 0) j = 0 ↔ |∑ i ∈ Finset.range n, X i j * y i| ≤ lam * al * n := by
  have hn' : (0 : α) < n := by exact_mod_cast H.obs
  rw [zCoef, div_eq_zero_iff, or_iff_left (H.curv j hj).ne', soft_zero (mul_nonneg H.lasso hn'.le), uCoef]
  simp [resid]

/-- Zero coefficients are optimal exactly for penalties of at least `lambda_max`. -/
theorem C104_lambda_max (H : Good n p X al lam) (hal : 0 < al) {L : α} (hL : lambdaMax n p X y al = some L) :
    (∀ c, obj n p X (fun i => y i - mean n y) al lam (fun _ => 0) ≤ obj n p X (fun i => y i - mean n y) al lam c) ↔
      L ≤ lam := by
  have hn' : (0 : α) < n := by exact_mod_cast H.obs
  rw [C103_minimum H]
  rw [lambdaMax, List.max?_eq_some_iff] at hL
  obtain ⟨hmem, hle⟩ := hL
  have key : ∀ j, j < p → ((0 : α) = zCoef n p X (fun i => y i - mean n y) al lam (fun _ => 0) j ↔
      |(∑ i ∈ Finset.range n, X i j * (y i - mean n y)) / (n * al)| ≤ lam) := by
    intro j hj
    rw [eq_comm, zCoef_zero H hj, abs_div, abs_of_pos (by positivity : 0 < (n : α) * al), div_le_iff₀ (by positivity),
      show lam * al * n = lam * (n * al) by ring]
  constructor
  · intro h
    obtain ⟨j, hj, rfl⟩ := List.mem_map.1 hmem
    exact (key j (List.mem_range.1 hj)).1 (h j (List.mem_range.1 hj))
  · intro h j hj
    exact (key j hj).2 (le_trans (hle _ (List.mem_map.2 ⟨j, List.mem_range.2 hj, rfl⟩)) h)

/-- It exists as soon as there is a variable. -/
theorem C104_lambda_max_some (hp : 0 < p) : ∃ L, lambdaMax n p X y al = some L := by
  unfold lambdaMax
  cases hm : ((List.range p).map fun j => |(∑ i ∈ Finset.range n, X i j * (y i - mean n y)) / (n * al)|).max? with
  | some L => exact ⟨L, rfl⟩
  | none =>
    rw [List.max?_eq_none_iff, List.map_eq_nil_iff, List.range_eq_nil] at hm
    omega

/-- For such a penalty the warm start from zero returns zero after one sweep: the first point of the path. -/
theorem C104_path_start (H : Good n p X al lam) (hal : 0 < al) {L dtol : α} (hL : lambdaMax n p X y al = some L)
    (hlam : L ≤ lam) (hd : 0 < dtol) {iters : ℕ} (hi : 0 < iters) : ∃ t,
    elnet n p X y lam al (some fun _ => 0) none iters dtol true = some t ∧ t.1.b = (fun _ => 0) ∧ t.2.2 = 0 := by
  have hz := (C103_minimum H).1 ((C104_lambda_max H hal hL).2 hlam)
  obtain ⟨k, rfl⟩ := Nat.exists_eq_add_one.2 hi
  set y' : ℕ → α := fun i => y i - mean n y with hy'
  set s : St α := ⟨fun _ => 0, resid p X y' fun _ => 0, fun _ => true⟩ with hs
  have hinv : Inv p X y' s := fun _ => rfl
  have hfix : (sweep n p X (colSq n X) (lam * al * n) ((1 - al) * lam * n) s).b = s.b := by
    rw [sweep, fold_fixed (fun _ => rfl) _ _ hinv (fun _ hj => (mem_vars.1 hj).1) (List.nodup_range.filter _)]
    exact fun j hj => hz j (mem_vars.1 hj).1
  have hinv' := C103_residuals (n := n) (Xsq := colSq n X) hinv (lam * al * n) ((1 - al) * lam * n)
  have hf : (msr n s.r + penalty p s.b al lam) - (msr n (sweep n p X (colSq n X) (lam * al * n) ((1 - al) * lam * n) s).r +
      penalty p (sweep n p X (colSq n X) (lam * al * n) ((1 - al) * lam * n) s).b al lam) < dtol := by
    rw [obj_eq_msr hinv, obj_eq_msr hinv', hfix, sub_self]
    exact hd
  have he : elnet n p X y lam al (some fun _ => 0) none (k + 1) dtol true =
      some (sweep n p X (colSq n X) (lam * al * n) ((1 - al) * lam * n) s,
      [(msr n s.r, penalty p s.b al lam, msr n s.r + penalty p s.b al lam),
      (msr n (sweep n p X (colSq n X) (lam * al * n) ((1 - al) * lam * n) s).r,
      penalty p (sweep n p X (colSq n X) (lam * al * n) ((1 - al) * lam * n) s).b al lam,
      (msr n (sweep n p X (colSq n X) (lam * al * n) ((1 - al) * lam * n) s).r +
      penalty p (sweep n p X (colSq n X) (lam * al * n) ((1 - al) * lam * n) s).b al lam))], 0) := by
    simp only [elnet, elnCd, Option.getD_some, Option.getD_none, if_true, Nat.add_eq_zero_iff, one_ne_zero, and_false,
      if_false, cdLoop]
    exact congrArg some (if_pos hf)
  exact ⟨_, he, hfix, rfl⟩

/-! ## Screening -/

/-- Below the largest penalty the screening rule keeps every variable: nothing is discarded wrongly (or at all). -/
theorem C104_screen {r : ℕ → α} {L : α} (hal : 0 < al) (hL : lam < L) (j : ℕ) : screen n X r al lam L j = true := by
  rw [screen, decide_eq_true_eq]
  have : 2 * al * (lam - L) < 0 := mul_neg_of_pos_of_neg (by positivity) (by linarith)
  exact lt_of_lt_of_le this (abs_nonneg _)

end gen

/-! ## The path -/

theorem path_get {L r : ℝ} (hL : 0 < L) (hr : 0 < r) {nl i : ℕ} (hi : i < nl) :
    (lambdaPath L r none nl)[i]? = some (L * r ^ ((i : ℝ) / ((nl - 1 : ℕ) : ℝ))) := by
  simp only [lambdaPath, linspace, Option.getD_none, List.getElem?_map, List.getElem?_range hi, Option.map_some,
    Option.some.injEq]
  rw [Real.log_mul hr.ne' hL.ne', Real.exp_add, Real.exp_log hL, Real.rpow_def_of_pos hr]
  congr 2
  ring

/-- The penalties start at `lambda_max`, end at `path_len` times it, and decrease by a constant factor. -/
theorem C104_path {L r : ℝ} (hL : 0 < L) (hr : 0 < r) (hr1 : r < 1) {nl : ℕ} (hnl : 2 ≤ nl) :
    (lambdaPath L r none nl).length = nl ∧ (lambdaPath L r none nl)[0]? = some L ∧
      (lambdaPath L r none nl)[nl - 1]? = some (r * L) ∧
      ∃ q, 0 < q ∧ q < 1 ∧ ∀ i, i < nl → (lambdaPath L r none nl)[i]? = some (L * q ^ i) := by
  have hm : (0 : ℝ) < ((nl - 1 : ℕ) : ℝ) := by exact_mod_cast (by omega : 0 < nl - 1)
  refine ⟨by simp [lambdaPath, linspace], ?_, ?_, r ^ (1 / ((nl - 1 : ℕ) : ℝ)), Real.rpow_pos_of_pos hr _,
    Real.rpow_lt_one hr.le hr1 (by positivity), fun i hi => ?_⟩
  · rw [path_get hL hr (by omega)]; simp
  · rw [path_get hL hr (by omega), div_self hm.ne', Real.rpow_one, mul_comm]
  · rw [path_get hL hr hi, ← Real.rpow_natCast, ← Real.rpow_mul hr.le]
    congr 3
    ring

/-! ## `GLMEN.fit` -/

/-- `fit` stores the objective values as active set and the other way round for the Gaussian family, and fails for the
binomial family. -/
theorem C104_fit_violated {V : Type*} (beta b0 fvals active nits : V) :
    glmenFit (gaussianRes beta fvals active nits) = some (beta, fvals, active) ∧
      glmenFit (binomialRes beta b0 active fvals nits) = none := ⟨rfl, rfl⟩

end Verif.Eln
