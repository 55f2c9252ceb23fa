import Verif.Indep.DcorrProps
import Verif.Robust.DispProps

/-! # Claim C193: the kernel independence criterion -/

namespace Verif.Indep

open Matrix Verif.Robust
open scoped MatrixOrder

variable {n m k : ℕ}

/-- The kernel matrix. -/
noncomputable def gk (X : Fin n → Fin m → ℝ) (bw : ℝ) : Sq n := fun i j => Real.exp (-(sq X i j) / (2 * bw ^ 2))

/-- `_gauss_kernel` is the Gaussian kernel with standard deviation `bw`. -/
theorem C193_kernel (X : Fin n → Fin m → ℝ) {bw : ℝ} (hb : bw ≠ 0) : gaussKernel X bw = some (gk X bw) := by
  simp only [gaussKernel]
  rw [if_neg (by positivity), fillLower_symm (f := sqDiff X) (fun i j => sq_comm X i j) (fun i => sq_self X i)]
  rfl

private theorem gk_eq (X : Fin n → Fin m → ℝ) (bw : ℝ) : gk X bw = fun i j => Real.exp (-((1 / (2 * bw ^ 2)) * sq X i j)) := by
  funext i j; simp only [gk]; congr 1; ring

/-- It is symmetric with unit diagonal, positive semidefinite, and positive definite for distinct observations. -/
theorem C193_kernel_definite (X : Fin n → Fin m → ℝ) {bw : ℝ} (hb : bw ≠ 0) :
    (∀ i j, gk X bw i j = gk X bw j i) ∧ (∀ i, gk X bw i i = 1) ∧ (gk X bw).PosSemidef ∧
      (Function.Injective X → (gk X bw).PosDef) := by
  have hs : ∀ i j, gk X bw i j = gk X bw j i := fun i j => by simp only [gk]; rw [sq_comm]
  have hp : (gk X bw).PosSemidef := by
    refine posSemidef_of_qf hs fun c => ?_
    rw [gk_eq]; exact gauss_nonneg X (by positivity) c
  refine ⟨hs, fun i => by simp [gk, sq_self], hp, fun hX => ?_⟩
  refine PosDef.of_dotProduct_mulVec_pos hp.1 fun {c} hc => ?_
  have h0 := hp.dotProduct_mulVec_nonneg c
  refine lt_of_le_of_ne h0 fun he => hc ?_
  have e : star c ⬝ᵥ gk X bw *ᵥ c = qf (gk X bw) c := by
    simp only [dotProduct, mulVec, qf, Finset.mul_sum, star_trivial]
    exact Finset.sum_congr rfl fun i _ => Finset.sum_congr rfl fun j _ => by ring
  rw [e, gk_eq] at he
  exact gauss_definite X hX (by positivity) he.symm

/-- The statistic is the mean product of the doubly centred kernel matrices. -/
theorem C193_statistic (X : Fin n → Fin m → ℝ) (Y : Fin n → Fin k → ℝ) {a b : ℝ} (ha : a ≠ 0) (hb : b ≠ 0) (hn : 0 < n) :
    dhsicStat X Y a b = some (meanMul (dc (gk X a)) (dc (gk Y b))) := by
  have hn' : (n:ℝ) ≠ 0 := by positivity
  simp only [dhsicStat, C193_kernel X ha, C193_kernel Y hb, Option.bind_eq_bind, Option.bind_some]
  rw [if_neg (by omega)]
  congr 1
  set A := gk X a
  set B := gk Y b
  have hsA : ∀ i j, A i j = A j i := (C193_kernel_definite X ha).1
  have hrA : ∀ i, rowSum A i = colSum A i := fun i => Finset.sum_congr rfl fun l _ => hsA i l
  have hsB : ∀ i j, B i j = B j i := (C193_kernel_definite Y hb).1
  have hrB : ∀ i, rowSum B i = colSum B i := fun i => Finset.sum_congr rfl fun l _ => hsB i l
  have e1 : fro (dc A) (dc B) = fro A (dc B) := by
    have : ∀ i j, dc A i j * dc B i j = A i j * dc B i j - rowSum A i / n * dc B i j - dc B i j * (colSum A j / n)
        + (∑ l, colSum A l) / ((n * n : ℕ) : ℝ) * dc B i j := by
      intro i j; simp only [dc]; ring
    simp only [fro, this, Finset.sum_add_distrib, Finset.sum_sub_distrib, ← Finset.mul_sum, dc_row B hn, mul_zero,
      Finset.sum_const_zero, sub_zero, add_zero]
    rw [Finset.sum_comm (f := fun i j => dc B i j * (colSum A j / n))]
    simp only [← Finset.sum_mul, dc_col B hn, zero_mul, Finset.sum_const_zero, sub_zero]
  have e2 : fro A (dc B) = fro A B - 2 / n * (∑ j, colSum A j * colSum B j) + (∑ i, ∑ j, A i j) * (∑ i, ∑ j, B i j) / (n * n) := by
    simp only [fro, dc, mul_add, mul_sub, Finset.sum_add_distrib, Finset.sum_sub_distrib, Nat.cast_mul, ← Finset.sum_mul]
    rw [Finset.sum_comm (f := fun i j => A i j * (colSum B j / n))]
    simp only [← Finset.sum_mul]
    have f1 : ∑ i, (∑ j, A i j) * (rowSum B i / n) = (∑ i, colSum A i * colSum B i) / n := by
      rw [Finset.sum_div]; exact Finset.sum_congr rfl fun i _ => by rw [hrB, mul_div_assoc, ← hrA]; rfl
    have f2 : ∑ j, (∑ i, A i j) * (colSum B j / n) = (∑ i, colSum A i * colSum B i) / n := by
      rw [Finset.sum_div]; exact Finset.sum_congr rfl fun i _ => by rw [mul_div_assoc]; rfl
    have f3 : ∑ l, colSum B l = ∑ i, ∑ j, B i j := by rw [sum_colSum]; rfl
    rw [f1, f2, f3]
    field_simp
    ring
  rw [meanMul_eq, e1, e2]
  have f4 : ∑ j, 2 / (n:ℝ) ^ 3 * colSum A j * colSum B j = 2 / (n:ℝ) ^ 3 * ∑ j, colSum A j * colSum B j := by
    rw [Finset.mul_sum]; exact Finset.sum_congr rfl fun _ _ => by ring
  rw [f4]
  simp only [fro]
  field_simp
  ring

private theorem dc_gk_psd (X : Fin n → Fin m → ℝ) {a : ℝ} (ha : a ≠ 0) (hn : 0 < n) : (dc (gk X a)).PosSemidef := by
  obtain ⟨hs, -, hp, -⟩ := C193_kernel_definite X ha
  refine posSemidef_of_qf (dc_symm hs) fun c => ?_
  rw [qf_dc _ hn]
  exact qf_posSemidef hp _

/-- It is defined for nonzero bandwidths and never negative. -/
theorem C193_nonneg (X : Fin n → Fin m → ℝ) (Y : Fin n → Fin k → ℝ) (a b : ℝ) :
    ((dhsicStat X Y a b).isSome ↔ a ≠ 0 ∧ b ≠ 0 ∧ 0 < n) ∧ ∀ s, dhsicStat X Y a b = some s → 0 ≤ s := by
  by_cases h : a ≠ 0 ∧ b ≠ 0 ∧ 0 < n
  · rw [C193_statistic X Y h.1 h.2.1 h.2.2]
    refine ⟨by simpa using h, fun s hs => ?_⟩
    rw [← Option.some.inj hs, meanMul_eq]
    exact div_nonneg (fro_nonneg_of_psd (dc_gk_psd X h.1 h.2.2) (dc_gk_psd Y h.2.1 h.2.2)) (by positivity)
  · have : dhsicStat X Y a b = none := by
      by_cases ha : a = 0
      · simp [dhsicStat, gaussKernel, ha]
      · by_cases hb : b = 0
        · simp [dhsicStat, C193_kernel X ha, gaussKernel, hb]
        · have : n = 0 := by
            by_contra hn
            exact h ⟨ha, hb, by omega⟩
          simp [dhsicStat, C193_kernel X ha, C193_kernel Y hb, this]
    rw [this]
    exact ⟨by simpa using h, fun s hs => by simp at hs⟩

/-- The samples can be exchanged, with their bandwidths. -/
theorem C193_symmetric (X : Fin n → Fin m → ℝ) (Y : Fin n → Fin k → ℝ) (a b : ℝ) : dhsicStat X Y a b = dhsicStat Y X b a := by
  by_cases h : a ≠ 0 ∧ b ≠ 0 ∧ 0 < n
  · rw [C193_statistic X Y h.1 h.2.1 h.2.2, C193_statistic Y X h.2.1 h.1 h.2.2, meanMul_eq, meanMul_eq, fro_comm]
  · have h1 := (C193_nonneg X Y a b).1
    have h2 := (C193_nonneg Y X b a).1
    have h' : ¬ (b ≠ 0 ∧ a ≠ 0 ∧ 0 < n) := fun hh => h ⟨hh.2.1, hh.1, hh.2.2⟩
    rw [← h1] at h
    rw [← h2] at h'
    rw [Option.not_isSome_iff_eq_none] at h h'
    rw [h, h']

/-- It vanishes if a sample is constant. -/
theorem C193_constant (X : Fin n → Fin m → ℝ) (Y : Fin n → Fin k → ℝ) {a b s : ℝ} (hY : ∀ i j, Y i = Y j)
    (h : dhsicStat X Y a b = some s) : s = 0 := by
  have hd : a ≠ 0 ∧ b ≠ 0 ∧ 0 < n := (C193_nonneg X Y a b).1.1 (by simp [h])
  rw [C193_statistic X Y hd.1 hd.2.1 hd.2.2] at h
  have hn : (n:ℝ) ≠ 0 := by have := hd.2.2; positivity
  have : dc (gk Y b) = 0 := by
    ext i j
    have hk : ∀ i j, gk Y b i j = 1 := fun i j => by simp [gk, (sq_eq_zero Y i j).2 (hY i j)]
    simp only [dc, rowSum, colSum, hk, Finset.sum_const, Finset.card_univ, Fintype.card_fin, nsmul_eq_mul, Matrix.zero_apply, Nat.cast_mul]
    field_simp
    ring
  rw [← Option.some.inj h, meanMul_eq, this]
  simp [fro]

/-- It is positive if one sample is not constant and the observations of the other are distinct. -/
theorem C193_positive (X : Fin n → Fin m → ℝ) (Y : Fin n → Fin k → ℝ) {a b s : ℝ} (hX : ∃ i j, X i ≠ X j) (hY : Function.Injective Y)
    (h : dhsicStat X Y a b = some s) : 0 < s := by
  have hd : a ≠ 0 ∧ b ≠ 0 ∧ 0 < n := (C193_nonneg X Y a b).1.1 (by simp [h])
  obtain ⟨ha, hb, hn⟩ := hd
  have hn' : (n:ℝ) ≠ 0 := by positivity
  rw [C193_statistic X Y ha hb hn] at h
  rw [← Option.some.inj h, meanMul_eq]
  refine div_pos ?_ (by positivity)
  refine lt_of_le_of_ne (fro_nonneg_of_psd (dc_gk_psd X ha hn) (dc_gk_psd Y hb hn)) fun h0 => ?_
  -- the centred kernel of X as a sum of squares
  have hpx := dc_gk_psd X ha hn
  obtain ⟨R, hR⟩ := CStarAlgebra.nonneg_iff_eq_star_mul_self.mp hpx.nonneg
  have hRe : ∀ i j, dc (gk X a) i j = ∑ l, R l i * R l j := by
    intro i j; rw [hR, Matrix.mul_apply]; simp [Matrix.star_apply]
  have hf : fro (dc (gk X a)) (dc (gk Y b)) = ∑ l, qf (dc (gk Y b)) fun i => R l i := by
    simp only [fro, qf, hRe, Finset.sum_mul]
    rw [Finset.sum_comm (γ := Fin n) (s := Finset.univ) (t := Finset.univ) (f := fun l i => ∑ j, R l i * R l j * dc (gk Y b) i j)]
    refine Finset.sum_congr rfl fun i _ => ?_
    rw [Finset.sum_comm]
  rw [hf] at h0
  have hz := (Finset.sum_eq_zero_iff_of_nonneg fun l _ => qf_posSemidef (dc_gk_psd Y hb hn) fun i => R l i).1 h0.symm
  -- every row of R is constant
  have hc : ∀ l i, R l i = (∑ j, R l j) / n := by
    intro l i
    have := hz l (Finset.mem_univ l)
    rw [qf_dc _ hn, gk_eq] at this
    have := congrFun (gauss_definite Y hY (by positivity) this) i
    simpa [sub_eq_zero] using this
  -- so the centred kernel vanishes
  have hconst : ∀ i j, dc (gk X a) i j = dc (gk X a) i i := by
    intro i j
    rw [hRe, hRe]
    exact Finset.sum_congr rfl fun l _ => by rw [hc l j, ← hc l i]
  have hzero : ∀ i j, dc (gk X a) i j = 0 := by
    intro i j
    have h1 := dc_row (gk X a) hn i
    simp only [hconst i, Finset.sum_const, Finset.card_univ, Fintype.card_fin, nsmul_eq_mul] at h1
    rw [hconst i j]
    exact (mul_eq_zero.1 h1).resolve_left hn'
  obtain ⟨i, j, hij⟩ := hX
  obtain ⟨hs, h1, -, -⟩ := C193_kernel_definite X ha
  have hr : ∀ i, rowSum (gk X a) i = colSum (gk X a) i := fun i => Finset.sum_congr rfl fun l _ => hs i l
  have e1 := hzero i j
  have e2 := hzero i i
  have e3 := hzero j j
  simp only [dc, hr, h1] at e1 e2 e3
  have e4 : gk X a i j = 1 := by linarith
  simp only [gk, Real.exp_eq_one_iff] at e4
  have : sq X i j = 0 := by
    rcases div_eq_zero_iff.1 e4 with h | h
    · linarith
    · exact absurd h (by positivity)
  exact hij ((sq_eq_zero X i j).1 this)

example : ∃ s, dhsicStat wX wX 1 1 = some s ∧ 0 < s := by
  obtain ⟨s, hs⟩ := Option.isSome_iff_exists.1 ((C193_nonneg wX wX 1 1).1.2 ⟨one_ne_zero, one_ne_zero, by norm_num⟩)
  refine ⟨s, hs, C193_positive wX wX ⟨0, 1, fun h => ?_⟩ ?_ hs⟩
  · have := congrFun h 0
    simp [wX] at this
  · intro i j h
    have := congrFun h 0
    fin_cases i <;> fin_cases j <;> simp [wX] at this ⊢

/-! ### Bandwidths -/

private theorem filter_lt_length (i : Fin n) : ((List.finRange n).filter (· < i)).length = i := by
  rw [← List.countP_eq_length_filter]
  have : (List.finRange n).countP (fun j => decide (j < i)) = ((Finset.univ : Finset (Fin n)).filter (· < i)).card := by
    rw [Finset.card_filter]
    simp only [List.countP_eq_length_filter]
    rw [← Finset.card_filter]
    rfl
  rw [this]
  have e : (Finset.univ : Finset (Fin n)).filter (· < i) = Finset.Iio i := by ext; simp
  rw [e, Fin.card_Iio]

theorem pairSq_length (X : Fin n → Fin m → ℝ) : (pairSq X).length = n * (n + 1) / 2 - n := by
  have h1 : (pairSq X).length = ∑ i : Fin n, (i : ℕ) := by
    simp only [pairSq, List.length_flatMap, List.length_map, filter_lt_length]
    rw [← List.sum_ofFn, List.ofFn_eq_map]
  rw [h1, Fin.sum_univ_eq_sum_range (fun i => i) n, Finset.sum_range_id]
  have : n * (n + 1) = n * (n - 1) + n * 2 := by
    cases n with
    | zero => rfl
    | succ n => simp; ring
  rw [this, Nat.add_mul_div_right _ _ (by norm_num), Nat.add_sub_cancel]

/-- The buffer of `_median_bandwith` has exactly one entry for every pair of observations. -/
theorem C193_median_buffer (X : Fin n → Fin m → ℝ) : medianBuf X = some (pairSq X) := by
  simp [medianBuf, pairSq_length]

/-- With the median bandwidth the kernel is `exp(-d² / median d²)`. -/
theorem C193_median (X : Fin n → Fin m → ℝ) {bw : ℝ} (h : medianBw X = some bw) :
    ∃ v, npMedian (pairSq X) = some v ∧ bw = Real.sqrt (v / 2) ∧
      (0 < v → gaussKernel X bw = some fun i j => Real.exp (-(sq X i j) / v)) := by
  simp only [medianBw, C193_median_buffer, Option.bind_eq_bind, Option.bind_some, Option.bind_eq_some_iff] at h
  obtain ⟨v, h1, h2⟩ := h
  have hb : bw = Real.sqrt (v / 2) := by rw [← Option.some.inj h2]; congr 1; ring
  refine ⟨v, h1, hb, fun hv => ?_⟩
  have : bw ≠ 0 := by rw [hb]; exact (Real.sqrt_pos.2 (by positivity)).ne'
  rw [C193_kernel X this]
  congr 1
  funext i j
  simp only [gk]
  rw [hb, Real.sq_sqrt (by positivity)]
  congr 2
  ring

/-- The median of the squared distances follows a change of unit, so that the statistic with median bandwidths does not depend on the
units of the samples; nor does it change with shifts and rotations. -/
theorem C193_median_invariance {m' : ℕ} (X : Fin n → Fin m → ℝ) (X' : Fin n → Fin m' → ℝ) (Y : Fin n → Fin k → ℝ) {c : ℝ} (hc : 0 < c)
    (h : ∀ i j, sq X' i j = c ^ 2 * sq X i j) :
    (dhsic X' Y .median).map Prod.fst = (dhsic X Y .median).map Prod.fst := by
  have hp : pairSq X' = (pairSq X).map fun v => c ^ 2 * v := by
    simp only [pairSq, List.map_flatMap, List.map_map, sqDiff_eq]
    congr 1
    funext i
    congr 1
    funext j
    exact h i j
  have hm : npMedian (pairSq X') = (npMedian (pairSq X)).map fun v => c ^ 2 * v := by
    have hmono : Monotone fun v : ℝ => c ^ 2 * v := fun a b hab => mul_le_mul_of_nonneg_left hab (by positivity)
    rw [hp]
    simp only [npMedian, List.length_map, kth_map _ hmono]
    cases h1 : kth (pairSq X) (((pairSq X).length - 1) / 2) <;> cases h2 : kth (pairSq X) ((pairSq X).length / 2) <;> simp
    ring
  have hb : medianBw X' = (medianBw X).map fun v => c * v := by
    simp only [medianBw, C193_median_buffer, Option.bind_eq_bind, Option.bind_some, hm]
    cases npMedian (pairSq X)
    · rfl
    · simp only [Option.map_some, Option.bind_some, mul_assoc]
      rw [Real.sqrt_mul (by positivity), Real.sqrt_sq hc.le]
  simp only [dhsic, bandwidths, hb, Option.bind_eq_bind]
  cases hx : medianBw X with
  | none => rfl
  | some bx =>
    cases hy : medianBw Y with
    | none => rfl
    | some b =>
      simp only [Option.map_some, Option.bind_some]
      have hk : gaussKernel X' (c * bx) = gaussKernel X bx := by
        by_cases h0 : bx = 0
        · simp [gaussKernel, h0]
        · rw [C193_kernel X' (mul_ne_zero hc.ne' h0), C193_kernel X h0]
          congr 1
          funext i j
          simp only [gk]
          rw [h]
          congr 1
          field_simp
      have : dhsicStat X' Y (c * bx) b = dhsicStat X Y bx b := by simp only [dhsicStat, hk]
      rw [this]
      cases dhsicStat X Y bx b <;> rfl

/-- The median bandwidth fails when more than half of the pairs coincide, although the sample is not constant: five observations, one of
them different. -/
theorem C193_median_violated :
    ∃ X : Fin 5 → Fin 1 → ℝ, (∃ i j, X i ≠ X j) ∧ medianBw X = some 0 ∧ dhsic X X .median = none := by
  let X : Fin 5 → Fin 1 → ℝ := fun i _ => if i = 4 then 1 else 0
  have hl : pairSq X = [0, 0, 0, 0, 0, 0, 1, 1, 1, 1] := by
    have e : List.finRange 5 = [0, 1, 2, 3, 4] := by decide
    simp [pairSq, e, X, sqDiff, List.filter_cons]
  have hm : npMedian (pairSq X) = some 0 := by
    have h4 : kth (pairSq X) 4 = some 0 := by
      rw [hl]
      refine kth_eq ?_ ?_ <;> simp [List.countP_cons]
    have h5 : kth (pairSq X) 5 = some 0 := by
      rw [hl]
      refine kth_eq ?_ ?_ <;> simp [List.countP_cons]
    have hlen : (pairSq X).length = 10 := by rw [hl]; rfl
    simp [npMedian, hlen, h4, h5]
  have hb : medianBw X = some 0 := by
    simp [medianBw, C193_median_buffer, hm]
  refine ⟨X, ⟨0, 4, fun h => ?_⟩, hb, ?_⟩
  · have := congrFun h 0
    simp [X] at this
  · simp [dhsic, bandwidths, hb, dhsicStat, gaussKernel]

/-- The bandwidths `'nvars'` are those of the number of observations: the kernel is `exp(-n d²)` whatever the number of variables. -/
theorem C193_nvars_violated (X : Fin n → Fin m → ℝ) (Y : Fin n → Fin k → ℝ) (hn : 0 < n) :
    ∃ b, bandwidths X Y .nvars = some (b, b) ∧ gaussKernel X b = some fun i j => Real.exp (-(n * sq X i j)) := by
  have hn' : (0:ℝ) < n := by exact_mod_cast hn
  refine ⟨Real.sqrt (1 / n / 2), by simp only [bandwidths]; rw [if_neg (by omega)], ?_⟩
  have : Real.sqrt (1 / (n:ℝ) / 2) ≠ 0 := (Real.sqrt_pos.2 (by positivity)).ne'
  rw [C193_kernel X this]
  congr 1
  funext i j
  simp only [gk]
  rw [Real.sq_sqrt (by positivity)]
  congr 1
  field_simp

/-- Bandwidths are given as a list of two numbers; a tuple, a number or another string is an error. -/
theorem C193_bandwidth_argument (X : Fin n → Fin m → ℝ) (Y : Fin n → Fin k → ℝ) :
    dhsic X Y .other = none ∧ (∀ l : List ℝ, l.length ≠ 2 → dhsic X Y (.list l) = none) ∧
      ∀ a b, dhsic X Y (.list [a, b]) = (dhsicStat X Y a b).map fun s => (s, a, b) := by
  refine ⟨rfl, fun l hl => ?_, fun a b => ?_⟩
  · match l, hl with
    | [], _ => rfl
    | [_], _ => rfl
    | [_, _], h => exact absurd rfl h
    | _ :: _ :: _ :: _, _ => rfl
  · simp only [dhsic, bandwidths, Option.bind_eq_bind, Option.bind_some]
    cases dhsicStat X Y a b <;> rfl

private theorem mapM_length {α β : Type} (f : α → Option β) : ∀ (l : List α) {r : List β}, l.mapM f = some r → r.length = l.length ∧ ∀ v ∈ r, ∃ a ∈ l, f a = some v := by
  intro l
  induction l with
  | nil => intro r h; simp at h; subst h; simp
  | cons a l ih =>
    intro r h
    simp only [List.mapM_cons, Option.bind_eq_bind, Option.bind_eq_some_iff] at h
    obtain ⟨x, hx, b, hb, hc⟩ := h
    simp at hc
    subst hc
    obtain ⟨h1, h2⟩ := ih hb
    refine ⟨by simp [h1], fun v hv => ?_⟩
    rcases List.mem_cons.1 hv with rfl | hv
    · exact ⟨a, List.mem_cons_self, hx⟩
    · obtain ⟨c, hc, hd⟩ := h2 v hv
      exact ⟨c, List.mem_cons_of_mem _ hc, hd⟩

/-- The p-value of `dhsic_test` is the proportion of permutations with a larger statistic; the absolute values change nothing. -/
theorem C193_pvalue (X : Fin n → Fin m → ℝ) (Y : Fin n → Fin k → ℝ) (bw : Bw) (σs : List (Equiv.Perm (Fin n))) {s p : ℝ} {l : List ℝ}
    (h : dhsicTest X Y bw σs = some (s, l, p)) :
    l.length = σs.length ∧ p = ((l.countP fun v => decide (s < v)) : ℝ) / σs.length ∧ 0 ≤ p ∧ p ≤ 1 := by
  simp only [dhsicTest, Option.bind_eq_bind, Option.bind_eq_some_iff] at h
  obtain ⟨r, h1, l', h2, h3⟩ := h
  split_ifs at h3 with hl
  simp only [Option.some.injEq, Prod.mk.injEq] at h3
  obtain ⟨rfl, rfl, h4⟩ := h3
  obtain ⟨hlen, hmem⟩ := mapM_length _ σs h2
  have hr : 0 ≤ r.1 := by
    simp only [dhsic, Option.bind_eq_bind, Option.bind_eq_some_iff] at h1
    obtain ⟨b, -, s, hs, he⟩ := h1
    rw [← Option.some.inj he]
    exact (C193_nonneg X Y b.1 b.2).2 s hs
  have hc : (l'.countP fun v => decide (|v| > |r.1|)) = l'.countP fun v => decide (r.1 < v) := by
    refine List.countP_congr fun v hv => ?_
    obtain ⟨σ, -, hσ⟩ := hmem v hv
    have := (C193_nonneg X _ _ _).2 v hσ
    simp [abs_of_nonneg this, abs_of_nonneg hr]
  have e : p = ((l'.countP fun v => decide (r.1 < v)) : ℝ) / σs.length := by
    rw [← h4, ← hlen, ← hc]
  refine ⟨hlen, e, ?_, ?_⟩
  · rw [e]; positivity
  · rw [e]
    refine div_le_one_of_le₀ ?_ (by positivity)
    rw [← hlen]
    exact_mod_cast List.countP_le_length

end Verif.Indep
