import Verif.Transf.UcholLemmas
import Verif.Transf.CorrChol
import Verif.Lin.CholProps
import Verif.Vec.Props
/-!
# Stick-breaking transform and correlation Cholesky factors (C41)
-/
namespace Verif.Transf
open Verif.Np Verif.Vec Verif.Index Verif.Lin Real

variable {n m : ℕ}

/-- All cells strictly inside `(-1, 1)`. -/
def InCube (m : ℕ) (x : ℤ → ℝ) : Prop := ∀ k : ℤ, 0 ≤ k → k < m → x k ^ 2 < 1

/-- All rows of the strictly lower triangle with norm below one. -/
def InBalls (n : ℕ) (y : ℤ → ℝ) : Prop := ∀ i, i < n → rowSum y (pos n i) i < 1

theorem cube_row (hm : 2 * m = n * (n - 1)) {x : ℤ → ℝ} (hx : InCube m x) {i l : ℕ} (h1 : l < i)
    (h2 : i < n) : x (pos n i l) ^ 2 < 1 := hx _ (pos_range hm h1 h2).1 (pos_range hm h1 h2).2

theorem rowSum_mono (y : ℤ → ℝ) (κ : ℕ → ℤ) {a b : ℕ} (h : a ≤ b) : rowSum y κ a ≤ rowSum y κ b :=
  Finset.sum_le_sum_of_subset_of_nonneg (Finset.range_mono h) fun _ _ _ => sq_nonneg _

/-- C41: the reverse map sends the open cube into rows of norm below one. -/
theorem C41_rvs_range (hm : 2 * m = n * (n - 1)) (x : ℤ → ℝ) (hx : InCube m x) :
    InBalls n (ucRvs m x) := by
  intro i hi
  cases i with
  | zero => simp [rowSum]
  | succ i =>
    rw [← rvsAux_eq hm x hi i (by omega)]
    have := rvs_stick_pos x (pos n (i + 1)) i fun l hl => cube_row hm hx (by omega) hi
    linarith

/-- C41: the forward map sends rows of norm below one into the open cube. -/
theorem C41_fwd_range (hm : 2 * m = n * (n - 1)) (hn : 1 ≤ n) (y : ℤ → ℝ) (hy : InBalls n y) :
    InCube m (ucFwd m y) := by
  intro k h0 h1
  obtain ⟨i, j, hj, hi, rfl⟩ := pos_surj hm hn k h0 h1
  have hlt := lt_of_le_of_lt (rowSum_mono y (pos n i) (show j + 1 ≤ i by omega)) (hy i hi)
  cases j with
  | zero =>
    rw [fwd_zero hm y hj hi]
    simpa [rowSum] using hlt
  | succ j =>
    rw [fwd_succ hm y hj hi, fwdAux_eq]
    rw [rowSum, Finset.sum_range_succ, ← rowSum] at hlt
    have hp : 0 < 1 - rowSum y (pos n i) (j + 1) := by nlinarith [sq_nonneg (y (pos n i (j + 1)))]
    rw [div_pow, sq_sqrt hp.le, div_lt_one hp]
    linarith

/-- C41: forward undoes reverse on the open cube. -/
theorem C41_fwd_rvs (hm : 2 * m = n * (n - 1)) (hn : 1 ≤ n) (x : ℤ → ℝ) (hx : InCube m x)
    (k : ℤ) (h0 : 0 ≤ k) (h1 : k < m) : ucFwd m (ucRvs m x) k = x k := by
  obtain ⟨i, j, hj, hi, rfl⟩ := pos_surj hm hn k h0 h1
  cases j with
  | zero => rw [fwd_zero hm _ hj hi, rvs_zero hm x hj hi]
  | succ j =>
    rw [fwd_succ hm _ hj hi, fwdAux_eq, ← rvsAux_eq hm x hi j (by omega), rvs_succ hm x hj hi]
    have := rvs_stick_pos x (pos n i) j fun l hl => cube_row hm hx (by omega) hi
    exact mul_div_cancel_right₀ _ (sqrt_pos.2 this).ne'

/-- C41: reverse undoes forward on rows of norm below one. -/
theorem C41_rvs_fwd (hm : 2 * m = n * (n - 1)) (hn : 1 ≤ n) (y : ℤ → ℝ) (hy : InBalls n y)
    (k : ℤ) (h0 : 0 ≤ k) (h1 : k < m) : ucRvs m (ucFwd m y) k = y k := by
  obtain ⟨i, j, hj, hi, rfl⟩ := pos_surj hm hn k h0 h1
  have key : ∀ j, j < i → (rvsAux (ucFwd m y) (pos n i) j = rowSum y (pos n i) (j + 1)) ∧
      ucRvs m (ucFwd m y) (pos n i j) = y (pos n i j) := by
    intro j
    induction j with
    | zero =>
      intro hj
      have e : ucRvs m (ucFwd m y) (pos n i 0) = y (pos n i 0) := by
        rw [rvs_zero hm _ hj hi, fwd_zero hm _ hj hi]
      refine ⟨?_, e⟩
      rw [rvsAux_eq hm _ hi 0 hj]
      simp [rowSum, e]
    | succ j ih =>
      intro hj
      have h := (ih (by omega)).1
      have hlt := lt_of_le_of_lt (rowSum_mono y (pos n i) (show j + 1 ≤ i by omega)) (hy i hi)
      have hp : 0 < 1 - rowSum y (pos n i) (j + 1) := by linarith
      have e : ucRvs m (ucFwd m y) (pos n i (j + 1)) = y (pos n i (j + 1)) := by
        rw [rvs_succ hm _ hj hi, h, fwd_succ hm y hj hi, fwdAux_eq,
          div_mul_cancel₀ _ (sqrt_pos.2 hp).ne']
      refine ⟨?_, e⟩
      rw [rvsAux_eq hm _ hi (j + 1) hj, rowSum, Finset.sum_range_succ, ← rowSum,
        ← rvsAux_eq hm _ hi j (by omega), h, e, rowSum, rowSum, Finset.sum_range_succ _ (j + 1)]
  exact (key j hj).2

/-! ## correlation matrices -/

/-- Correlation matrix: symmetric, unit diagonal, positive definite. -/
structure IsCorr (n : ℕ) (R : ℕ → ℕ → ℝ) : Prop where
  symm : ∀ i j, i < n → j < n → R i j = R j i
  unit : ∀ i, i < n → R i i = 1
  pos : ∀ v : ℕ → ℝ, (∃ i, i < n ∧ v i ≠ 0) →
    0 < ∑ i ∈ Finset.range n, ∑ j ∈ Finset.range n, v i * R i j * v j

/-- A matrix with a lower triangular factor with positive diagonal is positive definite. -/
theorem chol_pos {A L : ℕ → ℕ → ℝ} (h : IsChol n A L) (v : ℕ → ℝ) (hv : ∃ i, i < n ∧ v i ≠ 0) :
    0 < ∑ i ∈ Finset.range n, ∑ j ∈ Finset.range n, v i * A i j * v j := by
  have e : ∑ i ∈ Finset.range n, ∑ j ∈ Finset.range n, v i * A i j * v j =
      ∑ c ∈ Finset.range n, (∑ i ∈ Finset.range n, v i * L i c) ^ 2 := by
    calc _ = ∑ i ∈ Finset.range n, ∑ j ∈ Finset.range n, ∑ c ∈ Finset.range n,
          (v i * L i c) * (v j * L j c) := by
          refine Finset.sum_congr rfl fun i hi => Finset.sum_congr rfl fun j hj => ?_
          rw [Finset.mem_range] at hi hj
          rw [← h.prod i j hi hj, Finset.mul_sum, Finset.sum_mul]
          exact Finset.sum_congr rfl fun c _ => by ring
      _ = ∑ i ∈ Finset.range n, ∑ c ∈ Finset.range n, ∑ j ∈ Finset.range n,
          (v i * L i c) * (v j * L j c) := Finset.sum_congr rfl fun i _ => Finset.sum_comm
      _ = ∑ c ∈ Finset.range n, ∑ i ∈ Finset.range n, ∑ j ∈ Finset.range n,
          (v i * L i c) * (v j * L j c) := Finset.sum_comm
      _ = _ := Finset.sum_congr rfl fun c _ => by rw [sq, Finset.sum_mul_sum]
  rw [e]
  refine lt_of_le_of_ne (Finset.sum_nonneg fun c _ => sq_nonneg _) fun h0 => ?_
  have hz : ∀ c, c < n → ∑ i ∈ Finset.range n, v i * L i c = 0 := fun c hc => by
    have := (Finset.sum_eq_zero_iff_of_nonneg fun c _ => sq_nonneg _).1 h0.symm c
      (Finset.mem_range.2 hc)
    exact pow_eq_zero_iff (two_ne_zero) |>.1 this
  have hall : ∀ d, d ≤ n → ∀ c, n - d ≤ c → c < n → v c = 0 := by
    intro d
    induction d with
    | zero => intro _ c h1 h2; omega
    | succ d ih =>
      intro hd c h1 h2
      by_cases hc : n - d ≤ c
      · exact ih (by omega) c hc h2
      have hs := hz c h2
      rw [Finset.sum_eq_single c] at hs
      · exact (mul_eq_zero.1 hs).resolve_right (h.diag c h2).ne'
      · intro b hb hbc
        rw [Finset.mem_range] at hb
        rcases lt_or_gt_of_ne hbc with hlt | hgt
        · rw [h.low b c hb h2 hlt, mul_zero]
        · rw [ih (by omega) b (by omega) hb, zero_mul]
      · intro hc'; exact absurd (Finset.mem_range.2 h2) hc'
  obtain ⟨i, hi, hne⟩ := hv
  exact hne (hall n le_rfl i (by omega) hi)

/-- The Cholesky factor is unique. -/
theorem chol_unique {A L M : ℕ → ℕ → ℝ} (hL : IsChol n A L) (hM : IsChol n A M) :
    ∀ i j, i < n → j < n → L i j = M i j := by
  have red : ∀ {K : ℕ → ℕ → ℝ}, IsChol n A K → ∀ i j, i < n → j < n → j ≤ i →
      ∑ c ∈ Finset.range j, K i c * K j c + K i j * K j j = A i j := by
    intro K hK i j hi hj hji
    rw [← hK.prod i j hi hj, ← Finset.sum_range_succ (fun c => K i c * K j c),
      ← Finset.sum_range_add_sum_Ico (fun c => K i c * K j c) (show j + 1 ≤ n by omega)]
    rw [Finset.sum_eq_zero (s := Finset.Ico (j + 1) n), add_zero]
    intro c hc
    rw [Finset.mem_Ico] at hc
    rw [hK.low j c hj hc.2 (by omega), mul_zero]
  have key : ∀ d j, j ≤ d → ∀ i, i < n → j ≤ i → L i j = M i j := by
    intro d
    induction d with
    | zero =>
      intro j hj i hi _
      obtain rfl : j = 0 := by omega
      have hd : L 0 0 = M 0 0 := by
        have a := red hL 0 0 (by omega) (by omega) le_rfl
        have b := red hM 0 0 (by omega) (by omega) le_rfl
        simp only [Finset.range_zero, Finset.sum_empty, zero_add] at a b
        have p := hL.diag 0 (by omega); have q := hM.diag 0 (by omega)
        nlinarith [mul_self_inj p.le q.le |>.1 (a.trans b.symm)]
      have a := red hL i 0 hi (by omega) (by omega)
      have b := red hM i 0 hi (by omega) (by omega)
      simp only [Finset.range_zero, Finset.sum_empty, zero_add] at a b
      rw [← hd] at b
      exact mul_right_cancel₀ (hL.diag 0 (by omega)).ne' (a.trans b.symm)
    | succ d ih =>
      intro j hj i hi hji
      by_cases hjd : j ≤ d
      · exact ih j hjd i hi hji
      have hjn : j < n := by omega
      have same : ∀ r, r < n → j ≤ r → ∑ c ∈ Finset.range j, L r c * L j c =
          ∑ c ∈ Finset.range j, M r c * M j c := fun r hr hjr =>
        Finset.sum_congr rfl fun c hc => by
          rw [Finset.mem_range] at hc
          rw [ih c (by omega) r hr (by omega), ih c (by omega) j hjn (by omega)]
      have hd : L j j = M j j := by
        have a := red hL j j hjn hjn le_rfl
        have b := red hM j j hjn hjn le_rfl
        rw [same j hjn le_rfl] at a
        exact mul_self_inj (hL.diag j hjn).le (hM.diag j hjn).le |>.1 (by linarith)
      have a := red hL i j hi hjn hji
      have b := red hM i j hi hjn hji
      rw [same i hi hji] at a
      rw [← hd] at b
      exact mul_right_cancel₀ (hL.diag j hjn).ne' (by linarith)
  intro i j hi hj
  by_cases h : i < j
  · rw [hL.low i j hi hj h, hM.low i j hi hj h]
  · exact key j j le_rfl i hi (by omega)

/-- Row norms (of the strictly lower part) below one. -/
def LowBalls (n : ℕ) (A : ℕ → ℕ → ℝ) : Prop :=
  ∀ i, i < n → ∑ j ∈ Finset.range i, A i j ^ 2 < 1

/-- Strictly lower part. -/
def low (A : ℕ → ℕ → ℝ) : ℕ → ℕ → ℝ := fun i j => if j < i then A i j else 0

theorem low_sum (A : ℕ → ℕ → ℝ) {i : ℕ} (hi : i < n) :
    ∑ c ∈ Finset.range n, low A i c ^ 2 = ∑ j ∈ Finset.range i, A i j ^ 2 := by
  rw [← Finset.sum_range_add_sum_Ico _ hi.le, Finset.sum_eq_zero (s := Finset.Ico i n), add_zero]
  · exact Finset.sum_congr rfl fun c hc => by rw [low, if_pos (Finset.mem_range.1 hc)]
  · intro c hc
    rw [Finset.mem_Ico] at hc
    rw [low, if_neg (by omega)]; simp

theorem corr_chol (A : ℕ → ℕ → ℝ) (hA : LowBalls n A) : IsChol n (corrR n (low A)) (corrL n (low A)) where
  low i j _ _ h := by rw [corrL, if_neg (by omega), low, if_neg (by omega)]
  diag i hi := by
    rw [corrL, if_pos rfl, low_sum A hi]
    exact sqrt_pos.2 (by have := hA i hi; linarith)
  prod i j _ _ := rfl

theorem corr_isCorr (A : ℕ → ℕ → ℝ) (hA : LowBalls n A) : IsCorr n (corrR n (low A)) where
  symm i j _ _ := Finset.sum_congr rfl fun c _ => mul_comm _ _
  unit i hi := by
    have hp := hA i hi
    rw [← low_sum A hi] at hp
    have : ∀ c, c ∈ Finset.range n → corrL n (low A) i c * corrL n (low A) i c =
        low A i c ^ 2 + if c = i then 1 - ∑ c ∈ Finset.range n, low A i c ^ 2 else 0 := by
      intro c _
      by_cases h : i = c
      · subst h
        have e := mul_self_sqrt (show 0 ≤ 1 - ∑ c ∈ Finset.range n, low A i c ^ 2 by linarith)
        simp only [corrL, if_true, e]
        simp [low]
      · rw [corrL, if_neg h, if_neg (Ne.symm h)]; ring
    rw [corrR, Finset.sum_congr rfl this, Finset.sum_add_distrib, Finset.sum_ite_eq',
      if_pos (Finset.mem_range.2 hi)]
    ring
  pos := chol_pos (corr_chol A hA)

theorem corrL_congr {X Y : ℕ → ℕ → ℝ} (h : ∀ i j, i < n → j < n → X i j = Y i j) (i j : ℕ)
    (hi : i < n) (hj : j < n) : corrL n X i j = corrL n Y i j := by
  unfold corrL
  rw [h i j hi hj, Finset.sum_congr rfl fun c hc => by rw [h i c hi (Finset.mem_range.1 hc)]]

theorem corrR_congr {X Y : ℕ → ℕ → ℝ} (h : ∀ i j, i < n → j < n → X i j = Y i j) (i j : ℕ)
    (hi : i < n) (hj : j < n) : corrR n X i j = corrR n Y i j :=
  Finset.sum_congr rfl fun c hc => by
    rw [corrL_congr h i c hi (Finset.mem_range.1 hc), corrL_congr h j c hj (Finset.mem_range.1 hc)]

theorem vecl_congr {X Y : ℕ → ℕ → ℝ} (h : ∀ i j, i < n → j < i → X i j = Y i j) :
    vecl X n = vecl Y n := by
  refine List.map_congr_left fun p hp => ?_
  have : p.1 < n ∧ p.2 < n ∧ p.1 < p.2 := by
    obtain ⟨i, j⟩ := p
    simp only [npTriu, List.mem_flatMap, List.mem_range, List.mem_map, List.mem_filter,
      Prod.mk.injEq, decide_eq_true_eq] at hp
    obtain ⟨a, ha, b, ⟨hb, hab⟩, rfl, rfl⟩ := hp
    refine ⟨ha, hb, ?_⟩
    show a < b
    omega
  exact h _ _ this.2.1 this.2.2

/-- C41: a strictly lower factor with row norms below one is completed to a correlation matrix. -/
theorem C41_corr (A : ℕ → ℕ → ℝ) (hn : 1 ≤ n) (hA : LowBalls n A) :
    ∃ R, corrRvs (vecl A n) = some (vecl R n) ∧ IsCorr n R := by
  obtain ⟨Y, h1, h2⟩ := (C11_lower_half A n).1 hn
  refine ⟨corrR n (low A), ?_, corr_isCorr A hA⟩
  simp only [corrRvs, h1, Option.bind_eq_bind, Option.bind_some]
  exact congrArg some (vecl_congr fun i j hi hj => corrR_congr h2 i j hi (by omega))

/-- Contract of `np.linalg.cholesky`: the factor of a positive definite matrix, whatever the
entries outside the `n × n` block. -/
def CholOk (chol : ℕ → (ℕ → ℕ → ℝ) → Option (ℕ → ℕ → ℝ)) : Prop :=
  ∀ n A, (∃ L, IsChol n A L) → ∃ L, chol n A = some L ∧ IsChol n A L

/-- C41: forward undoes reverse. -/
theorem C41_corr_fwd_rvs (chol) (hc : CholOk chol) (A : ℕ → ℕ → ℝ) (hn : 1 ≤ n) (hA : LowBalls n A) :
    (corrRvs (vecl A n)).bind (corrFwd chol) = some (vecl A n) := by
  obtain ⟨Y, h1, h2⟩ := (C11_lower_half A n).1 hn
  have hR := corr_isCorr A hA
  obtain ⟨Z, z1, z2⟩ := (C11_invecl_vecl (corrR n (low A)) n hn hR.symm hR.unit).1
  have hZ : IsChol n Z (corrL n (low A)) :=
    { low := (corr_chol A hA).low, diag := (corr_chol A hA).diag,
      prod := fun i j hi hj => (z2 i j hi hj).symm }
  obtain ⟨L, l1, l2⟩ := hc n Z ⟨_, hZ⟩
  have e := vecl_congr (n := n) (X := corrR n Y) (Y := corrR n (low A))
    fun i j hi hj => corrR_congr h2 i j hi (by omega)
  simp only [corrRvs, h1, Option.bind_eq_bind, Option.bind_some, Option.pure_def, e, corrFwd, z1, l1]
  refine congrArg some (vecl_congr fun i j hi hj => ?_)
  rw [chol_unique l2 hZ i j hi (by omega), corrL, if_neg (by omega), low, if_pos hj]

/-- C41: reverse undoes forward on correlation matrices with a Cholesky factor. -/
theorem C41_corr_rvs_fwd (chol) (hc : CholOk chol) (R : ℕ → ℕ → ℝ) (hn : 1 ≤ n)
    (hs : ∀ i j, i < n → j < n → R i j = R j i) (hu : ∀ i, i < n → R i i = 1)
    (hL : ∃ L, IsChol n R L) :
    ∃ A, LowBalls n A ∧ corrFwd chol (vecl R n) = some (vecl A n) ∧
      corrRvs (vecl A n) = some (vecl R n) := by
  obtain ⟨Z, z1, z2⟩ := (C11_invecl_vecl R n hn hs hu).1
  obtain ⟨L0, hL0⟩ := hL
  obtain ⟨L, l1, l2⟩ := hc n Z ⟨L0, ⟨hL0.low, hL0.diag, fun i j hi hj =>
    (hL0.prod i j hi hj).trans (z2 i j hi hj).symm⟩⟩
  have hd : ∀ i, i < n → ∑ j ∈ Finset.range i, L i j ^ 2 + L i i ^ 2 = 1 := by
    intro i hi
    have := l2.prod i i hi hi
    rw [z2 i i hi hi, hu i hi, ← Finset.sum_range_add_sum_Ico _ (show i + 1 ≤ n by omega),
      Finset.sum_eq_zero (s := Finset.Ico (i + 1) n), add_zero, Finset.sum_range_succ] at this
    · rw [← this]
      simp only [sq]
    · intro c hc'
      rw [Finset.mem_Ico] at hc'
      rw [l2.low i c hi hc'.2 (by omega), mul_zero]
  have hB : LowBalls n L := fun i hi => by
    have := hd i hi; have := pow_pos (l2.diag i hi) 2; linarith
  refine ⟨L, hB, by simp [corrFwd, z1, l1], ?_⟩
  obtain ⟨Y, h1, h2⟩ := (C11_lower_half L n).1 hn
  simp only [corrRvs, h1, Option.bind_eq_bind, Option.bind_some]
  refine congrArg some (vecl_congr fun i j hi hj => ?_)
  have hLL : ∀ i j, i < n → j < n → corrL n (low L) i j = L i j := by
    intro i j hi hj
    unfold corrL
    by_cases e : i = j
    · subst e
      rw [if_pos rfl, low_sum L hi]
      have := hd i hi
      rw [show 1 - ∑ j ∈ Finset.range i, L i j ^ 2 = L i i ^ 2 by linarith]
      exact sqrt_sq (l2.diag i hi).le
    · rw [if_neg e, low]
      by_cases h : j < i
      · rw [if_pos h]
      · rw [if_neg h, l2.low i j hi hj (by omega)]
  rw [show corrR n Y i j = corrR n (low L) i j from corrR_congr h2 i j hi (by omega), corrR, Finset.sum_congr rfl fun c hc' => by
    rw [hLL i c hi (Finset.mem_range.1 hc'), hLL j c (by omega) (Finset.mem_range.1 hc')]]
  rw [l2.prod i j hi (by omega), z2 i j hi (by omega)]

/-- The array as a list. -/
def toList (m : ℕ) (y : ℤ → ℝ) : List ℝ := (List.range m).map fun k : ℕ => y k

theorem toList_eq (hm : 2 * m = n * (n - 1)) (hn : 1 ≤ n) (y : ℤ → ℝ) :
    toList m y = vecl (fun i j => y (pos n i j)) n := by
  apply List.ext_getElem?
  intro k
  rcases Nat.lt_or_ge k m with hk | hk
  · obtain ⟨i, j, hj, hi, e⟩ := pos_surj hm hn (k : ℤ) (by omega) (by omega)
    obtain ⟨q, e', h⟩ := C03_vecl_element (fun i j => y (pos n i j)) n i j hj hi
    obtain rfl : k = q := by
      change veclIndsForwards _ _ _ = _ at e
      omega
    rw [h, toList, List.getElem?_map, List.getElem?_range hk]
    simp [e]
  · have hl : (vecl (fun i j => y (pos n i j)) n).length = m := by
      rw [vecl, List.length_map, length_npTriu_one]; omega
    rw [List.getElem?_eq_none (by simp [toList, hk]), List.getElem?_eq_none (by omega)]

/-- C41: every point of the open cube is sent by the two reverse maps to the strictly lower part of
a correlation matrix. -/
theorem C41_cube_to_corr (hm : 2 * m = n * (n - 1)) (hn : 1 ≤ n) (x : ℤ → ℝ) (hx : InCube m x) :
    ∃ R, corrRvs (toList m (ucRvs m x)) = some (vecl R n) ∧ IsCorr n R := by
  rw [toList_eq hm hn]
  exact C41_corr _ hn fun i hi => C41_rvs_range hm x hx i hi

/-! ## examples -/

example : InCube 3 (fun _ => 1 / 2) := fun _ _ _ => by norm_num
example : 2 * 3 = 3 * (3 - 1) ∧ InBalls 3 (fun _ => 1 / 2) := by
  refine ⟨rfl, fun i hi => ?_⟩
  interval_cases i <;> norm_num [rowSum]
example : LowBalls 3 (fun _ _ => 1 / 2) := fun i hi => by
  interval_cases i <;> norm_num

open Classical in
/-- The contract of the Cholesky routine can be met. -/
example : ∃ chol, CholOk chol :=
  ⟨fun n A => if h : ∃ L, IsChol n A L then some h.choose else none, fun n A h => by
    exact ⟨_, dif_pos h, h.choose_spec⟩⟩

end Verif.Transf
