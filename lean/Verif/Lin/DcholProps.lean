import Verif.Lin.Dchol
import Verif.Lin.CholProps
import Mathlib.Analysis.SpecialFunctions.Sqrt
import Mathlib.Analysis.Calculus.Deriv.Add
import Mathlib.Analysis.Calculus.Deriv.Mul
import Mathlib.Analysis.Calculus.Deriv.Inv
/-!
# Derivatives of the Cholesky factor (C45)
-/
namespace Verif.Lin
open Real Finset Filter Topology

/-- Total version of the first `k` passes. -/
noncomputable def dIter (order n m : ℕ) (s : DState) (k : ℕ) : DState :=
  (List.range k).foldl (dStep order n m) s

theorem dIter_succ (order n m : ℕ) (s : DState) (k : ℕ) :
    dIter order n m s (k + 1) = dStep order n m (dIter order n m s k) k := by
  simp [dIter, List.range_succ]

theorem dchol_iter (order n m : ℕ) (s : DState) (k : ℕ)
    (hp : ∀ r, r < k → 0 < (dIter order n m s r).L r r) :
    (List.range k).foldlM (dStepO order n m) s = some (dIter order n m s k) := by
  induction k with
  | zero => rfl
  | succ k ih =>
    rw [List.range_succ, List.foldlM_append, ih fun r hr => hp r (by omega)]
    simp only [Option.bind_eq_bind, Option.bind_some, List.foldlM_cons, List.foldlM_nil]
    rw [dStepO, if_neg (not_le.2 (hp k (by omega))), dIter_succ]
    rfl

/-- The factor part of one pass. -/
theorem step_L (order n m k : ℕ) (s : DState) (hk : k < n) (i j : ℕ) (hji : j ≤ i) (hi : i < n) :
    (dStep order n m s k).L i j =
      if j < k then s.L i j
      else if j = k then (if i = k then sqrt (s.L k k) else s.L i k / sqrt (s.L k k))
      else s.L i j - s.L i k / sqrt (s.L k k) * (s.L j k / sqrt (s.L k k)) := by
  simp only [dStep, rowPhase, colPhase, pivotPhase]
  rcases Nat.lt_trichotomy j k with h | h | h
  · rw [if_pos h, if_neg (by omega), if_neg (by omega), if_neg (by omega)]
  · subst h
    rw [if_neg (by omega), if_neg (lt_irrefl _), if_pos rfl]
    by_cases h' : i = j
    · rw [if_neg (by omega), if_pos ⟨h', rfl⟩, if_pos h']
    · have h1 : ¬ (i = j ∧ True) := by tauto
      have h2 : j + 1 ≤ i ∧ i < n ∧ True := ⟨by omega, hi, trivial⟩
      simp only [true_and, and_true, if_true, if_neg h', eq_self_iff_true]
      rw [if_pos ⟨by omega, hi⟩]
  · have e1 : ¬ j < k := by omega
    have e2 : ¬ j = k := by omega
    have e3 : ¬ i = k := by omega
    have e4 : k + 1 ≤ j := by omega
    have e5 : k + 1 ≤ i := by omega
    have e6 : j < n := by omega
    simp only [if_neg e1, if_neg e2, e2, e3, e4, e5, e6, hi, hji, true_and, and_true, and_false,
      false_and, if_true, if_false]

/-- On a matrix with a Cholesky factor, the passes compute that factor. -/
theorem iter_L (order n m : ℕ) (s : DState) (M F : ℕ → ℕ → ℝ) (hF : IsChol n M F)
    (h0 : ∀ i j, j ≤ i → i < n → s.L i j = M i j) (k : ℕ) (hk : k ≤ n) :
    ∀ i j, j ≤ i → i < n → (dIter order n m s k).L i j =
      if j < k then F i j else ∑ d ∈ Ico k n, F i d * F j d := by
  induction k with
  | zero =>
    intro i j hji hi
    rw [if_neg (by omega), ← range_eq_Ico, hF.prod i j hi (by omega), ← h0 i j hji hi]
    rfl
  | succ k ih =>
    have ih := ih (by omega)
    have hkn : k < n := by omega
    have hcol : ∀ i, k ≤ i → i < n → (dIter order n m s k).L i k = F i k * F k k := by
      intro i h1 h2
      rw [ih i k h1 h2, if_neg (by omega), sum_eq_sum_Ico_succ_bot hkn, add_eq_left]
      apply sum_eq_zero
      intro d hd
      rw [mem_Ico] at hd
      rw [hF.low k d hkn (by omega) (by omega), mul_zero]
    have hd := hF.diag k hkn
    have hsq : sqrt ((dIter order n m s k).L k k) = F k k := by
      rw [hcol k le_rfl hkn, sqrt_mul_self hd.le]
    intro i j hji hi
    rw [dIter_succ, step_L order n m k _ hkn i j hji hi, hsq]
    rcases Nat.lt_trichotomy j k with h | h | h
    · rw [if_pos h, if_pos (by omega), ih i j hji hi, if_pos h]
    · subst h
      rw [if_neg (lt_irrefl _), if_pos rfl, if_pos (show j < j + 1 by omega)]
      by_cases h : i = j
      · rw [if_pos h, h]
      · rw [if_neg h, hcol i hji hi, mul_div_cancel_right₀ _ hd.ne']
    · rw [if_neg (by omega), if_neg (by omega), if_neg (by omega), hcol i (by omega) hi,
        hcol j (by omega) (by omega), mul_div_cancel_right₀ _ hd.ne',
        mul_div_cancel_right₀ _ hd.ne', ih i j hji hi, if_neg (by omega),
        sum_eq_sum_Ico_succ_bot hkn]
      ring

theorem iter_pivot (order n m : ℕ) (s : DState) (M F : ℕ → ℕ → ℝ) (hF : IsChol n M F)
    (h0 : ∀ i j, j ≤ i → i < n → s.L i j = M i j) (k : ℕ) (hk : k < n) :
    0 < (dIter order n m s k).L k k := by
  rw [iter_L order n m s M F hF h0 k hk.le k k le_rfl hk, if_neg (lt_irrefl _),
    sum_eq_sum_Ico_succ_bot hk]
  have h1 : ∑ d ∈ Ico (k + 1) n, F k d * F k d = 0 := by
    apply sum_eq_zero
    intro d hd
    rw [mem_Ico] at hd
    rw [hF.low k d hk (by omega) (by omega), mul_zero]
  rw [h1, add_zero]
  exact mul_pos (hF.diag k hk) (hF.diag k hk)

/-- The upper triangle is never written. -/
theorem iter_upper (order n m : ℕ) (s : DState) (h0 : ∀ i j, i < j → s.L i j = 0)
    (hd : ∀ i j x, i < j → s.dL i j x = 0) (k : ℕ) :
    (∀ i j, i < j → (dIter order n m s k).L i j = 0) ∧
    ∀ i j x, i < j → (dIter order n m s k).dL i j x = 0 := by
  induction k with
  | zero => exact ⟨h0, hd⟩
  | succ k ih =>
    rw [dIter_succ]
    constructor
    · intro i j hij
      simp only [dStep, rowPhase, colPhase, pivotPhase]
      rw [if_neg (by omega), if_neg (by omega), if_neg (by omega)]
      exact ih.1 i j hij
    · intro i j x hij
      simp only [dStep, rowPhase, colPhase, pivotPhase]
      by_cases ho : 0 < order
      · simp only [if_pos ho]
        rw [if_neg (by omega), if_neg (by omega), if_neg (by omega)]
        exact ih.2 i j x hij
      · simp only [if_neg ho]
        exact ih.2 i j x hij

/-- C45 (value): on a positive definite matrix (one with a Cholesky factor `F`) the call succeeds
and the first output is `F`, with zeros above the diagonal. -/
theorem C45_value (order n m : ℕ) (M F : ℕ → ℕ → ℝ) (hF : IsChol n M F) (dM : ℕ → ℕ → ℕ → ℝ)
    (d2M : ℕ → ℕ → ℕ → ℕ → ℝ) :
    ∃ s, dchol order n m M dM d2M = some s ∧ (∀ i j, i < n → j < n → s.L i j = F i j) ∧
      ∀ i j, i < j → s.L i j = 0 := by
  have h0 : ∀ i j, j ≤ i → i < n → (dInit M dM d2M).L i j = M i j := fun i j h _ => by
    simp [dInit, h]
  have hu := (iter_upper order n m (dInit M dM d2M)
    (fun i j h => by simp only [dInit]; rw [if_neg (by omega)])
    (fun i j x h => by simp only [dInit]; rw [if_neg (by omega)]) n).1
  refine ⟨dIter order n m (dInit M dM d2M) n, dchol_iter order n m _ n
    (fun r hr => iter_pivot order n m _ M F hF h0 r hr), ?_, hu⟩
  intro i j hi hj
  rcases Nat.lt_or_ge i j with h | h
  · rw [hu i j h, hF.low i j hi hj h]
  · rw [iter_L order n m _ M F hF h0 n le_rfl i j h hi, if_pos hj]

/-! ## First derivatives -/

/-- `dL[..., x]` is the derivative of `L` along a path of states. -/
def T1 (n x : ℕ) (S : ℝ → DState) : Prop :=
  ∀ i j, j ≤ i → i < n → HasDerivAt (fun t => (S t).L i j) ((S 0).dL i j x) 0

/-- `d2L[..., x, y]` is the derivative of `dL[..., x]` along a path of states. -/
def T2 (n x y : ℕ) (S : ℝ → DState) : Prop :=
  ∀ i j, j ≤ i → i < n →
    HasDerivAt (fun t => (S t).dL i j x) ((S 0).d2L i j (max x y) (min x y)) 0

theorem pivot_T1 {order n m k x : ℕ} (ho : 0 < order) (hx : x < m) (hk : k < n) (S : ℝ → DState)
    (hp : 0 < (S 0).L k k) (h : T1 n x S) : T1 n x fun t => pivotPhase order m k (S t) := by
  intro i j hji hi
  simp only [pivotPhase, if_pos ho]
  by_cases hc : i = k ∧ j = k
  · obtain ⟨rfl, rfl⟩ := hc
    simp only [true_and, and_self, if_true, hx]
    refine ((h j j le_rfl hk).sqrt hp.ne').congr_deriv ?_
    have := (sqrt_pos.2 hp).ne'
    field_simp
  · simp only [if_neg hc]
    rw [if_neg (by tauto)]
    exact h i j hji hi

theorem col_T1 {order n m k x : ℕ} (ho : 0 < order) (hx : x < m) (hk : k < n) (S : ℝ → DState)
    (hp : 0 < (S 0).L k k) (h : T1 n x S) : T1 n x fun t => colPhase order n m k (S t) := by
  intro i j hji hi
  simp only [colPhase, if_pos ho]
  by_cases hc : k + 1 ≤ i ∧ i < n ∧ j = k
  · obtain ⟨h1, h2, rfl⟩ := hc
    have h3 : ¬ (j + 1 ≤ j) := by omega
    simp only [h1, h2, hx, h3, true_and, and_self, if_true, false_and, if_false]
    refine ((h i j hji hi).fun_div (h j j le_rfl hk) hp.ne').congr_deriv ?_
    have := hp.ne'
    field_simp
  · simp only [if_neg hc]
    rw [if_neg (by tauto)]
    exact h i j hji hi

theorem row_T1 {order n m k x : ℕ} (ho : 0 < order) (hx : x < m) (S : ℝ → DState)
    (h : T1 n x S) : T1 n x fun t => rowPhase order n m k (S t) := by
  intro i j hji hi
  simp only [rowPhase, if_pos ho]
  by_cases hc : k + 1 ≤ j ∧ j ≤ i ∧ i < n
  · have hc' : k + 1 ≤ j ∧ j ≤ i ∧ i < n ∧ x < m := by tauto
    simp only [if_pos hc, if_pos hc']
    refine ((h i j hji hi).fun_sub ((h i k (by omega) hi).fun_mul
      (h j k (by omega) (by omega)))).congr_deriv ?_
    ring
  · have hc' : ¬ (k + 1 ≤ j ∧ j ≤ i ∧ i < n ∧ x < m) := by tauto
    simp only [if_neg hc, if_neg hc']
    exact h i j hji hi

theorem pivot_L {order m k : ℕ} (s : DState) (hp : 0 < s.L k k) :
    0 < (pivotPhase order m k s).L k k := by
  simp only [pivotPhase, and_self, if_true]
  exact sqrt_pos.2 hp

theorem step_T1 {order n m k x : ℕ} (ho : 0 < order) (hx : x < m) (hk : k < n) (S : ℝ → DState)
    (hp : 0 < (S 0).L k k) (h : T1 n x S) : T1 n x fun t => dStep order n m (S t) k :=
  row_T1 ho hx _ (col_T1 ho hx hk _ (pivot_L _ hp) (pivot_T1 ho hx hk S hp h))

theorem mirror_max (m : ℕ) (D : ℕ → ℕ → ℕ → ℕ → ℝ) (i j x y : ℕ) :
    mirror m D i j (max x y) (min x y) = D i j (max x y) (min x y) := by
  rw [mirror, if_neg (by omega)]

/-! ## Second derivatives -/

theorem pivot_T2 {order n m k x y : ℕ} (ho : 1 < order) (hx : x < m) (hy : y < m) (hk : k < n)
    (S : ℝ → DState) (hp : 0 < (S 0).L k k) (h1 : T1 n y S) (h2 : T2 n x y S) :
    T2 n x y fun t => pivotPhase order m k (S t) := by
  have ho' : 0 < order := by omega
  have hmax : max x y < m := max_lt hx hy
  have hmin : min x y ≤ max x y := by omega
  have hmn : min x y < m := by omega
  intro i j hji hi
  simp only [pivotPhase, if_pos ho, if_pos ho', mirror_max]
  by_cases hc : i = k ∧ j = k
  · obtain ⟨rfl, rfl⟩ := hc
    simp only [hx, hmax, hmin, hmn, true_and, and_self, if_true]
    have hr := (sqrt_pos.2 hp).ne'
    refine (((h2 j j le_rfl hk).const_mul (1 / 2)).fun_div
      ((h1 j j le_rfl hk).sqrt hp.ne') hr).congr_deriv ?_
    have e : ∀ a b : ℝ, (1 / 2 * (S 0).dL j j (max x y) / √((S 0).L j j)) *
        (1 / 2 * (S 0).dL j j (min x y) / √((S 0).L j j)) =
        (1 / 2 * (S 0).dL j j x / √((S 0).L j j)) * (1 / 2 * (S 0).dL j j y / √((S 0).L j j)) := by
      intro _ _
      rcases le_total x y with h | h
      · rw [max_eq_right h, min_eq_left h]; ring
      · rw [max_eq_left h, min_eq_right h]
    rw [e 0 0]
    field_simp
  · have hc' : ¬ (i = k ∧ j = k ∧ x < m) := by tauto
    have hc'' : ¬ (i = k ∧ j = k ∧ max x y < m ∧ min x y ≤ max x y) := by tauto
    simp only [if_neg hc', if_neg hc'']
    exact h2 i j hji hi

theorem sym_pair (f g : ℕ → ℝ) (x y : ℕ) :
    f (max x y) * g (min x y) + f (min x y) * g (max x y) = f x * g y + f y * g x := by
  rcases le_total x y with h | h
  · rw [max_eq_right h, min_eq_left h]; ring
  · rw [max_eq_left h, min_eq_right h]

theorem col_T2 {order n m k x y : ℕ} (ho : 1 < order) (hx : x < m) (hy : y < m) (hk : k < n)
    (S : ℝ → DState) (hp : 0 < (S 0).L k k) (h1 : T1 n y S) (h2 : T2 n x y S) :
    T2 n x y fun t => colPhase order n m k (S t) := by
  have ho' : 0 < order := by omega
  have hmax : max x y < m := max_lt hx hy
  have hmin : min x y ≤ max x y := by omega
  have hmn : min x y < m := by omega
  intro i j hji hi
  simp only [colPhase, if_pos ho, if_pos ho', mirror_max]
  by_cases hc : k + 1 ≤ i ∧ i < n ∧ j = k
  · obtain ⟨c1, c2, rfl⟩ := hc
    have h3 : ¬ (j + 1 ≤ j) := by omega
    have hr := hp.ne'
    have e := sym_pair (fun x => ((S 0).dL i j x - (S 0).L i j / (S 0).L j j * (S 0).dL j j x) /
      (S 0).L j j) (fun x => (S 0).dL j j x) x y
    simp only [c1, c2, hx, hmax, hmin, hmn, h3, true_and, and_self, if_true, false_and, if_false]
    refine (((h2 i j hji hi).fun_sub (((h1 i j hji hi).fun_div (h1 j j le_rfl hk) hr).fun_mul
      (h2 j j le_rfl hk))).fun_div (h1 j j le_rfl hk) hr).congr_deriv ?_
    rw [sub_sub, sub_sub, e]
    field_simp
    ring
  · have hc' : ¬ (k + 1 ≤ i ∧ i < n ∧ j = k ∧ x < m) := by tauto
    have hc'' : ¬ (k + 1 ≤ i ∧ i < n ∧ j = k ∧ max x y < m ∧ min x y ≤ max x y) := by tauto
    simp only [if_neg hc', if_neg hc'']
    exact h2 i j hji hi

theorem row_T2 {order n m k x y : ℕ} (ho : 1 < order) (hx : x < m) (hy : y < m)
    (S : ℝ → DState) (h1 : T1 n y S) (h2 : T2 n x y S) :
    T2 n x y fun t => rowPhase order n m k (S t) := by
  have ho' : 0 < order := by omega
  have hmax : max x y < m := max_lt hx hy
  have hmin : min x y ≤ max x y := by omega
  have hmn : min x y < m := by omega
  intro i j hji hi
  simp only [rowPhase, if_pos ho, if_pos ho', mirror_max]
  by_cases hc : k + 1 ≤ j ∧ j ≤ i ∧ i < n
  · obtain ⟨c1, c2, c3⟩ := hc
    have e := sym_pair (fun x => (S 0).dL i k x) (fun x => (S 0).dL j k x) x y
    simp only [c1, c2, c3, hx, hmax, hmin, true_and, and_self, if_true]
    refine (((h2 i j hji hi).fun_sub ((h2 i k (by omega) hi).fun_mul
      (h1 j k (by omega) (by omega)))).fun_sub ((h1 i k (by omega) hi).fun_mul
      (h2 j k (by omega) (by omega)))).congr_deriv ?_
    rw [sub_sub _ ((S 0).dL i k (max x y) * _), e]
    ring
  · have hc' : ¬ (k + 1 ≤ j ∧ j ≤ i ∧ i < n ∧ x < m) := by tauto
    have hc'' : ¬ (k + 1 ≤ j ∧ j ≤ i ∧ i < n ∧ max x y < m ∧ min x y ≤ max x y) := by tauto
    simp only [if_neg hc', if_neg hc'']
    exact h2 i j hji hi

theorem step_T2 {order n m k x y : ℕ} (ho : 1 < order) (hx : x < m) (hy : y < m) (hk : k < n)
    (S : ℝ → DState) (hp : 0 < (S 0).L k k) (h1 : T1 n y S) (h2 : T2 n x y S) :
    T2 n x y fun t => dStep order n m (S t) k := by
  have ho' : 0 < order := by omega
  have p1 := pivot_T1 (order := order) ho' hy hk S hp h1
  have p2 := pivot_T2 ho hx hy hk S hp h1 h2
  exact row_T2 ho hx hy _ (col_T1 ho' hy hk _ (pivot_L _ hp) p1)
    (col_T2 ho hx hy hk _ (pivot_L _ hp) p1 p2)

/-! ## The theorems -/

theorem init_L (M : ℕ → ℕ → ℝ) (dM : ℕ → ℕ → ℕ → ℝ) (d2M : ℕ → ℕ → ℕ → ℕ → ℝ) {i j : ℕ}
    (h : j ≤ i) : (dInit M dM d2M).L i j = M i j := by simp [dInit, h]

theorem iter_T1 {order n m x : ℕ} (ho : 0 < order) (hx : x < m) (S : ℝ → DState)
    (M F : ℕ → ℕ → ℝ) (hF : IsChol n M F) (h0 : ∀ i j, j ≤ i → i < n → (S 0).L i j = M i j)
    (h : T1 n x S) (k : ℕ) (hk : k ≤ n) : T1 n x fun t => dIter order n m (S t) k := by
  induction k with
  | zero => exact h
  | succ k ih =>
    simp only [dIter_succ]
    exact step_T1 ho hx (by omega) _ (iter_pivot order n m _ M F hF h0 k (by omega))
      (ih (by omega))

theorem iter_T2 {order n m x y : ℕ} (ho : 1 < order) (hx : x < m) (hy : y < m) (S : ℝ → DState)
    (M F : ℕ → ℕ → ℝ) (hF : IsChol n M F) (h0 : ∀ i j, j ≤ i → i < n → (S 0).L i j = M i j)
    (h1 : T1 n y S) (h2 : T2 n x y S) (k : ℕ) (hk : k ≤ n) :
    T2 n x y fun t => dIter order n m (S t) k := by
  induction k with
  | zero => exact h2
  | succ k ih =>
    simp only [dIter_succ]
    exact step_T2 ho hx hy (by omega) _ (iter_pivot order n m _ M F hF h0 k (by omega))
      (iter_T1 (by omega) hy S M F hF h0 h1 k (by omega)) (ih (by omega))

theorem dchol_eq {order n m : ℕ} {M F : ℕ → ℕ → ℝ} (hF : IsChol n M F) (dM : ℕ → ℕ → ℕ → ℝ)
    (d2M : ℕ → ℕ → ℕ → ℕ → ℝ) :
    dchol order n m M dM d2M = some (dIter order n m (dInit M dM d2M) n) :=
  dchol_iter order n m _ n fun r hr =>
    iter_pivot order n m _ M F hF (fun _ _ h _ => init_L M dM d2M h) r hr

/-- C45 (first order): along any path `M t` of matrices with derivative `dM[..., x]` at 0 and
Cholesky factors `F t`, the derivative of `F` at 0 is `dL[..., x]`. -/
theorem C45_first (order n m x : ℕ) (ho : 0 < order) (hx : x < m) (M F : ℝ → ℕ → ℕ → ℝ)
    (dM : ℕ → ℕ → ℕ → ℝ) (d2M : ℕ → ℕ → ℕ → ℕ → ℝ)
    (hF : ∀ᶠ t in 𝓝 (0 : ℝ), IsChol n (M t) (F t))
    (hM : ∀ i j, j ≤ i → i < n → HasDerivAt (fun t => M t i j) (dM i j x) 0) :
    ∃ s, dchol order n m (M 0) dM d2M = some s ∧
      ∀ i j, i < n → j < n → HasDerivAt (fun t => F t i j) (s.dL i j x) 0 := by
  have hF0 := hF.self_of_nhds
  refine ⟨_, dchol_eq hF0 dM d2M, ?_⟩
  have h0 : T1 n x fun t => dInit (M t) dM d2M := by
    intro i j hji hi
    simp only [dInit, if_pos hji]
    exact hM i j hji hi
  have h1 := iter_T1 (order := order) ho hx _ (M 0) (F 0) hF0
    (fun _ _ h _ => init_L (M 0) dM d2M h) h0 n le_rfl
  intro i j hi hj
  rcases Nat.lt_or_ge i j with h | h
  · have hz := (iter_upper order n m (dInit (M 0) dM d2M)
      (fun i j h => by simp only [dInit]; rw [if_neg (by omega)])
      (fun i j x h => by simp only [dInit]; rw [if_neg (by omega)]) n).2 i j x h
    rw [hz]
    refine (hasDerivAt_const (0 : ℝ) (0 : ℝ)).congr_of_eventuallyEq ?_
    filter_upwards [hF] with t ht
    exact ht.low i j hi hj h
  · refine (h1 i j h hi).congr_of_eventuallyEq ?_
    filter_upwards [hF] with t ht
    rw [iter_L order n m _ (M t) (F t) ht (fun _ _ h _ => init_L (M t) dM d2M h) n le_rfl i j h hi,
      if_pos hj]

theorem mirror_symm (m : ℕ) (D : ℕ → ℕ → ℕ → ℕ → ℝ) (i j x y : ℕ) (hx : x < m) (hy : y < m) :
    mirror m D i j x y = mirror m D i j y x := by
  simp only [mirror]
  rcases Nat.lt_trichotomy x y with h | h | h
  · rw [if_pos ⟨hx, hy, h⟩, if_neg (by omega)]
  · subst h; rfl
  · rw [if_neg (by omega), if_pos ⟨hy, hx, h⟩]

theorem iter_d2_symm (order n m : ℕ) (ho : 1 < order) (s : DState) (k : ℕ) (hk : 0 < k)
    (i j x y : ℕ) (hx : x < m) (hy : y < m) :
    (dIter order n m s k).d2L i j x y = (dIter order n m s k).d2L i j y x := by
  obtain ⟨k, rfl⟩ : ∃ k', k = k' + 1 := ⟨k - 1, by omega⟩
  rw [dIter_succ, dStep, rowPhase]
  simp only [if_pos ho]
  exact mirror_symm m _ i j x y hx hy

/-- C45 (second order): move the matrix along a path `M s` with derivative `dM[..., y]`, and its
`x`-directions `dM s` along with it with derivative `d2M[..., x, y]`.  If `G s` is the derivative
of the Cholesky factor of the matrix at `s` in direction `x`, then the derivative of `G` at 0 is
`d2L[..., x, y]`. -/
theorem C45_second (order n m x y : ℕ) (ho : 1 < order) (hx : x < m) (hy : y < m)
    (M : ℝ → ℕ → ℕ → ℝ) (dM : ℝ → ℕ → ℕ → ℕ → ℝ) (d2M : ℕ → ℕ → ℕ → ℕ → ℝ)
    (hsym : ∀ i j, d2M i j x y = d2M i j y x)
    (P F : ℝ → ℝ → ℕ → ℕ → ℝ) (G : ℝ → ℕ → ℕ → ℝ)
    (hP0 : ∀ s i j, P s 0 i j = M s i j)
    (hP : ∀ s i j, j ≤ i → i < n → HasDerivAt (fun t => P s t i j) (dM s i j x) 0)
    (hF : ∀ᶠ s in 𝓝 (0 : ℝ), ∀ᶠ t in 𝓝 (0 : ℝ), IsChol n (P s t) (F s t))
    (hG : ∀ᶠ s in 𝓝 (0 : ℝ), ∀ i j, i < n → j < n → HasDerivAt (fun t => F s t i j) (G s i j) 0)
    (hM : ∀ i j, j ≤ i → i < n → HasDerivAt (fun s => M s i j) (dM 0 i j y) 0)
    (hdM : ∀ i j, j ≤ i → i < n → HasDerivAt (fun s => dM s i j x) (d2M i j x y) 0) :
    ∃ st, dchol order n m (M 0) (dM 0) d2M = some st ∧
      ∀ i j, j ≤ i → i < n → HasDerivAt (fun s => G s i j) (st.d2L i j x y) 0 := by
  have hPM : ∀ s, P s 0 = M s := fun s => by funext i j; exact hP0 s i j
  have hF00 : IsChol n (M 0) (F 0 0) := by
    have := hF.self_of_nhds.self_of_nhds
    rwa [hPM] at this
  refine ⟨_, dchol_eq hF00 (dM 0) d2M, ?_⟩
  have h1 : T1 n y fun s => dInit (M s) (dM s) d2M := by
    intro i j hji hi
    simp only [dInit, if_pos hji]
    exact hM i j hji hi
  have h2 : T2 n x y fun s => dInit (M s) (dM s) d2M := by
    intro i j hji hi
    have hmm : min x y ≤ max x y := by omega
    simp only [dInit, if_pos hji, if_pos hmm]
    have : d2M i j (max x y) (min x y) = d2M i j x y := by
      rcases le_total x y with h | h
      · rw [max_eq_right h, min_eq_left h, hsym]
      · rw [max_eq_left h, min_eq_right h]
    rw [this]
    exact hdM i j hji hi
  have h3 := iter_T2 ho hx hy _ (M 0) (F 0 0) hF00
    (fun _ _ h _ => init_L (M 0) (dM 0) d2M h) h1 h2 n le_rfl
  intro i j hji hi
  have hv : (dIter order n m (dInit (M 0) (dM 0) d2M) n).d2L i j (max x y) (min x y) =
      (dIter order n m (dInit (M 0) (dM 0) d2M) n).d2L i j x y := by
    rcases le_total x y with h | h
    · rw [max_eq_right h, min_eq_left h]
      exact iter_d2_symm order n m ho _ n (by omega) i j y x hy hx
    · rw [max_eq_left h, min_eq_right h]
  have h4 := h3 i j hji hi
  rw [hv] at h4
  refine h4.congr_of_eventuallyEq ?_
  filter_upwards [hF, hG] with s hs hg
  obtain ⟨st, e1, e2⟩ := C45_first order n m x (by omega) hx (P s) (F s) (dM s) d2M hs (hP s)
  have hs0 := hs.self_of_nhds
  rw [hPM] at hs0
  rw [hPM, dchol_eq hs0 (dM s) d2M] at e1
  have e3 := Option.some.inj e1
  rw [← e3] at e2
  exact (hg i j hi (by omega)).unique (e2 i j hi (by omega))

/-- C45: above the diagonal both derivative arrays are zero, provided `d2M` is zero there (it is,
in every call in the package). -/
theorem C45_upper (order n m : ℕ) (M F : ℕ → ℕ → ℝ) (hF : IsChol n M F)
    (dM : ℕ → ℕ → ℕ → ℝ) (d2M : ℕ → ℕ → ℕ → ℕ → ℝ)
    (hz : ∀ i j x y, i < j → d2M i j x y = 0) :
    ∃ s, dchol order n m M dM d2M = some s ∧ (∀ i j x, i < j → s.dL i j x = 0) ∧
      ∀ i j x y, i < j → s.d2L i j x y = 0 := by
  refine ⟨_, dchol_eq hF dM d2M, (iter_upper order n m (dInit M dM d2M)
      (fun i j h => by simp only [dInit]; rw [if_neg (by omega)])
      (fun i j x h => by simp only [dInit]; rw [if_neg (by omega)]) n).2, ?_⟩
  have : ∀ k, ∀ i j x y, i < j → (dIter order n m (dInit M dM d2M) k).d2L i j x y = 0 := by
    intro k
    induction k with
    | zero =>
      intro i j x y hij
      change (dInit M dM d2M).d2L i j x y = 0
      simp only [dInit]
      rw [hz i j x y hij, ite_self]
    | succ k ih =>
      intro i j x y hij
      have c1 : ¬ (j ≤ i) := by omega
      have c2 : ¬ (i = k ∧ j = k) := by omega
      have c3 : ¬ (k + 1 ≤ i ∧ j = k) := by omega
      rw [dIter_succ]
      simp only [dStep, rowPhase, colPhase, pivotPhase]
      by_cases ho : 1 < order
      · simp only [if_pos ho, mirror, c1, false_and, and_false, if_false]
        have d1 : ∀ p : Prop, ¬ (k + 1 ≤ i ∧ i < n ∧ j = k ∧ p) := by intro p; omega
        have d2 : ∀ p : Prop, ¬ (i = k ∧ j = k ∧ p) := by intro p; omega
        simp only [d1, d2, if_false, ih i j _ _ hij, ite_self]
      · simp only [if_neg ho]
        exact ih i j x y hij
  exact this n

/-- The triangle mask for `d2M` is taken on the wrong pair of axes, so a symmetric second
derivative leaves its upper triangle in the output. -/
theorem C45_upper_violated : ∃ (M F : ℕ → ℕ → ℝ) (d2M : ℕ → ℕ → ℕ → ℕ → ℝ) (s : DState),
    IsChol 2 M F ∧ dchol 2 2 1 M (fun _ _ _ => 0) d2M = some s ∧ s.d2L 0 1 0 0 ≠ 0 := by
  have hF : IsChol 2 (fun i j => if i = j then (1 : ℝ) else 0) (fun i j => if i = j then 1 else 0) := by
    refine ⟨?_, ?_, ?_⟩
    · intro i j _ _ h; rw [if_neg (by omega)]
    · intro i _; simp
    · intro i j hi hj
      interval_cases i <;> interval_cases j <;> simp [sum_range_succ]
  refine ⟨_, _, fun _ _ _ _ => 1, _, hF, dchol_eq hF _ _, ?_⟩
  simp [dIter, List.range_succ, dStep, rowPhase, colPhase, pivotPhase, mirror, dInit]

/-- The hypotheses of the derivative theorems are satisfiable: `n = 1`, `M t = 1 + t`. -/
example : ∀ᶠ t in 𝓝 (0 : ℝ), IsChol 1 (fun _ _ => 1 + t) (fun _ _ => sqrt (1 + t)) := by
  have : ∀ᶠ t in 𝓝 (0 : ℝ), -1 < t := (isOpen_Ioi (a := (-1 : ℝ))).mem_nhds (by norm_num)
  filter_upwards [this] with t ht
  refine ⟨fun i j hi hj hij => by omega, fun i _ => sqrt_pos.2 (by linarith), fun i j _ _ => ?_⟩
  rw [sum_range_one, mul_self_sqrt (by linarith)]

end Verif.Lin
