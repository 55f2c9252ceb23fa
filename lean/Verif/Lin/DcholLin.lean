import Verif.Lin.DcholProps
import Mathlib.Algebra.BigOperators.Field
/-! # `dchol` is linear in its directions and local in its index ranges -/
namespace Verif.Lin
open Real

/-- Agreement of values and first derivatives on the lower triangle, directions below `z`. -/
def Agr1 (n z : ℕ) (s s' : DState) : Prop :=
  ∀ i j, j ≤ i → i < n → s.L i j = s'.L i j ∧ ∀ x, x < z → s.dL i j x = s'.dL i j x

/-- Agreement of second derivatives. -/
def Agr2 (n z : ℕ) (s s' : DState) : Prop :=
  ∀ i j, j ≤ i → i < n → ∀ x y, x < z → y < z → s.d2L i j x y = s'.d2L i j x y

variable {n z m m' o o' k : ℕ} {s s' : DState}

theorem Agr1.pivot (ho : 0 < o) (ho' : 0 < o') (hz : z ≤ m) (hz' : z ≤ m') (hk : k < n)
    (h : Agr1 n z s s') : Agr1 n z (pivotPhase o m k s) (pivotPhase o' m' k s') := by
  intro i j hji hi
  have hc := h k k le_rfl hk
  have hx := h i j hji hi
  simp only [pivotPhase, if_pos ho, if_pos ho']
  refine ⟨by rw [hc.1, hx.1], fun x hxz => ?_⟩
  rw [hx.2 x hxz, hc.2 x hxz, hc.1]
  simp only [show x < m by omega, show x < m' by omega]

theorem Agr1.col (ho : 0 < o) (ho' : 0 < o') (hz : z ≤ m) (hz' : z ≤ m') (hk : k < n)
    (h : Agr1 n z s s') : Agr1 n z (colPhase o n m k s) (colPhase o' n m' k s') := by
  intro i j hji hi
  have hc := h k k le_rfl hk
  have hx := h i j hji hi
  simp only [colPhase, if_pos ho, if_pos ho']
  by_cases hki : k + 1 ≤ i
  · have hy := h i k (by omega) hi
    refine ⟨by rw [hc.1, hx.1, hy.1], fun x hxz => ?_⟩
    rw [hx.2 x hxz, hc.2 x hxz, hc.1, hy.1, hy.2 x hxz]
    simp only [show x < m by omega, show x < m' by omega]
  · simp only [hki, false_and, if_false]
    exact hx

theorem Agr1.row (ho : 0 < o) (ho' : 0 < o') (hz : z ≤ m) (hz' : z ≤ m')
    (h : Agr1 n z s s') : Agr1 n z (rowPhase o n m k s) (rowPhase o' n m' k s') := by
  intro i j hji hi
  have hx := h i j hji hi
  simp only [rowPhase, if_pos ho, if_pos ho']
  by_cases hkj : k + 1 ≤ j
  · have hy := h i k (by omega) hi
    have hw := h j k (by omega) (by omega)
    refine ⟨by rw [hx.1, hy.1, hw.1], fun x hxz => ?_⟩
    rw [hx.2 x hxz, hy.1, hy.2 x hxz, hw.1, hw.2 x hxz]
    simp only [show x < m by omega, show x < m' by omega]
  · simp only [hkj, false_and, if_false]
    exact hx

theorem Agr1.iter (ho : 0 < o) (ho' : 0 < o') (hz : z ≤ m) (hz' : z ≤ m') (h : Agr1 n z s s')
    (r : ℕ) (hr : r ≤ n) : Agr1 n z (dIter o n m s r) (dIter o' n m' s' r) := by
  induction r with
  | zero => exact h
  | succ r ih =>
    rw [dIter_succ, dIter_succ]
    exact (((ih (by omega)).pivot ho ho' hz hz' (by omega)).col ho ho' hz hz' (by omega)).row
      ho ho' hz hz'

theorem mirror_congr {D D' : ℕ → ℕ → ℕ → ℕ → ℝ} {i j x y : ℕ} (hm : x < m ∧ y < m)
    (hm' : x < m' ∧ y < m')
    (h : y ≤ x → D i j x y = D' i j x y) (h' : x ≤ y → D i j y x = D' i j y x) :
    mirror m D i j x y = mirror m' D' i j x y := by
  simp only [mirror, hm, hm', true_and]
  rcases Nat.lt_or_ge x y with hxy | hxy
  · rw [if_pos hxy, if_pos hxy, h' hxy.le]
  · rw [if_neg (by omega), if_neg (by omega), h hxy]

theorem Agr2.pivot (ho : 1 < o) (ho' : 1 < o') (hz : z ≤ m) (hz' : z ≤ m') (hk : k < n)
    (h1 : Agr1 n z s s') (h : Agr2 n z s s') :
    Agr2 n z (pivotPhase o m k s) (pivotPhase o' m' k s') := by
  intro i j hji hi x y hx hy
  have hp := h1.pivot (show 0 < o by omega) (show 0 < o' by omega) hz hz' hk
  have hkk := hp k k le_rfl hk
  have e1 := h k k le_rfl hk
  have e2 := h i j hji hi
  have key : ∀ x y, x < z → y < z → y ≤ x →
      (if i = k ∧ j = k ∧ x < m ∧ y ≤ x then
        (1 / 2 * s.d2L k k x y - (pivotPhase o m k s).dL k k x * (pivotPhase o m k s).dL k k y) /
          (pivotPhase o m k s).L k k else s.d2L i j x y) =
      (if i = k ∧ j = k ∧ x < m' ∧ y ≤ x then
        (1 / 2 * s'.d2L k k x y - (pivotPhase o' m' k s').dL k k x * (pivotPhase o' m' k s').dL k k y) /
          (pivotPhase o' m' k s').L k k else s'.d2L i j x y) := by
    intro x y hx hy hyx
    rw [hkk.1, hkk.2 x hx, hkk.2 y hy, e1 x y hx hy, e2 x y hx hy]
    simp only [show x < m by omega, show x < m' by omega]
  have := mirror_congr (m := m) (m' := m') (i := i) (j := j)
    (D := fun i j x y => if i = k ∧ j = k ∧ x < m ∧ y ≤ x then
        (1 / 2 * s.d2L k k x y - (pivotPhase o m k s).dL k k x * (pivotPhase o m k s).dL k k y) /
          (pivotPhase o m k s).L k k else s.d2L i j x y)
    (D' := fun i j x y => if i = k ∧ j = k ∧ x < m' ∧ y ≤ x then
        (1 / 2 * s'.d2L k k x y - (pivotPhase o' m' k s').dL k k x * (pivotPhase o' m' k s').dL k k y) /
          (pivotPhase o' m' k s').L k k else s'.d2L i j x y)
    (x := x) (y := y) ⟨by omega, by omega⟩ ⟨by omega, by omega⟩ (key x y hx hy) (key y x hy hx)
  simpa only [pivotPhase, if_pos ho, if_pos ho'] using this

theorem Agr2.col (ho : 1 < o) (ho' : 1 < o') (hz : z ≤ m) (hz' : z ≤ m') (hk : k < n)
    (h1 : Agr1 n z s s') (h : Agr2 n z s s') :
    Agr2 n z (colPhase o n m k s) (colPhase o' n m' k s') := by
  intro i j hji hi x y hx hy
  have hp := h1.col (show 0 < o by omega) (show 0 < o' by omega) hz hz' hk
  have e2 := h i j hji hi
  have hkk := hp k k le_rfl hk
  have e1 := h k k le_rfl hk
  have key : ∀ x y, x < z → y < z → y ≤ x →
      (if k + 1 ≤ i ∧ i < n ∧ j = k ∧ x < m ∧ y ≤ x then
        (s.d2L i k x y - (colPhase o n m k s).L i k * s.d2L k k x y -
          (colPhase o n m k s).dL i k x * (colPhase o n m k s).dL k k y -
          (colPhase o n m k s).dL i k y * (colPhase o n m k s).dL k k x) /
          (colPhase o n m k s).L k k else s.d2L i j x y) =
      (if k + 1 ≤ i ∧ i < n ∧ j = k ∧ x < m' ∧ y ≤ x then
        (s'.d2L i k x y - (colPhase o' n m' k s').L i k * s'.d2L k k x y -
          (colPhase o' n m' k s').dL i k x * (colPhase o' n m' k s').dL k k y -
          (colPhase o' n m' k s').dL i k y * (colPhase o' n m' k s').dL k k x) /
          (colPhase o' n m' k s').L k k else s'.d2L i j x y) := by
    intro x y hx hy hyx
    by_cases hki : k + 1 ≤ i
    · have hik := hp i k (by omega) hi
      rw [hkk.1, hkk.2 x hx, hkk.2 y hy, e1 x y hx hy, e2 x y hx hy, hik.1, hik.2 x hx, hik.2 y hy,
        h i k (by omega) hi x y hx hy]
      simp only [show x < m by omega, show x < m' by omega]
    · simp only [hki, false_and, if_false]; exact e2 x y hx hy
  have := mirror_congr (m := m) (m' := m') (i := i) (j := j)
    (D := fun i j x y => if k + 1 ≤ i ∧ i < n ∧ j = k ∧ x < m ∧ y ≤ x then
        (s.d2L i k x y - (colPhase o n m k s).L i k * s.d2L k k x y -
          (colPhase o n m k s).dL i k x * (colPhase o n m k s).dL k k y -
          (colPhase o n m k s).dL i k y * (colPhase o n m k s).dL k k x) /
          (colPhase o n m k s).L k k else s.d2L i j x y)
    (D' := fun i j x y => if k + 1 ≤ i ∧ i < n ∧ j = k ∧ x < m' ∧ y ≤ x then
        (s'.d2L i k x y - (colPhase o' n m' k s').L i k * s'.d2L k k x y -
          (colPhase o' n m' k s').dL i k x * (colPhase o' n m' k s').dL k k y -
          (colPhase o' n m' k s').dL i k y * (colPhase o' n m' k s').dL k k x) /
          (colPhase o' n m' k s').L k k else s'.d2L i j x y)
    (x := x) (y := y) ⟨by omega, by omega⟩ ⟨by omega, by omega⟩ (key x y hx hy) (key y x hy hx)
  simpa only [colPhase, if_pos ho, if_pos ho'] using this

theorem Agr2.row (ho : 1 < o) (ho' : 1 < o') (hz : z ≤ m) (hz' : z ≤ m')
    (h1 : Agr1 n z s s') (h : Agr2 n z s s') :
    Agr2 n z (rowPhase o n m k s) (rowPhase o' n m' k s') := by
  intro i j hji hi x y hx hy
  have e2 := h i j hji hi
  have key : ∀ x y, x < z → y < z → y ≤ x →
      (if k + 1 ≤ j ∧ j ≤ i ∧ i < n ∧ x < m ∧ y ≤ x then
        s.d2L i j x y - s.d2L i k x y * s.L j k - s.L i k * s.d2L j k x y
          - s.dL i k x * s.dL j k y - s.dL i k y * s.dL j k x
        else s.d2L i j x y) =
      (if k + 1 ≤ j ∧ j ≤ i ∧ i < n ∧ x < m' ∧ y ≤ x then
        s'.d2L i j x y - s'.d2L i k x y * s'.L j k - s'.L i k * s'.d2L j k x y
          - s'.dL i k x * s'.dL j k y - s'.dL i k y * s'.dL j k x
        else s'.d2L i j x y) := by
    intro x y hx hy hyx
    by_cases hkj : k + 1 ≤ j
    · have hik := h1 i k (by omega) hi
      have hjk := h1 j k (by omega) (by omega)
      rw [e2 x y hx hy, hik.1, hik.2 x hx, hik.2 y hy, hjk.1, hjk.2 x hx, hjk.2 y hy,
        h i k (by omega) hi x y hx hy, h j k (by omega) (by omega) x y hx hy]
      simp only [show x < m by omega, show x < m' by omega]
    · simp only [hkj, false_and, if_false]; exact e2 x y hx hy
  have := mirror_congr (m := m) (m' := m') (i := i) (j := j)
    (D := fun i j x y => if k + 1 ≤ j ∧ j ≤ i ∧ i < n ∧ x < m ∧ y ≤ x then
        s.d2L i j x y - s.d2L i k x y * s.L j k - s.L i k * s.d2L j k x y
          - s.dL i k x * s.dL j k y - s.dL i k y * s.dL j k x
        else s.d2L i j x y)
    (D' := fun i j x y => if k + 1 ≤ j ∧ j ≤ i ∧ i < n ∧ x < m' ∧ y ≤ x then
        s'.d2L i j x y - s'.d2L i k x y * s'.L j k - s'.L i k * s'.d2L j k x y
          - s'.dL i k x * s'.dL j k y - s'.dL i k y * s'.dL j k x
        else s'.d2L i j x y)
    (x := x) (y := y) ⟨by omega, by omega⟩ ⟨by omega, by omega⟩ (key x y hx hy) (key y x hy hx)
  simpa only [rowPhase, if_pos ho, if_pos ho'] using this

theorem Agr2.iter (ho : 1 < o) (ho' : 1 < o') (hz : z ≤ m) (hz' : z ≤ m') (h1 : Agr1 n z s s')
    (h : Agr2 n z s s') (r : ℕ) (hr : r ≤ n) : Agr2 n z (dIter o n m s r) (dIter o' n m' s' r) := by
  induction r with
  | zero => exact h
  | succ r ih =>
    have a0 : 0 < o := by omega
    have a0' : 0 < o' := by omega
    have g0 := h1.iter a0 a0' hz hz' r (by omega)
    have g1 := g0.pivot a0 a0' hz hz' (k := r) (by omega)
    have g2 := g1.col a0 a0' hz hz' (k := r) (by omega)
    rw [dIter_succ, dIter_succ]
    exact (((ih (by omega)).pivot ho ho' hz hz' (by omega) g0).col ho ho' hz hz' (by omega) g1).row
      ho ho' hz hz' g2

/-! ## linearity -/

/-- Direction `z` is the combination `c` of the directions below `z`. -/
def Rel1 (n z : ℕ) (c : ℕ → ℝ) (s : DState) : Prop :=
  ∀ i j, j ≤ i → i < n → s.dL i j z = ∑ b ∈ Finset.range z, c b * s.dL i j b

/-- The same in the second argument of the second derivatives, which are symmetric. -/
def Rel2 (n m z : ℕ) (c : ℕ → ℝ) (s : DState) : Prop :=
  (∀ i j x y, x < m → y < m → s.d2L i j x y = s.d2L i j y x) ∧
  ∀ i j, j ≤ i → i < n → ∀ x, x < m → s.d2L i j x z = ∑ b ∈ Finset.range z, c b * s.d2L i j x b

variable {c : ℕ → ℝ}

theorem Rel1.pivot (ho : 0 < o) (hz : z < m) (hk : k < n) (h : Rel1 n z c s) :
    Rel1 n z c (pivotPhase o m k s) := by
  intro i j hji hi
  simp only [pivotPhase, if_pos ho, hz, and_true]
  have lt : ∀ b ∈ Finset.range z, b < m := fun b hb => by have := Finset.mem_range.1 hb; omega
  by_cases hc : i = k ∧ j = k
  · rw [if_pos hc, h k k le_rfl hk, Finset.mul_sum, Finset.sum_div]
    refine Finset.sum_congr rfl fun b hb => ?_
    rw [if_pos (show i = k ∧ j = k ∧ b < m from ⟨hc.1, hc.2, lt b hb⟩)]; ring
  · rw [if_neg hc, h i j hji hi]
    exact Finset.sum_congr rfl fun b hb => by rw [if_neg fun g => hc ⟨g.1, g.2.1⟩]

theorem Rel1.col (ho : 0 < o) (hz : z < m) (hk : k < n) (h : Rel1 n z c s) :
    Rel1 n z c (colPhase o n m k s) := by
  intro i j hji hi
  simp only [colPhase, if_pos ho, hz, and_true]
  have lt : ∀ b ∈ Finset.range z, b < m := fun b hb => by have := Finset.mem_range.1 hb; omega
  by_cases hc : k + 1 ≤ i ∧ i < n ∧ j = k
  · rw [if_pos hc, h k k le_rfl hk, h i k (by omega) hi, Finset.mul_sum, ← Finset.sum_sub_distrib,
      Finset.sum_div]
    refine Finset.sum_congr rfl fun b hb => ?_
    rw [if_pos (show k + 1 ≤ i ∧ i < n ∧ j = k ∧ b < m from ⟨hc.1, hc.2.1, hc.2.2, lt b hb⟩)]; ring
  · rw [if_neg hc, h i j hji hi]
    exact Finset.sum_congr rfl fun b hb => by rw [if_neg fun g => hc ⟨g.1, g.2.1, g.2.2.1⟩]

theorem Rel1.row (ho : 0 < o) (hz : z < m) (h : Rel1 n z c s) :
    Rel1 n z c (rowPhase o n m k s) := by
  intro i j hji hi
  simp only [rowPhase, if_pos ho, hz, and_true]
  have lt : ∀ b ∈ Finset.range z, b < m := fun b hb => by have := Finset.mem_range.1 hb; omega
  by_cases hc : k + 1 ≤ j ∧ j ≤ i ∧ i < n
  · rw [if_pos hc, h i j hji hi, h i k (by omega) hi, h j k (by omega) (by omega), Finset.mul_sum,
      Finset.sum_mul, ← Finset.sum_sub_distrib, ← Finset.sum_sub_distrib]
    refine Finset.sum_congr rfl fun b hb => ?_
    rw [if_pos (show k + 1 ≤ j ∧ j ≤ i ∧ i < n ∧ b < m from ⟨hc.1, hc.2.1, hc.2.2, lt b hb⟩)]; ring
  · rw [if_neg hc, h i j hji hi]
    exact Finset.sum_congr rfl fun b hb => by rw [if_neg fun g => hc ⟨g.1, g.2.1, g.2.2.1⟩]

theorem Rel1.iter (ho : 0 < o) (hz : z < m) (h : Rel1 n z c s) (r : ℕ) (hr : r ≤ n) :
    Rel1 n z c (dIter o n m s r) := by
  induction r with
  | zero => exact h
  | succ r ih =>
    rw [dIter_succ]
    exact (((ih (by omega)).pivot ho hz (by omega)).col ho hz (by omega)).row ho hz

/-- With a symmetric formula, a mirrored assignment is the plain assignment. -/
theorem mirror_val {G : ℕ → ℕ → ℝ} {D : ℕ → ℕ → ℕ → ℕ → ℝ} {i j x y : ℕ} (hx : x < m) (hy : y < m)
    (h : ∀ x y, x < m → y < m → y ≤ x → D i j x y = G x y) (hs : G x y = G y x) :
    mirror m D i j x y = G x y := by
  simp only [mirror, hx, hy, true_and]
  rcases Nat.lt_or_ge x y with hxy | hxy
  · rw [if_pos hxy, h y x hy hx hxy.le, hs]
  · rw [if_neg (by omega), h x y hx hy hxy]

theorem pivot_d2 (ho : 1 < o) (hs : ∀ i j x y, x < m → y < m → s.d2L i j x y = s.d2L i j y x)
    (i j x y : ℕ) (hx : x < m) (hy : y < m) :
    (pivotPhase o m k s).d2L i j x y = if i = k ∧ j = k then
      (1 / 2 * s.d2L k k x y - (pivotPhase o m k s).dL k k x * (pivotPhase o m k s).dL k k y) /
          (pivotPhase o m k s).L k k else s.d2L i j x y := by
  have := mirror_val (i := i) (j := j) (G := fun x y => if i = k ∧ j = k then
      (1 / 2 * s.d2L k k x y - (pivotPhase o m k s).dL k k x * (pivotPhase o m k s).dL k k y) /
          (pivotPhase o m k s).L k k else s.d2L i j x y)
    (D := fun i j x y => if i = k ∧ j = k ∧ x < m ∧ y ≤ x then
        (1 / 2 * s.d2L k k x y - (pivotPhase o m k s).dL k k x * (pivotPhase o m k s).dL k k y) /
          (pivotPhase o m k s).L k k else s.d2L i j x y) hx hy
    (fun x y hx hy hyx => by simp only [hx, hyx, and_true])
    (by beta_reduce; rw [hs k k x y hx hy, hs i j x y hx hy, mul_comm ((pivotPhase o m k s).dL k k x)])
  rw [← this]
  simp only [pivotPhase, if_pos ho]

theorem col_d2 (ho : 1 < o) (hs : ∀ i j x y, x < m → y < m → s.d2L i j x y = s.d2L i j y x)
    (i j x y : ℕ) (hx : x < m) (hy : y < m) :
    (colPhase o n m k s).d2L i j x y = if k + 1 ≤ i ∧ i < n ∧ j = k then
        (s.d2L i k x y - (colPhase o n m k s).L i k * s.d2L k k x y -
          (colPhase o n m k s).dL i k x * (colPhase o n m k s).dL k k y -
          (colPhase o n m k s).dL i k y * (colPhase o n m k s).dL k k x) /
          (colPhase o n m k s).L k k else s.d2L i j x y := by
  have := mirror_val (i := i) (j := j) (G := fun x y => if k + 1 ≤ i ∧ i < n ∧ j = k then
        (s.d2L i k x y - (colPhase o n m k s).L i k * s.d2L k k x y -
          (colPhase o n m k s).dL i k x * (colPhase o n m k s).dL k k y -
          (colPhase o n m k s).dL i k y * (colPhase o n m k s).dL k k x) /
          (colPhase o n m k s).L k k else s.d2L i j x y)
    (D := fun i j x y => if k + 1 ≤ i ∧ i < n ∧ j = k ∧ x < m ∧ y ≤ x then
        (s.d2L i k x y - (colPhase o n m k s).L i k * s.d2L k k x y -
          (colPhase o n m k s).dL i k x * (colPhase o n m k s).dL k k y -
          (colPhase o n m k s).dL i k y * (colPhase o n m k s).dL k k x) /
          (colPhase o n m k s).L k k else s.d2L i j x y) hx hy
    (fun x y hx hy hyx => by simp only [hx, hyx, and_true])
    (by
      beta_reduce
      rw [hs k k x y hx hy, hs i j x y hx hy, hs i k x y hx hy]
      refine if_congr Iff.rfl ?_ rfl
      ring)
  rw [← this]
  simp only [colPhase, if_pos ho]

theorem row_d2 (ho : 1 < o) (hs : ∀ i j x y, x < m → y < m → s.d2L i j x y = s.d2L i j y x)
    (i j x y : ℕ) (hx : x < m) (hy : y < m) :
    (rowPhase o n m k s).d2L i j x y = if k + 1 ≤ j ∧ j ≤ i ∧ i < n then
        s.d2L i j x y - s.d2L i k x y * s.L j k - s.L i k * s.d2L j k x y
          - s.dL i k x * s.dL j k y - s.dL i k y * s.dL j k x
        else s.d2L i j x y := by
  have := mirror_val (i := i) (j := j) (G := fun x y => if k + 1 ≤ j ∧ j ≤ i ∧ i < n then
        s.d2L i j x y - s.d2L i k x y * s.L j k - s.L i k * s.d2L j k x y
          - s.dL i k x * s.dL j k y - s.dL i k y * s.dL j k x
        else s.d2L i j x y)
    (D := fun i j x y => if k + 1 ≤ j ∧ j ≤ i ∧ i < n ∧ x < m ∧ y ≤ x then
        s.d2L i j x y - s.d2L i k x y * s.L j k - s.L i k * s.d2L j k x y
          - s.dL i k x * s.dL j k y - s.dL i k y * s.dL j k x
        else s.d2L i j x y) hx hy
    (fun x y hx hy hyx => by simp only [hx, hyx, and_true])
    (by
      beta_reduce
      rw [hs j k x y hx hy, hs i j x y hx hy, hs i k x y hx hy]
      refine if_congr Iff.rfl ?_ rfl
      ring)
  rw [← this]
  simp only [rowPhase, if_pos ho]

theorem Rel2.pivot (ho : 1 < o) (hz : z < m) (hk : k < n) (h1 : Rel1 n z c s) (h : Rel2 n m z c s) :
    Rel2 n m z c (pivotPhase o m k s) := by
  have hp := h1.pivot (show 0 < o by omega) hz hk
  refine ⟨fun i j x y hx hy => ?_, fun i j hji hi x hx => ?_⟩
  · rw [pivot_d2 ho h.1 i j x y hx hy, pivot_d2 ho h.1 i j y x hy hx, h.1 k k x y hx hy,
      h.1 i j x y hx hy, mul_comm ((pivotPhase o m k s).dL k k x)]
  · rw [pivot_d2 ho h.1 i j x z hx hz, Finset.sum_congr rfl fun b hb => by
      rw [pivot_d2 ho h.1 i j x b hx (by have := Finset.mem_range.1 hb; omega)]]
    by_cases hc : i = k ∧ j = k
    · simp only [if_pos hc]
      rw [h.2 k k le_rfl hk x hx, hp k k le_rfl hk, Finset.mul_sum, Finset.mul_sum,
        ← Finset.sum_sub_distrib, Finset.sum_div]
      exact Finset.sum_congr rfl fun b _ => by ring
    · simp only [if_neg hc]; exact h.2 i j hji hi x hx

theorem Rel2.col (ho : 1 < o) (hz : z < m) (hk : k < n) (h1 : Rel1 n z c s) (h : Rel2 n m z c s) :
    Rel2 n m z c (colPhase o n m k s) := by
  have hp := h1.col (show 0 < o by omega) hz hk
  refine ⟨fun i j x y hx hy => ?_, fun i j hji hi x hx => ?_⟩
  · rw [col_d2 ho h.1 i j x y hx hy, col_d2 ho h.1 i j y x hy hx, h.1 k k x y hx hy,
      h.1 i j x y hx hy, h.1 i k x y hx hy]
    refine if_congr Iff.rfl ?_ rfl
    ring
  · rw [col_d2 ho h.1 i j x z hx hz, Finset.sum_congr rfl fun b hb => by
      rw [col_d2 ho h.1 i j x b hx (by have := Finset.mem_range.1 hb; omega)]]
    by_cases hc : k + 1 ≤ i ∧ i < n ∧ j = k
    · simp only [if_pos hc]
      rw [h.2 k k le_rfl hk x hx, h.2 i k (by omega) hi x hx, hp k k le_rfl hk,
        hp i k (by omega) hi, Finset.mul_sum, Finset.mul_sum, Finset.sum_mul,
        ← Finset.sum_sub_distrib, ← Finset.sum_sub_distrib, ← Finset.sum_sub_distrib, Finset.sum_div]
      exact Finset.sum_congr rfl fun b _ => by ring
    · simp only [if_neg hc]; exact h.2 i j hji hi x hx

theorem Rel2.row (ho : 1 < o) (hz : z < m) (h1 : Rel1 n z c s) (h : Rel2 n m z c s) :
    Rel2 n m z c (rowPhase o n m k s) := by
  refine ⟨fun i j x y hx hy => ?_, fun i j hji hi x hx => ?_⟩
  · rw [row_d2 ho h.1 i j x y hx hy, row_d2 ho h.1 i j y x hy hx, h.1 j k x y hx hy,
      h.1 i j x y hx hy, h.1 i k x y hx hy]
    refine if_congr Iff.rfl ?_ rfl
    ring
  · rw [row_d2 ho h.1 i j x z hx hz, Finset.sum_congr rfl fun b hb => by
      rw [row_d2 ho h.1 i j x b hx (by have := Finset.mem_range.1 hb; omega)]]
    by_cases hc : k + 1 ≤ j ∧ j ≤ i ∧ i < n
    · simp only [if_pos hc]
      rw [h.2 i j hji hi x hx, h.2 i k (by omega) hi x hx, h.2 j k (by omega) (by omega) x hx,
        h1 i k (by omega) hi, h1 j k (by omega) (by omega), Finset.mul_sum, Finset.mul_sum,
        Finset.sum_mul, Finset.sum_mul, ← Finset.sum_sub_distrib, ← Finset.sum_sub_distrib,
        ← Finset.sum_sub_distrib, ← Finset.sum_sub_distrib]
      exact Finset.sum_congr rfl fun b _ => by ring
    · simp only [if_neg hc]; exact h.2 i j hji hi x hx

theorem Rel2.iter (ho : 1 < o) (hz : z < m) (h1 : Rel1 n z c s) (h : Rel2 n m z c s) (r : ℕ)
    (hr : r ≤ n) : Rel2 n m z c (dIter o n m s r) := by
  induction r with
  | zero => exact h
  | succ r ih =>
    have a0 : 0 < o := by omega
    have g0 := h1.iter a0 hz r (by omega)
    have g1 := g0.pivot a0 hz (k := r) (by omega)
    have g2 := g1.col a0 hz (k := r) (by omega)
    rw [dIter_succ]
    exact (((ih (by omega)).pivot ho hz (by omega) g0).col ho hz (by omega) g1).row ho hz g2

end Verif.Lin
