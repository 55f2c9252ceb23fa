import Verif.Lin.DcholLin
import Verif.Lin.CholProps
import Mathlib.Analysis.Normed.Module.FiniteDimension
import Mathlib.Topology.Algebra.Order.Field
/-! # Cholesky factors along paths of positive definite matrices -/
namespace Verif.Lin
open Real Topology Filter

variable {n z : ℕ}

/-- A quadratic form of a finitely supported vector, over `Fin n`. -/
theorem quad_fin (A : ℕ → ℕ → ℝ) (x : ℕ → ℝ) :
    ∑ i ∈ Finset.range n, ∑ j ∈ Finset.range n, x i * A i j * x j =
      ∑ i : Fin n, ∑ j : Fin n, x i * A i j * x j := by
  rw [Finset.sum_range]
  exact Finset.sum_congr rfl fun i _ => Finset.sum_range _

/-- A positive definite form dominates a multiple of the squared maximum norm. -/
theorem pd_lower {A : ℕ → ℕ → ℝ} (h : PDOn n A) :
    ∃ l : ℝ, 0 < l ∧ ∀ v : Fin n → ℝ, l * ‖v‖ ^ 2 ≤ ∑ i : Fin n, ∑ j : Fin n, v i * A i j * v j := by
  have pos : ∀ v : Fin n → ℝ, v ≠ 0 → 0 < ∑ i : Fin n, ∑ j : Fin n, v i * A i j * v j := by
    intro v hv
    obtain ⟨i, hi⟩ := Function.ne_iff.1 hv
    have := h (fun k => if hk : k < n then v ⟨k, hk⟩ else 0) ⟨i, i.2, by simpa using hi⟩
    rw [quad_fin] at this
    simpa using this
  rcases (Metric.sphere (0 : Fin n → ℝ) 1).eq_empty_or_nonempty with he | hne
  · refine ⟨1, one_pos, fun v => ?_⟩
    by_cases hv : v = 0
    · subst hv; simp
    · exfalso
      have : ‖v‖⁻¹ • v ∈ Metric.sphere (0 : Fin n → ℝ) 1 := by
        rw [mem_sphere_zero_iff_norm, norm_smul, norm_inv, norm_norm,
          inv_mul_cancel₀ (norm_ne_zero_iff.2 hv)]
      rw [he] at this
      exact this
  · obtain ⟨w, hw, hmin⟩ := (isCompact_sphere (0 : Fin n → ℝ) 1).exists_isMinOn hne
      (f := fun v => ∑ i : Fin n, ∑ j : Fin n, v i * A i j * v j) (by fun_prop)
    have hw0 : w ≠ 0 := by
      rintro rfl; simp at hw
    refine ⟨_, pos w hw0, fun v => ?_⟩
    by_cases hv : v = 0
    · subst hv; simp
    · have hn := norm_ne_zero_iff.2 hv
      have hs : ‖v‖⁻¹ • v ∈ Metric.sphere (0 : Fin n → ℝ) 1 := by
        rw [mem_sphere_zero_iff_norm, norm_smul, norm_inv, norm_norm, inv_mul_cancel₀ hn]
      have := hmin hs
      simp only [Set.mem_setOf_eq, Pi.smul_apply, smul_eq_mul] at this
      have e : ∑ i : Fin n, ∑ j : Fin n, ‖v‖⁻¹ * v i * A i j * (‖v‖⁻¹ * v j) =
          (‖v‖ ^ 2)⁻¹ * ∑ i : Fin n, ∑ j : Fin n, v i * A i j * v j := by
        simp only [Finset.mul_sum]
        refine Finset.sum_congr rfl fun i _ => Finset.sum_congr rfl fun j _ => ?_
        field_simp
      rw [e, inv_mul_eq_div, le_div_iff₀ (by positivity)] at this
      exact this

/-- Positive definiteness is an open condition along paths. -/
theorem pd_open {M : ℝ → ℕ → ℕ → ℝ} (hM : ∀ i j, i < n → j < n → ContinuousAt (fun t => M t i j) 0)
    (h : PDOn n (M 0)) : ∀ᶠ t in 𝓝 (0 : ℝ), PDOn n (M t) := by
  obtain ⟨l, hl, hlow⟩ := pd_lower h
  have hd : 0 < l / (2 * (n * n + 1)) := by positivity
  have ev : ∀ᶠ t in 𝓝 (0 : ℝ), ∀ i ∈ Finset.range n, ∀ j ∈ Finset.range n,
      |M t i j - M 0 i j| < l / (2 * (n * n + 1)) := by
    rw [eventually_all_finset]
    intro i hi
    rw [eventually_all_finset]
    intro j hj
    have := (hM i j (Finset.mem_range.1 hi) (Finset.mem_range.1 hj)).eventually
      (Metric.ball_mem_nhds _ hd)
    filter_upwards [this] with t ht
    rwa [Real.dist_eq] at ht
  filter_upwards [ev] with t ht x hx
  rw [quad_fin]
  let v : Fin n → ℝ := fun i => x i
  have hv : v ≠ 0 := by
    obtain ⟨i, hi, h0⟩ := hx
    intro c
    exact h0 (congrFun c ⟨i, hi⟩)
  have hnv : 0 < ‖v‖ ^ 2 := by have := norm_pos_iff.2 hv; positivity
  have e : ∑ i : Fin n, ∑ j : Fin n, x i * M t i j * x j =
      ∑ i : Fin n, ∑ j : Fin n, v i * M 0 i j * v j +
      ∑ i : Fin n, ∑ j : Fin n, v i * (M t i j - M 0 i j) * v j := by
    rw [← Finset.sum_add_distrib]
    refine Finset.sum_congr rfl fun i _ => ?_
    rw [← Finset.sum_add_distrib]
    exact Finset.sum_congr rfl fun j _ => by simp only [v]; ring
  have b : |∑ i : Fin n, ∑ j : Fin n, v i * (M t i j - M 0 i j) * v j| ≤
      (n * n) * (l / (2 * (n * n + 1)) * ‖v‖ ^ 2) := by
    refine (Finset.abs_sum_le_sum_abs _ _).trans ?_
    have : ∀ i : Fin n, |∑ j : Fin n, v i * (M t i j - M 0 i j) * v j| ≤
        n * (l / (2 * (n * n + 1)) * ‖v‖ ^ 2) := by
      intro i
      refine (Finset.abs_sum_le_sum_abs _ _).trans ?_
      have : ∀ j : Fin n, |v i * (M t i j - M 0 i j) * v j| ≤ l / (2 * (n * n + 1)) * ‖v‖ ^ 2 := by
        intro j
        rw [abs_mul, abs_mul]
        have h1 := norm_le_pi_norm v i
        have h2 := norm_le_pi_norm v j
        rw [Real.norm_eq_abs] at h1 h2
        have h3 := (ht i (Finset.mem_range.2 i.2) j (Finset.mem_range.2 j.2)).le
        calc |v i| * |M t i j - M 0 i j| * |v j| ≤ ‖v‖ * (l / (2 * (n * n + 1))) * ‖v‖ := by gcongr
          _ = _ := by ring
      refine (Finset.sum_le_sum fun j _ => this j).trans ?_
      simp
    refine (Finset.sum_le_sum fun i _ => this i).trans ?_
    simp; rw [mul_assoc]
  have c : (n * n : ℝ) * (l / (2 * (n * n + 1)) * ‖v‖ ^ 2) < l * ‖v‖ ^ 2 := by
    rw [← mul_assoc]
    refine mul_lt_mul_of_pos_right ?_ hnv
    rw [← mul_div_assoc, div_lt_iff₀ (by positivity)]
    nlinarith [mul_nonneg (Nat.cast_nonneg (α := ℝ) n) (Nat.cast_nonneg (α := ℝ) n)]
  rw [e]
  have := hlow v
  have := neg_abs_le (∑ i : Fin n, ∑ j : Fin n, v i * (M t i j - M 0 i j) * v j)
  linarith

/-- Directions with one appended. -/
def extDir (z : ℕ) (dM : ℕ → ℕ → ℕ → ℝ) (c : ℕ → ℝ) : ℕ → ℕ → ℕ → ℝ :=
  fun i j x => if x = z then ∑ b ∈ Finset.range z, c b * dM i j b else dM i j x

theorem ext_rel1 (A : ℕ → ℕ → ℝ) (dM : ℕ → ℕ → ℕ → ℝ) (c : ℕ → ℝ) (d2) :
    Rel1 n z c (dInit A (extDir z dM c) d2) := by
  intro i j hji _
  simp only [dInit, if_pos hji, extDir, if_true]
  refine Finset.sum_congr rfl fun b hb => ?_
  rw [if_neg (by have := Finset.mem_range.1 hb; omega)]

theorem ext_agr1 (A B : ℕ → ℕ → ℝ) (dM : ℕ → ℕ → ℕ → ℝ) (c : ℕ → ℝ) (d2 d2')
    (hAB : ∀ i j, j ≤ i → i < n → A i j = B i j) :
    Agr1 n z (dInit A (extDir z dM c) d2) (dInit B dM d2') := by
  intro i j hji hi
  simp only [dInit, if_pos hji, extDir]
  refine ⟨hAB i j hji hi, fun x hx => ?_⟩
  rw [if_neg (by omega)]

theorem agr1_init (A B : ℕ → ℕ → ℝ) (dM : ℕ → ℕ → ℕ → ℝ) (d2 d2')
    (hAB : ∀ i j, j ≤ i → i < n → A i j = B i j) : Agr1 n z (dInit A dM d2) (dInit B dM d2') := by
  intro i j hji hi
  simp only [dInit, if_pos hji]
  exact ⟨hAB i j hji hi, fun _ _ => trivial⟩

/-- No second derivatives of the directions. -/
def zero4 : ℕ → ℕ → ℕ → ℕ → ℝ := fun _ _ _ _ => 0

/-- The final state of `dchol`. -/
noncomputable def dFin (o n m : ℕ) (M : ℕ → ℕ → ℝ) (dM : ℕ → ℕ → ℕ → ℝ) : DState :=
  dIter o n m (dInit M dM zero4) n

theorem dFin_agr1 {o o' m : ℕ} (ho : 0 < o) (ho' : 0 < o') {A B : ℕ → ℕ → ℝ} (dM)
    (hAB : ∀ i j, j ≤ i → i < n → A i j = B i j) {i j x : ℕ} (hji : j ≤ i) (hi : i < n) (hx : x < m) :
    (dFin o n m A dM).dL i j x = (dFin o' n m B dM).dL i j x :=
  (((agr1_init A B dM zero4 zero4 hAB).iter ho ho' le_rfl le_rfl n le_rfl) i j hji hi).2 x hx

theorem dFin_agr2 {o o' m : ℕ} (ho : 1 < o) (ho' : 1 < o') {A B : ℕ → ℕ → ℝ} (dM)
    (hAB : ∀ i j, j ≤ i → i < n → A i j = B i j) {i j x y : ℕ} (hji : j ≤ i) (hi : i < n) (hx : x < m)
    (hy : y < m) :
    (dFin o n m A dM).d2L i j x y = (dFin o' n m B dM).d2L i j x y :=
  (Agr2.iter (z := m) ho ho' le_rfl le_rfl (agr1_init A B dM zero4 zero4 hAB)
    (fun i j _ _ x y _ _ => by simp [dInit, zero4]) n le_rfl) i j hji hi x y hx hy

/-- The derivative of the Cholesky factor along a path whose velocity is a combination of the
directions is the same combination of the reported derivatives. -/
theorem chol_path (o : ℕ) (ho : 0 < o) (M F : ℝ → ℕ → ℕ → ℝ) (dM : ℕ → ℕ → ℕ → ℝ) (c : ℕ → ℝ)
    (hF : ∀ᶠ t in 𝓝 (0 : ℝ), IsChol n (M t) (F t))
    (hM : ∀ i j, j ≤ i → i < n →
      HasDerivAt (fun t => M t i j) (∑ b ∈ Finset.range z, c b * dM i j b) 0)
    {i j : ℕ} (hji : j ≤ i) (hi : i < n) :
    HasDerivAt (fun t => F t i j) (∑ b ∈ Finset.range z, c b * (dFin o n z (M 0) dM).dL i j b) 0 := by
  obtain ⟨s, h1, h2⟩ := C45_first o n (z + 1) z ho (by omega) M F (extDir z dM c) zero4 hF
    (fun i j hji hi => by simpa [extDir] using hM i j hji hi)
  rw [dchol_eq hF.self_of_nhds] at h1
  obtain rfl := Option.some.inj h1
  refine (h2 i j hi (by omega)).congr_deriv ?_
  rw [(ext_rel1 (M 0) dM c zero4).iter ho (show z < z + 1 by omega) n le_rfl i j hji hi]
  refine Finset.sum_congr rfl fun b hb => ?_
  rw [(((ext_agr1 (M 0) (M 0) dM c zero4 zero4 fun _ _ _ _ => rfl).iter ho ho
    (show z ≤ z + 1 by omega) le_rfl n le_rfl) i j hji hi).2 b (Finset.mem_range.1 hb)]
  rfl

/-- The same for the first derivatives and the reported second derivatives. -/
theorem chol_path2 (o : ℕ) (ho : 1 < o) (M : ℝ → ℕ → ℕ → ℝ) (F : ℕ → ℕ → ℝ) (dM : ℕ → ℕ → ℕ → ℝ)
    (c : ℕ → ℝ) (hF : IsChol n (M 0) F)
    (hM : ∀ i j, j ≤ i → i < n →
      HasDerivAt (fun t => M t i j) (∑ b ∈ Finset.range z, c b * dM i j b) 0)
    {i j a : ℕ} (hji : j ≤ i) (hi : i < n) (ha : a < z) :
    HasDerivAt (fun t => (dFin o n z (M t) dM).dL i j a)
      (∑ b ∈ Finset.range z, c b * (dFin o n z (M 0) dM).d2L i j a b) 0 := by
  have a0 : 0 < o := by omega
  have h1 : T1 n z fun t => dInit (M t) (extDir z dM c) zero4 := by
    intro i j hji hi
    simpa only [dInit, if_pos hji, extDir, if_true] using hM i j hji hi
  have h2 : T2 n a z fun t => dInit (M t) (extDir z dM c) zero4 := by
    intro i j hji hi
    simp only [dInit, if_pos hji, zero4, ite_self]
    exact hasDerivAt_const _ _
  have h3 := iter_T2 ho (show a < z + 1 by omega) (show z < z + 1 by omega) _ (M 0) F hF
    (fun _ _ h _ => init_L (M 0) _ _ h) h1 h2 n le_rfl i j hji hi
  have r2 : Rel2 n (z + 1) z c (dInit (M 0) (extDir z dM c) zero4) :=
    ⟨fun i j x y _ _ => by simp [dInit, zero4], fun i j _ _ x _ => by simp [dInit, zero4]⟩
  have r2' := r2.iter ho (show z < z + 1 by omega) (ext_rel1 (M 0) dM c zero4) n le_rfl
  rw [max_eq_right ha.le, min_eq_left ha.le, r2'.1 i j z a (by omega) (by omega),
    r2'.2 i j hji hi a (by omega)] at h3
  have e : ∀ t, (dIter o n (z + 1) (dInit (M t) (extDir z dM c) zero4) n).dL i j a =
      (dFin o n z (M t) dM).dL i j a := fun t =>
    (((ext_agr1 (M t) (M t) dM c zero4 zero4 fun _ _ _ _ => rfl).iter a0 a0
      (show z ≤ z + 1 by omega) le_rfl n le_rfl) i j hji hi).2 a ha
  simp only [e] at h3
  refine h3.congr_deriv (Finset.sum_congr rfl fun b hb => ?_)
  rw [Agr2.iter (z := z) ho ho (show z ≤ z + 1 by omega) le_rfl
    (ext_agr1 (M 0) (M 0) dM c zero4 zero4 fun _ _ _ _ => rfl)
    (fun i j _ _ x y _ _ => by simp [dInit, zero4]) n le_rfl i j hji hi a b ha
    (Finset.mem_range.1 hb)]
  rfl

end Verif.Lin
