import Mathlib.Analysis.Matrix.Order
import Mathlib.Analysis.SpecialFunctions.Exponential
import Mathlib.Analysis.SpecialFunctions.Integrals.Basic
import Mathlib.Analysis.SpecialFunctions.ImproperIntegrals
import Mathlib.MeasureTheory.Integral.IntegralEqImproper
import Mathlib.LinearAlgebra.LinearIndependent.Basic

/-!
# Positive definite kernels

General facts used by the claims on `pystatsm/misc/independence_tests.py`; nothing here models code.

* the Gaussian kernel is positive semidefinite, and positive definite for distinct points;
* the Euclidean distance is of negative type (Schoenberg).
-/

namespace Verif.Indep

open Matrix

variable {n m : ℕ}

/-- Squared Euclidean distance of two rows. -/
def sq (X : Fin n → Fin m → ℝ) (i j : Fin n) : ℝ := ∑ k, (X i k - X j k) ^ 2

/-- Inner product of two rows. -/
def ip (X : Fin n → Fin m → ℝ) (i j : Fin n) : ℝ := ∑ k, X i k * X j k

theorem sq_nonneg' (X : Fin n → Fin m → ℝ) (i j : Fin n) : 0 ≤ sq X i j := Finset.sum_nonneg fun _ _ => sq_nonneg _

theorem sq_comm (X : Fin n → Fin m → ℝ) (i j : Fin n) : sq X i j = sq X j i :=
  Finset.sum_congr rfl fun _ _ => by ring

theorem sq_self (X : Fin n → Fin m → ℝ) (i : Fin n) : sq X i i = 0 := by simp [sq]

theorem sq_eq_zero (X : Fin n → Fin m → ℝ) (i j : Fin n) : sq X i j = 0 ↔ X i = X j := by
  constructor
  · intro h
    have := (Finset.sum_eq_zero_iff_of_nonneg (fun k _ => sq_nonneg (X i k - X j k))).1 h
    funext k
    have := this k (Finset.mem_univ k)
    have := pow_eq_zero_iff (two_ne_zero) |>.1 this
    linarith
  · intro h; simp [sq, h]

theorem sq_ip (X : Fin n → Fin m → ℝ) (i j : Fin n) : sq X i j = ip X i i + ip X j j - 2 * ip X i j := by
  simp only [sq, ip, Finset.mul_sum, ← Finset.sum_add_distrib, ← Finset.sum_sub_distrib]
  exact Finset.sum_congr rfl fun _ _ => by ring

/-- A quadratic form. -/
def qf (A : Fin n → Fin n → ℝ) (c : Fin n → ℝ) : ℝ := ∑ i, ∑ j, c i * c j * A i j

theorem qf_posSemidef {A : Matrix (Fin n) (Fin n) ℝ} (h : A.PosSemidef) (c : Fin n → ℝ) : 0 ≤ qf A c := by
  have h2 := h.dotProduct_mulVec_nonneg c
  have : star c ⬝ᵥ A *ᵥ c = qf A c := by
    simp only [dotProduct, mulVec, qf, Finset.mul_sum, star_trivial]
    exact Finset.sum_congr rfl fun i _ => Finset.sum_congr rfl fun j _ => by ring
  rwa [this] at h2

theorem posSemidef_of_qf {A : Matrix (Fin n) (Fin n) ℝ} (hs : ∀ i j, A i j = A j i) (h : ∀ c, 0 ≤ qf A c) :
    A.PosSemidef := by
  refine PosSemidef.of_dotProduct_mulVec_nonneg (Matrix.IsHermitian.ext fun i j => by simp [hs i j]) fun c => ?_
  have : star c ⬝ᵥ A *ᵥ c = qf A c := by
    simp only [dotProduct, mulVec, qf, Finset.mul_sum, star_trivial]
    exact Finset.sum_congr rfl fun i _ => Finset.sum_congr rfl fun j _ => by ring
  rw [this]; exact h c

theorem ip_posSemidef (X : Fin n → Fin m → ℝ) : (Matrix.of (ip X)).PosSemidef := by
  refine posSemidef_of_qf (fun i j => by simp only [Matrix.of_apply, ip, mul_comm]) fun c => ?_
  have : qf (Matrix.of (ip X)) c = ∑ k, (∑ i, c i * X i k) ^ 2 := by
    simp only [qf, ip, Matrix.of_apply, Finset.mul_sum, pow_two, Finset.sum_mul]
    rw [Finset.sum_comm' (t' := Finset.univ) (s' := fun _ => Finset.univ) (by simp)]
    simp only [Finset.sum_comm (γ := Fin m)]
    rw [Finset.sum_comm]
    exact Finset.sum_congr rfl fun k _ => Finset.sum_congr rfl fun i _ => Finset.sum_congr rfl fun j _ => by ring
  rw [this]; exact Finset.sum_nonneg fun _ _ => sq_nonneg _

theorem ip_pow_posSemidef (X : Fin n → Fin m → ℝ) (k : ℕ) : (Matrix.of fun i j => ip X i j ^ k).PosSemidef := by
  induction k with
  | zero =>
    refine posSemidef_of_qf (fun i j => by simp) fun c => ?_
    have : qf (Matrix.of fun i j => ip X i j ^ 0) c = (∑ i, c i) ^ 2 := by
      simp [qf, pow_two, Finset.sum_mul_sum]
    rw [this]; exact sq_nonneg _
  | succ k ih =>
    have := ih.hadamard (ip_posSemidef X)
    have e : (Matrix.of fun i j => ip X i j ^ (k + 1)) = (Matrix.of fun i j => ip X i j ^ k) ⊙ Matrix.of (ip X) := by
      ext i j; simp [Matrix.hadamard, pow_succ]
    rw [e]; exact this

theorem qf_hasSum (X : Fin n → Fin m → ℝ) (a : ℝ) (c : Fin n → ℝ) :
    HasSum (fun k : ℕ => a ^ k / (k.factorial : ℝ) * qf (fun i j => ip X i j ^ k) c)
      (qf (fun i j => Real.exp (a * ip X i j)) c) := by
  have : ∀ i j, HasSum (fun k : ℕ => c i * c j * ((a * ip X i j) ^ k / (k.factorial : ℝ))) (c i * c j * Real.exp (a * ip X i j)) := by
    intro i j
    refine HasSum.mul_left _ ?_
    have := NormedSpace.expSeries_div_hasSum_exp (𝔸 := ℝ) (a * ip X i j)
    rwa [← Real.exp_eq_exp_ℝ] at this
  have h := hasSum_sum (s := Finset.univ) fun (i : Fin n) _ => hasSum_sum (s := Finset.univ) fun (j : Fin n) _ => this i j
  have e : (fun k : ℕ => a ^ k / (k.factorial : ℝ) * qf (fun i j => ip X i j ^ k) c) =
      fun k => ∑ i, ∑ j, c i * c j * ((a * ip X i j) ^ k / (k.factorial : ℝ)) := by
    funext k
    simp only [qf, Finset.mul_sum, mul_pow]
    exact Finset.sum_congr rfl fun i _ => Finset.sum_congr rfl fun j _ => by ring
  rw [e]; exact h

theorem exp_ip_posSemidef (X : Fin n → Fin m → ℝ) {a : ℝ} (ha : 0 ≤ a) :
    (Matrix.of fun i j => Real.exp (a * ip X i j)).PosSemidef := by
  refine posSemidef_of_qf (fun i j => by simp only [Matrix.of_apply, ip, mul_comm]) fun c => ?_
  refine (qf_hasSum X a c).nonneg fun k => mul_nonneg (by positivity) ?_
  exact qf_posSemidef (ip_pow_posSemidef X k) c

/-- The exponential kernel is definite at distinct points. -/
theorem exp_ip_definite (X : Fin n → Fin m → ℝ) (hX : Function.Injective X) {a : ℝ} (ha : 0 < a) {c : Fin n → ℝ}
    (h : qf (fun i j => Real.exp (a * ip X i j)) c = 0) : c = 0 := by
  have key : ∀ t : Fin m → ℝ, ∑ j, c j * Real.exp (a * ∑ k, t k * X j k) = 0 := by
    intro t
    let X' : Fin (n + 1) → Fin m → ℝ := Fin.cons t X
    let c' : Fin (n + 1) → ℝ := Fin.cons 0 c
    have hp := exp_ip_posSemidef X' ha.le
    have hz : star c' ⬝ᵥ (Matrix.of fun i j => Real.exp (a * ip X' i j)) *ᵥ c' = 0 := by
      rw [← h]
      simp only [dotProduct, mulVec, qf, Finset.mul_sum, star_trivial, Fin.sum_univ_succ, c', X', Fin.cons_zero, Fin.cons_succ,
        zero_mul, mul_zero, Finset.sum_const_zero, zero_add, Matrix.of_apply, ip]
      exact Finset.sum_congr rfl fun i _ => Finset.sum_congr rfl fun j _ => by ring
    have := congrFun ((hp.dotProduct_mulVec_zero_iff c').1 hz) 0
    simp only [mulVec, dotProduct, Fin.sum_univ_succ, c', X', Fin.cons_zero, Fin.cons_succ, mul_zero, zero_add, Matrix.of_apply, ip,
      Pi.zero_apply] at this
    rw [← this]
    exact Finset.sum_congr rfl fun j _ => mul_comm _ _
  let φ : Fin n → (Multiplicative (Fin m → ℝ) →* ℝ) := fun j =>
    { toFun := fun t => Real.exp (a * ∑ k, t.toAdd k * X j k)
      map_one' := by simp
      map_mul' := by
        intro s t
        rw [← Real.exp_add]
        congr 1
        simp only [toAdd_mul, Pi.add_apply, add_mul, Finset.sum_add_distrib]
        ring }
  have hφ : Function.Injective φ := by
    intro i j hij
    apply hX
    funext k
    have := congrArg (fun f => f (Multiplicative.ofAdd (Pi.single k 1))) hij
    simp only [φ, MonoidHom.coe_mk, OneHom.coe_mk, toAdd_ofAdd, Real.exp_eq_exp] at this
    have h2 : ∀ i, ∑ l, (Pi.single k 1 : Fin m → ℝ) l * X i l = X i k := by
      intro i
      rw [Finset.sum_eq_single k]
      · simp
      · intro b _ hb; simp [Pi.single_eq_of_ne hb]
      · simp
    rw [h2, h2] at this
    exact mul_left_cancel₀ ha.ne' this
  have li := (linearIndependent_monoidHom (Multiplicative (Fin m → ℝ)) ℝ).comp φ hφ
  rw [Fintype.linearIndependent_iff] at li
  funext j
  refine li c ?_ j
  funext t
  have := key t.toAdd
  simpa [φ, Finset.sum_apply, Function.comp] using this

theorem gauss_qf (X : Fin n → Fin m → ℝ) (s : ℝ) (c : Fin n → ℝ) :
    qf (fun i j => Real.exp (-(s * sq X i j))) c = qf (fun i j => Real.exp (2 * s * ip X i j)) fun i => c i * Real.exp (-(s * ip X i i)) := by
  refine Finset.sum_congr rfl fun i _ => Finset.sum_congr rfl fun j _ => ?_
  have : Real.exp (-(s * sq X i j)) = Real.exp (-(s * ip X i i)) * Real.exp (-(s * ip X j j)) * Real.exp (2 * s * ip X i j) := by
    rw [← Real.exp_add, ← Real.exp_add, sq_ip]; congr 1; ring
  beta_reduce
  rw [this]; ring

/-- The Gaussian kernel is positive semidefinite. -/
theorem gauss_nonneg (X : Fin n → Fin m → ℝ) {s : ℝ} (hs : 0 ≤ s) (c : Fin n → ℝ) :
    0 ≤ qf (fun i j => Real.exp (-(s * sq X i j))) c := by
  rw [gauss_qf]
  exact qf_posSemidef (exp_ip_posSemidef X (by positivity)) _

/-- The Gaussian kernel is positive definite at distinct points. -/
theorem gauss_definite (X : Fin n → Fin m → ℝ) (hX : Function.Injective X) {s : ℝ} (hs : 0 < s) {c : Fin n → ℝ}
    (h : qf (fun i j => Real.exp (-(s * sq X i j))) c = 0) : c = 0 := by
  rw [gauss_qf] at h
  have := exp_ip_definite X hX (by positivity) h
  funext i
  have := congrFun this i
  simpa [Real.exp_ne_zero] using this

/-! ### Negative type of the Euclidean distance -/

open MeasureTheory Set

/-- The integrand of Schoenberg's representation of the square root. -/
noncomputable def schInt (u s : ℝ) : ℝ := (1 - Real.exp (-(s * u))) * s ^ (-(3 / 2) : ℝ)

theorem schInt_nonneg {u s : ℝ} (hu : 0 ≤ u) (hs : 0 < s) : 0 ≤ schInt u s := by
  refine mul_nonneg ?_ (Real.rpow_nonneg hs.le _)
  rw [sub_nonneg, Real.exp_le_one_iff]
  nlinarith

theorem schInt_continuousOn (u : ℝ) : ContinuousOn (schInt u) (Ioi 0) := by
  refine ContinuousOn.mul (by fun_prop) ?_
  exact ContinuousOn.rpow_const continuousOn_id fun x hx => Or.inl (ne_of_gt hx)

theorem schInt_integrable {u : ℝ} (hu : 0 ≤ u) : IntegrableOn (schInt u) (Ioi 0) := by
  rw [← Ioc_union_Ioi_eq_Ioi (zero_le_one' ℝ)]
  refine IntegrableOn.union ?_ ?_
  · have h1 : IntegrableOn (fun s : ℝ => u * s ^ (-(1 / 2) : ℝ)) (Ioc 0 1) := by
      refine Integrable.const_mul ?_ u
      have := (intervalIntegral.intervalIntegrable_rpow' (a := 0) (b := 1) (r := -(1 / 2)) (by norm_num))
      rwa [intervalIntegrable_iff_integrableOn_Ioc_of_le zero_le_one] at this
    refine Integrable.mono' h1 ?_ ?_
    · exact (schInt_continuousOn u).mono (fun x hx => hx.1) |>.aestronglyMeasurable measurableSet_Ioc
    · refine (ae_restrict_iff' measurableSet_Ioc).2 (Filter.Eventually.of_forall fun s hs => ?_)
      rw [Real.norm_of_nonneg (schInt_nonneg hu hs.1), schInt]
      have e : s ^ (-(1 / 2) : ℝ) = s * s ^ (-(3 / 2) : ℝ) := by
        rw [← Real.rpow_one_add' hs.1.le (by norm_num)]; norm_num
      rw [e, ← mul_assoc]
      refine mul_le_mul_of_nonneg_right ?_ (Real.rpow_nonneg hs.1.le _)
      have := Real.add_one_le_exp (-(s * u))
      linarith
  · have h1 : IntegrableOn (fun s : ℝ => s ^ (-(3 / 2) : ℝ)) (Ioi 1) := integrableOn_Ioi_rpow_of_lt (by norm_num) zero_lt_one
    refine Integrable.mono' h1 ?_ ?_
    · exact ((schInt_continuousOn u).mono (Ioi_subset_Ioi zero_le_one)).aestronglyMeasurable measurableSet_Ioi
    · refine (ae_restrict_iff' measurableSet_Ioi).2 (Filter.Eventually.of_forall fun s hs => ?_)
      have hs0 : (0:ℝ) < s := lt_trans zero_lt_one hs
      rw [Real.norm_of_nonneg (schInt_nonneg hu hs0), schInt]
      have h2 : 1 - Real.exp (-(s * u)) ≤ 1 := by linarith [Real.exp_pos (-(s * u))]
      calc _ ≤ 1 * s ^ (-(3 / 2) : ℝ) := mul_le_mul_of_nonneg_right h2 (Real.rpow_nonneg hs0.le _)
        _ = _ := one_mul _

/-- Schoenberg's representation: the integral is proportional to the square root. -/
theorem schInt_integral {u : ℝ} (hu : 0 ≤ u) : ∫ s in Ioi 0, schInt u s = Real.sqrt u * ∫ s in Ioi 0, schInt 1 s := by
  rcases hu.eq_or_lt with h | h
  · subst h; simp [schInt]
  · have := integral_comp_mul_right_Ioi (schInt 1) 0 h
    simp only [zero_mul, smul_eq_mul] at this
    have h3 : ∫ x in Ioi 0, schInt 1 x = u * ∫ x in Ioi 0, schInt 1 (x * u) := by rw [this]; field_simp
    rw [h3, ← integral_const_mul, ← integral_const_mul]
    refine setIntegral_congr_fun measurableSet_Ioi fun s hs => ?_
    have hs : (0:ℝ) < s := hs
    simp only [schInt, mul_one]
    rw [Real.mul_rpow hs.le h.le]
    have e : Real.sqrt u * u * u ^ (-(3 / 2) : ℝ) = 1 := by
      rw [Real.sqrt_eq_rpow, ← Real.rpow_add_one h.ne', ← Real.rpow_add h]
      norm_num
    linear_combination -(1 - Real.exp (-(s * u))) * s ^ (-(3 / 2) : ℝ) * e

theorem schInt_pos : 0 < ∫ s in Ioi 0, schInt 1 s := by
  rw [setIntegral_pos_iff_support_of_nonneg_ae]
  · have : Function.support (schInt 1) ∩ Ioi 0 = Ioi 0 := by
      refine inter_eq_right.2 fun s hs => ?_
      have hs : (0:ℝ) < s := hs
      have : 0 < schInt 1 s := by
        refine mul_pos ?_ (Real.rpow_pos_of_pos hs _)
        rw [sub_pos, Real.exp_lt_one_iff]; linarith
      exact this.ne'
    rw [this]; simp
  · refine (ae_restrict_iff' measurableSet_Ioi).2 (Filter.Eventually.of_forall fun s hs => schInt_nonneg zero_le_one hs)
  · exact schInt_integrable zero_le_one

/-- The Euclidean distance is of negative type. -/
theorem dist_negative_type (X : Fin n → Fin m → ℝ) {c : Fin n → ℝ} (hc : ∑ i, c i = 0) :
    qf (fun i j => Real.sqrt (sq X i j)) c ≤ 0 := by
  have h1 : (∫ s in Ioi 0, schInt 1 s) * qf (fun i j => Real.sqrt (sq X i j)) c = ∫ s in Ioi 0, qf (fun i j => schInt (sq X i j) s) c := by
    simp only [qf]
    rw [integral_finsetSum _ fun i _ => integrable_finsetSum _ fun j _ => (schInt_integrable (sq_nonneg' X i j)).const_mul _,
      Finset.mul_sum]
    refine Finset.sum_congr rfl fun i _ => ?_
    rw [integral_finsetSum _ fun j _ => (schInt_integrable (sq_nonneg' X i j)).const_mul _, Finset.mul_sum]
    refine Finset.sum_congr rfl fun j _ => ?_
    rw [integral_const_mul, schInt_integral (sq_nonneg' X i j)]
    ring
  have h2 : ∫ s in Ioi 0, qf (fun i j => schInt (sq X i j) s) c ≤ 0 := by
    refine setIntegral_nonpos measurableSet_Ioi fun s hs => ?_
    have hs : (0:ℝ) < s := hs
    have e : qf (fun i j => schInt (sq X i j) s) c = ((∑ i, c i) ^ 2 - qf (fun i j => Real.exp (-(s * sq X i j))) c) * s ^ (-(3 / 2) : ℝ) := by
      rw [pow_two, Finset.sum_mul_sum, qf, qf, ← Finset.sum_sub_distrib, Finset.sum_mul]
      refine Finset.sum_congr rfl fun i _ => ?_
      rw [← Finset.sum_sub_distrib, Finset.sum_mul]
      refine Finset.sum_congr rfl fun j _ => ?_
      simp only [schInt]
      ring
    rw [e, hc]
    have := gauss_nonneg X hs.le c
    have := Real.rpow_nonneg hs.le (-(3 / 2) : ℝ)
    nlinarith
  rw [← h1] at h2
  exact nonpos_of_mul_nonpos_right h2 schInt_pos

end Verif.Indep
