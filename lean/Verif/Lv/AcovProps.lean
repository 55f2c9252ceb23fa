import Verif.Lv.Acov
import Verif.Lv.SampleProps
import Verif.Index.OrderedProps
import Mathlib.LinearAlgebra.Matrix.PosDef

namespace Verif.Lv
open Real Set Filter Topology Verif.Glm Verif.Transf Matrix

/-! ### The thresholds -/

theorem thrA_mulVec {m : ℕ} (tau x' : ℕ → ℝ) (i : Fin (m + 1)) :
    (thrA m tau *ᵥ fun k : Fin m => x' k) i = phi0 (tau (i + 1)) * pad 0 0 m x' (i + 1) - phi0 (tau i) * pad 0 0 m x' i := by
  have := Pair.step_sum (m := m) (i := i) (by omega) normPdf tau x'
  rw [normPdf_eq] at this
  rw [← this, ← Fin.sum_univ_eq_sum_range (fun k => Pair.step i k (phi0 (tau (k + 1))) * x' k)]
  simp [mulVec, dotProduct, thrA, normPdf_eq]

/-- The columns of `Ai` add up to zero. -/
theorem thrA_col {m : ℕ} (tau : ℕ → ℝ) (k : Fin m) : ∑ i, thrA m tau i k = 0 := by
  simp only [thrA, of_apply]
  have e : ∀ i : Fin (m + 1), Pair.step i k (normPdf (tau (k + 1))) = (if i = k.castSucc then normPdf (tau (k + 1)) else 0) - (if i = k.succ then normPdf (tau (k + 1)) else 0) := fun i => by
    unfold Pair.step
    simp only [Fin.ext_iff, Fin.val_castSucc, Fin.val_succ]
    split_ifs <;> first | omega | simp
  simp [e]

theorem thrADA_eq (cdf : ℝ → ℝ) (m : ℕ) (tau : ℕ → ℝ) : thrADA cdf m tau = (thrA m tau)ᵀ * diagonal (fun i => (thrP cdf m tau i)⁻¹) * thrA m tau := by
  unfold thrADA
  congr 1
  ext k i
  rw [mul_diagonal]
  simp [div_eq_mul_inv]

theorem thrA_inj {m : ℕ} (tau : ℕ → ℝ) (v : Fin m → ℝ) (h : thrA m tau *ᵥ v = 0) : v = 0 := by
  have hp : ∀ t, phi0 t ≠ 0 := fun t => (phi0_pos t).ne'
  set x' : ℕ → ℝ := fun k => if h : k < m then v ⟨k, h⟩ else 0 with hx
  have hv : v = fun k : Fin m => x' k := by
    funext k
    simp [hx]
  rw [hv] at h
  have h0 : ∀ i ≤ m, pad 0 0 m x' i = 0 := by
    intro i hi
    induction i with
    | zero => simp [pad]
    | succ i ih =>
      have := congrFun h ⟨i, by omega⟩
      rw [thrA_mulVec, ih (by omega)] at this
      simpa [hp] using this
  funext k
  have := h0 (k + 1) (by omega)
  rw [pad_succ k.2] at this
  simpa [hx] using this

/-- **C163** `Ai` is the derivative of the category probabilities `p` in the thresholds. -/
theorem C163_jacobian (m : ℕ) (tau : ℕ → ℝ) (i : Fin (m + 1)) (k : Fin m) :
    HasDerivAt (fun t => thrP ndtr0 m (Function.update tau (k + 1) t) i) (thrA m tau i k) (tau (k + 1)) := by
  have hd := ndtr0_deriv (tau (k + 1))
  simp only [thrP, thrA, of_apply, Pair.step, normPdf_eq]
  by_cases h1 : (i : ℕ) = k
  · have e : ∀ t, ndtr0 (Function.update tau (k + 1) t (i + 1)) - ndtr0 (Function.update tau (k + 1) t i) = ndtr0 t - ndtr0 (tau i) := fun t => by
      rw [h1, Function.update_self, Function.update_of_ne (by omega)]
    simp only [e]
    rw [if_pos h1]
    exact hd.sub_const _
  · by_cases h2 : (i : ℕ) = k + 1
    · have e : ∀ t, ndtr0 (Function.update tau (k + 1) t (i + 1)) - ndtr0 (Function.update tau (k + 1) t i) = ndtr0 (tau (i + 1)) - ndtr0 t := fun t => by
        rw [h2, Function.update_self, Function.update_of_ne (by omega)]
      simp only [e]
      rw [if_neg h1, if_pos h2]
      exact hd.const_sub _
    · have e : ∀ t, ndtr0 (Function.update tau (k + 1) t (i + 1)) - ndtr0 (Function.update tau (k + 1) t i) = ndtr0 (tau (i + 1)) - ndtr0 (tau i) := fun t => by
        rw [Function.update_of_ne (by omega), Function.update_of_ne h2]
      simp only [e]
      rw [if_neg h1, if_neg h2]
      exact hasDerivAt_const _ _

/-- **C163** With increasing thresholds the system for `Bi` can be solved; the solution is a left inverse of `Ai` and vanishes at the category
probabilities. -/
theorem C163_solve (cdf : ℝ → ℝ) (m : ℕ) (tau : ℕ → ℝ) :
    ((∀ i, 0 < thrP cdf m tau i) → (thrB cdf m tau).isSome) ∧
    ∀ B, thrB cdf m tau = some B → B * thrA m tau = 1 ∧ ((∀ i, thrP cdf m tau i ≠ 0) → B *ᵥ thrP cdf m tau = 0) := by
  constructor
  · intro hp
    have hpd : (thrADA cdf m tau).PosDef := by
      rw [thrADA_eq]
      have hd : (diagonal (fun i => (thrP cdf m tau i)⁻¹)).PosDef := PosDef.diagonal fun i => inv_pos.2 (hp i)
      have := hd.conjTranspose_mul_mul_same (B := thrA m tau) fun a b hab => by
        have : thrA m tau *ᵥ (a - b) = 0 := by rw [mulVec_sub, hab, sub_self]
        exact sub_eq_zero.1 (thrA_inj tau _ this)
      simpa using this
    unfold thrB
    rw [if_pos (isUnit_iff_ne_zero.2 hpd.det_pos.ne')]
    rfl
  · intro B hB
    unfold thrB at hB
    split_ifs at hB with hu
    obtain rfl := Option.some.inj hB
    refine ⟨?_, fun hp => ?_⟩
    · rw [Matrix.mul_assoc]
      exact nonsing_inv_mul _ hu
    · rw [← mulVec_mulVec]
      have : (of fun k i => thrA m tau i k / thrP cdf m tau i : Matrix (Fin m) (Fin (m + 1)) ℝ) *ᵥ thrP cdf m tau = 0 := by
        funext k
        simp only [mulVec, dotProduct, of_apply, Pi.zero_apply]
        rw [← thrA_col tau k]
        exact Finset.sum_congr rfl fun i _ => div_mul_cancel₀ _ (hp i)
      rw [this, mulVec_zero]

namespace Pair
variable {P : Pair} {erf : ℝ → ℝ}

theorem sum_step (m : ℕ) {k : ℕ} (hk : k < m) (v : ℝ) : ∑ i ∈ Finset.range (m + 1), step i k v = 0 := by
  have e : ∀ i, step i k v = (if i = k then v else 0) - (if i = k + 1 then v else 0) := fun i => by
    unfold step
    split_ifs <;> first | omega | simp
  simp only [e, Finset.sum_sub_distrib, Finset.sum_ite_eq', Finset.mem_range]
  rw [if_pos (by omega), if_pos (by omega), sub_self]

/-- The second derivative of the total probability in the correlation: what the closing values leave over. -/
noncomputable def rest (P : Pair) (x : ℕ → ℝ) : ℝ := region dpdf (-10 ^ 12) (-10 ^ 12) (10 ^ 12) (10 ^ 10) (P.rho x)

theorem sum_cell (f : ℝ → ℝ → ℝ → ℝ) (x : ℕ → ℝ) (r : ℝ) : ∑ i ∈ Finset.range (P.m1 + 1), ∑ j ∈ Finset.range (P.m2 + 1), cell f (P.t1 x) (P.t2 x) r i j =
    region f (-10 ^ 12) (-10 ^ 12) (10 ^ 12) (10 ^ 10) r := by
  set a := P.t1 x with ha
  set b := P.t2 x with hb
  have h1 : ∀ i, ∑ j ∈ Finset.range (P.m2 + 1), cell f a b r i j = (f (a (i + 1)) (b (P.m2 + 1)) r - f (a (i + 1)) (b 0) r) - (f (a i) (b (P.m2 + 1)) r - f (a i) (b 0) r) := fun i => by
    have := Finset.sum_range_sub (fun j => f (a (i + 1)) (b j) r - f (a i) (b j) r) (P.m2 + 1)
    rw [show (f (a (i + 1)) (b (P.m2 + 1)) r - f (a (i + 1)) (b 0) r) - (f (a i) (b (P.m2 + 1)) r - f (a i) (b 0) r) =
      f (a (i + 1)) (b (P.m2 + 1)) r - f (a i) (b (P.m2 + 1)) r - (f (a (i + 1)) (b 0) r - f (a i) (b 0) r) by ring, ← this]
    refine Finset.sum_congr rfl fun j _ => ?_
    simp only [cell, region]
    ring
  simp only [h1]
  rw [Finset.sum_range_sub (fun i => f (a i) (b (P.m2 + 1)) r - f (a i) (b 0) r), region]
  have e1 : a 0 = -10 ^ 12 := by simp [ha, t1, pad]
  have e2 : a (P.m1 + 1) = 10 ^ 12 := by simp [ha, t1, pad_last]
  have e3 : b 0 = -10 ^ 12 := by simp [hb, t2, pad]
  have e4 : b (P.m2 + 1) = 10 ^ 10 := by simp [hb, t2, pad_last]
  rw [e1, e2, e3, e4]
  ring

/-- The derivatives of the total probability in correlation and thresholds vanish. -/
theorem sum_d2prob (x x' : ℕ → ℝ) : ∑ i ∈ Finset.range (P.m1 + 1), ∑ j ∈ Finset.range (P.m2 + 1), dotN P.len (P.d2prob erf x i j (P.m1 + P.m2)) x' =
    P.rest x * x' (P.m1 + P.m2) := by
  have e : ∀ i j, P.d2prob erf x i j (P.m1 + P.m2) =
      P.cat (fun k => step i k (cdfDur (P.t1 x (k + 1)) (P.t2 x (j + 1)) (P.rho x) - cdfDur (P.t1 x (k + 1)) (P.t2 x j) (P.rho x)))
        (fun k => step j k (cdfDur (P.t2 x (k + 1)) (P.t1 x (i + 1)) (P.rho x) - cdfDur (P.t2 x (k + 1)) (P.t1 x i) (P.rho x)))
        (cell dpdf (P.t1 x) (P.t2 x) (P.rho x) i j) := fun i j => by
    funext l
    unfold d2prob
    dsimp only
    conv_lhs => rw [cat]
    rw [if_neg (by omega), if_neg (by omega)]
  simp only [e, cat_dot, Finset.sum_add_distrib]
  rw [Finset.sum_comm (f := fun i j => ∑ k ∈ Finset.range P.m1, _)]
  have h1 : ∀ j, ∑ i ∈ Finset.range (P.m1 + 1), ∑ k ∈ Finset.range P.m1,
      step i k (cdfDur (P.t1 x (k + 1)) (P.t2 x (j + 1)) (P.rho x) - cdfDur (P.t1 x (k + 1)) (P.t2 x j) (P.rho x)) * x' k = 0 := fun j => by
    rw [Finset.sum_comm]
    refine Finset.sum_eq_zero fun k hk => ?_
    rw [← Finset.sum_mul, sum_step _ (Finset.mem_range.1 hk), zero_mul]
  have h2 : ∀ i, ∑ j ∈ Finset.range (P.m2 + 1), ∑ k ∈ Finset.range P.m2,
      step j k (cdfDur (P.t2 x (k + 1)) (P.t1 x (i + 1)) (P.rho x) - cdfDur (P.t2 x (k + 1)) (P.t1 x i) (P.rho x)) * x' (P.m1 + k) = 0 := fun i => by
    rw [Finset.sum_comm]
    refine Finset.sum_eq_zero fun k hk => ?_
    rw [← Finset.sum_mul, sum_step _ (Finset.mem_range.1 hk), zero_mul]
  simp only [h1, h2, Finset.sum_const_zero, zero_add]
  simp only [← Finset.sum_mul, sum_cell]
  rfl

theorem triple {κ : Type*} (S T : Finset ℕ) (K : Finset κ) (a : ℕ → ℕ → ℝ) (d : ℕ → ℕ → κ → ℝ) (y : κ → ℝ) :
    ∑ i ∈ S, ∑ j ∈ T, a i j * ∑ k ∈ K, d i j k * y k = ∑ k ∈ K, (∑ i ∈ S, ∑ j ∈ T, a i j * d i j k) * y k := by
  simp only [Finset.mul_sum, Finset.sum_mul]
  refine Eq.trans (Finset.sum_congr rfl fun i _ => Finset.sum_comm) ?_
  rw [Finset.sum_comm]
  exact Finset.sum_congr rfl fun k _ => Finset.sum_congr rfl fun i _ => Finset.sum_congr rfl fun j _ => by ring

/-- The thresholds move with the cumulated proportions: `Bi` takes the change of the proportions to the change of the thresholds. -/
theorem margin_path {m : ℕ} {tau : ℕ → ℝ} {T : ℝ → ℕ → ℝ} {x' : ℕ → ℝ} {q : ℝ → ℕ → ℝ} {q' : ℕ → ℝ} {cdf : ℝ → ℝ} {B : Matrix (Fin m) (Fin (m + 1)) ℝ}
    (htau : ∀ k < m, tau (k + 1) = T 0 k) (hT : ∀ k < m, HasDerivAt (fun t => T t k) (x' k) 0) (hq : ∀ i ≤ m, HasDerivAt (fun t => q t i) (q' i) 0)
    (hm : ∀ t, ∀ k < m, ndtr0 (T t k) = ∑ i ∈ Finset.range (k + 1), q t i) (h0 : ∑ i ∈ Finset.range (m + 1), q' i = 0) (hB : thrB cdf m tau = some B) (k : Fin m) :
    x' k = ∑ i : Fin (m + 1), B k i * q' i := by
  have h1 : ∀ k < m, phi0 (tau (k + 1)) * x' k = ∑ i ∈ Finset.range (k + 1), q' i := fun k hk => by
    have a := (ndtr0_deriv (T 0 k)).comp (0 : ℝ) (hT k hk)
    have b : HasDerivAt (fun t => ∑ i ∈ Finset.range (k + 1), q t i) (∑ i ∈ Finset.range (k + 1), q' i) 0 :=
      HasDerivAt.fun_sum fun i hi => hq i (by have := Finset.mem_range.1 hi; omega)
    have e : ndtr0 ∘ (fun t => T t k) = fun t => ∑ i ∈ Finset.range (k + 1), q t i := funext fun t => hm t k hk
    rw [e] at a
    rw [htau k hk]
    exact a.unique b
  have h2 : ∀ i ≤ m + 1, phi0 (tau i) * pad 0 0 m x' i = ∑ i ∈ Finset.range i, q' i := fun i hi => by
    rcases i with _ | i
    · simp [pad]
    · rcases Nat.lt_or_ge i m with h | h
      · rw [pad_succ h]
        exact h1 i h
      · have : i = m := by omega
        subst this
        rw [pad_last, mul_zero, h0]
  have h3 : thrA m tau *ᵥ (fun k : Fin m => x' k) = fun i : Fin (m + 1) => q' i := by
    funext i
    rw [thrA_mulVec, h2 _ (by omega), h2 _ (by omega), Finset.sum_range_succ]
    ring
  have h4 := ((C163_solve cdf m tau).2 B hB).1
  have h5 : (fun k : Fin m => x' k) = B *ᵥ fun i : Fin (m + 1) => q' i := by
    rw [← h3, mulVec_mulVec, h4, one_mulVec]
  exact congrFun h5 k

/-- **C163** `G` is the influence of the cells on the two-step correlation.  Along any curve of tables that starts at the cell probabilities of
the model, with the thresholds kept at the sample values and the correlation at the root of the score, the derivative of the correlation is the
sum of `G` times the derivative of the table; `rest` is the second derivative of the probability of the closing rectangle, which lies
outside `±10¹⁰`. -/
theorem C163_influence (he : IsErf erf) {cdf : ℝ → ℝ} {x x' : ℕ → ℝ} {X : ℝ → ℕ → ℝ} {q : ℝ → ℕ → ℕ → ℝ} {q' : ℕ → ℕ → ℝ}
    {B1 : Matrix (Fin P.m1) (Fin (P.m1 + 1)) ℝ} {B2 : Matrix (Fin P.m2) (Fin (P.m2 + 1)) ℝ} {tau1 tau2 : ℕ → ℝ}
    (hX : PathN P.len X x') (hX0 : X 0 = x) (hr : |P.rho x| < 1)
    (hq : ∀ i ≤ P.m1, ∀ j ≤ P.m2, HasDerivAt (fun t => q t i j) (q' i j) 0)
    (hq0 : ∀ i ≤ P.m1, ∀ j ≤ P.m2, q 0 i j = cell Phi2 (P.t1 x) (P.t2 x) (P.rho x) i j ∧ q 0 i j ≠ 0)
    (htot : ∑ i ∈ Finset.range (P.m1 + 1), ∑ j ∈ Finset.range (P.m2 + 1), q' i j = 0)
    (h1 : ∀ t, ∀ k < P.m1, ndtr0 (X t k) = ∑ i ∈ Finset.range (k + 1), ∑ j ∈ Finset.range (P.m2 + 1), q t i j)
    (h2 : ∀ t, ∀ k < P.m2, ndtr0 (X t (P.m1 + k)) = ∑ j ∈ Finset.range (k + 1), ∑ i ∈ Finset.range (P.m1 + 1), q t i j)
    (hs : ∀ t, ∑ i ∈ Finset.range (P.m1 + 1), ∑ j ∈ Finset.range (P.m2 + 1), q t i j * P.alpha Phi2 erf (X t) i j =
      ∑ i ∈ Finset.range (P.m1 + 1), ∑ j ∈ Finset.range (P.m2 + 1), q 0 i j * P.alpha Phi2 erf (X 0) i j)
    (ht1 : ∀ k < P.m1, tau1 (k + 1) = x k) (ht2 : ∀ k < P.m2, tau2 (k + 1) = x (P.m1 + k))
    (hB1 : thrB cdf P.m1 tau1 = some B1) (hB2 : thrB cdf P.m2 tau2 = some B2) (hD : P.bigD Phi2 erf x ≠ 0) :
    (1 - P.rest x / P.bigD Phi2 erf x) * x' (P.m1 + P.m2) = ∑ i : Fin (P.m1 + 1), ∑ j : Fin (P.m2 + 1), P.G Phi2 erf x B1 B2 i j * q' i j := by
  subst hX0
  set x := X 0 with hx
  have m1 : ∀ k : Fin P.m1, x' k = ∑ i : Fin (P.m1 + 1), B1 k i * ∑ j ∈ Finset.range (P.m2 + 1), q' i j := fun k =>
    margin_path (T := X) (q := fun t i => ∑ j ∈ Finset.range (P.m2 + 1), q t i j) ht1 (fun k hk => hX k (by unfold len; omega))
      (fun i hi => HasDerivAt.fun_sum fun j hj => hq i hi j (by have := Finset.mem_range.1 hj; omega)) h1 htot hB1 k
  have m2 : ∀ k : Fin P.m2, x' (P.m1 + k) = ∑ j : Fin (P.m2 + 1), B2 k j * ∑ i ∈ Finset.range (P.m1 + 1), q' i j := fun k =>
    margin_path (T := fun t k => X t (P.m1 + k)) (x' := fun k => x' (P.m1 + k)) (q := fun t j => ∑ i ∈ Finset.range (P.m1 + 1), q t i j) (q' := fun j => ∑ i ∈ Finset.range (P.m1 + 1), q' i j) ht2
      (fun k hk => hX (P.m1 + k) (by unfold len; omega))
      (fun j hj => HasDerivAt.fun_sum fun i hi => hq i (by have := Finset.mem_range.1 hi; omega) j hj) h2 (by rw [Finset.sum_comm]; exact htot) hB2 k
  -- the score equation
  have hsc : HasDerivAt (fun t => ∑ i ∈ Finset.range (P.m1 + 1), ∑ j ∈ Finset.range (P.m2 + 1), q t i j * P.alpha Phi2 erf (X t) i j)
      (∑ i ∈ Finset.range (P.m1 + 1), ∑ j ∈ Finset.range (P.m2 + 1), (q' i j * P.alpha Phi2 erf x i j +
        (dotN P.len (P.d2prob erf x i j (P.m1 + P.m2)) x' - P.alpha Phi2 erf x i j * dotN P.len (P.dprob erf x i j) x'))) 0 := by
    refine HasDerivAt.fun_sum fun i hi => HasDerivAt.fun_sum fun j hj => ?_
    have hi' := Nat.lt_succ_iff.1 (Finset.mem_range.1 hi)
    have hj' := Nat.lt_succ_iff.1 (Finset.mem_range.1 hj)
    obtain ⟨e1, e2⟩ := hq0 i hi' j hj'
    have hc : cell Phi2 (P.t1 (X 0)) (P.t2 (X 0)) (P.rho (X 0)) i j ≠ 0 := by rw [← e1]; exact e2
    have hp := prob_path he hX rfl hr hi' hj'
    have hd := dprob_path he hX rfl hr (k := P.m1 + P.m2) hi' hj'
    refine ((hq i hi' j hj').fun_mul (hd.fun_div hp hc)).congr_deriv ?_
    rw [e1]
    unfold alpha
    rw [← hx]
    rw [← hx] at hc
    field_simp
  have hzero : HasDerivAt (fun t => ∑ i ∈ Finset.range (P.m1 + 1), ∑ j ∈ Finset.range (P.m2 + 1), q t i j * P.alpha Phi2 erf (X t) i j) 0 0 := by
    simp only [hs]
    exact hasDerivAt_const _ _
  have key := hsc.unique hzero
  simp only [Finset.sum_add_distrib, Finset.sum_sub_distrib] at key
  rw [sum_d2prob] at key
  -- the contribution of the parameters
  have hb : ∑ i ∈ Finset.range (P.m1 + 1), ∑ j ∈ Finset.range (P.m2 + 1), P.alpha Phi2 erf x i j * dotN P.len (P.dprob erf x i j) x' =
      -∑ k : Fin P.m1, P.bvec Phi2 erf x k * x' k - ∑ k : Fin P.m2, P.bvec Phi2 erf x (P.m1 + k) * x' (P.m1 + k) + P.bigD Phi2 erf x * x' (P.m1 + P.m2) := by
    have e : ∀ i j, dotN P.len (P.dprob erf x i j) x' = ∑ k : Fin P.m1, P.dprob erf x i j k * x' k + ∑ k : Fin P.m2, P.dprob erf x i j (P.m1 + k) * x' (P.m1 + k) +
        P.dprob erf x i j (P.m1 + P.m2) * x' (P.m1 + P.m2) := fun i j => by
      unfold dotN len
      rw [Finset.sum_range_succ, Finset.sum_range_add, Fin.sum_univ_eq_sum_range (fun k => P.dprob erf x i j k * x' k),
        Fin.sum_univ_eq_sum_range (fun k => P.dprob erf x i j (P.m1 + k) * x' (P.m1 + k))]
    have f : ∀ k, P.bvec Phi2 erf x k = -∑ i ∈ Finset.range (P.m1 + 1), ∑ j ∈ Finset.range (P.m2 + 1), P.alpha Phi2 erf x i j * P.dprob erf x i j k := fun k => by
      unfold bvec
      rw [← Fin.sum_univ_eq_sum_range (fun i => ∑ j ∈ Finset.range (P.m2 + 1), P.alpha Phi2 erf x i j * P.dprob erf x i j k)]
      simp only [← Fin.sum_univ_eq_sum_range]
    have g : P.bigD Phi2 erf x = ∑ i ∈ Finset.range (P.m1 + 1), ∑ j ∈ Finset.range (P.m2 + 1), P.alpha Phi2 erf x i j * P.dprob erf x i j (P.m1 + P.m2) := by
      unfold bigD
      rw [← Fin.sum_univ_eq_sum_range (fun i => ∑ j ∈ Finset.range (P.m2 + 1), P.alpha Phi2 erf x i j * P.dprob erf x i j (P.m1 + P.m2))]
      simp only [← Fin.sum_univ_eq_sum_range]
      refine Finset.sum_congr rfl fun i _ => Finset.sum_congr rfl fun j _ => ?_
      unfold alpha
      ring
    simp only [e, f, mul_add, Finset.sum_add_distrib]
    rw [triple _ _ _ (P.alpha Phi2 erf x) (fun i j (k : Fin P.m1) => P.dprob erf x i j k) fun k => x' k,
      triple _ _ _ (P.alpha Phi2 erf x) (fun i j (k : Fin P.m2) => P.dprob erf x i j (P.m1 + k)) fun k => x' (P.m1 + k), g, Finset.sum_mul]
    simp only [Finset.sum_mul, neg_mul, Finset.sum_neg_distrib, neg_neg, sub_neg_eq_add, mul_assoc]
  -- the contribution of the thresholds
  have g1 : ∑ i : Fin (P.m1 + 1), ∑ j : Fin (P.m2 + 1), (∑ k : Fin P.m1, P.bvec Phi2 erf x k * B1 k i) * q' i j = ∑ k : Fin P.m1, P.bvec Phi2 erf x k * x' k := by
    simp only [m1, ← Fin.sum_univ_eq_sum_range, Finset.mul_sum, Finset.sum_mul]
    refine Eq.trans (Finset.sum_congr rfl fun i _ => Finset.sum_comm) ?_
    rw [Finset.sum_comm]
    exact Finset.sum_congr rfl fun k _ => Finset.sum_congr rfl fun i _ => Finset.sum_congr rfl fun j _ => by ring
  have g2 : ∑ i : Fin (P.m1 + 1), ∑ j : Fin (P.m2 + 1), (∑ k : Fin P.m2, P.bvec Phi2 erf x (P.m1 + k) * B2 k j) * q' i j =
      ∑ k : Fin P.m2, P.bvec Phi2 erf x (P.m1 + k) * x' (P.m1 + k) := by
    simp only [m2, ← Fin.sum_univ_eq_sum_range (fun i => q' i _), Finset.mul_sum, Finset.sum_mul]
    rw [Finset.sum_comm]
    refine Eq.trans (Finset.sum_congr rfl fun j _ => Finset.sum_comm) ?_
    rw [Finset.sum_comm]
    exact Finset.sum_congr rfl fun k _ => Finset.sum_congr rfl fun j _ => Finset.sum_congr rfl fun i _ => by ring
  have hG : ∑ i : Fin (P.m1 + 1), ∑ j : Fin (P.m2 + 1), P.G Phi2 erf x B1 B2 i j * q' i j =
      (∑ i : Fin (P.m1 + 1), ∑ j : Fin (P.m2 + 1), P.alpha Phi2 erf x i j * q' i j + ∑ k : Fin P.m1, P.bvec Phi2 erf x k * x' k +
        ∑ k : Fin P.m2, P.bvec Phi2 erf x (P.m1 + k) * x' (P.m1 + k)) / P.bigD Phi2 erf x := by
    rw [← g1, ← g2, ← Finset.sum_add_distrib, ← Finset.sum_add_distrib, Finset.sum_div]
    refine Finset.sum_congr rfl fun i _ => ?_
    rw [← Finset.sum_add_distrib, ← Finset.sum_add_distrib, Finset.sum_div]
    refine Finset.sum_congr rfl fun j _ => ?_
    unfold G
    ring
  have ha : ∑ i ∈ Finset.range (P.m1 + 1), ∑ j ∈ Finset.range (P.m2 + 1), q' i j * P.alpha Phi2 erf x i j =
      ∑ i : Fin (P.m1 + 1), ∑ j : Fin (P.m2 + 1), P.alpha Phi2 erf x i j * q' i j := by
    rw [← Fin.sum_univ_eq_sum_range (fun i => ∑ j ∈ Finset.range (P.m2 + 1), q' i j * P.alpha Phi2 erf x i j)]
    refine Finset.sum_congr rfl fun i _ => ?_
    rw [← Fin.sum_univ_eq_sum_range (fun j => q' i j * P.alpha Phi2 erf x i j)]
    exact Finset.sum_congr rfl fun j _ => mul_comm _ _
  rw [hG, eq_div_iff hD]
  rw [hb, ha] at key
  have e : (1 - P.rest x / P.bigD Phi2 erf x) * x' (P.m1 + P.m2) * P.bigD Phi2 erf x = P.bigD Phi2 erf x * x' (P.m1 + P.m2) - P.rest x * x' (P.m1 + P.m2) := by
    field_simp
  rw [e]
  linarith

/-- **C163** `W` vanishes when the score does and the margins of the table are those of the thresholds. -/
theorem C163_centred {cdf : ℝ → ℝ} {x : ℕ → ℝ} {B1 : Matrix (Fin P.m1) (Fin (P.m1 + 1)) ℝ} {B2 : Matrix (Fin P.m2) (Fin (P.m2 + 1)) ℝ} {tau1 tau2 : ℕ → ℝ} (F : ℝ → ℝ → ℝ → ℝ)
    (c : ℕ → ℕ → ℝ) (n : ℝ) (hB1 : thrB cdf P.m1 tau1 = some B1) (hB2 : thrB cdf P.m2 tau2 = some B2)
    (h1 : ∀ i, thrP cdf P.m1 tau1 i ≠ 0) (h2 : ∀ i, thrP cdf P.m2 tau2 i ≠ 0)
    (c1 : ∀ i : Fin (P.m1 + 1), ∑ j : Fin (P.m2 + 1), c i j = n * thrP cdf P.m1 tau1 i) (c2 : ∀ j : Fin (P.m2 + 1), ∑ i : Fin (P.m1 + 1), c i j = n * thrP cdf P.m2 tau2 j)
    (hs : ∑ i : Fin (P.m1 + 1), ∑ j : Fin (P.m2 + 1), c i j * P.alpha F erf x i j = 0) :
    ∑ i : Fin (P.m1 + 1), ∑ j : Fin (P.m2 + 1), P.G F erf x B1 B2 i j * c i j = 0 := by
  have z1 := ((C163_solve cdf P.m1 tau1).2 B1 hB1).2 h1
  have z2 := ((C163_solve cdf P.m2 tau2).2 B2 hB2).2 h2
  have g1 : ∑ i : Fin (P.m1 + 1), ∑ j : Fin (P.m2 + 1), (∑ k : Fin P.m1, P.bvec F erf x k * B1 k i) * c i j = 0 := by
    simp only [← Finset.mul_sum, c1]
    simp only [Finset.sum_mul]
    rw [Finset.sum_comm]
    refine Finset.sum_eq_zero fun k _ => ?_
    have := congrFun z1 k
    simp only [mulVec, dotProduct, Pi.zero_apply] at this
    rw [show ∑ i, P.bvec F erf x k * B1 k i * (n * thrP cdf P.m1 tau1 i) = P.bvec F erf x k * n * ∑ i, B1 k i * thrP cdf P.m1 tau1 i by
      rw [Finset.mul_sum]
      exact Finset.sum_congr rfl fun i _ => by ring, this, mul_zero]
  have g2 : ∑ i : Fin (P.m1 + 1), ∑ j : Fin (P.m2 + 1), (∑ k : Fin P.m2, P.bvec F erf x (P.m1 + k) * B2 k j) * c i j = 0 := by
    rw [Finset.sum_comm]
    simp only [← Finset.mul_sum, c2]
    simp only [Finset.sum_mul]
    rw [Finset.sum_comm]
    refine Finset.sum_eq_zero fun k _ => ?_
    have := congrFun z2 k
    simp only [mulVec, dotProduct, Pi.zero_apply] at this
    rw [show ∑ i, P.bvec F erf x (P.m1 + k) * B2 k i * (n * thrP cdf P.m2 tau2 i) = P.bvec F erf x (P.m1 + k) * n * ∑ i, B2 k i * thrP cdf P.m2 tau2 i by
      rw [Finset.mul_sum]
      exact Finset.sum_congr rfl fun i _ => by ring, this, mul_zero]
  have e : ∑ i : Fin (P.m1 + 1), ∑ j : Fin (P.m2 + 1), P.G F erf x B1 B2 i j * c i j =
      (∑ i : Fin (P.m1 + 1), ∑ j : Fin (P.m2 + 1), c i j * P.alpha F erf x i j + ∑ i : Fin (P.m1 + 1), ∑ j : Fin (P.m2 + 1), (∑ k : Fin P.m1, P.bvec F erf x k * B1 k i) * c i j +
        ∑ i : Fin (P.m1 + 1), ∑ j : Fin (P.m2 + 1), (∑ k : Fin P.m2, P.bvec F erf x (P.m1 + k) * B2 k j) * c i j) / P.bigD F erf x := by
    rw [← Finset.sum_add_distrib, ← Finset.sum_add_distrib, Finset.sum_div]
    refine Finset.sum_congr rfl fun i _ => ?_
    rw [← Finset.sum_add_distrib, ← Finset.sum_add_distrib, Finset.sum_div]
    refine Finset.sum_congr rfl fun j _ => ?_
    unfold G
    ring
  rw [e, g1, g2, hs]
  simp

end Pair

/-! ### Observations -/

theorem mapM_all {α β : Type*} (f : α → Option β) (g : α → β) (l : List α) (h : ∀ a ∈ l, f a = some (g a)) : l.mapM f = some (l.map g) := by
  induction l with
  | nil => rfl
  | cons a l ih =>
    rw [List.mapM_cons, h a (List.mem_cons_self ..), ih fun b hb => h b (List.mem_cons_of_mem _ hb)]
    rfl

/-- The codes of a column are the positions of its values. -/
def Contig (x : List ℤ) : Prop := ∀ v ∈ x, (uniq x)[code x v]? = some v

theorem code_lt {x : List ℤ} (hx : Contig x) {v : ℤ} (hv : v ∈ x) : code x v < ncat x := by
  rw [← uniq_length]
  exact (List.getElem?_eq_some_iff.1 (hx v hv)).1

/-- **C163** With consecutive codes the lookups succeed, and summing over observations is summing over the table. -/
theorem C163_codes_partial {R : Type*} [CommSemiring R] (g : ℕ → ℕ → R) {x y : List ℤ} (hx : Contig x) (hy : Contig y) :
    ∃ l, gObs g x y = some l ∧ l = (x.zip y).map (fun v => g (code x v.1) (code y v.2)) ∧ l.sum = wSum g x y := by
  refine ⟨_, ?_, rfl, ?_⟩
  · unfold gObs
    refine mapM_all _ _ _ fun v hv => ?_
    have h := List.of_mem_zip hv
    rw [if_pos ⟨code_lt hx h.1, code_lt hy h.2⟩]
  · have hz : ∀ v ∈ x.zip y, (uniq x)[code x v.1]? = some v.1 ∧ (uniq y)[code y v.2]? = some v.2 := fun v hv =>
      ⟨hx _ (List.of_mem_zip hv).1, hy _ (List.of_mem_zip hv).2⟩
    unfold wSum crosstab
    generalize x.zip y = z at hz
    induction z with
    | nil => simp
    | cons v z ih =>
      rw [List.map_cons, List.sum_cons, ih fun w hw => hz w (List.mem_cons_of_mem _ hw)]
      obtain ⟨h1, h2⟩ := hz v (List.mem_cons_self ..)
      have l1 : code x v.1 < (uniq x).length := (List.getElem?_eq_some_iff.1 h1).1
      have l2 : code y v.2 < (uniq y).length := (List.getElem?_eq_some_iff.1 h2).1
      have e : ∀ i ∈ Finset.range (ncat x), ∀ j ∈ Finset.range (ncat y),
          g i j * (((v :: z).count ((uniq x).getD i 0, (uniq y).getD j 0) : ℕ) : R) =
            g i j * ((z.count ((uniq x).getD i 0, (uniq y).getD j 0) : ℕ) : R) + if i = code x v.1 then if j = code y v.2 then g i j else 0 else 0 := fun i hi j hj => by
        rw [List.count_cons]
        have hi : i < (uniq x).length := by rw [uniq_length]; exact Finset.mem_range.1 hi
        have hj : j < (uniq y).length := by rw [uniq_length]; exact Finset.mem_range.1 hj
        have n1 : v.1 = (uniq x).getD i 0 ↔ i = code x v.1 := by
          rw [List.getElem?_eq_some_iff] at h1
          obtain ⟨_, h1⟩ := h1
          rw [List.getD_eq_getElem _ _ hi]
          conv_lhs => rw [← h1]
          rw [(uniq_sorted x).nodup.getElem_inj_iff, eq_comm]
        have n2 : v.2 = (uniq y).getD j 0 ↔ j = code y v.2 := by
          rw [List.getElem?_eq_some_iff] at h2
          obtain ⟨_, h2⟩ := h2
          rw [List.getD_eq_getElem _ _ hj]
          conv_lhs => rw [← h2]
          rw [(uniq_sorted y).nodup.getElem_inj_iff, eq_comm]
        simp only [beq_iff_eq, Prod.ext_iff, n1, n2, Nat.cast_add, mul_add]
        by_cases a : i = code x v.1 <;> by_cases b : j = code y v.2 <;> simp [a, b]
      rw [Finset.sum_congr rfl fun i hi => Finset.sum_congr rfl fun j hj => e i hi j hj]
      simp only [Finset.sum_add_distrib]
      rw [add_comm]
      congr 1
      have : ∀ i, (∑ j ∈ Finset.range (ncat y), if i = code x v.1 then if j = code y v.2 then g i j else 0 else 0) = if i = code x v.1 then g i (code y v.2) else 0 := fun i => by
        by_cases a : i = code x v.1
        · simp only [a, if_true, Finset.sum_ite_eq', Finset.mem_range]
          rw [if_pos (by rw [← uniq_length]; exact l2)]
        · simp [a]
      simp only [this, Finset.sum_ite_eq', Finset.mem_range]
      rw [if_pos (by rw [← uniq_length]; exact l1)]

example : Contig [2, 1, 2, 3] ∧ ¬ Contig [2, 1, 4] := by
  unfold Contig
  decide +kernel

/-- **C163** A skipped code makes the lookup fail although table and thresholds are well formed: the categories are indexed by their codes,
not by their positions. -/
theorem C163_codes_violated (g : ℕ → ℕ → ℚ) : ncat [0, 2, 0, 2] = 2 ∧ (∀ i < 2, ∀ j < 2, crosstab [0, 2, 0, 2] [0, 1, 1, 0] i j = 1) ∧
    gObs g [0, 2, 0, 2] [0, 1, 1, 0] = none := by
  refine ⟨by decide +kernel, by decide +kernel, ?_⟩
  have h1 : code [0, 2, 0, 2] 2 = 2 ∧ code [0, 2, 0, 2] 0 = 0 ∧ ncat [0, 2, 0, 2] = 2 := by decide +kernel
  have h2 : code [0, 1, 1, 0] 0 = 0 ∧ code [0, 1, 1, 0] 1 = 1 ∧ ncat [0, 1, 1, 0] = 2 := by decide +kernel
  simp [gObs, h1.1, h1.2.1, h1.2.2, h2.1, h2.2.1, h2.2.2]

/-! ### The two versions -/

theorem dotL_comm {R : Type*} [CommSemiring R] (a b : List R) : dotL a b = dotL b a := by
  unfold dotL
  rw [List.zipWith_comm]
  simp only [mul_comm]

theorem setSym_fold {R : Type*} (f : ℕ → ℕ → R) (hf : ∀ a b, f a b = f b a) (l : List (ℕ × ℕ)) (M : ℕ → ℕ → R) (i j : ℕ) :
    l.foldl (fun M t => setSym M t.1 t.2 (f t.1 t.2)) M i j = if (i, j) ∈ l ∨ (j, i) ∈ l then f i j else M i j := by
  induction l generalizing M with
  | nil => simp
  | cons t l ih =>
    obtain ⟨a, b⟩ := t
    rw [List.foldl_cons, ih]
    simp only [setSym, List.mem_cons, Prod.mk.injEq]
    by_cases h : (i, j) ∈ l ∨ (j, i) ∈ l
    · rw [if_pos h, if_pos]
      rcases h with h | h
      · exact Or.inl (Or.inr h)
      · exact Or.inr (Or.inr h)
    · rw [if_neg h]
      push Not at h
      by_cases h1 : i = a ∧ j = b
      · obtain ⟨rfl, rfl⟩ := h1
        simp
      · by_cases h2 : i = b ∧ j = a
        · obtain ⟨rfl, rfl⟩ := h2
          simp [hf i j]
        · have h2' : ¬ (j = a ∧ i = b) := fun h => h2 ⟨h.2, h.1⟩
          simp [h1, h2, h2', h.1, h.2]

theorem foldlM_all {σ τ : Type*} (f : σ → τ → Option σ) (g : σ → τ → σ) (l : List τ) (h : ∀ M, ∀ t ∈ l, f M t = some (g M t)) (M : σ) :
    l.foldlM f M = some (l.foldl g M) := by
  induction l generalizing M with
  | nil => rfl
  | cons t l ih =>
    rw [List.foldlM_cons, h M t (List.mem_cons_self ..)]
    exact ih (fun M t ht => h M t (List.mem_cons_of_mem _ ht)) _

theorem mem_inds2 {p i j : ℕ} : (i, j) ∈ (Verif.Index.generateIndices [p, p] false false false).map Verif.Index.toPair ↔ i < p ∧ j ≤ i := by
  have hm := (Verif.Index.C160_members [p, p] false false false).2
  rw [List.mem_map]
  constructor
  · rintro ⟨x, hx, he⟩
    obtain ⟨h1, h2⟩ := (hm x).1 hx
    unfold Verif.Index.InShape at h1
    match x, h1, h2, he with
    | [a, b], .cons ha (.cons hb .nil), h2, he =>
      simp only [Verif.Index.toPair, Prod.mk.injEq] at he
      obtain ⟨rfl, rfl⟩ := he
      simp only [List.pairwise_cons, List.mem_singleton, forall_eq, Verif.Index.stepRel] at h2
      exact ⟨ha, h2.1⟩
  · rintro ⟨h1, h2⟩
    refine ⟨[i, j], (hm _).2 ⟨.cons h1 (.cons (by omega) .nil), ?_⟩, rfl⟩
    simp [Verif.Index.stepRel, h2]

section
variable {R : Type*} [Field R] {cols : ℕ → List ℤ} {n : ℕ} {pairs : List (ℕ × ℕ)} {g : ℕ → ℕ → ℕ → R} {r : ℕ → List R}

/-- The rows of `g_obs`. -/
def RowsOk (cols : ℕ → List ℤ) (pairs : List (ℕ × ℕ)) (g : ℕ → ℕ → ℕ → R) (r : ℕ → List R) : Prop :=
  ∀ k < pairs.length, gObs (g k) (cols (pairs.getD k (0, 0)).1) (cols (pairs.getD k (0, 0)).2) = some (r k)

theorem getAcov_eq (hr : RowsOk cols pairs g r) : ∃ M, getAcov cols n pairs g = some M ∧ ∀ i < pairs.length, ∀ j < pairs.length,
    M i j = acovEntry n (r i) (r j) (wSum (g i) (cols (pairs.getD i (0, 0)).1) (cols (pairs.getD i (0, 0)).2))
      (wSum (g j) (cols (pairs.getD j (0, 0)).1) (cols (pairs.getD j (0, 0)).2)) := by
  unfold getAcov
  dsimp only
  rw [mapM_all _ r _ fun k hk => hr k (List.mem_range.1 hk)]
  refine ⟨_, rfl, fun i hi j hj => ?_⟩
  simp [List.getD_eq_getElem?_getD, hi, hj]

/-- **C163** The loop over `inds2` and the matrix product give the same covariances. -/
theorem C163_loop (hr : RowsOk cols pairs g r) : ∃ M M', getAcov cols n pairs g = some M ∧ getAcovLoop cols n pairs g = some M' ∧
    ∀ i < pairs.length, ∀ j < pairs.length, M' i j = M i j := by
  obtain ⟨M, hM, hM'⟩ := getAcov_eq (n := n) hr
  refine ⟨M, ?_, hM, ?_, ?_⟩
  · exact fun i j => (((Verif.Index.generateIndices [pairs.length, pairs.length] false false false).map Verif.Index.toPair).foldl
      (fun M t => setSym M t.1 t.2 (dotL (r t.1) (r t.2) / n - wSum (g t.1) (cols (pairs.getD t.1 (0, 0)).1) (cols (pairs.getD t.1 (0, 0)).2) *
        wSum (g t.2) (cols (pairs.getD t.2 (0, 0)).1) (cols (pairs.getD t.2 (0, 0)).2))) fun _ _ => 0) i j / n
  · unfold getAcovLoop
    dsimp only
    rw [foldlM_all (g := fun M t => setSym M t.1 t.2 (dotL (r t.1) (r t.2) / n - wSum (g t.1) (cols (pairs.getD t.1 (0, 0)).1) (cols (pairs.getD t.1 (0, 0)).2) *
        wSum (g t.2) (cols (pairs.getD t.2 (0, 0)).1) (cols (pairs.getD t.2 (0, 0)).2)))]
    · rfl
    · intro M t ht
      have h := mem_inds2.1 (show (t.1, t.2) ∈ _ from ht)
      rw [hr t.1 h.1, hr t.2 (by omega)]
  · intro i hi j hj
    have hs := setSym_fold (fun a b => dotL (r a) (r b) / n - wSum (g a) (cols (pairs.getD a (0, 0)).1) (cols (pairs.getD a (0, 0)).2) *
        wSum (g b) (cols (pairs.getD b (0, 0)).1) (cols (pairs.getD b (0, 0)).2)) (fun a b => by rw [dotL_comm]; ring)
      ((Verif.Index.generateIndices [pairs.length, pairs.length] false false false).map Verif.Index.toPair) (fun _ _ => 0) i j
    rw [hs, if_pos, hM' i hi j hj]
    · rfl
    · rw [mem_inds2, mem_inds2]
      omega

end

theorem dotL_eq {n : ℕ} {a b : List ℝ} (ha : a.length = n) (hb : b.length = n) : dotL a b = ∑ t ∈ Finset.range n, a.getD t 0 * b.getD t 0 := by
  unfold dotL
  rw [← Fin.sum_univ_eq_sum_range (fun t => a.getD t 0 * b.getD t 0), ← List.sum_ofFn]
  refine congrArg List.sum (List.ext_getElem (by simp [ha, hb]) fun k hk _ => ?_)
  simp only [List.length_zipWith, ha, hb, min_self] at hk
  simp [List.getD_eq_getElem?_getD, ha, hb]

/-- **C163** When the sums `W` vanish the result is a covariance matrix: every quadratic form is the mean square of a combination of the rows,
divided by the number of observations. -/
theorem C163_psd_partial {cols : ℕ → List ℤ} {n : ℕ} {pairs : List (ℕ × ℕ)} {g : ℕ → ℕ → ℕ → ℝ} {r : ℕ → List ℝ} (hr : RowsOk cols pairs g r)
    (hn : ∀ k < pairs.length, (r k).length = n) (hw : ∀ k < pairs.length, wSum (g k) (cols (pairs.getD k (0, 0)).1) (cols (pairs.getD k (0, 0)).2) = 0) :
    ∃ M, getAcov cols n pairs g = some M ∧ ∀ c : ℕ → ℝ,
      ∑ i ∈ Finset.range pairs.length, ∑ j ∈ Finset.range pairs.length, c i * M i j * c j =
        (∑ t ∈ Finset.range n, (∑ i ∈ Finset.range pairs.length, c i * (r i).getD t 0) ^ 2) / n / n ∧
      0 ≤ ∑ i ∈ Finset.range pairs.length, ∑ j ∈ Finset.range pairs.length, c i * M i j * c j := by
  obtain ⟨M, hM, hM'⟩ := getAcov_eq (n := n) hr
  refine ⟨M, hM, fun c => ?_⟩
  have e : ∑ i ∈ Finset.range pairs.length, ∑ j ∈ Finset.range pairs.length, c i * M i j * c j =
        (∑ t ∈ Finset.range n, (∑ i ∈ Finset.range pairs.length, c i * (r i).getD t 0) ^ 2) / n / n := by
    have h1 : ∀ t, (∑ i ∈ Finset.range pairs.length, c i * (r i).getD t 0) ^ 2 =
        ∑ i ∈ Finset.range pairs.length, ∑ j ∈ Finset.range pairs.length, c i * (r i).getD t 0 * (c j * (r j).getD t 0) := fun t => by
      rw [pow_two, Finset.sum_mul_sum]
    simp only [h1]
    rw [Finset.sum_comm (s := Finset.range n), Finset.sum_div, Finset.sum_div]
    refine Finset.sum_congr rfl fun i hi => ?_
    rw [Finset.sum_comm (s := Finset.range n), Finset.sum_div, Finset.sum_div]
    refine Finset.sum_congr rfl fun j hj => ?_
    have hi := Finset.mem_range.1 hi
    have hj := Finset.mem_range.1 hj
    rw [hM' i hi j hj, hw i hi, hw j hj, acovEntry, dotL_eq (hn i hi) (hn j hj), mul_zero, sub_zero]
    rw [show ∀ s : ℝ, c i * (s / n / n) * c j = c i * c j * s / n / n from fun s => by ring, Finset.mul_sum]
    congr 2
    exact Finset.sum_congr rfl fun t _ => by ring
  refine ⟨e, ?_⟩
  rw [e]
  exact div_nonneg (div_nonneg (Finset.sum_nonneg fun t _ => sq_nonneg _) (Nat.cast_nonneg n)) (Nat.cast_nonneg n)

/-- **C163** `W` is a sum over the observations where a mean is due.  Where it does not vanish, as after a one-step fit, the result is not a
covariance matrix: a variance can be negative. -/
theorem C163_centring_violated : ∃ M : ℕ → ℕ → ℚ, getAcov (fun _ => [0, 1]) 2 [(1, 0)] (fun _ _ _ => 1) = some M ∧ M 0 0 = -3 / 2 := by
  have hc : Contig [0, 1] := by
    unfold Contig
    decide +kernel
  obtain ⟨l, h1, h2, h3⟩ := C163_codes_partial (fun _ _ => (1 : ℚ)) hc hc
  have hl : l = [1, 1] := by rw [h2]; rfl
  subst hl
  obtain ⟨M, hM, hM'⟩ := getAcov_eq (cols := fun _ => [0, 1]) (n := 2) (pairs := [(1, 0)]) (g := fun _ _ _ => (1 : ℚ)) (r := fun _ => [1, 1]) fun k _ => h1
  refine ⟨M, hM, ?_⟩
  rw [hM' 0 (by simp) 0 (by simp), ← h3]
  norm_num [acovEntry, dotL]

end Verif.Lv
