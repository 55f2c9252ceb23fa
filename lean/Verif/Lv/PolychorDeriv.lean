import Verif.Lv.PolychorLemmas
import Mathlib.Analysis.SpecialFunctions.Log.Deriv

/-!
Derivatives of the cell probabilities of a pair of ordinal variables along curves of parameters.
-/

namespace Verif.Lv
open Real Set Filter Topology Verif.Glm Verif.Transf

theorem pad_path {m : ℕ} {X : ℝ → ℕ → ℝ} {x' : ℕ → ℝ} (h : ∀ k < m, HasDerivAt (fun t => X t k) (x' k) 0) (lo hi : ℝ) (i : ℕ) :
    HasDerivAt (fun t => pad lo hi m (X t) i) (pad 0 0 m x' i) 0 := by
  unfold pad
  split_ifs with h0 h1
  · exact hasDerivAt_const _ _
  · exact h (i - 1) (by omega)
  · exact hasDerivAt_const _ _

theorem pad_succ {m k : ℕ} (h : k < m) (lo hi : ℝ) (t : ℕ → ℝ) : pad lo hi m t (k + 1) = t k := by
  simp [pad, Nat.succ_le_of_lt h]

theorem pad_last {m : ℕ} (lo hi : ℝ) (t : ℕ → ℝ) : pad lo hi m t (m + 1) = hi := by
  simp [pad]

namespace Pair

/-- The sign of a step. -/
def sg (i k : ℕ) : ℝ := if i = k then 1 else if i = k + 1 then -1 else 0

theorem step_eq (i k : ℕ) (v : ℝ) : step i k v = sg i k * v := by
  unfold step sg
  split_ifs <;> ring

theorem step_path {g : ℝ → ℝ} {g' : ℝ} (i k : ℕ) (h : HasDerivAt g g' 0) : HasDerivAt (fun t => step i k (g t)) (step i k g') 0 := by
  have e : (fun t => step i k (g t)) = fun t => sg i k * g t := funext fun t => step_eq _ _ _
  rw [e, step_eq]
  exact h.const_mul _

/-- The sum over thresholds of a difference of neighbours. -/
theorem step_sum {m i : ℕ} (hi : i ≤ m) (G : ℝ → ℝ) (a : ℕ → ℝ) (x' : ℕ → ℝ) :
    ∑ k ∈ Finset.range m, step i k (G (a (k + 1))) * x' k = G (a (i + 1)) * pad 0 0 m x' (i + 1) - G (a i) * pad 0 0 m x' i := by
  have e : ∀ k, step i k (G (a (k + 1))) * x' k = (if k = i then G (a (i + 1)) * x' i else 0) - (if k + 1 = i then G (a i) * x' (i - 1) else 0) := fun k => by
    unfold step
    by_cases h1 : i = k
    · subst h1
      simp
    · by_cases h2 : i = k + 1
      · subst h2
        simp
      · rw [if_neg h1, if_neg h2, if_neg (Ne.symm h1), if_neg (Ne.symm h2)]
        ring
  simp only [e, Finset.sum_sub_distrib, Finset.sum_ite_eq', Finset.mem_range]
  congr 1
  · rcases hi.lt_or_eq with h | h
    · rw [if_pos h, pad_succ h]
    · subst h
      simp [pad_last]
  · rcases Nat.eq_zero_or_pos i with h | h
    · subst h
      simp [pad]
    · obtain ⟨j, rfl⟩ : ∃ j, i = j + 1 := ⟨i - 1, by omega⟩
      rw [pad_succ (by omega)]
      simp only [Nat.add_right_cancel_iff, Finset.sum_ite_eq', Finset.mem_range, Nat.add_sub_cancel]
      rw [if_pos (by omega)]

variable (P : Pair)

theorem cat_dot (u v : ℕ → ℝ) (w : ℝ) (x' : ℕ → ℝ) :
    dotN P.len (P.cat u v w) x' =
      ∑ k ∈ Finset.range P.m1, u k * x' k + ∑ k ∈ Finset.range P.m2, v k * x' (P.m1 + k) + w * x' (P.m1 + P.m2) := by
  unfold dotN len
  rw [Finset.sum_range_succ, Finset.sum_range_add]
  congr 2
  · exact Finset.sum_congr rfl fun k hk => by rw [cat, if_pos (Finset.mem_range.1 hk)]
  · refine Finset.sum_congr rfl fun k hk => ?_
    have := Finset.mem_range.1 hk
    rw [cat, if_neg (by omega), if_pos (by omega), Nat.add_sub_cancel_left]
  · simp [cat]

theorem t1_path {X : ℝ → ℕ → ℝ} {x' : ℕ → ℝ} (hX : PathN P.len X x') (i : ℕ) : HasDerivAt (fun t => P.t1 (X t) i) (pad 0 0 P.m1 x' i) 0 :=
  pad_path (fun k hk => hX k (by unfold len; omega)) _ _ i

theorem t2_path {X : ℝ → ℕ → ℝ} {x' : ℕ → ℝ} (hX : PathN P.len X x') (i : ℕ) :
    HasDerivAt (fun t => P.t2 (X t) i) (pad 0 0 P.m2 (fun k => x' (P.m1 + k)) i) 0 :=
  pad_path (X := fun t k => X t (P.m1 + k)) (fun k hk => hX (P.m1 + k) (by unfold len; omega)) _ _ i

theorem rho_path {X : ℝ → ℕ → ℝ} {x' : ℕ → ℝ} (hX : PathN P.len X x') : HasDerivAt (fun t => P.rho (X t)) (x' (P.m1 + P.m2)) 0 :=
  hX _ (by unfold len; omega)

variable {P} {erf : ℝ → ℝ}

/-- The first derivative of a cell probability along a curve. -/
theorem prob_path (he : IsErf erf) {X : ℝ → ℕ → ℝ} {x x' : ℕ → ℝ} (hX : PathN P.len X x') (h0 : X 0 = x) (hr : |P.rho x| < 1) {i j : ℕ}
    (hi : i ≤ P.m1) (hj : j ≤ P.m2) :
    HasDerivAt (fun t => cell Phi2 (P.t1 (X t)) (P.t2 (X t)) (P.rho (X t)) i j) (dotN P.len (P.dprob erf x i j) x') 0 := by
  subst h0
  refine (region_curve (f := Phi2) (f1 := cdfDu erf) (f2 := fun u v r => cdfDu erf v u r) (f3 := pdf) Phi2_diff (fun hr u v => (C159_du he hr u v).1)
    (fun hr u v => (C159_du he hr u v).2) (fun hr u v => C159_dr hr u v) (P.t1_path hX i) (P.t2_path hX j) (P.t1_path hX (i + 1)) (P.t2_path hX (j + 1))
    (P.rho_path hX) hr).congr_deriv ?_
  unfold dprob
  dsimp only
  rw [cat_dot]
  simp only [dt1, dt2]
  rw [step_sum hi (fun u => cdfDu erf u (P.t2 (X 0) (j + 1)) (P.rho (X 0)) - cdfDu erf u (P.t2 (X 0) j) (P.rho (X 0))),
    step_sum hj (fun u => cdfDu erf u (P.t1 (X 0) (i + 1)) (P.rho (X 0)) - cdfDu erf u (P.t1 (X 0) i) (P.rho (X 0)))]
  rfl

theorem tmp_path (he : IsErf erf) {a b c r : ℝ → ℝ} {a' b' c' r' : ℝ} (ha : HasDerivAt a a' 0) (hb : HasDerivAt b b' 0) (hc : HasDerivAt c c' 0) (hr : HasDerivAt r r' 0)
    (h : |r 0| < 1) :
    HasDerivAt (fun t => cdfDu erf (a t) (b t) (r t) - cdfDu erf (a t) (c t) (r t))
      ((cdfDu2 erf (a 0) (b 0) (r 0) - cdfDu2 erf (a 0) (c 0) (r 0)) * a' + (cdfDuv (a 0) (b 0) (r 0) * b' - cdfDuv (a 0) (c 0) (r 0) * c') +
        (cdfDur (a 0) (b 0) (r 0) - cdfDur (a 0) (c 0) (r 0)) * r') 0 := by
  have c2 := fun {a b : ℝ → ℝ} {a' b' : ℝ} (ha : HasDerivAt a a' 0) (hb : HasDerivAt b b' 0) => curve3 (cdfDu_diff he h) (C159_du2 he h (a 0) (b 0)).2.1
    (C159_du2 he h (a 0) (b 0)).1 (C159_du2 he h (a 0) (b 0)).2.2 ha hb hr
  refine ((c2 ha hb).fun_sub (c2 ha hc)).congr_deriv ?_
  ring

/-- The second derivatives of a cell probability along a curve. -/
theorem dprob_path (he : IsErf erf) {X : ℝ → ℕ → ℝ} {x x' : ℕ → ℝ} (hX : PathN P.len X x') (h0 : X 0 = x) (hr : |P.rho x| < 1) {i j k : ℕ}
    (hi : i ≤ P.m1) (hj : j ≤ P.m2) :
    HasDerivAt (fun t => P.dprob erf (X t) i j k) (dotN P.len (P.d2prob erf x i j k) x') 0 := by
  subst h0
  unfold dprob d2prob
  dsimp only
  by_cases h1 : k < P.m1
  · simp only [cat, if_pos h1]
    have e := cat_dot P (fun l => if k = l then step i k (cdfDu2 erf (P.t1 (X 0) (k + 1)) (P.t2 (X 0) (j + 1)) (P.rho (X 0)) - cdfDu2 erf (P.t1 (X 0) (k + 1)) (P.t2 (X 0) j) (P.rho (X 0))) else 0)
      (fun l => step i k (step j l (cdfDuv (P.t1 (X 0) (k + 1)) (P.t2 (X 0) (l + 1)) (P.rho (X 0)))))
      (step i k (cdfDur (P.t1 (X 0) (k + 1)) (P.t2 (X 0) (j + 1)) (P.rho (X 0)) - cdfDur (P.t1 (X 0) (k + 1)) (P.t2 (X 0) j) (P.rho (X 0)))) x'
    unfold cat at e
    rw [e]
    clear e
    refine (step_path i k (tmp_path he (P.t1_path hX (k + 1)) (P.t2_path hX (j + 1)) (P.t2_path hX j) (P.rho_path hX) hr)).congr_deriv ?_
    simp only [step_eq i k, mul_assoc, ← Finset.mul_sum]
    rw [step_sum hj (fun v => cdfDuv (P.t1 (X 0) (k + 1)) v (P.rho (X 0)))]
    simp only [ite_mul, zero_mul, Finset.sum_ite_eq, Finset.mem_range, if_pos h1, pad_succ h1]
    ring
  · by_cases h2 : k < P.m1 + P.m2
    · have h3 : k - P.m1 < P.m2 := by omega
      simp only [cat, if_neg h1, if_pos h2]
      generalize hq : k - P.m1 = q at h3 ⊢
      have e := cat_dot P (fun l => step i l (step j q (cdfDuv (P.t1 (X 0) (l + 1)) (P.t2 (X 0) (q + 1)) (P.rho (X 0)))))
        (fun l => if q = l then step j q (cdfDu2 erf (P.t2 (X 0) (q + 1)) (P.t1 (X 0) (i + 1)) (P.rho (X 0)) - cdfDu2 erf (P.t2 (X 0) (q + 1)) (P.t1 (X 0) i) (P.rho (X 0))) else 0)
        (step j q (cdfDur (P.t2 (X 0) (q + 1)) (P.t1 (X 0) (i + 1)) (P.rho (X 0)) - cdfDur (P.t2 (X 0) (q + 1)) (P.t1 (X 0) i) (P.rho (X 0)))) x'
      unfold cat at e
      rw [e]
      clear e
      refine (step_path j q (tmp_path he (P.t2_path hX (q + 1)) (P.t1_path hX (i + 1)) (P.t1_path hX i) (P.rho_path hX) hr)).congr_deriv ?_
      have es := step_sum hi (fun v => step j q (cdfDuv (P.t2 (X 0) (q + 1)) v (P.rho (X 0)))) (P.t1 (X 0)) x'
      have ec : ∀ l, cdfDuv (P.t1 (X 0) (l + 1)) (P.t2 (X 0) (q + 1)) (P.rho (X 0)) = cdfDuv (P.t2 (X 0) (q + 1)) (P.t1 (X 0) (l + 1)) (P.rho (X 0)) := fun l => by
        rw [cdfDuv_eq hr, cdfDuv_eq hr, pdf_symm]
      simp only [ec]
      rw [es]
      simp only [step_eq j q, ite_mul, zero_mul, Finset.sum_ite_eq, Finset.mem_range, if_pos h3, pad_succ h3]
      ring
    · simp only [cat, if_neg h1, if_neg h2]
      have e := cat_dot P (fun l => step i l (cdfDur (P.t1 (X 0) (l + 1)) (P.t2 (X 0) (j + 1)) (P.rho (X 0)) - cdfDur (P.t1 (X 0) (l + 1)) (P.t2 (X 0) j) (P.rho (X 0))))
        (fun l => step j l (cdfDur (P.t2 (X 0) (l + 1)) (P.t1 (X 0) (i + 1)) (P.rho (X 0)) - cdfDur (P.t2 (X 0) (l + 1)) (P.t1 (X 0) i) (P.rho (X 0))))
        (cell dpdf (P.t1 (X 0)) (P.t2 (X 0)) (P.rho (X 0)) i j) x'
      unfold cat at e
      rw [e]
      clear e
      refine (region_curve (f := pdf) (f1 := cdfDur) (f2 := fun u v r => cdfDur v u r) (f3 := dpdf) pdf_diff (fun hr u v => pdf_du hr u v)
        (fun hr u v => pdf_dv hr u v) (fun hr u v => C159_dr2 hr u v) (P.t1_path hX i) (P.t2_path hX j) (P.t1_path hX (i + 1)) (P.t2_path hX (j + 1))
        (P.rho_path hX) hr).congr_deriv ?_
      rw [step_sum hi (fun u => cdfDur u (P.t2 (X 0) (j + 1)) (P.rho (X 0)) - cdfDur u (P.t2 (X 0) j) (P.rho (X 0))),
        step_sum hj (fun u => cdfDur u (P.t1 (X 0) (i + 1)) (P.rho (X 0)) - cdfDur u (P.t1 (X 0) i) (P.rho (X 0)))]
      rfl

/-! ### Clamped logarithm -/

theorem log_max {p : ℝ → ℝ} {p' e : ℝ} (h : HasDerivAt p p' 0) (h1 : e < p 0) (he : 0 < e) :
    HasDerivAt (fun t => Real.log (max (p t) e)) (p' / max (p 0) e) 0 := by
  have h2 : ∀ᶠ t in 𝓝 0, e < p t := continuousAt_const.eventually_lt h.continuousAt h1
  rw [max_eq_left h1.le]
  refine (h.log (by linarith)).congr_of_eventuallyEq (h2.mono fun t ht => ?_)
  simp only [max_eq_left (le_of_lt ht)]

theorem inv_max {p : ℝ → ℝ} {p' e : ℝ} (h : HasDerivAt p p' 0) (h1 : e < p 0) (he : 0 < e) :
    HasDerivAt (fun t => (max (p t) e)⁻¹) (-(p' / max (p 0) e ^ 2)) 0 := by
  have h2 : ∀ᶠ t in 𝓝 0, e < p t := continuousAt_const.eventually_lt h.continuousAt h1
  rw [max_eq_left h1.le]
  have := h.fun_inv (by linarith)
  rw [neg_div] at this
  refine this.congr_of_eventuallyEq (h2.mono fun t ht => ?_)
  simp only [max_eq_left (le_of_lt ht)]

end Pair

end Verif.Lv
