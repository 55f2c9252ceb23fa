import Verif.Lv.Serial
import Verif.Lv.OldProps
import Verif.Lv.AcovProps

namespace Verif.Lv
open Real Set Verif.Glm Filter Topology

/-! ### `dcrep` -/

theorem sorted_countP {β : Type} {s : List (ℤ × β)} (hs : s.Pairwise fun p q => p.1 < q.1) {k : ℕ} (hk : k < s.length) :
    s.countP (fun p => decide (p.1 < s[k].1)) = k := by
  induction s generalizing k with
  | nil => simp at hk
  | cons p s ih =>
    rw [List.pairwise_cons] at hs
    cases k with
    | zero =>
      rw [List.countP_eq_zero]
      intro q hq
      rcases List.mem_cons.1 hq with rfl | hq
      · simp
      · have := hs.1 q hq
        simp
        omega
    | succ k =>
      simp only [List.length_cons, Nat.add_lt_add_iff_right] at hk
      rw [List.countP_cons, List.getElem_cons_succ, ih hs.2 hk]
      have := hs.1 _ (List.getElem_mem hk)
      simp [this]

theorem sort_strict {β : Type} {dic : List (ℤ × β)} (hn : (dic.map Prod.fst).Nodup) :
    (dic.insertionSort fun p q => p.1 ≤ q.1).Pairwise fun p q => p.1 < q.1 := by
  have hp := List.perm_insertionSort (fun p q : ℤ × β => p.1 ≤ q.1) dic
  have h1 : (dic.insertionSort fun p q => p.1 ≤ q.1).Pairwise fun p q => p.1 ≤ q.1 := by
    haveI : Std.Total (fun p q : ℤ × β => p.1 ≤ q.1) := ⟨fun p q => le_total p.1 q.1⟩
    haveI : IsTrans (ℤ × β) (fun p q => p.1 ≤ q.1) := ⟨fun p q r => le_trans⟩
    exact List.pairwise_insertionSort _ _
  have h2 : ((dic.insertionSort fun p q => p.1 ≤ q.1).map Prod.fst).Nodup := (hp.map _).nodup_iff.2 hn
  rw [List.Nodup, List.pairwise_map] at h2
  exact (h1.and h2).imp fun h => lt_of_le_of_ne h.1 h.2

/-- **C165** `dcrep` looks up every entry that is a key of the dictionary. -/
theorem C165_dcrep {β : Type} {dic : List (ℤ × β)} (hn : (dic.map Prod.fst).Nodup) {a : ℤ} {v : β} (h : (a, v) ∈ dic) : dcrep dic a = some v := by
  have hm : (a, v) ∈ dic.insertionSort fun p q => p.1 ≤ q.1 := (List.mem_insertionSort _).2 h
  obtain ⟨k, hk, e⟩ := List.mem_iff_getElem.1 hm
  have := sorted_countP (sort_strict hn) hk
  rw [e] at this
  unfold dcrep
  dsimp only at this ⊢
  rw [this, List.getElem?_eq_getElem hk, e]
  rfl

/-- **C165 (violated)** An entry that is no key gets the value of the next key, without an error. -/
theorem C165_dcrep_violated : ∃ (dic : List (ℤ × ℤ)) (a : ℤ), (dic.map Prod.fst).Nodup ∧ a ∉ dic.map Prod.fst ∧ dcrep dic a = some 7 :=
  ⟨[(0, 5), (2, 7)], 1, by decide, by decide, by decide +kernel⟩

/-! ### Thresholds -/

theorem order_fst (y : List ℤ) : (order y).map Prod.fst = uniq y := by
  unfold order
  exact List.map_fst_zip (by simp)

theorem order_snd (y : List ℤ) : (order y).map Prod.snd = (List.range (ncat y)).map fun k : ℕ => (k : ℤ) := by
  unfold order
  rw [List.map_snd_zip (by simp), uniq_length]

theorem tauDict_eq (erfinv : ℝ → ℝ) {y : List ℤ} (hy : y ≠ []) :
    tauDict erfinv y = some (((List.range (ncat y + 1)).map fun k : ℕ => (k : ℤ)).zip (tauArr erfinv y)) := by
  have hpos : 0 < ncat y := by
    obtain ⟨a, ha⟩ := List.exists_mem_of_ne_nil y hy
    rw [← uniq_length]
    exact List.length_pos_of_mem (mem_uniq.2 ha)
  obtain ⟨m, hm⟩ : ∃ m, ncat y = m + 1 := ⟨ncat y - 1, by omega⟩
  unfold tauDict
  rw [order_snd, hm]
  simp [List.range_succ]

theorem tauArr_length (erfinv : ℝ → ℝ) (y : List ℤ) : (tauArr erfinv y).length = ncat y + 1 := by
  simp [tauArr, (cumsum_getElem 0 (catt y)).1, ncat]

/-- The threshold below the category at position `k`, by the normal quantile function `qtf`: the number of observations before it. -/
noncomputable def thr (qtf : ℝ → ℝ) (y : List ℤ) (k : ℕ) : Ext :=
  if k = 0 then .bot else if k < ncat y then .fin ((tauc qtf y).getD (k - 1) 0) else .top

theorem tauArr_get (erfinv : ℝ → ℝ) (y : List ℤ) {k : ℕ} (hk : k ≤ ncat y) : (tauArr erfinv y)[k]? = some (thr (normQtf erfinv) y k) := by
  unfold tauArr thr
  cases k with
  | zero => simp
  | succ k =>
    have hk' : k < (catt y).length := hk
    rw [List.getElem?_cons_succ, List.getElem?_map, (cumsum_getElem 0 (catt y)).2 k hk', if_neg (by omega), Option.map_some, zero_add]
    congr 1
    have hpos : 0 < y.length := by
      by_contra h0
      have : y = [] := List.length_eq_zero_iff.1 (by omega)
      subst this
      simp [catt, uniq] at hk'
    have hn0 : (y.length : ℚ) ≠ 0 := by exact_mod_cast hpos.ne'
    by_cases hlt : k + 1 < ncat y
    · rw [if_pos hlt]
      have hc : (cprp y)[k]? = some (((((catt y).take (k + 1)).sum : ℕ) : ℚ) / (((catt y).sum : ℕ) : ℚ)) := by
        have hlen : k < ((cumsum 0 (catt y)).map fun c : ℕ => (c : ℚ) / ((catt y).sum : ℚ)).dropLast.length := by
          simp [(cumsum_getElem 0 (catt y)).1]
          unfold ncat at hlt
          omega
        unfold cprp
        rw [List.getElem?_eq_getElem hlen, List.getElem_dropLast]
        have h2 := (cumsum_getElem 0 (catt y)).2 k hk'
        rw [zero_add] at h2
        obtain ⟨h3, h4⟩ := List.getElem?_eq_some_iff.1 h2
        simp [h4]
      have hr := cprp_range y hc
      have ht : (tauc (normQtf erfinv) y)[k]? = some (normQtf erfinv ((((((catt y).take (k + 1)).sum : ℕ) : ℚ) / (((catt y).sum : ℕ) : ℚ) : ℚ) : ℝ)) := by
        rw [tauc, List.getElem?_map, hc]
        rfl
      rw [Nat.add_sub_cancel, List.getD_eq_getElem?_getD, ht, Option.getD_some, qtfE, if_neg hr.2.ne, if_neg hr.1.ne']
      rfl
    · rw [if_neg hlt]
      have e : (catt y).take (k + 1) = catt y := List.take_of_length_le (by unfold ncat at hlt; omega)
      rw [e, C162_total, div_self hn0, qtfE, if_pos rfl]

/-- **C165** `Polyserial` reads, for every observation, the two thresholds around its category. -/
theorem C165_obs (erfinv : ℝ → ℝ) (x : List ℝ) (y : List ℤ) (hy : y ≠ []) :
    serialObs erfinv x y = some ((x.zip y).map fun p => (p.1, thr (normQtf erfinv) y ((uniq y).idxOf p.2), thr (normQtf erfinv) y ((uniq y).idxOf p.2 + 1))) := by
  unfold serialObs
  rw [tauDict_eq erfinv hy]
  simp only [Option.bind_eq_bind, Option.bind_some]
  have hd : ∀ k ≤ ncat y, dcrep (((List.range (ncat y + 1)).map fun k : ℕ => (k : ℤ)).zip (tauArr erfinv y)) (k : ℤ) = some (thr (normQtf erfinv) y k) := by
    intro k hk
    refine C165_dcrep ?_ ?_
    · rw [List.map_fst_zip (by simp [tauArr_length])]
      exact List.nodup_range.map Nat.cast_injective
    · refine List.mem_iff_getElem?.2 ⟨k, ?_⟩
      rw [List.getElem?_zip_eq_some]
      refine ⟨?_, tauArr_get erfinv y hk⟩
      have : k < ncat y + 1 := by omega
      simp [this]
  have ho : ∀ v ∈ y, dcrep (order y) v = some ((uniq y).idxOf v : ℤ) := by
    intro v hv
    refine C165_dcrep (by rw [order_fst]; exact (uniq_sorted y).nodup) ?_
    have hlt : (uniq y).idxOf v < (uniq y).length := List.idxOf_lt_length_iff.2 (mem_uniq.2 hv)
    refine List.mem_iff_getElem?.2 ⟨(uniq y).idxOf v, ?_⟩
    unfold order
    rw [List.getElem?_zip_eq_some]
    refine ⟨by rw [List.getElem?_eq_getElem hlt, List.getElem_idxOf], ?_⟩
    simp [hlt]
  refine mapM_all _ _ _ fun p hp => ?_
  have hv := (List.of_mem_zip hp).2
  have hlt : (uniq y).idxOf p.2 < ncat y := by
    rw [← uniq_length]
    exact List.idxOf_lt_length_iff.2 (mem_uniq.2 hv)
  rw [ho _ hv]
  simp only [Option.bind_some]
  rw [hd _ hlt.le]
  have := hd _ (Nat.succ_le_of_lt hlt)
  push_cast at this
  simp only [Option.bind_some]
  rw [this]
  rfl

/-! ### The likelihood -/

/-- The order of the thresholds. -/
def extLt : Ext → Ext → Prop
  | .bot, .fin _ => True
  | .bot, .top => True
  | .fin s, .fin t => s < t
  | .fin _, .top => True
  | _, _ => False

variable {erf : ℝ → ℝ}

theorem cdfE_lt (he : IsErf erf) {s t : Ext} (h : extLt s t) : cdfE erf s < cdfE erf t := by
  have e : ∀ z, normCdf erf z = ndtr0 z := he
  match s, t, h with
  | .bot, .fin b, _ => simpa only [cdfE, e] using (ndtr0_range b).1
  | .bot, .top, _ => simp [cdfE]
  | .fin a, .fin b, h => simpa only [cdfE, e] using ndtr0_mono h
  | .fin a, .top, _ => simpa only [cdfE, e] using (ndtr0_range a).2

theorem polyex_lt (x : ℝ) {r : ℝ} (hr : |r| < 1) {s t : Ext} (h : extLt s t) : extLt (polyex x s r) (polyex x t r) := by
  match s, t, h with
  | .bot, .fin b, _ => trivial
  | .bot, .top, _ => trivial
  | .fin a, .fin b, h => exact div_lt_div_of_pos_right (sub_lt_sub_right h _) (rt_pos hr)
  | .fin a, .top, _ => trivial

/-- **C165** The thresholds of a column are strictly increasing. -/
theorem C165_increasing {qtf : ℝ → ℝ} (hi : IsNdtri qtf) (y : List ℤ) {k : ℕ} (hk : k < ncat y) : extLt (thr qtf y k) (thr qtf y (k + 1)) := by
  obtain ⟨hl, -, hm⟩ := C162_thresholds hi y
  unfold thr
  rcases k with _ | k
  · simp only [if_true, zero_add, one_ne_zero, if_false]
    split_ifs <;> trivial
  · rw [if_neg (by omega), if_pos hk, if_neg (by omega)]
    split_ifs with h
    · have h1 : k < (tauc qtf y).length := by omega
      have h2 : k + 1 < (tauc qtf y).length := by omega
      have := hm k _ _ (List.getElem?_eq_getElem h1) (List.getElem?_eq_getElem h2)
      simpa [extLt, h1, h2] using this
    · trivial

/-- **C165** The probabilities of the categories, given the continuous variable, are positive and add up to one. -/
theorem C165_prob (he : IsErf erf) {qtf : ℝ → ℝ} (hi : IsNdtri qtf) (x : ℝ) {y : List ℤ} (hy : y ≠ []) {r : ℝ} (hr : |r| < 1) :
    (∀ k < ncat y, 0 < serialProb erf (x, thr qtf y k, thr qtf y (k + 1)) r) ∧
      ∑ k ∈ Finset.range (ncat y), serialProb erf (x, thr qtf y k, thr qtf y (k + 1)) r = 1 := by
  refine ⟨fun k hk => sub_pos.2 (cdfE_lt he (polyex_lt x hr (C165_increasing hi y hk))), ?_⟩
  have hpos : 0 < ncat y := by
    obtain ⟨a, ha⟩ := List.exists_mem_of_ne_nil y hy
    rw [← uniq_length]
    exact List.length_pos_of_mem (mem_uniq.2 ha)
  unfold serialProb
  dsimp only
  rw [Finset.sum_range_sub fun k => cdfE erf (polyex x (thr qtf y k) r)]
  have h0 : thr qtf y 0 = .bot := by simp [thr]
  have h1 : thr qtf y (ncat y) = .top := by simp [thr, hpos.ne']
  rw [h0, h1]
  simp [polyex, cdfE]

/-- The values below a threshold. -/
def extIic : Ext → Set ℝ
  | .bot => ∅
  | .fin t => Iic t
  | .top => univ

/-- **C165** `norm_cdf(polyex(x, tau, r))` is the conditional probability, given the continuous variable, that the latent variable is below
the threshold: the bivariate density integrates over it to this number times the density of the continuous variable. -/
theorem C165_conditional (he : IsErf erf) (x : ℝ) (tau : Ext) {r : ℝ} (hr : |r| < 1) :
    ∫ z in extIic tau, pdf x z r = normPdf x * cdfE erf (polyex x tau r) := by
  have e : ∀ z, normCdf erf z = ndtr0 z := he
  cases tau with
  | bot => simp [extIic, polyex, cdfE]
  | fin t => simp only [extIic, polyex, cdfE, e, normPdf_eq, inner_eq hr]
  | top =>
    simp only [extIic, polyex, cdfE, mul_one, MeasureTheory.Measure.restrict_univ, pdf_eq hr, normPdf_eq]
    rw [MeasureTheory.integral_const_mul]
    have h2 := rt_pos hr
    have : ∫ z, phi0 ((z - r * x) / √(1 - r ^ 2)) / √(1 - r ^ 2) = 1 := by
      rw [MeasureTheory.integral_div, MeasureTheory.integral_sub_right_eq_self (fun z => phi0 (z / √(1 - r ^ 2))) (r * x),
        MeasureTheory.Measure.integral_comp_div, phi0_total, abs_of_pos h2, smul_eq_mul, mul_one, div_self h2.ne']
    rw [this, mul_one]

theorem cdfE_deriv (he : IsErf erf) (x : ℝ) (tau : Ext) {r : ℝ} (hr : |r| < 1) :
    HasDerivAt (fun r => cdfE erf (polyex x tau r)) (pdfE (polyex x tau r) * (tmpE tau * r - x) / √((1 - r ^ 2) ^ 3)) r := by
  cases tau with
  | bot => simpa [polyex, cdfE, pdfE] using hasDerivAt_const r (0 : ℝ)
  | top => simpa [polyex, cdfE, pdfE] using hasDerivAt_const r (1 : ℝ)
  | fin t =>
    have e : (fun r => cdfE erf (polyex x (.fin t) r)) = fun r => ndtr0 ((t - r * x) / √(1 - r ^ 2)) := funext fun r => he _
    rw [e]
    refine ((ndtr0_deriv _).comp r (arg_deriv hr x t)).congr_deriv ?_
    have h1 := s_pos hr
    have h3 : √((1 - r ^ 2) ^ 3) = (1 - r ^ 2) * √(1 - r ^ 2) := by
      rw [show (1 - r ^ 2) ^ 3 = (1 - r ^ 2) ^ 2 * (1 - r ^ 2) by ring, sqrt_mul (sq_nonneg _), sqrt_sq h1.le]
    rw [h3]
    simp only [polyex, pdfE, tmpE, normPdf_eq]
    ring

/-- **C165** `gradient` is the derivative of `loglike` at every correlation between minus one and one. -/
theorem C165_gradient (he : IsErf erf) (l : List (ℝ × Ext × Ext)) (hl : ∀ o ∈ l, extLt o.2.1 o.2.2) {r : ℝ} (hr : |r| < 1) :
    HasDerivAt (serialLl erf l) (serialGrad erf l r) r := by
  induction l with
  | nil =>
    have e : serialLl erf [] = fun _ => 0 := by
      funext r
      simp [serialLl]
    rw [e]
    simpa [serialGrad] using hasDerivAt_const r (0 : ℝ)
  | cons o l ih =>
    have ih := ih fun o ho => hl o (List.mem_cons_of_mem _ ho)
    have hp : 0 < serialProb erf o r := sub_pos.2 (cdfE_lt he (polyex_lt o.1 hr (hl o (List.mem_cons_self ..))))
    have hd : HasDerivAt (fun r => serialProb erf o r) _ r := (cdfE_deriv he o.1 o.2.2 hr).fun_sub (cdfE_deriv he o.1 o.2.1 hr)
    have h := (hd.log hp.ne').fun_neg.fun_add ih
    have e : serialLl erf (o :: l) = fun r => -Real.log (serialProb erf o r) + serialLl erf l r := by
      funext r
      simp only [serialLl, List.map_cons, List.sum_cons]
      ring
    rw [e]
    refine h.congr_deriv ?_
    have h3 : √((1 - r ^ 2) ^ 3) ≠ 0 := (sqrt_pos.2 (pow_pos (s_pos hr) 3)).ne'
    simp only [serialGrad, List.map_cons, List.sum_cons]
    congr 1
    field_simp

/-- **C165** In particular for the observations of `Polyserial`. -/
theorem C165_fit (he : IsErf erf) {erfinv : ℝ → ℝ} (hi : IsErfinv erf erfinv) (x : List ℝ) (y : List ℤ) (hy : y ≠ []) :
    ∃ l, serialObs erfinv x y = some l ∧ ∀ r, |r| < 1 → HasDerivAt (serialLl erf l) (serialGrad erf l r) r := by
  refine ⟨_, C165_obs erfinv x y hy, fun r hr => C165_gradient he _ (fun o ho => ?_) hr⟩
  obtain ⟨p, hp, rfl⟩ := List.mem_map.1 ho
  refine C165_increasing (C164_qtf he hi) y ?_
  rw [← uniq_length]
  exact List.idxOf_lt_length_iff.2 (mem_uniq.2 (List.of_mem_zip hp).2)

/-- **C165** `polyserial_ll` at the thresholds of the column is the same likelihood. -/
theorem C165_ll (erfinv : ℝ → ℝ) (r : ℝ) (x : List ℝ) (y : List ℤ) (hy : y ≠ []) :
    ∃ l, serialObs erfinv x y = some l ∧
      polyserialLl erf r x y (tauArr erfinv y) (fun v => if v ∈ y then some ((uniq y).idxOf v) else none) = some (serialLl erf l r) := by
  refine ⟨_, C165_obs erfinv x y hy, ?_⟩
  unfold polyserialLl
  rw [mapM_all _ (fun p : ℝ × ℤ => Real.log (serialProb erf (p.1, thr (normQtf erfinv) y ((uniq y).idxOf p.2), thr (normQtf erfinv) y ((uniq y).idxOf p.2 + 1)) r))]
  · simp [serialLl, List.map_map, Function.comp_def]
  · intro p hp
    have hv := (List.of_mem_zip hp).2
    have hlt : (uniq y).idxOf p.2 < ncat y := by
      rw [← uniq_length]
      exact List.idxOf_lt_length_iff.2 (mem_uniq.2 hv)
    beta_reduce
    rw [if_pos hv]
    simp only [Option.bind_eq_bind, Option.bind_some]
    rw [tauArr_get erfinv y (Nat.succ_le_of_lt hlt), tauArr_get erfinv y hlt.le]
    rfl

/-! ### Units of the continuous variable -/

/-- The likelihood of the example as a function of `r / √(1 - r²)`. -/
noncomputable def exF (u : ℝ) : ℝ := -(2 * Real.log (ndtr0 (2 * u)) + Real.log (ndtr0 (-u)) + Real.log (ndtr0 u))

theorem exF_ge (u : ℝ) : -Real.log (ndtr0 (-|u|)) ≤ exF u := by
  have h := fun z => Real.log_nonpos (ndtr0_range z).1.le (ndtr0_range z).2.le
  unfold exF
  rcases abs_cases u with ⟨e, _⟩ | ⟨e, _⟩
  · rw [e]
    linarith [h (2 * u), h (-u), h u]
  · rw [e, neg_neg]
    linarith [h (2 * u), h (-u), h u]

theorem exF_deriv : HasDerivAt exF (-8 * phi0 0) 0 := by
  have hd : ∀ c : ℝ, HasDerivAt (fun u => Real.log (ndtr0 (c * u))) (phi0 0 * c / ndtr0 0) 0 := fun c => by
    have h1 : HasDerivAt (fun u : ℝ => c * u) c 0 := by simpa using (hasDerivAt_id (0 : ℝ)).const_mul c
    have h2 := HasDerivAt.comp_of_eq (0 : ℝ) (ndtr0_deriv 0) h1 (by simp)
    have h3 := h2.log (by simpa using (ndtr0_range 0).1.ne')
    simpa [Function.comp_def] using h3
  have h := ((((hd 2).const_mul 2).fun_add (hd (-1))).fun_add (hd 1)).fun_neg
  have e : exF = fun u => -(2 * Real.log (ndtr0 (2 * u)) + Real.log (ndtr0 (-1 * u)) + Real.log (ndtr0 (1 * u))) := by
    funext u
    simp [exF]
  rw [e]
  refine h.congr_deriv ?_
  rw [Pair.half_zero]
  ring

theorem exF_cont : Continuous exF := by
  have h : Continuous fun z => Real.log (ndtr0 z) := ndtr0_cont.log fun z => (ndtr0_range z).1.ne'
  unfold exF
  exact (((continuous_const.mul (h.comp (by fun_prop))).add (h.comp (by fun_prop))).add h).neg

/-- A minimum farthest from zero. -/
theorem exF_min : ∃ u, u ≠ 0 ∧ (∀ v, exF u ≤ exF v) ∧ exF u < exF (2 * u) := by
  have h00 : exF 0 = 4 * Real.log 2 := by
    unfold exF
    rw [mul_zero, neg_zero, Pair.half_zero, one_div, Real.log_inv]
    ring
  obtain ⟨M, hM⟩ := (ndtr0_bot.eventually (gt_mem_nhds (show (0 : ℝ) < 1 / 16 by norm_num))).exists_forall_of_atBot
  have hout : ∀ u, |M| ≤ |u| → exF 0 < exF u := fun u hu => by
    refine lt_of_lt_of_le ?_ (exF_ge u)
    have h1 := hM (-|u|) (by linarith [neg_abs_le M])
    have h2 := Real.log_lt_log (ndtr0_range (-|u|)).1 h1
    rw [one_div, Real.log_inv, show (16 : ℝ) = 2 ^ 4 by norm_num, Real.log_pow] at h2
    rw [h00]
    push_cast at h2
    linarith
  obtain ⟨m, hm, hmin⟩ := isCompact_Icc.exists_isMinOn (nonempty_Icc.2 (neg_le_self (abs_nonneg M))) exF_cont.continuousOn
  have hglob : ∀ v, exF m ≤ exF v := fun v => by
    by_cases hv : |v| ≤ |M|
    · exact hmin (abs_le.1 hv)
    · exact (hmin (by simp : (0 : ℝ) ∈ Icc (-|M|) |M|)).trans (hout v (le_of_not_ge hv)).le
  have hK : IsCompact {u | exF u ≤ exF m} := by
    refine IsCompact.of_isClosed_subset (isCompact_Icc (a := -|M|) (b := |M|)) (isClosed_le exF_cont continuous_const) fun u hu => ?_
    by_contra h
    have := hout u (le_of_not_ge fun h' => h (abs_le.1 h'))
    exact absurd (hu.trans (hglob 0)) (not_le.2 this)
  obtain ⟨u, hu, hmax⟩ := hK.exists_isMaxOn ⟨m, le_refl (exF m)⟩ continuous_abs.continuousOn
  have hu0 : u ≠ 0 := by
    rintro rfl
    have h1 : IsLocalMin exF 0 := Eventually.of_forall fun v => (hu.trans (hglob v) : exF 0 ≤ exF v)
    have h2 := h1.hasDerivAt_eq_zero exF_deriv
    have := phi0_pos 0
    linarith
  refine ⟨u, hu0, fun v => hu.trans (hglob v), ?_⟩
  by_contra h
  have h1 := hmax (show 2 * u ∈ {u | exF u ≤ exF m} from (not_lt.1 h).trans hu)
  simp only [mem_setOf_eq, abs_mul, abs_two] at h1
  have := abs_pos.2 hu0
  linarith

/-- **C165 (violated)** The continuous variable is taken as it is, so the fitted correlation depends on its unit: for these four observations
a correlation that minimises the likelihood no longer does when `x` is measured in half the unit. -/
theorem C165_scale_violated (he : IsErf erf) {erfinv : ℝ → ℝ} (hi : IsErfinv erf erfinv) :
    ∃ l l2, serialObs erfinv [-2, 2, 1, 1] [0, 1, 0, 1] = some l ∧ serialObs erfinv ([-2, 2, 1, 1].map (2 * ·)) [0, 1, 0, 1] = some l2 ∧
      ∃ r, |r| < 1 ∧ (∀ s, |s| < 1 → serialLl erf l r ≤ serialLl erf l s) ∧ ∃ s, |s| < 1 ∧ serialLl erf l2 s < serialLl erf l2 r := by
  have e : ∀ z, normCdf erf z = ndtr0 z := he
  have hn : ncat [0, 1, 0, 1] = 2 := by decide +kernel
  have t0 : thr (normQtf erfinv) [0, 1, 0, 1] 0 = .bot := by simp [thr]
  have t2 : thr (normQtf erfinv) [0, 1, 0, 1] 2 = .top := by simp [thr, hn]
  have t1 : thr (normQtf erfinv) [0, 1, 0, 1] 1 = .fin 0 := by
    have hc : cprp [0, 1, 0, 1] = [1 / 2] := by decide +kernel
    have hq := C164_qtf he hi (1 / 2) ⟨by norm_num, by norm_num⟩
    have : normQtf erfinv (1 / 2) = 0 := ndtr0_mono.injective (by rw [hq, Pair.half_zero])
    have h3 : tauc (normQtf erfinv) [0, 1, 0, 1] = [0] := by
      unfold tauc
      rw [hc, List.map_singleton]
      push_cast
      rw [this]
    rw [thr, if_neg one_ne_zero, if_pos (by rw [hn]; norm_num), h3]
    rfl
  have i0 : (uniq [0, 1, 0, 1]).idxOf 0 = 0 := by decide +kernel
  have i1 : (uniq [0, 1, 0, 1]).idxOf 1 = 1 := by decide +kernel
  have hobs : ∀ a b c d : ℝ, serialObs erfinv [a, b, c, d] [0, 1, 0, 1] = some [(a, .bot, .fin 0), (b, .fin 0, .top), (c, .bot, .fin 0), (d, .fin 0, .top)] := by
    intro a b c d
    rw [C165_obs erfinv _ _ (by simp)]
    simp only [List.zip_cons_cons, List.zip_nil_right, List.map_cons, List.map_nil, i0, i1, zero_add, t0, t1, t2, Nat.reduceAdd]
  have hll : ∀ c r : ℝ, serialLl erf [(c * -2, .bot, .fin 0), (c * 2, .fin 0, .top), (c * 1, .bot, .fin 0), (c * 1, .fin 0, .top)] r = exF (c * (r / √(1 - r ^ 2))) := by
    intro c r
    have hneg : ∀ z, 1 - ndtr0 (-z) = ndtr0 z := fun z => by rw [ndtr0_neg]; ring
    generalize hw : c * (r / √(1 - r ^ 2)) = w
    have w1 : (0 - r * (c * -2)) / √(1 - r ^ 2) = 2 * w := by rw [← hw]; ring
    have w2 : (0 - r * (c * 2)) / √(1 - r ^ 2) = -(2 * w) := by rw [← hw]; ring
    have w3 : (0 - r * (c * 1)) / √(1 - r ^ 2) = -w := by rw [← hw]; ring
    simp only [serialLl, List.map_cons, List.map_nil, List.sum_cons, List.sum_nil, serialProb, polyex, cdfE, e, w1, w2, w3, hneg, exF, sub_zero]
    ring
  have hinv : ∀ u : ℝ, |u / √(1 + u ^ 2)| < 1 ∧ u / √(1 + u ^ 2) / √(1 - (u / √(1 + u ^ 2)) ^ 2) = u := by
    intro u
    have hp : 0 < 1 + u ^ 2 := by positivity
    have hs : √(1 + u ^ 2) ^ 2 = 1 + u ^ 2 := sq_sqrt hp.le
    have hq : 0 < √(1 + u ^ 2) := sqrt_pos.2 hp
    have h1 : 1 - (u / √(1 + u ^ 2)) ^ 2 = (√(1 + u ^ 2))⁻¹ ^ 2 := by
      rw [div_pow, inv_pow, hs]
      field_simp
      ring
    refine ⟨(sq_lt_one_iff_abs_lt_one _).1 ?_, ?_⟩
    · have : 0 < (√(1 + u ^ 2))⁻¹ ^ 2 := by positivity
      linarith
    · rw [h1, sqrt_sq (by positivity)]
      field_simp
  obtain ⟨u, hu0, hmin, hlt⟩ := exF_min
  refine ⟨_, _, hobs _ _ _ _, hobs _ _ _ _, u / √(1 + u ^ 2), (hinv u).1, fun s hs => ?_, (u / 2) / √(1 + (u / 2) ^ 2), (hinv (u / 2)).1, ?_⟩
  · have h := hll 1
    simp only [one_mul] at h
    rw [h, h, (hinv u).2]
    exact hmin _
  · rw [hll 2, hll 2, (hinv u).2, (hinv (u / 2)).2, mul_div_cancel₀ u two_ne_zero]
    exact hlt

end Verif.Lv
