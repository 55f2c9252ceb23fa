import Verif.Eln.StartLam
import Verif.Eln.PathProps
import Mathlib.Analysis.Calculus.Deriv.Slope
import Mathlib.Analysis.Calculus.Deriv.Mul
import Mathlib.Analysis.Calculus.Deriv.Comp
import Mathlib.Analysis.Calculus.Deriv.Pow
import Mathlib.Analysis.Calculus.Deriv.Add
import Mathlib.Tactic

/-!
C271: the start of the path of penalties.
-/
namespace Verif.Eln
open Finset

variable {n p : ℕ}

/-- Specification: the penalised negative log likelihood of a family with a canonical link, `ψ` the cumulant function. -/
noncomputable def gsObj (ψ : ℝ → ℝ) (X : Fin n → Fin p → ℝ) (y w : Fin n → ℝ) (al lam b0 : ℝ) (b : Fin p → ℝ) : ℝ :=
  ∑ i, w i * (ψ (b0 + ∑ j, X i j * b j) - y i * (b0 + ∑ j, X i j * b j)) + lam * (al * ∑ j, |b j| + (1 - al) / 2 * ∑ j, b j ^ 2)

/-- The score of column `j` at the start. -/
noncomputable def gsScore (X : Fin n → Fin p → ℝ) (y w : Fin n → ℝ) (j : Fin p) : ℝ := ∑ i, w i * (y i - gsMean y w) * X i j

/-- With a canonical link the entries are the scores over the mixing parameter. -/
theorem gsAbs_canonical (link dinv var : ℝ → ℝ) (X : Fin n → Fin p → ℝ) (y w : Fin n → ℝ) (al alMin : ℝ) (j : Fin p)
    (hal : 0 < al) (hmin : alMin ≤ al) (hv : var (gsMean y w) ≠ 0) (hc : dinv (link (gsMean y w)) = var (gsMean y w)) :
    gsAbs link dinv var X y w al alMin j = |gsScore X y w j| / al := by
  simp only [gsAbs, max_eq_left hmin, abs_div, abs_of_pos hal, hc, gsScore]
  congr 2
  refine Finset.sum_congr rfl fun i _ => ?_
  field_simp

theorem gsLmax_spec (link dinv var : ℝ → ℝ) (X : Fin n → Fin p → ℝ) (y w : Fin n → ℝ) (al alMin L : ℝ)
    (h : gsLmax link dinv var X y w al alMin = some L) :
    (∃ j, gsAbs link dinv var X y w al alMin j = L) ∧ ∀ j, gsAbs link dinv var X y w al alMin j ≤ L := by
  rw [gsLmax, List.max?_eq_some_iff] at h
  obtain ⟨h1, h2⟩ := h
  obtain ⟨j, _, hj⟩ := List.mem_map.1 h1
  exact ⟨⟨j, hj⟩, fun j => h2 _ (List.mem_map.2 ⟨j, List.mem_finRange j, rfl⟩)⟩

/-- **C271** From the first penalty of the path on upwards the null model is the optimum over all intercepts and coefficients, for a canonical link, a convex
cumulant function, weights that add up to one and a mixing parameter of at least the least one. -/
theorem C271_null_partial (ψ link dinv var : ℝ → ℝ) (X : Fin n → Fin p → ℝ) (y w : Fin n → ℝ) (al alMin L lam : ℝ)
    (hw : ∀ i, 0 ≤ w i) (hw1 : ∑ i, w i = 1) (hal : 0 < al) (hal1 : al ≤ 1) (hmin : alMin ≤ al) (hv : var (gsMean y w) ≠ 0)
    (hc : dinv (link (gsMean y w)) = var (gsMean y w))
    (hψ : ∀ e, ψ (link (gsMean y w)) + gsMean y w * (e - link (gsMean y w)) ≤ ψ e)
    (hL : gsLmax link dinv var X y w al alMin = some L) (hl : L ≤ lam) (b0 : ℝ) (b : Fin p → ℝ) :
    gsObj ψ X y w al lam (link (gsMean y w)) 0 ≤ gsObj ψ X y w al lam b0 b := by
  set m := gsMean y w with hm
  set e0 := link m with he0
  obtain ⟨⟨j0, hj0⟩, hall⟩ := gsLmax_spec link dinv var X y w al alMin L hL
  have hL0 : 0 ≤ L := by rw [← hj0]; exact abs_nonneg _
  have hlam : 0 ≤ lam := hL0.trans hl
  have hsc : ∀ j, |gsScore X y w j| ≤ lam * al := fun j => by
    have := (hall j).trans hl
    rw [gsAbs_canonical link dinv var X y w al alMin j hal hmin hv hc, div_le_iff₀ hal] at this
    exact this
  have hbal : ∑ i, w i * (m - y i) = 0 := by
    simp only [mul_sub, Finset.sum_sub_distrib, ← Finset.sum_mul, hw1, hm, gsMean]
    ring
  have h1 : ∑ i, w i * (ψ e0 - y i * e0) + ∑ i, w i * ((m - y i) * (b0 + ∑ j, X i j * b j - e0))
      ≤ ∑ i, w i * (ψ (b0 + ∑ j, X i j * b j) - y i * (b0 + ∑ j, X i j * b j)) := by
    rw [← Finset.sum_add_distrib]
    refine Finset.sum_le_sum fun i _ => ?_
    rw [← mul_add]
    refine mul_le_mul_of_nonneg_left ?_ (hw i)
    have := hψ (b0 + ∑ j, X i j * b j)
    linarith
  have h2 : ∑ i, w i * ((m - y i) * (b0 + ∑ j, X i j * b j - e0)) = - ∑ j, gsScore X y w j * b j := by
    have e : ∀ i, w i * ((m - y i) * (b0 + ∑ j, X i j * b j - e0))
        = w i * (m - y i) * (b0 - e0) + ∑ j, w i * (m - y i) * X i j * b j := fun i => by
      have : ∑ j, w i * (m - y i) * X i j * b j = w i * (m - y i) * ∑ j, X i j * b j := by
        rw [Finset.mul_sum]; exact Finset.sum_congr rfl fun j _ => by ring
      rw [this]; ring
    simp only [e, Finset.sum_add_distrib, ← Finset.sum_mul, hbal, zero_mul, zero_add]
    rw [Finset.sum_comm, ← Finset.sum_neg_distrib]
    refine Finset.sum_congr rfl fun j _ => ?_
    rw [gsScore, Finset.sum_mul, ← Finset.sum_neg_distrib]
    exact Finset.sum_congr rfl fun i _ => by rw [← hm]; ring
  have h3 : ∑ j, gsScore X y w j * b j ≤ lam * al * ∑ j, |b j| := by
    rw [Finset.mul_sum]
    refine Finset.sum_le_sum fun j _ => ?_
    calc gsScore X y w j * b j ≤ |gsScore X y w j * b j| := le_abs_self _
      _ = |gsScore X y w j| * |b j| := abs_mul _ _
      _ ≤ lam * al * |b j| := mul_le_mul_of_nonneg_right (hsc j) (abs_nonneg _)
  have h4 : 0 ≤ lam * ((1 - al) / 2 * ∑ j, b j ^ 2) :=
    mul_nonneg hlam (mul_nonneg (by linarith) (Finset.sum_nonneg fun j _ => sq_nonneg _))
  simp only [gsObj, Pi.zero_apply, mul_zero, Finset.sum_const_zero, add_zero, abs_zero]
  norm_num
  nlinarith [h1, h2, h3, h4]

/-- **C271** Below the first penalty the null model is not optimal: some coefficient lowers the objective. -/
theorem C271_below (ψ link dinv var : ℝ → ℝ) (X : Fin n → Fin p → ℝ) (y w : Fin n → ℝ) (al alMin L lam : ℝ)
    (hal : 0 < al) (hmin : alMin ≤ al) (hv : var (gsMean y w) ≠ 0) (hc : dinv (link (gsMean y w)) = var (gsMean y w))
    (hψ : HasDerivAt ψ (gsMean y w) (link (gsMean y w))) (hL : gsLmax link dinv var X y w al alMin = some L) (hl : lam < L) :
    ∃ b, gsObj ψ X y w al lam (link (gsMean y w)) b < gsObj ψ X y w al lam (link (gsMean y w)) 0 := by
  set m := gsMean y w with hm
  set e0 := link m with he0
  obtain ⟨⟨j0, hj0⟩, -⟩ := gsLmax_spec link dinv var X y w al alMin L hL
  rw [gsAbs_canonical link dinv var X y w al alMin j0 hal hmin hv hc] at hj0
  have hg : lam * al < |gsScore X y w j0| := by rw [← hj0, lt_div_iff₀ hal] at hl; exact hl
  obtain ⟨s, hs, hsg⟩ : ∃ s : ℝ, |s| = 1 ∧ s * gsScore X y w j0 = |gsScore X y w j0| := by
    rcases le_total 0 (gsScore X y w j0) with h | h
    · exact ⟨1, by norm_num, by rw [abs_of_nonneg h, one_mul]⟩
    · exact ⟨-1, by norm_num, by rw [abs_of_nonpos h]; ring⟩
  have hs2 : s ^ 2 = 1 := by rw [← sq_abs, hs]; norm_num
  by_contra hn
  push Not at hn
  set h : ℝ → ℝ := fun t => ∑ i, w i * (ψ (e0 + t * (X i j0 * s)) - y i * (e0 + t * (X i j0 * s))) + lam * (al * t + (1 - al) / 2 * t ^ 2) with hh
  have hval : ∀ t, 0 ≤ t → gsObj ψ X y w al lam e0 (Pi.single j0 (t * s)) = h t := fun t ht => by
    have e1 : ∀ i, ∑ j, X i j * (Pi.single j0 (t * s) : Fin p → ℝ) j = t * (X i j0 * s) := fun i => by
      rw [Finset.sum_eq_single j0]
      · rw [Pi.single_eq_same]; ring
      · intro j _ hj; rw [Pi.single_eq_of_ne hj, mul_zero]
      · simp
    have e2 : ∑ j, |(Pi.single j0 (t * s) : Fin p → ℝ) j| = t := by
      rw [Finset.sum_eq_single j0]
      · rw [Pi.single_eq_same, abs_mul, hs, abs_of_nonneg ht, mul_one]
      · intro j _ hj; rw [Pi.single_eq_of_ne hj, abs_zero]
      · simp
    have e3 : ∑ j, (Pi.single j0 (t * s) : Fin p → ℝ) j ^ 2 = t ^ 2 := by
      rw [Finset.sum_eq_single j0]
      · rw [Pi.single_eq_same, mul_pow, hs2, mul_one]
      · intro j _ hj; rw [Pi.single_eq_of_ne hj]; norm_num
      · simp
    simp only [gsObj, e1, e2, e3, hh]
  have hder : HasDerivAt h (∑ i, w i * (m * (X i j0 * s) - y i * (X i j0 * s)) + lam * (al * 1 + (1 - al) / 2 * 0)) 0 := by
    have hline : ∀ i, HasDerivAt (fun t : ℝ => e0 + t * (X i j0 * s)) (X i j0 * s) 0 := fun i => by
      simpa using ((hasDerivAt_id (0 : ℝ)).mul_const (X i j0 * s)).const_add e0
    refine HasDerivAt.add (HasDerivAt.fun_sum fun i _ => ?_) ?_
    · refine HasDerivAt.const_mul (w i) (HasDerivAt.sub ?_ ((hline i).const_mul (y i)))
      have : HasDerivAt ψ m (e0 + 0 * (X i j0 * s)) := by simpa using hψ
      exact this.comp 0 (hline i)
    · refine HasDerivAt.const_mul lam (HasDerivAt.add ((hasDerivAt_id (0 : ℝ)).const_mul al) (HasDerivAt.const_mul _ ?_))
      simpa using hasDerivAt_pow 2 (0 : ℝ)
  have hd : ∑ i, w i * (m * (X i j0 * s) - y i * (X i j0 * s)) + lam * (al * 1 + (1 - al) / 2 * 0) = lam * al - |gsScore X y w j0| := by
    rw [← hsg, gsScore, Finset.mul_sum]
    have : ∑ i, w i * (m * (X i j0 * s) - y i * (X i j0 * s)) = - ∑ i, s * (w i * (y i - gsMean y w) * X i j0) := by
      rw [← Finset.sum_neg_distrib]
      exact Finset.sum_congr rfl fun i _ => by rw [← hm]; ring
    rw [this]; ring
  rw [hd] at hder
  have hpos := ge_of_tendsto hder.tendsto_slope_zero_right (b := 0) (by
    filter_upwards [self_mem_nhdsWithin] with t ht
    have ht' : (0 : ℝ) < t := ht
    have h1 := hn (Pi.single j0 (t * s))
    have h2 : gsObj ψ X y w al lam e0 0 = h 0 := by rw [← hval 0 le_rfl, zero_mul, Pi.single_zero]
    rw [hval t ht'.le, h2] at h1
    rw [zero_add, smul_eq_mul]
    exact mul_nonneg (inv_nonneg.2 ht'.le) (by linarith))
  linarith

/-- **C271** The path starts at that penalty and falls by a constant factor to `ratio` times it. -/
theorem C271_path (link dinv var : ℝ → ℝ) (X : Fin n → Fin p → ℝ) (y w : Fin n → ℝ) (al alMin ratio L : ℝ) (nl : ℕ)
    (hL : gsLmax link dinv var X y w al alMin = some L) (h0 : L ≠ 0) (hr : 0 < ratio) (hr1 : ratio < 1) (hnl : 2 ≤ nl) :
    ∃ l, gsLambdas link dinv var X y w al alMin ratio nl = some l ∧ l.length = nl ∧ l[0]? = some L ∧ l[nl - 1]? = some (ratio * L) ∧
      ∃ q, 0 < q ∧ q < 1 ∧ ∀ i, i < nl → l[i]? = some (L * q ^ i) := by
  have hpos : 0 < L := by
    obtain ⟨⟨j, hj⟩, -⟩ := gsLmax_spec link dinv var X y w al alMin L hL
    exact lt_of_le_of_ne (by rw [← hj]; exact abs_nonneg _) (Ne.symm h0)
  exact ⟨_, by rw [gsLambdas, hL, Option.bind_some, if_neg h0], C104_path hpos hr hr1 hnl⟩

/-- **C271 (violated)** A constant response, and no variables, give no path. -/
theorem C271_constant_violated (link dinv var : ℝ → ℝ) (X : Fin n → Fin p → ℝ) (c : ℝ) (w : Fin n → ℝ) (hw1 : ∑ i, w i = 1) (al alMin ratio : ℝ) (nl : ℕ) :
    gsLambdas link dinv var X (fun _ => c) w al alMin ratio nl = none := by
  have hm : gsMean (fun _ => c) w = c := by rw [gsMean, ← Finset.sum_mul, hw1, one_mul]
  rcases hL : gsLmax link dinv var X (fun _ => c) w al alMin with _ | L
  · rw [gsLambdas, hL, Option.bind_none]
  · obtain ⟨⟨j, hj⟩, -⟩ := gsLmax_spec link dinv var X (fun _ => c) w al alMin L hL
    have : L = 0 := by rw [← hj]; simp [gsAbs, hm]
    rw [gsLambdas, hL, Option.bind_some, if_pos this]

/-- A pair of opposite observations with one variable, Gaussian. -/
def exGsX : Fin 2 → Fin 1 → ℝ := fun i _ => if i = 0 then 1 else -1
def exGsY : Fin 2 → ℝ := fun i => if i = 0 then 1 else -1
noncomputable def exGsW : Fin 2 → ℝ := fun _ => 1 / 2

theorem exGs_lmax (al : ℝ) : gsLmax id (fun _ => 1) (fun _ => 1) exGsX exGsY exGsW al (1 / 1000) = some (1 / max al (1 / 1000)) := by
  have hpos : 0 < max al (1 / 1000 : ℝ) := lt_max_of_lt_right (by norm_num)
  have h : gsAbs id (fun _ => 1) (fun _ => 1) exGsX exGsY exGsW al (1 / 1000) 0 = 1 / max al (1 / 1000) := by
    have : (∑ i, exGsX i 0 * ((exGsY i - gsMean exGsY exGsW) / 1 * 1 * exGsW i)) = 1 := by
      norm_num [exGsX, exGsY, exGsW, gsMean, Fin.sum_univ_two]
    simp only [gsAbs, this, abs_of_pos (one_div_pos.2 hpos)]
  have e : List.finRange 1 = [0] := rfl
  rw [gsLmax, e, List.map_cons, List.map_nil, h]
  rfl

/-- **C271 (violated)** Below the least mixing parameter the null model is not optimal at the first penalty: without any weight on the absolute values, ridge
regression, a coefficient of 1/1001 is better. -/
theorem C271_ridge_violated : gsLmax id (fun _ => 1) (fun _ => 1) exGsX exGsY exGsW 0 (1 / 1000) = some 1000 ∧
    gsObj (fun e => e ^ 2 / 2) exGsX exGsY exGsW 0 1000 0 (fun _ => 1 / 1001) < gsObj (fun e => e ^ 2 / 2) exGsX exGsY exGsW 0 1000 0 0 := by
  refine ⟨?_, ?_⟩
  · rw [exGs_lmax]; norm_num
  · norm_num [gsObj, exGsX, exGsY, exGsW, Fin.sum_univ_two]

/-- The hypotheses of `C271_null_partial` can be met. -/
example (b0 : ℝ) (b : Fin 1 → ℝ) :
    gsObj (fun e => e ^ 2 / 2) exGsX exGsY exGsW 1 1 0 0 ≤ gsObj (fun e => e ^ 2 / 2) exGsX exGsY exGsW 1 1 b0 b := by
  have hm : gsMean exGsY exGsW = 0 := by norm_num [gsMean, exGsY, exGsW, Fin.sum_univ_two]
  have := C271_null_partial (fun e => e ^ 2 / 2) id (fun _ => 1) (fun _ => 1) exGsX exGsY exGsW 1 (1 / 1000) (1 / max 1 (1 / 1000)) 1
    (fun i => by norm_num [exGsW]) (by norm_num [exGsW, Fin.sum_univ_two]) one_pos le_rfl (by norm_num) one_ne_zero rfl
    (fun e => by rw [hm]; simp; positivity) (exGs_lmax 1) (by norm_num) b0 b
  rwa [hm] at this

end Verif.Eln
