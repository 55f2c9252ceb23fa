import Verif.Lv.BinormProps
import Mathlib.Analysis.Real.Pi.Bounds
import Mathlib.Analysis.SpecialFunctions.Trigonometric.InverseDeriv

/-!
# C253: the bivariate normal distribution function as it is computed

The functions of `Verif.Lv.Binorm` with the tabulated rule itself (func_utils.py 661-719), for all correlations in `[-1, 1]`.
-/

namespace Verif.Lv
open Real Set MeasureTheory Filter Topology Verif.Glm

theorem dl_symm (h k r : ℝ) : dl h k r = dl k h r := by
  simp only [dl]
  congr 3
  ring

theorem dl_flip (h k r : ℝ) : dl h (-k) (-r) = dl h k r := by
  simp only [dl, neg_sq]
  congr 3
  ring

theorem gsum_congr {f g : ℝ → ℝ} (a b : ℝ) (h : ∀ x, f (x * a) = g (x * b)) (L : List (ℝ × ℝ)) : gsum f a L = gsum g b L := by
  cases L with
  | nil => rfl
  | cons p L => simp only [gsum, h]

/-- **C253** The arguments can be exchanged. -/
theorem C253_symm (N : ℝ → ℝ) (h k r : ℝ) : cdf gl N h k r = cdf gl N k h r := by
  have : dl h k = dl k h := funext fun t => dl_symm h k t
  simp only [cdf, l2, this]
  ring

/-- **C253** Reflection of one variable: the probabilities of the two halves of a half plane add up to that of the half plane. -/
theorem C253_reflect (N : ℝ → ℝ) (hN : ∀ z, N z + N (-z) = 1) (h k r : ℝ) : cdf gl N h k r + cdf gl N h (-k) (-r) = N h := by
  have e : gl (dl h (-k)) (-r) = -gl (dl h k) r := by
    simp only [gl]
    rw [gsum_congr (-r / 2) (r / 2) (g := dl h k) fun x => by rw [← dl_flip, neg_neg]; congr 1; ring]
    ring
  simp only [cdf, l2, e, neg_neg]
  have h1 := hN h
  have h2 := hN k
  have e1 : N (-h) = 1 - N h := by linarith
  have e2 : N (-k) = 1 - N k := by linarith
  rw [e1, e2]
  ring

/-- **C253** Without correlation the function is the product. -/
theorem C253_independent (N : ℝ → ℝ) (hN : ∀ z, N z + N (-z) = 1) (h k : ℝ) : cdf gl N h k 0 = N h * N k := by
  have h1 := hN h
  have h2 := hN k
  have e1 : N (-h) = 1 - N h := by linarith
  have e2 : N (-k) = 1 - N k := by linarith
  simp only [cdf, l2, gl, e1, e2]
  ring

/-- The function `hart` of the code is such an `N`. -/
example : ∀ z, hart z + hart (-z) = 1 := fun z => (C159_hart z).2.1

theorem gl_mem {p : ℝ × ℝ} (hp : p ∈ glTable) : 0 < p.1 ∧ 0 ≤ p.2 ∧ p.2 < 1 := by
  have key : ∀ q ∈ List.zip glW glX, 0 < q.1 ∧ q.2 < 10 ^ 16 := by decide +kernel
  obtain ⟨q, hq, rfl⟩ := List.mem_map.1 hp
  obtain ⟨h1, h2⟩ := key q hq
  have h1' : (0 : ℝ) < q.1 := by exact_mod_cast h1
  have h2' : (q.2 : ℝ) < 10 ^ 16 := by exact_mod_cast h2
  exact ⟨by positivity, by positivity, (div_lt_one (by positivity)).2 h2'⟩

/-- **C253** For every correlation of a distribution, one and minus one included, the integrand is only taken inside the open interval: nothing is
divided by zero. -/
theorem C253_nodes {p : ℝ × ℝ} (hp : p ∈ glTable) {r : ℝ} (hr : |r| ≤ 1) : |(1 - p.2) * (r / 2)| < 1 ∧ |(1 + p.2) * (r / 2)| < 1 := by
  obtain ⟨-, h0, h1⟩ := gl_mem hp
  have hr2 : |r / 2| ≤ 1 / 2 := by rw [abs_div, abs_two]; linarith
  constructor
  · rw [abs_mul, abs_of_pos (by linarith)]
    nlinarith [abs_nonneg (r / 2)]
  · rw [abs_mul, abs_of_pos (by linarith)]
    nlinarith [abs_nonneg (r / 2)]

theorem dl_pos (h k : ℝ) {r : ℝ} (hr : |r| < 1) : 0 < dl h k r := by
  have := rt_pos hr
  simp only [dl]
  positivity

/-- **C253** The sign of the dependence: a positive correlation raises the probability above the product, a negative one lowers it. -/
theorem C253_sign (N : ℝ → ℝ) (hN : ∀ z, N z + N (-z) = 1) (h k : ℝ) {r : ℝ} (hr : |r| ≤ 1) :
    (0 < r → N h * N k < cdf gl N h k r) ∧ (r < 0 → cdf gl N h k r < N h * N k) := by
  have hg : 0 < gsum (dl h k) (r / 2) glTable := by
    have key : ∀ L : List (ℝ × ℝ), (∀ p ∈ L, p ∈ glTable) → L ≠ [] → 0 < gsum (dl h k) (r / 2) L := by
      intro L hL hne
      cases L with
      | nil => exact absurd rfl hne
      | cons p L =>
        obtain ⟨w, x⟩ := p
        have hp := hL (w, x) (List.mem_cons_self ..)
        rw [gsum]
        have h1 := mul_pos (gl_mem hp).1 (dl_pos h k (C253_nodes hp hr).2)
        have h2 : 0 ≤ (L.map fun p => p.1 * dl h k ((1 - p.2) * (r / 2)) + p.1 * dl h k ((1 + p.2) * (r / 2))).sum := by
          apply List.sum_nonneg
          intro y hy
          obtain ⟨q, hq, rfl⟩ := List.mem_map.1 hy
          have hq' := hL q (List.mem_cons_of_mem _ hq)
          have a := mul_pos (gl_mem hq').1 (dl_pos h k (C253_nodes hq' hr).1)
          have b := mul_pos (gl_mem hq').1 (dl_pos h k (C253_nodes hq' hr).2)
          linarith
        exact add_pos_of_pos_of_nonneg h1 h2
    exact key glTable (fun p hp => hp) (by simp [glTable, glW, glX])
  have e : cdf gl N h k r = N h * N k + r / 2 * gsum (dl h k) (r / 2) glTable := by
    have h1 := hN h
    have h2 := hN k
    have e1 : N (-h) = 1 - N h := by linarith
    have e2 : N (-k) = 1 - N k := by linarith
    simp only [cdf, l2, gl, e1, e2]
    ring
  rw [e]
  constructor
  · intro h
    have := mul_pos (half_pos h) hg
    linarith
  · intro h
    have : r / 2 * gsum (dl _ k) (r / 2) glTable < 0 := mul_neg_of_neg_of_pos (by linarith) hg
    linarith

/-! ### At the centre -/

/-- The probability of a quadrant. -/
theorem C253_quadrant {r : ℝ} (hr : |r| < 1) : Phi2 0 0 r = 1 / 4 + arcsin r / (2 * π) := by
  have h0 : ndtr0 0 = 1 / 2 := by
    have := ndtr0_neg 0
    rw [neg_zero] at this
    linarith
  rw [← Phi2_int hr, h0]
  have hd : ∀ t ∈ uIcc 0 r, HasDerivAt (fun t => arcsin t / (2 * π)) (pdf 0 0 t) t := by
    intro t ht
    have ht' : |t| < 1 := by
      rcases le_total 0 r with h | h
      · rw [uIcc_of_le h] at ht
        rw [abs_of_nonneg ht.1]
        rw [abs_of_nonneg h] at hr
        exact lt_of_le_of_lt ht.2 hr
      · rw [uIcc_of_ge h] at ht
        rw [abs_of_nonpos ht.2]
        rw [abs_of_nonpos h] at hr
        linarith [ht.1]
    obtain ⟨h1, h2⟩ := abs_lt.1 ht'
    have := (Real.hasDerivAt_arcsin h1.ne' h2.ne).div_const (2 * π)
    have e : pdf 0 0 t = 1 / √(1 - t ^ 2) / (2 * π) := by
      rw [← C159_dl]
      simp only [dl]
      simp
      ring
    rwa [e]
  have hc : IntervalIntegrable (fun t => pdf 0 0 t) volume 0 r := by
    apply ContinuousOn.intervalIntegrable
    intro t ht
    have ht' : |t| < 1 := by
      rcases le_total 0 r with h | h
      · rw [uIcc_of_le h] at ht
        rw [abs_of_nonneg ht.1]
        rw [abs_of_nonneg h] at hr
        exact lt_of_le_of_lt ht.2 hr
      · rw [uIcc_of_ge h] at ht
        rw [abs_of_nonpos ht.2]
        rw [abs_of_nonpos h] at hr
        linarith [ht.1]
    exact (C159_dr2 ht' 0 0).continuousAt.continuousWithinAt
  rw [intervalIntegral.integral_eq_sub_of_hasDerivAt hd hc, arcsin_zero]
  ring

/-- **C253** As the correlation goes to one, the probability of a quadrant goes to one half. -/
theorem C253_limit : Tendsto (fun r => Phi2 0 0 r) (𝓝[<] 1) (𝓝 (1 / 2)) := by
  have h1 : Tendsto (fun r : ℝ => 1 / 4 + arcsin r / (2 * π)) (𝓝[<] 1) (𝓝 (1 / 4 + arcsin 1 / (2 * π))) :=
    (((continuous_arcsin.div_const _).const_add _).tendsto 1).mono_left nhdsWithin_le_nhds
  have e : 1 / 4 + arcsin 1 / (2 * π) = 1 / 2 := by
    rw [arcsin_one]
    have := pi_ne_zero
    field_simp
    norm_num
  rw [e] at h1
  refine h1.congr' ?_
  have : Ioo (0 : ℝ) 1 ∈ 𝓝[<] (1 : ℝ) := Ioo_mem_nhdsLT (by norm_num)
  filter_upwards [this] with r hr
  rw [C253_quadrant (by rw [abs_of_pos hr.1]; exact hr.2)]

/-- Upper bounds of `10⁸ / √(1 - t²)` at the nodes for the correlation one. -/
def edgeB : List (ℕ × ℕ) := [
  (113657302, 117471388), (112016986, 119679506), (110534709, 122115050), (109197558, 124801558),
  (107993886, 127766019), (106913122, 131039568), (105945619, 134658331), (105082517, 138664496),
  (104315631, 143107660), (103637356, 148046538), (103040580, 153551181), (102518622, 159705850),
  (102065168, 166612819), (101674229, 174397455), (101340103, 183215121), (101057343, 193260703),
  (100820739, 204782012), (100625306, 218099027), (100466274, 233632197), (100339093, 251945175),
  (100239438, 273811396), (100163219, 300321594), (100106601, 333064976), (100066021, 374450507),
  (100038212, 428313385), (100020228, 501153184), (100009466, 604931973), (100003695, 764332460),
  (100001075, 1039752562), (100000179, 1628132799), (100000007, 3734861603)]

/-- The bounds are bounds. -/
def edgeOk (e : (ℕ × ℕ) × (ℕ × ℕ)) : Bool :=
  e.1.2 < 10 ^ 16 &&
  10 ^ 16 * (2 * 10 ^ 16) ^ 2 + e.2.1 ^ 2 * (10 ^ 16 - e.1.2) ^ 2 ≤ e.2.1 ^ 2 * (2 * 10 ^ 16) ^ 2 &&
  10 ^ 16 * (2 * 10 ^ 16) ^ 2 + e.2.2 ^ 2 * (10 ^ 16 + e.1.2) ^ 2 ≤ e.2.2 ^ 2 * (2 * 10 ^ 16) ^ 2

theorem edge_ok : ∀ e ∈ List.zip (List.zip glW glX).tail edgeB, edgeOk e = true := by decide +kernel

theorem edge_total : 494723666239310 * 115470054 + ((List.zip (List.zip glW glX).tail edgeB).map fun e => e.1.1 * (e.2.1 + e.2.2)).sum ≤ 31223 * 10 ^ 20 := by
  decide +kernel

theorem dl_edge {a b : ℕ} (hb : 10 ^ 16 * (2 * 10 ^ 16) ^ 2 + b ^ 2 * a ^ 2 ≤ b ^ 2 * (2 * 10 ^ 16) ^ 2) (t : ℝ) (ht : t = a / (2 * 10 ^ 16)) :
    dl 0 0 t ≤ b / 10 ^ 8 / (2 * π) := by
  have hb' : (10 : ℝ) ^ 16 * (2 * 10 ^ 16) ^ 2 + b ^ 2 * a ^ 2 ≤ b ^ 2 * (2 * 10 ^ 16) ^ 2 := by exact_mod_cast hb
  have hq : (10 : ℝ) ^ 16 ≤ b ^ 2 * (1 - t ^ 2) := by
    rw [ht, div_pow]
    have : (b : ℝ) ^ 2 * (1 - (a : ℝ) ^ 2 / (2 * 10 ^ 16) ^ 2) = (b ^ 2 * (2 * 10 ^ 16) ^ 2 - b ^ 2 * a ^ 2) / (2 * 10 ^ 16) ^ 2 := by
      field_simp
    rw [this, le_div_iff₀ (by positivity)]
    linarith
  have hpos : 0 < 1 - t ^ 2 := by
    by_contra h
    have := mul_nonpos_of_nonneg_of_nonpos (sq_nonneg (b : ℝ)) (not_lt.1 h)
    norm_num at hq
    linarith
  have hs : 0 < √(1 - t ^ 2) := Real.sqrt_pos.2 hpos
  have hle : 1 / √(1 - t ^ 2) ≤ b / 10 ^ 8 := by
    rw [div_le_iff₀ hs]
    have h2 : ((1 : ℝ)) ^ 2 ≤ (b / 10 ^ 8 * √(1 - t ^ 2)) ^ 2 := by
      rw [mul_pow, Real.sq_sqrt hpos.le, div_pow]
      rw [div_mul_eq_mul_div, le_div_iff₀ (by positivity)]
      nlinarith
    exact le_of_sq_le_sq h2 (by positivity)
  have e : dl 0 0 t = 1 / √(1 - t ^ 2) / (2 * π) := by
    simp only [dl]
    simp
    ring
  rw [e]
  exact div_le_div_of_nonneg_right hle (by positivity)

theorem edge_sum (L : List ((ℕ × ℕ) × (ℕ × ℕ))) (hL : ∀ e ∈ L, edgeOk e = true) :
    ((L.map fun e => (((e.1.1 : ℝ) / 10 ^ 16, (e.1.2 : ℝ) / 10 ^ 16) : ℝ × ℝ)).map
      fun p => p.1 * dl 0 0 ((1 - p.2) * (1 / 2)) + p.1 * dl 0 0 ((1 + p.2) * (1 / 2))).sum ≤
      (((L.map fun e => e.1.1 * (e.2.1 + e.2.2)).sum : ℕ) : ℝ) / 10 ^ 24 / (2 * π) := by
  induction L with
  | nil => simp
  | cons e L ih =>
    have ih' := ih fun e he => hL e (List.mem_cons_of_mem _ he)
    have he := hL e (List.mem_cons_self ..)
    simp only [edgeOk, Bool.and_eq_true, decide_eq_true_eq] at he
    obtain ⟨⟨h0, h1⟩, h2⟩ := he
    simp only [List.map_cons, List.sum_cons, Nat.cast_add]
    have b1 := dl_edge h1 ((1 - (e.1.2 : ℝ) / 10 ^ 16) * (1 / 2)) (by
      rw [Nat.cast_sub h0.le]; push_cast; field_simp; norm_num)
    have b2 := dl_edge h2 ((1 + (e.1.2 : ℝ) / 10 ^ 16) * (1 / 2)) (by push_cast; field_simp; norm_num)
    have hw : (0 : ℝ) ≤ (e.1.1 : ℝ) / 10 ^ 16 := by positivity
    have c1 := mul_le_mul_of_nonneg_left b1 hw
    have c2 := mul_le_mul_of_nonneg_left b2 hw
    have e3 : (((e.1.1 * (e.2.1 + e.2.2) : ℕ) : ℝ) + (((L.map fun e => e.1.1 * (e.2.1 + e.2.2)).sum : ℕ) : ℝ)) / 10 ^ 24 / (2 * π) =
        (e.1.1 : ℝ) / 10 ^ 16 * (e.2.1 / 10 ^ 8 / (2 * π)) + (e.1.1 : ℝ) / 10 ^ 16 * (e.2.2 / 10 ^ 8 / (2 * π)) +
          (((L.map fun e => e.1.1 * (e.2.1 + e.2.2)).sum : ℕ) : ℝ) / 10 ^ 24 / (2 * π) := by
      push_cast
      field_simp
    rw [e3]
    exact add_le_add (add_le_add c1 c2) ih'

/-- **C253** At a correlation of one the probability of a quadrant comes out below 0.4985, for any normal distribution function that is one half at
zero: the rule does not resolve the integrand, which is not bounded there. -/
theorem C253_one_violated (N : ℝ → ℝ) (hN : N 0 = 1 / 2) : cdf gl N 0 0 1 < 4985 / 10000 := by
  have hg : gsum (dl 0 0) (1 / 2) glTable ≤ 31223 / 10 ^ 4 / (2 * π) := by
    have ht : glTable = ((494723666239310 : ℝ) / 10 ^ 16, (0 : ℝ) / 10 ^ 16) ::
        (List.zip (List.zip glW glX).tail edgeB).map fun e => (((e.1.1 : ℝ) / 10 ^ 16, (e.1.2 : ℝ) / 10 ^ 16) : ℝ × ℝ) := by
      simp [glTable, glW, glX, edgeB]
    rw [ht, gsum]
    have b0 := dl_edge (a := 10 ^ 16) (b := 115470054) (by norm_num) ((1 + (0 : ℝ) / 10 ^ 16) * (1 / 2)) (by norm_num)
    have c0 := mul_le_mul_of_nonneg_left b0 (by positivity : (0 : ℝ) ≤ 494723666239310 / 10 ^ 16)
    have hs := edge_sum _ edge_ok
    refine (add_le_add c0 hs).trans ?_
    have ht := edge_total
    generalize ((List.zip (List.zip glW glX).tail edgeB).map fun e => e.1.1 * (e.2.1 + e.2.2)).sum = T at ht ⊢
    have ht' : (494723666239310 : ℝ) * 115470054 + T ≤ 31223 * 10 ^ 20 := by exact_mod_cast ht
    have e : (494723666239310 : ℝ) / 10 ^ 16 * (((115470054 : ℕ) : ℝ) / 10 ^ 8 / (2 * π)) + (T : ℝ) / 10 ^ 24 / (2 * π) =
        (494723666239310 * 115470054 + T) / 10 ^ 24 / (2 * π) := by
      push_cast
      field_simp
    rw [e]
    apply div_le_div_of_nonneg_right _ (by positivity)
    rw [div_le_div_iff₀ (by positivity) (by positivity)]
    linarith
  simp only [cdf, l2, gl, neg_zero, hN]
  have hp : (3.14159 : ℝ) < π := by linarith [Real.pi_gt_d6]
  have : (31223 : ℝ) / 10 ^ 4 / (2 * π) < 0.497 := by
    rw [div_lt_iff₀ (by positivity)]
    norm_num
    nlinarith
  norm_num at hg ⊢
  norm_num at this
  linarith

end Verif.Lv
