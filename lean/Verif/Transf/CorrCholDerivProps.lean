import Verif.Transf.CholCovFull
import Verif.Transf.CholCovProps
import Verif.Transf.OrderedProps
import Verif.Lin.DcholPath
import Verif.Transf.Compose
import Mathlib.Topology.Instances.Matrix
import Mathlib.LinearAlgebra.Matrix.NonsingularInverse
/-! # C80: derivatives of the correlation-Cholesky transform -/
namespace Verif.Transf
open Verif.Np Verif.Vec Verif.Index Verif.Lin Real

variable {n : ℕ}

/-- Packed position of an off-diagonal cell. -/
def ix (n i j : ℕ) : ℕ := (trilInds n).idxOf (hp n (max i j) (min i j))

/-- The correlation matrix of a packed vector. -/
def RV (n : ℕ) (x : ℕ → ℝ) : ℕ → ℕ → ℝ := fun i j => if i = j then 1 else x (ix n i j)

/-- The lower factor of a packed vector. -/
def LV (n : ℕ) (y : ℕ → ℝ) : ℕ → ℕ → ℝ := fun i j => y (ix n i j)

theorem RV_symm (x : ℕ → ℝ) (i j : ℕ) : RV n x i j = RV n x j i := by
  unfold RV ix
  rw [max_comm, min_comm]
  exact if_congr eq_comm rfl rfl

theorem ix_low {i j : ℕ} (h : j < i) : ix n i j = (trilInds n).idxOf (hp n i j) := by
  rw [ix, max_eq_left h.le, min_eq_right h.le]

theorem ix_lt {i j : ℕ} (h : j < i) (hi : i < n) : ix n i j < (trilInds n).length := by
  rw [ix_low h]; exact idxOf_lt (mem_tril_hp h hi)

theorem listN_vecl (x : ℕ → ℝ) {A : ℕ → ℕ → ℝ} (hA : ∀ i j, j < i → i < n → A i j = x (ix n i j)) :
    listN (trilInds n).length x = vecl A n := by
  rw [vecl_congr (X := A) (Y := fun r s => x ((trilInds n).idxOf (hp n r s)))
    fun i j hi hj => by rw [hA i j hj hi, ix_low hj],
    ← tril_map_vecl (n := n) (fun p => x ((trilInds n).idxOf p))]
  unfold listN
  apply List.ext_getElem
  · simp
  · intro k h1 h2
    simp only [List.length_map, List.length_range] at h1
    simp [(tril_nodup n).idxOf_getElem]

theorem listN_RV (x : ℕ → ℝ) : listN (trilInds n).length x = vecl (RV n x) n :=
  listN_vecl x fun i j h _ => by rw [RV, if_neg (by omega)]

theorem vecl_ix (A : ℕ → ℕ → ℝ) {r s : ℕ} (h1 : s < r) (h2 : r < n) :
    (vecl A n).getD (ix n r s) 0 = A r s := by
  rw [ix_low h1]; exact vecl_getD A h1 h2

theorem ix_surj {k : ℕ} (hk : k < (trilInds n).length) :
    ∃ r s, s < r ∧ r < n ∧ k = ix n r s ∧ (trilInds n).getD k 0 = hp n r s := by
  obtain ⟨r, s, h1, h2, e⟩ := tril_cell (List.getElem_mem hk)
  refine ⟨r, s, h1, h2, ?_, by rw [List.getD_eq_getElem _ _ hk, e]⟩
  rw [ix_low h1, ← e, (tril_nodup n).idxOf_getElem]

theorem getD_ix {r s : ℕ} (h1 : s < r) (h2 : r < n) : (trilInds n).getD (ix n r s) 0 = hp n r s := by
  rw [ix_low h1, List.getD_eq_getElem _ _ (idxOf_lt (mem_tril_hp h1 h2)), List.getElem_idxOf]

/-! ## index arrays -/

theorem cells_get {p : ℕ} (hp' : p < matSizeToHvSize n) :
    (trilIndices n 0 true)[p]? = some (hvRow n p, hvCol n p) := by
  rw [trilIndices_zero, ← lowerTri_zero_map, List.getElem?_map, List.getElem?_range hp']
  rfl

theorem unitM_at {i j p : ℕ} (hji : j ≤ i) (hi : i < n) (hp' : p < matSizeToHvSize n) :
    unitM n i j p = if p = hp n i j then 1 else 0 := by
  rw [unitM, unitMat, cells_get hp']
  refine if_congr ?_ rfl rfl
  obtain ⟨r, s, a, b, rfl⟩ := hp_surj hp'
  rw [hvRow_hp a b, hvCol_hp a b]
  constructor
  · intro h
    simp only [Option.some.injEq, Prod.mk.injEq] at h
    rw [h.1, h.2]
  · intro h
    obtain ⟨rfl, rfl⟩ := hp_inj a b hji hi h
    rfl

theorem lmatCols_hp {r s : ℕ} (h1 : s ≤ r) (h2 : r < n) :
    (lmatCols n).getD (hp n r s) 0 % n = r ∧ (lmatCols n).getD (hp n r s) 0 / n = s := by
  have e : (lmatCols n)[hp n r s]? = some (s * n + r) := by
    have h := cells_get (hp_lt h1 h2)
    rw [hvRow_hp h1 h2, hvCol_hp h1 h2, trilIndices, if_pos rfl, List.getElem?_map,
      Option.map_eq_some_iff] at h
    obtain ⟨c, hc, e⟩ := h
    rw [lmatCols_eq_tril, List.getElem?_map]
    have : c = (s, r) := by
      rw [← Prod.swap_swap c, e]; rfl
    rw [show (0 : ℤ) * -1 = 0 by ring] at hc
    rw [hc, this]; rfl
  rw [List.getD_eq_getElem?_getD, e]
  simp only [Option.getD_some]
  have hn : 0 < n := by omega
  constructor
  · rw [Nat.add_comm, Nat.add_mul_mod_self_right, Nat.mod_eq_of_lt h2]
  · rw [Nat.add_comm, Nat.add_mul_div_right _ _ hn, Nat.div_eq_of_lt h2]; omega

/-! ## forward derivatives -/

/-- Packed correlations of a positive definite matrix. -/
def PDV (n : ℕ) (x : ℕ → ℝ) : Prop := PDOn n (RV n x)

theorem PDV.chol {x : ℕ → ℝ} (h : PDV n x) : ∃ L, IsChol n (RV n x) L := (pd_iff_chol (RV_symm x)).1 h

theorem invecl_RV (hn : 1 ≤ n) (x : ℕ → ℝ) :
    ∃ Y, invecl (listN (trilInds n).length x) = some (n, Y) ∧
      ∀ i j, i < n → j < n → Y i j = RV n x i j := by
  rw [listN_RV]
  obtain ⟨Y, h1, h2⟩ := (C11_invecl_vecl (RV n x) n hn (fun i j _ _ => RV_symm x i j)
    fun i _ => by rw [RV, if_pos rfl]).1
  exact ⟨Y, h1, h2⟩

theorem fwdV_defined (chol) (hc : CholOk chol) (hn : 1 ≤ n) {x : ℕ → ℝ} (h : PDV n x) :
    ∃ L, IsChol n (RV n x) L ∧ corrFwd chol (listN (trilInds n).length x) = some (vecl L n) ∧
      ∀ r s, s < r → r < n → fwdV chol n x (ix n r s) = L r s := by
  obtain ⟨Y, h1, h2⟩ := invecl_RV hn x
  obtain ⟨L0, h0⟩ := h.chol
  obtain ⟨L, l1, l2⟩ := hc n Y ⟨L0, h0.congr fun i j hi hj => (h2 i j hi hj).symm⟩
  have e : corrFwd chol (listN (trilInds n).length x) = some (vecl L n) := by
    simp only [corrFwd, h1, Option.bind_eq_bind, Option.bind_some, l1, Option.pure_def]
  refine ⟨L, l2.congr h2, e, fun r s a b => ?_⟩
  rw [fwdV, e]
  exact vecl_ix L a b

/-- C80: `_jac_fwd` and `_hess_fwd` are defined on packed positive definite correlations, and their
entries are the `dchol` derivatives of the cells. -/
theorem jacFwdV_defined (hn : 1 ≤ n) {x : ℕ → ℝ} (h : PDV n x) :
    ∃ J H, corrJacFwd n (listN (trilInds n).length x) = some J ∧
      corrHessFwd n (listN (trilInds n).length x) = some H ∧
      ∀ r s, s < r → r < n → ∀ b, b < (trilInds n).length →
        J (ix n r s) b = (dFin 2 n (matSizeToHvSize n) (RV n x) (unitM n)).dL r s ((trilInds n).getD b 0) ∧
        ∀ c, c < (trilInds n).length → H (ix n r s) b c =
          (dFin 2 n (matSizeToHvSize n) (RV n x) (unitM n)).d2L r s ((trilInds n).getD b 0)
            ((trilInds n).getD c 0) := by
  obtain ⟨Y, h1, h2⟩ := invecl_RV hn x
  obtain ⟨L0, h0⟩ := h.chol
  have hY : IsChol n Y L0 := h0.congr fun i j hi hj => (h2 i j hi hj).symm
  have low : ∀ i j, j ≤ i → i < n → Y i j = RV n x i j := fun i j a b => h2 i j b (by omega)
  refine ⟨_, _, by
    simp only [corrJacFwd, h1, Option.bind_eq_bind, Option.bind_some, dchol_eq hY, Option.pure_def]
    rfl, by
    simp only [corrHessFwd, h1, Option.bind_eq_bind, Option.bind_some, dchol_eq hY, Option.pure_def]
    rfl, fun r s a b' b hb => ⟨?_, fun c hc => ?_⟩⟩
  · rw [getD_ix a b', (lmatCols_hp a.le b').1, (lmatCols_hp a.le b').2]
    exact dFin_agr1 (o := 1) (o' := 2) (by omega) (by omega) (unitM n) low a.le b' (tril_lt hb)
  · rw [getD_ix a b', (lmatCols_hp a.le b').1, (lmatCols_hp a.le b').2]
    exact dFin_agr2 (o := 2) (o' := 2) (by omega) (by omega) (unitM n) low a.le b' (tril_lt hb) (tril_lt hc)

/-- Coefficients of a packed velocity over the unit matrices. -/
def coefV (n : ℕ) (x' : ℕ → ℝ) : ℕ → ℝ := fun q =>
  if q ∈ trilInds n then x' ((trilInds n).idxOf q) else 0

theorem coef_sum (x' : ℕ → ℝ) (g : ℕ → ℝ) :
    ∑ q ∈ Finset.range (matSizeToHvSize n), coefV n x' q * g q =
      dotN (trilInds n).length (fun b => g ((trilInds n).getD b 0)) x' := by
  have := dotN_mask (n := n) (g := coefV n x') (v := g) (h := x')
    (fun q _ h => by rw [coefV, if_neg h]) (fun q h => by rw [coefV, if_pos h])
  rw [show ∑ q ∈ Finset.range (matSizeToHvSize n), coefV n x' q * g q =
    dotN (matSizeToHvSize n) (coefV n x') g from rfl, this]
  exact Finset.sum_congr rfl fun b _ => mul_comm _ _

theorem RV_path {X : ℝ → ℕ → ℝ} {x' : ℕ → ℝ} (hX : PathN (trilInds n).length X x') {i j : ℕ}
    (hji : j ≤ i) (hi : i < n) :
    HasDerivAt (fun t => RV n (X t) i j)
      (∑ q ∈ Finset.range (matSizeToHvSize n), coefV n x' q * unitM n i j q) 0 := by
  have e : ∑ q ∈ Finset.range (matSizeToHvSize n), coefV n x' q * unitM n i j q = coefV n x' (hp n i j) := by
    rw [Finset.sum_eq_single (hp n i j)]
    · rw [unitM_at hji hi (hp_lt hji hi), if_pos rfl, mul_one]
    · intro q hq hne
      rw [unitM_at hji hi (Finset.mem_range.1 hq), if_neg hne, mul_zero]
    · intro c; exact absurd (Finset.mem_range.2 (hp_lt hji hi)) c
  rw [e]
  unfold RV
  rcases Nat.lt_or_ge j i with h | h
  · simp only [show i ≠ j by omega, if_false]
    refine (hX _ (ix_lt h hi)).congr_deriv ?_
    rw [coefV, if_pos (mem_tril_hp h hi), ix_low h]
  · obtain rfl : i = j := by omega
    simp only [if_true]
    rw [coefV, if_neg (diag_not_tril hi)]
    exact hasDerivAt_const _ _

theorem PDV_eventually {X : ℝ → ℕ → ℝ} {x' : ℕ → ℝ} (hX : PathN (trilInds n).length X x')
    (h : PDV n (X 0)) : ∀ᶠ t in nhds (0 : ℝ), PDV n (X t) := by
  refine pd_open (M := fun t => RV n (X t)) (fun i j hi hj => ?_) h
  rcases le_total j i with hji | hji
  · exact (RV_path hX hji hi).continuousAt
  · simp only [fun t => RV_symm (n := n) (X t) i j]
    exact (RV_path hX hji hj).continuousAt

/-- C80: `_jac_fwd` is the Jacobian of `_fwd`. -/
theorem C80_jac_fwd (chol) (hc : CholOk chol) (hn : 1 ≤ n) (x : ℕ → ℝ) (h : PDV n x) :
    IsJac (trilInds n).length (trilInds n).length (fwdV chol n) (jacFwdV n x) x := by
  intro X x' hX h0 k hk
  obtain ⟨r, s, h1, h2, rfl, -⟩ := ix_surj hk
  have hev := PDV_eventually hX (by rw [h0]; exact h)
  have hch : ∀ t, ∃ L, PDV n (X t) → IsChol n (RV n (X t)) L ∧
      ∀ r s, s < r → r < n → fwdV chol n (X t) (ix n r s) = L r s := by
    intro t
    by_cases ht : PDV n (X t)
    · obtain ⟨L, a, _, b⟩ := fwdV_defined chol hc hn ht
      exact ⟨L, fun _ => ⟨a, b⟩⟩
    · exact ⟨fun _ _ => 0, fun c => absurd c ht⟩
  choose F hF using hch
  have key := chol_path (n := n) (z := matSizeToHvSize n) 2 (by omega) (fun t => RV n (X t)) F
    (unitM n) (coefV n x') (hev.mono fun t ht => (hF t ht).1)
    (fun i j hji hi => RV_path hX hji hi) h1.le h2
  refine (key.congr_of_eventuallyEq (f₁ := fun t => fwdV chol n (X t) (ix n r s)) ?_).congr_deriv ?_
  · filter_upwards [hev] with t ht
    exact (hF t ht).2 r s h1 h2
  · obtain ⟨J, H, j1, -, j3⟩ := jacFwdV_defined hn h
    rw [coef_sum]
    refine Finset.sum_congr rfl fun b hb => ?_
    rw [jacFwdV, j1, Option.getD_some, (j3 r s h1 h2 b (Finset.mem_range.1 hb)).1, h0]

/-- C80: `_hess_fwd` is the derivative of `_jac_fwd`. -/
theorem C80_hess_fwd (hn : 1 ≤ n) (x : ℕ → ℝ) (h : PDV n x) :
    IsHess (trilInds n).length (trilInds n).length (jacFwdV n) (hessFwdV n x) x := by
  intro X x' hX h0 a ha k hk
  obtain ⟨r, s, h1, h2, rfl, -⟩ := ix_surj hk
  have hev := PDV_eventually hX (by rw [h0]; exact h)
  obtain ⟨L, hL⟩ := h.chol
  have key := chol_path2 (n := n) (z := matSizeToHvSize n) 2 (by omega) (fun t => RV n (X t)) L
    (unitM n) (coefV n x') (by rw [h0]; exact hL)
    (fun i j hji hi => RV_path hX hji hi) (a := (trilInds n).getD a 0) h1.le h2 (tril_lt ha)
  refine (key.congr_of_eventuallyEq (f₁ := fun t => jacFwdV n (X t) (ix n r s) a) ?_).congr_deriv ?_
  · filter_upwards [hev] with t ht
    obtain ⟨J, H, j1, -, j3⟩ := jacFwdV_defined hn ht
    rw [jacFwdV, j1, Option.getD_some, (j3 r s h1 h2 a ha).1]
  · obtain ⟨J, H, -, j2, j3⟩ := jacFwdV_defined hn h
    rw [coef_sum]
    refine Finset.sum_congr rfl fun b hb => ?_
    rw [hessFwdV, j2, Option.getD_some, (j3 r s h1 h2 a ha).2 b (Finset.mem_range.1 hb), h0]

/-! ## reverse derivatives -/

/-- Packed factors with row norms below one. -/
def BV (n : ℕ) (y : ℕ → ℝ) : Prop := LowBalls n (LV n y)

theorem rvsV_defined (hn : 1 ≤ n) (y : ℕ → ℝ) :
    corrRvs (listN (trilInds n).length y) = some (vecl (corrR n (low (LV n y))) n) := by
  rw [listN_vecl y (A := LV n y) fun i j _ _ => rfl]
  obtain ⟨Y, h1, h2⟩ := (C11_lower_half (LV n y) n).1 hn
  simp only [corrRvs, h1, Option.bind_eq_bind, Option.bind_some]
  exact congrArg some (vecl_congr fun i j hi hj => corrR_congr h2 i j hi (by omega))

theorem rvsV_at (hn : 1 ≤ n) (y : ℕ → ℝ) {r s : ℕ} (h1 : s < r) (h2 : r < n) :
    rvsV n y (ix n r s) = corrR n (low (LV n y)) r s := by
  rw [rvsV, rvsV_defined hn]; exact vecl_ix _ h1 h2

theorem RV_rvsV (hn : 1 ≤ n) {y : ℕ → ℝ} (h : BV n y) {i j : ℕ} (hi : i < n) (hj : j < n) :
    RV n (rvsV n y) i j = corrR n (low (LV n y)) i j := by
  have hC := corr_isCorr _ h
  have key : ∀ i j, j < i → i < n → RV n (rvsV n y) i j = corrR n (low (LV n y)) i j := by
    intro i j a b
    rw [RV, if_neg (by omega), rvsV_at hn y a b]
  rcases lt_trichotomy i j with g | rfl | g
  · rw [RV_symm, key j i g hj, hC.symm j i hj hi]
  · rw [hC.unit i hi, RV, if_pos rfl]
  · exact key i j g hi

theorem rvsV_chol (hn : 1 ≤ n) {y : ℕ → ℝ} (h : BV n y) :
    IsChol n (RV n (rvsV n y)) (corrL n (low (LV n y))) :=
  (corr_chol _ h).congr fun _ _ hi hj => (RV_rvsV hn h hi hj).symm

/-- C80: reverse values are packed positive definite correlations. -/
theorem rvsV_pd (hn : 1 ≤ n) {y : ℕ → ℝ} (h : BV n y) : PDV n (rvsV n y) :=
  (pd_iff_chol (RV_symm _)).2 ⟨_, rvsV_chol hn h⟩

theorem listN_rvsV (hn : 1 ≤ n) (y : ℕ → ℝ) :
    listN (trilInds n).length (rvsV n y) = vecl (corrR n (low (LV n y))) n :=
  listN_vecl _ fun _ _ a b => (rvsV_at hn y a b).symm

theorem fwdV_rvsV (chol) (hc : CholOk chol) (hn : 1 ≤ n) {y : ℕ → ℝ} (h : BV n y) {k : ℕ}
    (hk : k < (trilInds n).length) : fwdV chol n (rvsV n y) k = y k := by
  obtain ⟨r, s, h1, h2, rfl, -⟩ := ix_surj hk
  obtain ⟨L, l1, -, l3⟩ := fwdV_defined chol hc hn (rvsV_pd hn h)
  rw [l3 r s h1 h2, chol_unique l1 (rvsV_chol hn h) r s h2 (by omega), corrL, if_neg (by omega), low,
    if_pos h1, LV]

theorem low_diff {Y : ℝ → ℕ → ℝ} {y' : ℕ → ℝ} (hY : PathN (trilInds n).length Y y') {i : ℕ} (c : ℕ)
    (hi : i < n) : DifferentiableAt ℝ (fun t => low (LV n (Y t)) i c) 0 := by
  unfold low LV
  by_cases h : c < i
  · simp only [if_pos h]
    exact (hY _ (ix_lt h hi)).differentiableAt
  · simp only [if_neg h]
    exact differentiableAt_const _

theorem corrL_diff {Y : ℝ → ℕ → ℝ} {y' : ℕ → ℝ} (hY : PathN (trilInds n).length Y y') (h : BV n (Y 0))
    {i : ℕ} (c : ℕ) (hi : i < n) : DifferentiableAt ℝ (fun t => corrL n (low (LV n (Y t))) i c) 0 := by
  unfold corrL
  by_cases e : i = c
  · simp only [if_pos e]
    refine DifferentiableAt.sqrt ?_ ?_
    · exact (differentiableAt_const _).fun_sub
        (DifferentiableAt.fun_sum fun c _ => (low_diff hY c hi).fun_pow 2)
    · have := h i hi
      rw [← low_sum _ hi] at this
      linarith
  · simp only [if_neg e]
    exact low_diff hY c hi

theorem rvsV_diff (hn : 1 ≤ n) {Y : ℝ → ℕ → ℝ} {y' : ℕ → ℝ} (hY : PathN (trilInds n).length Y y')
    (h : BV n (Y 0)) : ∃ v, PathN (trilInds n).length (fun t => rvsV n (Y t)) v := by
  refine ⟨fun k => deriv (fun t => rvsV n (Y t) k) 0, fun k hk => ?_⟩
  obtain ⟨r, s, h1, h2, rfl, -⟩ := ix_surj hk
  refine DifferentiableAt.hasDerivAt ?_
  simp only [fun t => rvsV_at hn (Y t) h1 h2]
  unfold corrR
  exact DifferentiableAt.fun_sum fun c _ => (corrL_diff hY h c h2).fun_mul (corrL_diff hY h c (h1.trans h2))

theorem BV_eventually {Y : ℝ → ℕ → ℝ} {y' : ℕ → ℝ} (hY : PathN (trilInds n).length Y y')
    (h : BV n (Y 0)) : ∀ᶠ t in nhds (0 : ℝ), BV n (Y t) := by
  have : ∀ᶠ t in nhds (0 : ℝ), ∀ i ∈ Finset.range n, ∑ c ∈ Finset.range n, low (LV n (Y t)) i c ^ 2 < 1 := by
    rw [Filter.eventually_all_finset]
    intro i hi
    have hi := Finset.mem_range.1 hi
    have hd : DifferentiableAt ℝ (fun t => ∑ c ∈ Finset.range n, low (LV n (Y t)) i c ^ 2) 0 :=
      DifferentiableAt.fun_sum fun c _ => (low_diff hY c hi).fun_pow 2
    refine hd.continuousAt.eventually (Iio_mem_nhds ?_)
    beta_reduce
    rw [low_sum _ hi]; exact h i hi
  filter_upwards [this] with t ht i hi
  rw [← low_sum _ hi]; exact ht i (Finset.mem_range.2 hi)

/-- Along a path of factors the forward Jacobian maps the velocity of `_rvs` back. -/
theorem fwd_rvs_velocity (hn : 1 ≤ n) {Y : ℝ → ℕ → ℝ} {y' v : ℕ → ℝ}
    (hY : PathN (trilInds n).length Y y') (h : BV n (Y 0))
    (hv : PathN (trilInds n).length (fun t => rvsV n (Y t)) v) {k : ℕ} (hk : k < (trilInds n).length) :
    dotN (trilInds n).length (jacFwdV n (rvsV n (Y 0)) k) v = y' k := by
  classical
  let chol : ℕ → (ℕ → ℕ → ℝ) → Option (ℕ → ℕ → ℝ) := fun n A =>
    if h : ∃ L, IsChol n A L then some h.choose else none
  have hc : CholOk chol := fun n A h => ⟨h.choose, dif_pos h, h.choose_spec⟩
  have h1 := C80_jac_fwd chol hc hn _ (rvsV_pd hn h) (fun t => rvsV n (Y t)) v hv rfl k hk
  refine (h1.congr_of_eventuallyEq (f₁ := fun t => Y t k) ?_).unique (hY k hk)
  filter_upwards [BV_eventually hY h] with t ht
  exact (fwdV_rvsV chol hc hn ht hk).symm

/-- Contract of `np.linalg.inv`: a matrix with a right inverse is inverted. -/
def InvOk (inv : ℕ → (ℕ → ℕ → ℝ) → Option (ℕ → ℕ → ℝ)) : Prop :=
  ∀ m A, (∃ B, ∀ i, i < m → ∀ j, j < m → mulN m A B i j = eyeN i j) →
    ∃ G, inv m A = some G ∧ ∀ i, i < m → ∀ j, j < m → mulN m A G i j = eyeN i j ∧ mulN m G A i j = eyeN i j

theorem mulN_fin {m : ℕ} (A B : ℕ → ℕ → ℝ) : (Matrix.of fun i j : Fin m => mulN m A B i j) =
    (Matrix.of fun i j : Fin m => A i j) * Matrix.of fun i j : Fin m => B i j := by
  ext i j
  simp only [Matrix.of_apply, Matrix.mul_apply, mulN]
  exact Finset.sum_range fun k => A i k * B k j

theorem eyeN_fin (m : ℕ) : (Matrix.of fun i j : Fin m => eyeN i j) = 1 := by
  ext i j
  simp [eyeN, Matrix.one_apply, Fin.ext_iff]

theorem mul_eye_iff {m : ℕ} {A B : ℕ → ℕ → ℝ} : (∀ i, i < m → ∀ j, j < m → mulN m A B i j = eyeN i j) ↔
    (Matrix.of fun i j : Fin m => A i j) * (Matrix.of fun i j : Fin m => B i j) = 1 := by
  rw [← mulN_fin, ← eyeN_fin]
  constructor
  · intro h
    ext i j; exact h i i.2 j j.2
  · intro h i hi j hj
    exact congrFun (congrFun h ⟨i, hi⟩) ⟨j, hj⟩

/-- `InvOk` is satisfiable. -/
theorem invOk_exists : ∃ inv, InvOk inv := by
  classical
  refine ⟨fun m A => if h : ∃ G, (∀ i, i < m → ∀ j, j < m → mulN m A G i j = eyeN i j) ∧
    (∀ i, i < m → ∀ j, j < m → mulN m G A i j = eyeN i j) then some h.choose else none, ?_⟩
  rintro m A ⟨B, hB⟩
  have h : ∃ G, (∀ i, i < m → ∀ j, j < m → mulN m A G i j = eyeN i j) ∧
      (∀ i, i < m → ∀ j, j < m → mulN m G A i j = eyeN i j) :=
    ⟨B, hB, mul_eye_iff.2 (mul_eq_one_comm.1 (mul_eye_iff.1 hB))⟩
  exact ⟨h.choose, dif_pos h, fun i hi j hj => ⟨h.choose_spec.1 i hi j hj, h.choose_spec.2 i hi j hj⟩⟩

theorem jacFwdV_right (hn : 1 ≤ n) {y : ℕ → ℝ} (h : BV n y) : ∃ B, ∀ i, i < (trilInds n).length →
    ∀ j, j < (trilInds n).length → mulN (trilInds n).length (jacFwdV n (rvsV n y)) B i j = eyeN i j := by
  have hp : ∀ j, ∃ v, PathN (trilInds n).length
      (fun t => rvsV n (fun k => y k + t * (if k = j then 1 else 0))) v := fun j =>
    rvsV_diff hn (path_lineN _ y fun k => if k = j then 1 else 0) (by simpa using h)
  choose v hv using hp
  refine ⟨fun i j => v j i, fun i hi j _ => ?_⟩
  have := fwd_rvs_velocity hn (path_lineN _ y fun k => if k = j then 1 else 0) (by simpa using h) (hv j) hi
  simp only [zero_mul, add_zero] at this
  exact this

/-- C80: `_jac_rvs` is defined and is the inverse of the forward Jacobian at the image. -/
theorem C80_jac_inverse (inv) (hv : InvOk inv) (hn : 1 ≤ n) (y : ℕ → ℝ) (h : BV n y) :
    corrJacRvs inv n (listN (trilInds n).length y) = some (jacRvsV inv n y) ∧
    ∀ i, i < (trilInds n).length → ∀ j, j < (trilInds n).length →
      mulN (trilInds n).length (jacFwdV n (rvsV n y)) (jacRvsV inv n y) i j = eyeN i j ∧
      mulN (trilInds n).length (jacRvsV inv n y) (jacFwdV n (rvsV n y)) i j = eyeN i j := by
  obtain ⟨J, H, j1, -, -⟩ := jacFwdV_defined hn (rvsV_pd hn h)
  obtain ⟨G, g1, g2⟩ := hv _ _ (jacFwdV_right hn h)
  have e : corrJacRvs inv n (listN (trilInds n).length y) = some G := by
    simp only [corrJacRvs, rvsV_defined hn y, Option.bind_eq_bind, Option.bind_some, ← listN_rvsV hn y]
    rw [jacFwdV, j1] at g1
    rw [j1]; exact g1
  rw [jacRvsV, e]
  exact ⟨rfl, g2⟩

/-- C80: `_jac_rvs` is the Jacobian of `_rvs`. -/
theorem C80_jac_rvs (inv) (hv : InvOk inv) (hn : 1 ≤ n) (y : ℕ → ℝ) (h : BV n y) :
    IsJac (trilInds n).length (trilInds n).length (rvsV n) (jacRvsV inv n y) y := by
  intro Y y' hY h0 k hk
  obtain ⟨v, hvv⟩ := rvsV_diff hn hY (by rwa [h0])
  refine (hvv k hk).congr_deriv ?_
  have hg := (C80_jac_inverse inv hv hn y h).2
  have hy : ∀ i, i < (trilInds n).length → y' i = dotN (trilInds n).length (jacFwdV n (rvsV n y) i) v := by
    intro i hi
    rw [← fwd_rvs_velocity hn hY (by rwa [h0]) hvv hi, h0]
  beta_reduce
  unfold dotN at hy ⊢
  rw [Finset.sum_congr rfl fun q hq => by rw [hy q (Finset.mem_range.1 hq), Finset.mul_sum]]
  rw [Finset.sum_comm, Finset.sum_eq_single k]
  · rw [Finset.sum_congr rfl fun q _ => (mul_assoc _ _ _).symm, ← Finset.sum_mul]
    have := (hg k hk k hk).2
    rw [mulN, eyeN, if_pos rfl] at this
    rw [this, one_mul]
  · intro b hb hne
    rw [Finset.sum_congr rfl fun q _ => (mul_assoc _ _ _).symm, ← Finset.sum_mul]
    have := (hg k hk b (Finset.mem_range.1 hb)).2
    rw [mulN, eyeN, if_neg (Ne.symm hne)] at this
    rw [this, zero_mul]
  · intro c; exact absurd (Finset.mem_range.2 hk) c

/-- A product of a continuous function and a differentiable one vanishing at the point. -/
theorem cont_mul_deriv {c g : ℝ → ℝ} {d : ℝ} (hc : ContinuousAt c 0) (hg : HasDerivAt g d 0)
    (h0 : g 0 = 0) : HasDerivAt (fun t => c t * g t) (c 0 * d) 0 := by
  rw [hasDerivAt_iff_tendsto_slope] at hg ⊢
  have := (hc.tendsto.mono_left nhdsWithin_le_nhds).mul hg
  refine this.congr fun t => ?_
  simp only [slope, vsub_eq_sub, h0, sub_zero, mul_zero, smul_eq_mul]
  ring

theorem inv_continuous {m : ℕ} {J G : ℝ → ℕ → ℕ → ℝ}
    (hJ : ∀ i, i < m → ∀ j, j < m → ContinuousAt (fun t => J t i j) 0)
    (hG : ∀ᶠ t in nhds (0 : ℝ), ∀ i, i < m → ∀ j, j < m → mulN m (J t) (G t) i j = eyeN i j)
    (i : ℕ) (hi : i < m) (j : ℕ) (hj : j < m) : ContinuousAt (fun t => G t i j) 0 := by
  let A : ℝ → Matrix (Fin m) (Fin m) ℝ := fun t => Matrix.of fun i j => J t i j
  have hA : ContinuousAt A 0 := by
    refine continuousAt_pi.2 fun a => continuousAt_pi.2 fun b => hJ a a.2 b b.2
  have hdet : ContinuousAt (fun t => (A t).det) 0 :=
    ContinuousAt.comp (g := fun M : Matrix (Fin m) (Fin m) ℝ => M.det)
      (continuous_id.matrix_det).continuousAt hA
  have hadj : ContinuousAt (fun t => (A t).adjugate ⟨i, hi⟩ ⟨j, hj⟩) 0 :=
    ContinuousAt.comp (g := fun M : Matrix (Fin m) (Fin m) ℝ => M.adjugate ⟨i, hi⟩ ⟨j, hj⟩)
      ((continuous_id.matrix_adjugate).matrix_elem _ _).continuousAt hA
  have hd0 : (A 0).det ≠ 0 := by
    have := mul_eye_iff.1 hG.self_of_nhds
    intro e
    have h2 := congrArg Matrix.det this
    rw [Matrix.det_mul, Matrix.det_one] at h2
    change (A 0).det * _ = 1 at h2
    rw [e, zero_mul] at h2
    exact zero_ne_one h2
  refine ((hdet.inv₀ hd0).mul hadj).congr ?_
  filter_upwards [hG, hdet.eventually_ne hd0] with t ht hd
  have h1 := mul_eye_iff.1 ht
  have h2 : Matrix.of (fun i j : Fin m => G t i j) = (A t)⁻¹ := (Matrix.inv_eq_right_inv h1).symm
  have h3 := congrFun (congrFun h2 ⟨i, hi⟩) ⟨j, hj⟩
  rw [Matrix.of_apply] at h3
  rw [h3, Matrix.inv_def, Matrix.smul_apply, Ring.inverse_eq_inv', smul_eq_mul]
  rfl

/-- Derivative of the inverse of a path of matrices. -/
theorem inv_deriv {m : ℕ} {J G : ℝ → ℕ → ℕ → ℝ} {J' : ℕ → ℕ → ℝ}
    (hJ : ∀ i, i < m → ∀ j, j < m → HasDerivAt (fun t => J t i j) (J' i j) 0)
    (hG : ∀ᶠ t in nhds (0 : ℝ), ∀ i, i < m → ∀ j, j < m →
      mulN m (J t) (G t) i j = eyeN i j ∧ mulN m (G t) (J t) i j = eyeN i j)
    (i : ℕ) (hi : i < m) (j : ℕ) (hj : j < m) :
    HasDerivAt (fun t => G t i j)
      (∑ r ∈ Finset.range m, ∑ s ∈ Finset.range m, -(G 0 i r * J' r s * G 0 s j)) 0 := by
  have hc := inv_continuous (fun i hi j hj => (hJ i hi j hj).continuousAt)
    (hG.mono fun t ht i hi j hj => (ht i hi j hj).1)
  have key : HasDerivAt (fun t => G 0 i j + ∑ r ∈ Finset.range m, ∑ s ∈ Finset.range m,
      G t i r * (-((J t r s - J 0 r s) * G 0 s j)))
      (∑ r ∈ Finset.range m, ∑ s ∈ Finset.range m, G 0 i r * (-(J' r s * G 0 s j))) 0 := by
    refine HasDerivAt.const_add _ (HasDerivAt.fun_sum fun r hr => HasDerivAt.fun_sum fun s hs => ?_)
    have hr := Finset.mem_range.1 hr
    have hs := Finset.mem_range.1 hs
    exact cont_mul_deriv (hc i hi r hr) (((hJ r hr s hs).sub_const _).mul_const _).fun_neg (by simp)
  refine (key.congr_of_eventuallyEq ?_).congr_deriv ?_
  · filter_upwards [hG] with t ht
    have h0 := hG.self_of_nhds
    have e1 := mul_eye_iff.1 fun i hi j hj => (ht i hi j hj).2
    have e2 := mul_eye_iff.1 fun i hi j hj => (h0 i hi j hj).1
    generalize hA : (Matrix.of fun i j : Fin m => G t i j) = A at e1
    generalize hB : (Matrix.of fun i j : Fin m => J t i j) = B at e1
    generalize hC : (Matrix.of fun i j : Fin m => J 0 i j) = C at e2
    generalize hD : (Matrix.of fun i j : Fin m => G 0 i j) = D at e2
    have e3 : A = D + A * (-((B - C) * D)) := by
      have a1 : A * (B * D) = D := by rw [← Matrix.mul_assoc, e1, Matrix.one_mul]
      have a2 : A * (C * D) = A := by rw [e2, Matrix.mul_one]
      rw [Matrix.sub_mul, Matrix.mul_neg, Matrix.mul_sub, a1, a2]
      abel
    have e4 := congrFun (congrFun e3 ⟨i, hi⟩) ⟨j, hj⟩
    have e5 := e4
    rw [Matrix.add_apply, Matrix.mul_apply] at e5
    simp only [Matrix.neg_apply, Matrix.mul_apply, Matrix.sub_apply, ← hA, ← hB, ← hC, ← hD,
      Matrix.of_apply] at e5
    rw [e5]
    congr 1
    rw [Finset.sum_range]
    refine Finset.sum_congr rfl fun r _ => ?_
    rw [Finset.sum_range, ← Finset.mul_sum, Finset.sum_neg_distrib]
  · exact Finset.sum_congr rfl fun r _ => Finset.sum_congr rfl fun s _ => by ring

/-- C80: `_hess_rvs` is the derivative of `_jac_rvs`. -/
theorem C80_hess_rvs (inv) (hv : InvOk inv) (hn : 1 ≤ n) (y : ℕ → ℝ) (h : BV n y) :
    corrHessRvs inv n (listN (trilInds n).length y) = some (hessRvsV inv n y) ∧
    IsHess (trilInds n).length (trilInds n).length (jacRvsV inv n) (hessRvsV inv n y) y := by
  obtain ⟨J, H, j1, j2, -⟩ := jacFwdV_defined hn (rvsV_pd hn h)
  have hH : hessFwdV n (rvsV n y) = H := by rw [hessFwdV, j2]; rfl
  have e : corrHessRvs inv n (listN (trilInds n).length y) = some fun i j k =>
      ∑ r ∈ Finset.range (trilInds n).length, ∑ s ∈ Finset.range (trilInds n).length,
        ∑ t ∈ Finset.range (trilInds n).length, -H r s t * jacRvsV inv n y i r * jacRvsV inv n y s j *
          jacRvsV inv n y t k := by
    simp only [corrHessRvs, (C80_jac_inverse inv hv hn y h).1]
    simp only [rvsV_defined hn y, Option.bind_eq_bind, Option.bind_some, ← listN_rvsV hn y, j2,
      Option.pure_def]
  refine ⟨by rw [hessRvsV, e]; rfl, ?_⟩
  intro Y y' hY h0 j hj i hi
  have hb : BV n (Y 0) := by rwa [h0]
  have hr := C80_jac_rvs inv hv hn y h Y y' hY h0
  have hJ := C80_hess_fwd hn _ (rvsV_pd hn h) _ _ hr (by rw [h0])
  have key := inv_deriv (m := (trilInds n).length) (J := fun t => jacFwdV n (rvsV n (Y t)))
    (G := fun t => jacRvsV inv n (Y t)) (fun r hr s hs => hJ s hs r hr)
    ((BV_eventually hY hb).mono fun t ht => (C80_jac_inverse inv hv hn _ ht).2) i hi j hj
  refine key.congr_deriv ?_
  rw [hessRvsV, e, Option.getD_some, hH, h0]
  unfold dotN
  simp only [Finset.sum_mul, Finset.mul_sum]
  simp only [← Finset.sum_neg_distrib]
  symm
  rw [Finset.sum_comm]
  refine Finset.sum_congr rfl fun r _ => ?_
  rw [Finset.sum_comm]
  refine Finset.sum_congr rfl fun s _ => ?_
  rw [Finset.sum_comm]
  exact Finset.sum_congr rfl fun t _ => Finset.sum_congr rfl fun q _ => by ring

/-- The domains are not empty. -/
example : BV 3 fun _ => 1 / 2 := by
  intro i hi
  interval_cases i <;> norm_num [LV, Finset.sum_range_succ]

example : PDV 3 (rvsV 3 fun _ => 1 / 2) := rvsV_pd (by omega) (by
  intro i hi
  interval_cases i <;> norm_num [LV, Finset.sum_range_succ])

end Verif.Transf
