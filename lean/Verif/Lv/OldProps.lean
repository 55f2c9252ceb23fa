import Verif.Lv.Old
import Verif.Lv.SampleProps

namespace Verif.Lv
open Real Set Verif.Glm Verif.Transf Filter Topology

/-! ### The likelihood of a flattened table -/

theorem sum_flat (p q : ℕ) (f : ℕ → ℝ) : ∑ k ∈ Finset.range (p * q), f k = ∑ i ∈ Finset.range p, ∑ j ∈ Finset.range q, f (i * q + j) := by
  induction p with
  | zero => simp
  | succ m ih => rw [Nat.succ_mul, Finset.sum_range_add, ih, Finset.sum_range_succ]

namespace Flat
variable (T : Flat)

/-- The table with its rows and columns. -/
def pair : Pair := ⟨T.p - 1, T.q - 1, fun i j => T.vecx (i * T.q + j)⟩

theorem four_eq {f : ℝ → ℝ → ℝ → ℝ} {r : ℝ} (hf : ∀ u v, f u v r = f v u r) {i j : ℕ} (hj : j < T.q) :
    T.four f r (i * T.q + j) = Pair.cell f T.b T.a r i j := by
  have h1 : (i * T.q + j) % T.q = j := by rw [Nat.mul_comm, Nat.mul_add_mod, Nat.mod_eq_of_lt hj]
  have h2 : (i * T.q + j) / T.q = i := by
    rw [Nat.mul_comm, Nat.mul_add_div (by omega), Nat.div_eq_of_lt hj, Nat.add_zero]
  simp only [four, a1, a2, b1, b2, h1, h2, Pair.cell, region, Nat.add_sub_cancel]
  rw [hf (T.a (j + 1)), hf (T.a j), hf (T.a (j + 1)), hf (T.a j)]

theorem sum_pair (hp : 0 < T.p) (hq : 0 < T.q) {f : ℕ → ℝ} {g : ℕ → ℕ → ℝ} (h : ∀ i < T.p, ∀ j < T.q, f (i * T.q + j) = g i j) :
    ∑ k ∈ Finset.range (T.p * T.q), f k = ∑ i ∈ Finset.range (T.pair.m1 + 1), ∑ j ∈ Finset.range (T.pair.m2 + 1), g i j := by
  rw [sum_flat]
  have e1 : T.pair.m1 + 1 = T.p := Nat.sub_add_cancel hp
  have e2 : T.pair.m2 + 1 = T.q := Nat.sub_add_cancel hq
  rw [e1, e2]
  exact Finset.sum_congr rfl fun i hi => Finset.sum_congr rfl fun j hj => h i (Finset.mem_range.1 hi) j (Finset.mem_range.1 hj)

theorem pdf_symm (u v r : ℝ) : pdf u v r = pdf v u r := by
  unfold pdf pdfG
  dsimp only
  congr 2
  ring

theorem dpdf_symm (u v r : ℝ) : dpdf u v r = dpdf v u r := by
  unfold dpdf
  dsimp only
  rw [mul_comm u v]
  congr 2
  · congr 1
    ring
  · ring

/-- **C164** `loglike`, `gradient` and `hessian` of the flattened table are those of the table, with the thresholds `b` of the rows and `a` of
the columns; a distribution function that is symmetric in its first two arguments is all that is needed. -/
theorem C164_flat (hp : 0 < T.p) (hq : 0 < T.q) {F : ℝ → ℝ → ℝ → ℝ} {r : ℝ} (hF : ∀ u v, F u v r = F v u r) :
    T.loglike F r = T.pair.qloglike F T.b T.a r ∧ T.gradient F r = T.pair.qgradient F T.b T.a r ∧
      T.hessian F r = T.pair.qhessian F T.b T.a r := by
  refine ⟨?_, ?_, ?_⟩
  · unfold loglike Pair.qloglike Pair.nll
    refine congrArg Neg.neg (T.sum_pair hp hq fun i hi j hj => ?_)
    rw [T.four_eq hF hj]
    rfl
  · unfold gradient Pair.qgradient
    refine congrArg Neg.neg (T.sum_pair hp hq fun i hi j hj => ?_)
    rw [T.four_eq hF hj, T.four_eq (fun u v => pdf_symm u v r) hj]
    rfl
  · unfold hessian Pair.qhessian
    dsimp only
    rw [← Finset.sum_sub_distrib]
    simp only [← Finset.sum_sub_distrib]
    rw [← Finset.sum_neg_distrib]
    refine T.sum_pair hp hq fun i hi j hj => ?_
    rw [T.four_eq hF hj, T.four_eq (fun u v => pdf_symm u v r) hj, T.four_eq (fun u v => dpdf_symm u v r) hj]
    simp only [pair]
    ring

/-- **C164** `gradient` and `hessian` of `_Polychor` and `PolychoricCorr` are the derivatives of `loglike` where every counted cell has a
probability above `1e-8` (below, the bounds `1e-16` cut them off). -/
theorem C164_flat_partial (hp : 0 < T.p) (hq : 0 < T.q) {r : ℝ} (hr : |r| < 1) (ha : T.pair.Above (Pair.cell Phi2 T.b T.a r) (10 ^ (-8 : ℤ))) :
    HasDerivAt (T.loglike Phi2) (T.gradient Phi2 r) r ∧ HasDerivAt (T.gradient Phi2) (T.hessian Phi2 r) r := by
  have h := Pair.C161_quasi_partial (P := T.pair) T.b T.a hr ha
  have hn : ∀ᶠ s in 𝓝 r, |s| < 1 := (isOpen_lt continuous_abs continuous_const).mem_nhds hr
  have e := fun {s : ℝ} (hs : |s| < 1) => T.C164_flat hp hq (F := Phi2) (r := s) fun u v => Phi2_symm hs u v
  rw [(e hr).2.1, (e hr).2.2]
  exact ⟨h.1.congr_of_eventuallyEq (hn.mono fun s hs => (e hs).1), h.2.congr_of_eventuallyEq (hn.mono fun s hs => (e hs).2.1)⟩

/-- The hypotheses hold for a table with one cell between zero and one. -/
example : ∃ T : Flat, 0 < T.p ∧ 0 < T.q ∧ T.vecx 0 = 1 ∧ T.pair.Above (Pair.cell Phi2 T.b T.a 0) (10 ^ (-8 : ℤ)) := by
  refine ⟨⟨1, 1, fun _ => 1, fun k => k, fun k => k⟩, one_pos, one_pos, rfl, fun i hi j hj _ => ?_⟩
  have hi : i = 0 := Nat.le_zero.1 hi
  have hj : j = 0 := Nat.le_zero.1 hj
  subst hi hj
  have h := Pair.half_gap (le_refl (1 : ℝ))
  simp only [Pair.cell, region, Phi2_zero]
  norm_num
  nlinarith

end Flat

/-- **C164** `hessian` of `Polychoric` is the second derivative of the later version. -/
theorem C164_hessian (P : Pair) (F : ℝ → ℝ → ℝ → ℝ) (a b : ℕ → ℝ) (r : ℝ) : P.hessianO F a b r = P.qhessian F a b r := by
  unfold Pair.hessianO Pair.qhessian
  dsimp only
  rw [← Finset.sum_sub_distrib, ← Finset.sum_neg_distrib]
  refine Finset.sum_congr rfl fun i _ => ?_
  rw [← Finset.sum_sub_distrib, ← Finset.sum_neg_distrib]
  exact Finset.sum_congr rfl fun j _ => by ring

/-- **C164** `gradient_tanh` and `hessian_tanh` are the derivatives in the transformed correlation of any likelihood whose derivatives are
`gradient` and `hessian`. -/
theorem C164_tanh {ll g H : ℝ → ℝ} {y : ℝ} (h1 : HasDerivAt ll (g (tanh y)) (tanh y)) (h2 : HasDerivAt g (H (tanh y)) (tanh y)) :
    HasDerivAt (llTanh ll) (gTanh g y) y ∧ HasDerivAt (gTanh g) (hTanh g H y) y := by
  have ht := hasDerivAt_tanh' y
  refine ⟨h1.comp y ht, ?_⟩
  refine ((h2.comp y ht).fun_mul ((ht.fun_pow 2).const_sub 1)).congr_deriv ?_
  have hc : (1 : ℝ) / cosh y ^ 4 = (1 - tanh y ^ 2) ^ 2 := by
    have hne := (cosh_pos y).ne'
    rw [tanh_eq_sinh_div_cosh]
    have := cosh_sq y
    have h3 : 1 - (sinh y / cosh y) ^ 2 = 1 / cosh y ^ 2 := by
      field_simp
      linarith
    rw [h3]
    field_simp
  unfold hTanh gTanh
  dsimp only
  rw [hc]
  simp only [Function.comp_apply]
  push_cast
  ring

/-! ### Thresholds -/

theorem tInner_catt (ndtri : ℝ → ℝ) (x : List ℤ) : tInner ndtri (catt x) = tauc ndtri x := by
  unfold tInner tauc cprp
  rw [← List.map_dropLast, List.map_map]
  refine List.map_congr_left fun c _ => ?_
  generalize (catt x).sum = n
  simp

theorem tOuter_pad (t : List ℝ) {k : ℕ} (hk : k ≤ t.length + 1) : (tOuter t).getD k 0 = pad (-10 ^ 6) (10 ^ 6) t.length (fun k => t.getD k 0) k := by
  unfold tOuter pad
  rcases k with _ | k
  · simp
  · simp only [List.getD_eq_getElem?_getD, List.getElem?_cons_succ, Nat.add_eq_zero_iff, one_ne_zero, and_false, if_false, Nat.add_sub_cancel]
    by_cases h : k + 1 ≤ t.length
    · rw [if_pos h, List.getElem?_append_left (by omega)]
    · rw [if_neg h, List.getElem?_append_right (by omega)]
      have : k - t.length = 0 := by omega
      simp [this]

/-- `scipy.special.erfinv` inverts `erf`. -/
def IsErfinv (erf erfinv : ℝ → ℝ) : Prop := ∀ z ∈ Ioo (-1 : ℝ) 1, erf (erfinv z) = z

/-- **C164** `norm_qtf` inverts the normal distribution function. -/
theorem C164_qtf {erf erfinv : ℝ → ℝ} (he : IsErf erf) (hi : IsErfinv erf erfinv) : IsNdtri (normQtf erfinv) := by
  intro q hq
  rw [← he, normQtf, mul_div_cancel_left₀ _ (by positivity), hi _ ⟨by linarith [hq.1], by linarith [hq.2]⟩]
  ring

theorem range_map_catt (x : List ℤ) (f : ℕ → ℕ) (h : ∀ i < ncat x, f i = (catt x).getD i 0) : (List.range (ncat x)).map f = catt x := by
  refine List.ext_getElem (by simp [ncat]) fun k hk _ => ?_
  have hk' : k < ncat x := by simpa using hk
  have hk2 : k < (catt x).length := hk'
  simp [h k hk', hk2]

/-- **C164** The thresholds `polychor_thresh` computes from a table are those `_get_threshold` computes from the columns: the first array
belongs to the second variable, the columns of the table. -/
theorem C164_thresh (erfinv : ℝ → ℝ) (x y : List ℤ) (h : x.length = y.length) :
    polychorThresh erfinv (ncat x) (ncat y) (crosstab x y) = (tOuter (tauc (normQtf erfinv) y), tOuter (tauc (normQtf erfinv) x)) := by
  obtain ⟨m1, m2⟩ := C162_margins x y h
  have hN : ∑ i ∈ Finset.range (ncat x), ∑ j ∈ Finset.range (ncat y), crosstab x y i j = x.length := by
    rw [Finset.sum_congr rfl fun i hi => m1 i (Finset.mem_range.1 hi), ← C162_total x, ← Fin.sum_univ_eq_sum_range, ← List.sum_ofFn]
    congr 1
    refine List.ext_getElem (by simp [ncat]) fun k hk _ => ?_
    simp only [List.length_ofFn] at hk
    have hk2 : k < (catt x).length := hk
    simp [hk2]
  unfold polychorThresh
  dsimp only
  rw [hN, range_map_catt y _ m2, range_map_catt x _ m1, ← tInner_catt, ← tInner_catt]
  unfold tInner
  rw [C162_total, C162_total, List.map_dropLast, List.map_dropLast, h]

theorem complete_some (x y : List ℤ) : complete (x.map some) (y.map some) = x.zip y := by
  induction x generalizing y with
  | nil => simp [complete]
  | cons a x ih =>
    cases y with
    | nil => simp [complete]
    | cons b y =>
      have := ih y
      unfold complete at this ⊢
      simp [this]

theorem countsNan_some (x : List ℤ) : countsNan (x.map some) = catt x := by
  have h : (x.map some).count none = 0 := by
    rw [List.count_eq_zero]
    simp
  rw [countsNan, h, if_pos rfl, List.append_nil]
  congr 1
  simp [List.reduceOption]

/-- **C164** Without missing values the three classes agree on every pair: the table of the two columns and, for each, the sample thresholds
closed by ±1e6. -/
theorem C164_complete_partial {ndtri erfinv : ℝ → ℝ} (hn : ndtri = normQtf erfinv) (x y : List ℤ) (h : x.length = y.length) :
    let tx := fun k => (tOuter (tauc ndtri x)).getD k 0
    let ty := fun k => (tOuter (tauc ndtri y)).getD k 0
    initCrosstab ndtri (x.map some) (y.map some) = some (samplePair x y, tx, ty) ∧
      flatCorr ndtri (x.map some) (y.map some) = flatPolychor erfinv x y ∧
      (flatPolychor erfinv x y).b = tx ∧ (flatPolychor erfinv x y).a = ty ∧
      (∀ i < ncat x, ∀ j < ncat y, (flatPolychor erfinv x y).pair.counts i j = (samplePair x y).counts i j) := by
  have hx : (x.zip y).map Prod.fst = x := List.map_fst_zip h.le
  have hy : (x.zip y).map Prod.snd = y := List.map_snd_zip h.ge
  refine ⟨?_, ?_, ?_, ?_, fun i hi j hj => ?_⟩
  · unfold initCrosstab getThreshold
    simp only [if_true, Option.bind_eq_bind, Option.bind_some, complete_some, hx, hy, countsNan_some, tInner_catt]
  · unfold flatCorr flatPolychor
    dsimp only
    rw [complete_some, hx, hy, C164_thresh erfinv x y h, tInner_catt, tInner_catt, hn]
  · unfold flatPolychor
    dsimp only
    rw [C164_thresh erfinv x y h, hn]
  · unfold flatPolychor
    dsimp only
    rw [C164_thresh erfinv x y h, hn]
  · have h1 : (i * ncat y + j) % ncat y = j := by rw [Nat.mul_comm, Nat.mul_add_mod, Nat.mod_eq_of_lt hj]
    have h2 : (i * ncat y + j) / ncat y = i := by
      rw [Nat.mul_comm, Nat.mul_add_div (by omega), Nat.div_eq_of_lt hj, Nat.add_zero]
    simp only [Flat.pair, flatPolychor, samplePair, h1, h2]

/-! ### Missing values -/

/-- **C164** With missing values, the thresholds of `PolychoricCorr` for a pair are the sample thresholds of the rows its table counts. -/
theorem C164_pairwise (ndtri : ℝ → ℝ) (x y : List (Option ℤ)) :
    (flatCorr ndtri x y).b = (fun k => (tOuter (tauc ndtri ((complete x y).map Prod.fst))).getD k 0) ∧
      (flatCorr ndtri x y).a = (fun k => (tOuter (tauc ndtri ((complete x y).map Prod.snd))).getD k 0) := by
  unfold flatCorr
  dsimp only
  rw [tInner_catt, tInner_catt]
  exact ⟨rfl, rfl⟩

/-- **C164 (violated)** `_get_threshold(x, outer=False)` raises for every column. -/
theorem C164_outer_violated (ndtri : ℝ → ℝ) (x : List (Option ℤ)) : getThreshold ndtri x false = none := rfl

/-- **C164 (violated)** `Polychoric` takes missing values for a category: the thresholds of a column with values 0, 1 and two missing ones put
the whole table below the median, so its cells have a probability of at most one half in all. -/
theorem C164_nan_violated {ndtri : ℝ → ℝ} (hi : IsNdtri ndtri) : ∃ P a b,
    initCrosstab ndtri [some 0, some 1, none, none] [some 0, some 1, some 0, some 1] = some (P, a, b) ∧ P.m1 = 1 ∧ P.m2 = 1 ∧
      ∑ i ∈ Finset.range 2, ∑ j ∈ Finset.range 2, Pair.cell Phi2 a b 0 i j ≤ 1 / 2 := by
  refine ⟨_, _, _, rfl, by decide +kernel, by decide +kernel, ?_⟩
  have e1 : countsNan [some 0, some 1, none, none] = [1, 1, 2] := by decide +kernel
  have e2 : countsNan [some 0, some 1, some 0, some 1] = [2, 2] := by decide +kernel
  have t1 : tOuter (tInner ndtri [1, 1, 2]) = [-10 ^ 6, ndtri (1 / 4), ndtri (2 / 4), 10 ^ 6] := by
    simp [tOuter, tInner, cumsum]
  have t2 : tOuter (tInner ndtri [2, 2]) = [-10 ^ 6, ndtri (2 / 4), 10 ^ 6] := by
    simp [tOuter, tInner, cumsum]
  rw [e1, e2, t1, t2]
  simp only [Finset.sum_range_succ, Finset.sum_range_zero, Pair.cell, region, Phi2_zero, List.getD_cons_zero, List.getD_cons_succ, zero_add]
  have h := hi (2 / 4) ⟨by norm_num, by norm_num⟩
  have ha := ndtr0_range (-10 ^ 6)
  have hb := ndtr0_range (10 ^ 6)
  rw [h]
  generalize ndtr0 (-10 ^ 6) = A at *
  generalize ndtr0 (10 ^ 6) = B at *
  generalize ndtr0 (ndtri (1 / 4)) = C at *
  nlinarith [mul_pos ha.1 hb.1, mul_pos ha.1 ha.1, mul_pos ha.1 (sub_pos.2 hb.2), ha.1, ha.2, hb.1, hb.2]

/-- **C164 (violated)** In `Polychoric` a category whose rows all miss the other variable has no row in the table, and the thresholds move up
by one: three observations of the value 1 are given the thresholds of the value 0, although the column has no missing value. -/
theorem C164_dropped_violated {ndtri : ℝ → ℝ} (hi : IsNdtri ndtri) : ∃ P a b,
    initCrosstab ndtri [some 0, some 1, some 1, some 1] [none, some 0, some 0, some 1] = some (P, a, b) ∧ P.m1 = 0 ∧
      P.counts 0 0 + P.counts 0 1 = 3 ∧ a 0 = -10 ^ 6 ∧ ndtr0 (a 1) = 1 / 4 := by
  refine ⟨_, _, _, rfl, by decide +kernel, ?_, ?_, ?_⟩
  · have h1 : crosstab ((complete [some 0, some 1, some 1, some 1] [none, some 0, some 0, some 1]).map Prod.fst)
        ((complete [some 0, some 1, some 1, some 1] [none, some 0, some 0, some 1]).map Prod.snd) 0 0 = 2 := by decide +kernel
    have h2 : crosstab ((complete [some 0, some 1, some 1, some 1] [none, some 0, some 0, some 1]).map Prod.fst)
        ((complete [some 0, some 1, some 1, some 1] [none, some 0, some 0, some 1]).map Prod.snd) 0 1 = 1 := by decide +kernel
    simp only [samplePair, h1, h2]
    norm_num
  · simp [tOuter]
  · have e1 : countsNan [some 0, some 1, some 1, some 1] = [1, 3] := by decide +kernel
    have t1 : tOuter (tInner ndtri [1, 3]) = [-10 ^ 6, ndtri (1 / 4), 10 ^ 6] := by
      simp [tOuter, tInner, cumsum]
    rw [e1, t1]
    exact hi _ ⟨by norm_num, by norm_num⟩

/-! ### Table functions -/

/-- **C164** `polychor_ll` and `polychor_partial_ll` are the likelihood of the table at the thresholds they are given. -/
theorem C164_table {F : ℝ → ℝ → ℝ → ℝ} {r : ℝ} (hF : ∀ u v, F u v r = F v u r) (n k : ℕ) (X : ℕ → ℕ → ℝ) (a b : ℕ → ℝ) :
    -polychorLoglike F (n + 2) (k + 2) X a b r = (Pair.mk n k X).qloglike F b a r ∧
    (∀ params : ℕ → ℝ, params 0 = r → (∀ j, params (1 + j) = a j) → (∀ i, params (k + 2 + 1 + i) = b i) →
      polychorLl F (n + 2) X (k + 2) params = (Pair.mk n k X).qloglike F b a r) ∧
    ∀ params : ℕ → ℝ, (∀ j < k + 2, params j = a j) → (∀ i, params (k + 2 + i) = b i) →
      polychorPartialLl F (n + 2) r X (k + 2) params = (Pair.mk n k X).qloglike F b a r := by
  have key : ∀ a' : ℕ → ℝ, (∀ j < k + 2, a' j = a j) → -polychorLoglike F (n + 2) (k + 2) X a' b r = (Pair.mk n k X).qloglike F b a r := by
    intro a' ha
    unfold polychorLoglike Pair.qloglike Pair.nll
    refine congrArg Neg.neg (Finset.sum_congr rfl fun i _ => Finset.sum_congr rfl fun j hj => ?_)
    have hj' : j < k + 1 := Finset.mem_range.1 hj
    simp only [Pair.cell, region]
    rw [ha j (by omega), ha (j + 1) (by omega), hF (a (j + 1)), hF (a j), hF (a (j + 1)), hF (a j)]
    congr 3
    ring
  refine ⟨key a fun _ _ => rfl, fun params h0 h1 h2 => ?_, fun params h1 h2 => ?_⟩
  · unfold polychorLl
    simp only [h1, h2, h0]
    exact key a fun _ _ => rfl
  · unfold polychorPartialLl
    simp only [h2]
    exact key _ h1

/-- **C164** The five-point rule of `binorm_l` integrates every polynomial of degree nine exactly. -/
theorem C164_gauss {r : ℝ} (hr : r ≠ 0) (c : ℕ → ℝ) :
    gl5 (fun t => ∑ k ∈ Finset.range 10, c k * (2 * t / r - 1) ^ k) r = ∫ t in (0 : ℝ)..r, ∑ k ∈ Finset.range 10, c k * (2 * t / r - 1) ^ k := by
  have hint : ∫ t in (0 : ℝ)..r, ∑ k ∈ Finset.range 10, c k * (2 * t / r - 1) ^ k = r / 2 * ∑ k ∈ Finset.range 10, c k * ∫ u in (-1 : ℝ)..1, u ^ k := by
    have h2 : (2 : ℝ) / r ≠ 0 := div_ne_zero two_ne_zero hr
    have e : (fun t : ℝ => ∑ k ∈ Finset.range 10, c k * (2 * t / r - 1) ^ k) = fun t => (fun u => ∑ k ∈ Finset.range 10, c k * u ^ k) (2 / r * t - 1) := by
      funext t
      exact Finset.sum_congr rfl fun k _ => by rw [div_mul_eq_mul_div]
    rw [e, intervalIntegral.integral_comp_mul_sub (fun u => ∑ k ∈ Finset.range 10, c k * u ^ k) h2 1, smul_eq_mul, inv_div, mul_zero, zero_sub, div_mul_cancel₀ _ hr,
      intervalIntegral.integral_finsetSum fun k _ => Continuous.intervalIntegrable (by fun_prop) _ _]
    norm_num
  rw [hint]
  unfold gl5
  dsimp only
  have hx : ∀ x : ℝ, 2 * (x * (r / 2)) / r - 1 = x - 1 := fun x => by field_simp
  have hx0 : 2 * (r / 2) / r - 1 = 0 := by field_simp; ring
  simp only [hx, hx0, integral_pow]
  congr 1
  have hs : √(10 / 7) ^ 2 = 10 / 7 := sq_sqrt (by norm_num)
  have hs7 : √70 = 7 * √(10 / 7) := by
    rw [show (70 : ℝ) = 7 ^ 2 * (10 / 7) by norm_num, sqrt_mul (by norm_num), sqrt_sq (by norm_num)]
  have hs0 : 0 ≤ √(10 / 7) := sqrt_nonneg _
  have hs2 : √(10 / 7) ≤ 2 := by nlinarith
  rw [hs7]
  generalize √(10 / 7) = s at *
  have ha : √(5 - 2 * s) ^ 2 = 5 - 2 * s := sq_sqrt (by linarith)
  have hb : √(5 + 2 * s) ^ 2 = 5 + 2 * s := sq_sqrt (by linarith)
  generalize √(5 - 2 * s) = A at *
  generalize √(5 + 2 * s) = B at *
  have e1 : (1 - A / 3 - 1 : ℝ) = -(A / 3) := by ring
  have e2 : (1 + A / 3 - 1 : ℝ) = A / 3 := by ring
  have e3 : (1 - B / 3 - 1 : ℝ) = -(B / 3) := by ring
  have e4 : (1 + B / 3 - 1 : ℝ) = B / 3 := by ring
  rw [e1, e2, e3, e4]
  have s2 : s ^ 2 = 10 / 7 := hs
  have s3 : s ^ 3 = 10 / 7 * s := by rw [pow_succ, s2]
  have s4 : s ^ 4 = (10 / 7) ^ 2 := by rw [show s ^ 4 = (s ^ 2) ^ 2 by ring, s2]
  have s5 : s ^ 5 = (10 / 7) ^ 2 * s := by rw [pow_succ, s4]
  have a2 : (A / 3) ^ 2 = (5 - 2 * s) / 9 := by rw [div_pow, ha]; norm_num
  have b2 : (B / 3) ^ 2 = (5 + 2 * s) / 9 := by rw [div_pow, hb]; norm_num
  generalize A / 3 = A at *
  generalize B / 3 = B at *
  have a4 : A ^ 4 = ((5 - 2 * s) / 9) ^ 2 := by rw [← a2]; ring
  have a6 : A ^ 6 = ((5 - 2 * s) / 9) ^ 3 := by rw [← a2]; ring
  have a8 : A ^ 8 = ((5 - 2 * s) / 9) ^ 4 := by rw [← a2]; ring
  have b4 : B ^ 4 = ((5 + 2 * s) / 9) ^ 2 := by rw [← b2]; ring
  have b6 : B ^ 6 = ((5 + 2 * s) / 9) ^ 3 := by rw [← b2]; ring
  have b8 : B ^ 8 = ((5 + 2 * s) / 9) ^ 4 := by rw [← b2]; ring
  have m0 : (128 : ℝ) / 225 + 2 * ((322 + 13 * (7 * s)) / 900) + 2 * ((322 - 13 * (7 * s)) / 900) = 2 := by ring
  have m2 : 2 * ((322 + 13 * (7 * s)) / 900) * A ^ 2 + 2 * ((322 - 13 * (7 * s)) / 900) * B ^ 2 = 2 / 3 := by
    rw [a2, b2]
    linear_combination ((-182/2025 : ℝ) * s ^ 0) * s2
  have m4 : 2 * ((322 + 13 * (7 * s)) / 900) * A ^ 4 + 2 * ((322 - 13 * (7 * s)) / 900) * B ^ 4 = 2 / 5 := by
    rw [a4, b4]
    linear_combination ((-532/18225 : ℝ) * s ^ 0) * s2
  have m6 : 2 * ((322 + 13 * (7 * s)) / 900) * A ^ 6 + 2 * ((322 - 13 * (7 * s)) / 900) * B ^ 6 = 2 / 7 := by
    rw [a6, b6]
    linear_combination ((926/32805 : ℝ) * s ^ 0 + (-728/164025 : ℝ) * s ^ 2) * s2
  have m8 : 2 * ((322 + 13 * (7 * s)) / 900) * A ^ 8 + 2 * ((322 - 13 * (7 * s)) / 900) * B ^ 8 = 2 / 9 := by
    rw [a8, b8]
    linear_combination ((17752/295245 : ℝ) * s ^ 0 + (-3136/492075 : ℝ) * s ^ 2) * s2
  simp only [Finset.sum_range_succ, Finset.sum_range_zero]
  push_cast
  linear_combination c 0 * m0 + c 2 * m2 + c 4 * m4 + c 6 * m6 + c 8 * m8

end Verif.Lv
