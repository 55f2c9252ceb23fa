import Verif.Fa.RotationProps
import Mathlib.Analysis.Calculus.FDeriv.Basic
import Mathlib.Analysis.SpecificLimits.Basic
import Mathlib.Analysis.SpecialFunctions.Sqrt
/-! # C87: the gradient projection algorithm -/
namespace Verif.Fa
open Matrix Verif.Calc

variable {p m : ℕ}

/-! ## the line search -/

/-- A step that passes the test. -/
theorem search_spec (c : Crit p m) (rot : Rot p m) (A : Matrix (Fin p) (Fin m) ℝ) (T Gp : Matrix (Fin m) (Fin m) ℝ)
    (f s : ℝ) (n : ℕ) (alpha : ℝ) (ha : 0 < alpha) (r) (h : gpaSearch c rot A T Gp f s n alpha = some r) :
    0 < r.2 ∧ ∀ Tt Lt ft, r.1 = some (Tt, Lt, ft) → Tt = rot.retract (T - r.2 • Gp) ∧ rot.load A Tt = some Lt ∧
      ft = c.Q Lt ∧ ft < f - 0.5 * s * s * r.2 := by
  induction n generalizing alpha with
  | zero =>
    rw [gpaSearch] at h
    obtain rfl := Option.some.inj h
    exact ⟨ha, fun _ _ _ h => by cases h⟩
  | succ n ih =>
    rw [gpaSearch] at h
    simp only [Option.bind_eq_bind] at h
    obtain ⟨Lt, hl, h⟩ := Option.bind_eq_some_iff.1 h
    split at h
    · next hlt =>
      obtain rfl := Option.some.inj h
      refine ⟨ha, fun Tt Lt' ft e => ?_⟩
      simp only [Option.some.injEq, Prod.mk.injEq] at e
      obtain ⟨rfl, rfl, rfl⟩ := e
      exact ⟨rfl, hl, rfl, hlt⟩
    · exact ih _ (by linarith) h

/-- Without acceptance every trial failed the test. -/
theorem search_reject (c : Crit p m) (rot : Rot p m) (A : Matrix (Fin p) (Fin m) ℝ) (T Gp : Matrix (Fin m) (Fin m) ℝ)
    (f s : ℝ) (n : ℕ) (alpha : ℝ) (r) (h : gpaSearch c rot A T Gp f s n alpha = some r) (hr : r.1 = none)
    (i : ℕ) (hi : i < n) : ∃ Lt, rot.load A (rot.retract (T - (alpha * 0.5 ^ i) • Gp)) = some Lt ∧
      ¬ c.Q Lt < f - 0.5 * s * s * (alpha * 0.5 ^ i) := by
  induction n generalizing alpha i with
  | zero => omega
  | succ n ih =>
    rw [gpaSearch] at h
    simp only [Option.bind_eq_bind] at h
    obtain ⟨Lt, hl, h⟩ := Option.bind_eq_some_iff.1 h
    split at h
    · obtain rfl := Option.some.inj h
      cases hr
    · next hlt =>
      rcases i with _ | i
      · rw [pow_zero, mul_one]; exact ⟨Lt, hl, hlt⟩
      · have := ih _ h i (by omega)
        rwa [mul_assoc, ← pow_succ'] at this

/-! ## the outer loop -/

/-- The manifold and the property that a projected step retracts into it. -/
structure OnMan (rot : Rot p m) (Man : Matrix (Fin m) (Fin m) ℝ → Prop) : Prop where
  step : ∀ T G (a : ℝ), Man T → Man (rot.retract (T - a • rot.project T G))

/-- What holds of a state. -/
structure GpaInv (c : Crit p m) (rot : Rot p m) (A : Matrix (Fin p) (Fin m) ℝ)
    (Man : Matrix (Fin m) (Fin m) ℝ → Prop) (f0 : ℝ) (st : GpaState p m) : Prop where
  man : Man st.T
  load : rot.load A st.T = some st.L
  val : st.f = c.Q st.L
  grad : rot.grad A st.T (c.dQ st.L) = some st.G
  le : st.f ≤ f0
  hist : ∀ q ∈ st.hist, st.f ≤ q.1
  mono : st.hist.Pairwise fun a b => b.1 < a.1

theorem loop_spec (c : Crit p m) (rot : Rot p m) (A : Matrix (Fin p) (Fin m) ℝ)
    (Man : Matrix (Fin m) (Fin m) ℝ → Prop) (hman : OnMan rot Man) (f0 tol : ℝ) (ls : ℕ)
    (n : ℕ) (st st' : GpaState p m) (ha : 0 < st.alpha) (hi : GpaInv c rot A Man f0 st)
    (hlt : ∀ q ∈ st.hist, st.f < q.1) (hs : ∀ s, st.s = some s → ¬ s < tol)
    (h : gpaLoop c rot A tol ls n st = some st') :
    GpaInv c rot A Man f0 st' ∧ st'.hist.length ≤ st.hist.length + n ∧
      ∀ s, st'.s = some s → s < tol → s = froNorm (rot.project st'.T st'.G) := by
  induction n generalizing st with
  | zero =>
    rw [gpaLoop] at h
    obtain rfl := Option.some.inj h
    exact ⟨hi, by omega, fun s h1 h2 => absurd h2 (hs s h1)⟩
  | succ n ih =>
    rw [gpaLoop] at h
    have hi1 : ∀ q ∈ st.hist ++ [(st.f, froNorm (rot.project st.T st.G))], st.f ≤ q.1 := by
      intro q hq
      rcases List.mem_append.1 hq with hq | hq
      · exact (hlt q hq).le
      · rw [List.mem_singleton.1 hq]
    have hi2 : (st.hist ++ [(st.f, froNorm (rot.project st.T st.G))]).Pairwise fun a b => b.1 < a.1 := by
      rw [List.pairwise_append]
      refine ⟨hi.mono, List.pairwise_singleton _ _, fun a ha b hb => ?_⟩
      rw [List.mem_singleton.1 hb]; exact hlt a ha
    simp only at h
    split at h
    · next htol =>
      obtain rfl := Option.some.inj h
      refine ⟨⟨hi.man, hi.load, hi.val, hi.grad, hi.le, hi1, hi2⟩, ?_, ?_⟩
      · simp only [List.length_append, List.length_singleton]; omega
      · intro s h1 _; exact (Option.some.inj h1).symm
    · next htol =>
      simp only [Option.bind_eq_bind] at h
      obtain ⟨r, hr, h⟩ := Option.bind_eq_some_iff.1 h
      have hsp := search_spec c rot A _ _ _ _ _ _ (by linarith : 0 < st.alpha * 2.0) r hr
      split at h
      · next hnone =>
        obtain rfl := Option.some.inj h
        refine ⟨⟨hi.man, hi.load, hi.val, hi.grad, hi.le, hi1, hi2⟩, ?_, ?_⟩
        · simp only [List.length_append, List.length_singleton]; omega
        · intro s h1 h2; exact (Option.some.inj h1).symm
      · next Tt Lt ft hsome =>
        obtain ⟨e1, e2, e3, e4⟩ := hsp.2 Tt Lt ft hsome
        obtain ⟨G, hG, h⟩ := Option.bind_eq_some_iff.1 h
        have hdec : ft < st.f := by
          have h0 : 0 ≤ 0.5 * froNorm (rot.project st.T st.G) * froNorm (rot.project st.T st.G) * r.2 := by
            have := mul_self_nonneg (froNorm (rot.project st.T st.G))
            have := mul_nonneg this hsp.1.le
            nlinarith
          linarith
        have := ih (GpaState.mk Tt Lt ft G (some (froNorm (rot.project st.T st.G))) r.2
            (st.hist ++ [(st.f, froNorm (rot.project st.T st.G))])) hsp.1
          ⟨by rw [e1]; exact hman.step _ _ _ hi.man, e2, e3, hG, hdec.le.trans hi.le,
            fun q hq => (hdec.trans_le (hi1 q hq)).le, hi2⟩
          (fun q hq => hdec.trans_le (hi1 q hq))
          (fun s h1 => by rw [← Option.some.inj h1]; exact htol) h
        refine ⟨this.1, ?_, this.2.2⟩
        have := this.2.1
        simp only [List.length_append, List.length_singleton] at this
        omega

/-- What `GPA.solve` returns: a point of the manifold with its loadings, value and gradient; the values in
the trace strictly decrease and the result is no worse than the start; a reported norm below the tolerance
is the norm of the projected gradient at the returned point. -/
structure GpaOk (c : Crit p m) (rot : Rot p m) (A : Matrix (Fin p) (Fin m) ℝ)
    (Man : Matrix (Fin m) (Fin m) ℝ → Prop) (tol : ℝ) (n : ℕ) (T0 : Matrix (Fin m) (Fin m) ℝ)
    (st : GpaState p m) : Prop where
  man : Man st.T
  load : rot.load A st.T = some st.L
  val : st.f = c.Q st.L
  le : ∃ L0, rot.load A T0 = some L0 ∧ st.f ≤ c.Q L0
  hist : ∀ q ∈ st.hist, st.f ≤ q.1
  mono : st.hist.Pairwise fun a b => b.1 < a.1
  iters : st.hist.length ≤ n
  conv : ∃ G, rot.grad A st.T (c.dQ st.L) = some G ∧
    ∀ s, st.s = some s → s < tol → froNorm (rot.project st.T G) < tol

theorem gpa_generic (c : Crit p m) (rot : Rot p m) (A : Matrix (Fin p) (Fin m) ℝ)
    (Man : Matrix (Fin m) (Fin m) ℝ → Prop) (hman : OnMan rot Man) (alpha0 tol : ℝ) (n ls : ℕ)
    (T0 : Option (Matrix (Fin m) (Fin m) ℝ)) (h0 : Man (T0.getD 1)) (ha : 0 < alpha0) (st)
    (h : gpaSolve c rot A alpha0 tol n ls T0 = some st) :
    GpaOk c rot A Man tol n (T0.getD 1) st := by
  unfold gpaSolve at h
  simp only [Option.bind_eq_bind] at h
  obtain ⟨L, hL, h⟩ := Option.bind_eq_some_iff.1 h
  obtain ⟨G, hG, h⟩ := Option.bind_eq_some_iff.1 h
  have := loop_spec c rot A Man hman (c.Q L) tol ls n _ st ha
    ⟨h0, hL, rfl, hG, le_refl _, by simp, by simp⟩ (by simp) (by simp) h
  obtain ⟨hi, h2, h3⟩ := this
  exact ⟨hi.man, hi.load, hi.val, ⟨L, hL, hi.le⟩, hi.hist, hi.mono, by simpa using h2,
    ⟨_, hi.grad, fun s h1 h2 => h3 s h1 h2 ▸ h2⟩⟩

/-- C87: `GPA` with orthogonal rotation. -/
theorem C87_ortho (hm : 0 < m) (c : Crit p m) (svd) (hs : SvdOk (m := m) svd) (A : Matrix (Fin p) (Fin m) ℝ)
    (alpha0 tol : ℝ) (n ls : ℕ) (T0 : Option (Matrix (Fin m) (Fin m) ℝ))
    (h0 : (T0.getD 1)ᵀ * T0.getD 1 = 1 ∧ (T0.getD 1).det = 1) (ha : 0 < alpha0) (st)
    (h : gpaSolve c (orthoRot svd p) A alpha0 tol n ls T0 = some st) :
    GpaOk c (orthoRot svd p) A (fun T => Tᵀ * T = 1 ∧ T.det = 1) tol n (T0.getD 1) st :=
  gpa_generic c _ A _ ⟨fun _ _ _ _ => C84_ortho_retract hm svd hs _⟩ alpha0 tol n ls T0 h0 ha st h

/-- C87: `GPA` with oblique rotation. -/
theorem C87_oblique (c : Crit p m) (A : Matrix (Fin p) (Fin m) ℝ)
    (alpha0 tol : ℝ) (n ls : ℕ) (T0 : Option (Matrix (Fin m) (Fin m) ℝ))
    (h0 : ∀ j, ∑ i, T0.getD 1 i j * T0.getD 1 i j = 1) (ha : 0 < alpha0) (st)
    (h : gpaSolve c (oblRot p m) A alpha0 tol n ls T0 = some st) :
    GpaOk c (oblRot p m) A (fun T => ∀ j, ∑ i, T i j * T i j = 1) tol n (T0.getD 1) st :=
  gpa_generic c _ A _ ⟨fun T G a hT => (C84_oblique_retract _ fun j => by
    by_contra hz
    push Not at hz
    have := C84_oblique_step T G hT a j
    rw [Finset.sum_eq_zero fun i _ => by
      change (T - a • oblProject T G) i j * (T - a • oblProject T G) i j = 0
      have := hz i
      change (T - a • oblProject T G) i j = 0 at this
      rw [this, zero_mul]] at this
    linarith).1⟩ alpha0 tol n ls T0 h0 ha st h

/-! ## the line search succeeds -/

/-- A function with derivative `-s²` passes the test for small steps. -/
theorem armijo {phi : ℝ → ℝ} {f s : ℝ} (h : HasDerivAt phi (-(s * s)) 0) (h0 : phi 0 = f) (hs : s ≠ 0) :
    ∃ e > 0, ∀ a, 0 < a → a < e → phi a < f - 0.5 * s * s * a := by
  have hd : HasDerivAt (fun a => phi a - (f - 0.5 * s * s * a)) (-(s * s) - -(0.5 * s * s)) 0 := by
    refine h.fun_sub ?_
    exact ((hasDerivAt_const (0 : ℝ) f).fun_sub ((hasDerivAt_id (0 : ℝ)).const_mul (0.5 * s * s))).congr_deriv (by simp)
  rw [hasDerivAt_iff_tendsto_slope] at hd
  have hneg : -(s * s) - -(0.5 * s * s) < 0 := by
    have := mul_self_pos.2 hs
    nlinarith
  have hev := hd.eventually (gt_mem_nhds hneg)
  rw [eventually_nhdsWithin_iff, Metric.eventually_nhds_iff] at hev
  obtain ⟨e, he, hev⟩ := hev
  refine ⟨e, he, fun a ha hae => ?_⟩
  have := hev (y := a) (by rw [Real.dist_eq, sub_zero, abs_of_pos ha]; exact hae) (by simpa using ha.ne')
  simp only [slope, vsub_eq_sub, sub_zero, smul_eq_mul, h0, mul_zero, sub_self] at this
  have h2 : phi a - (f - 0.5 * s * s * a) < 0 := by
    by_contra hc
    push Not at hc
    have := mul_nonneg (inv_nonneg.2 ha.le) hc
    linarith
  linarith

theorem search_accepts (c : Crit p m) (rot : Rot p m) (A : Matrix (Fin p) (Fin m) ℝ) (T Gp : Matrix (Fin m) (Fin m) ℝ)
    (f s alpha : ℝ) (ha : 0 < alpha) (hs : s ≠ 0) (L : ℝ → Matrix (Fin p) (Fin m) ℝ)
    (hL : ∀ᶠ a in nhds 0, rot.load A (rot.retract (T - a • Gp)) = some (L a))
    (hd : HasDerivAt (fun a => c.Q (L a)) (-(s * s)) 0) (h0 : c.Q (L 0) = f) :
    ∃ N, ∀ n ≥ N, ∀ r, gpaSearch c rot A T Gp f s n alpha = some r → r.1.isSome := by
  obtain ⟨e, he, hacc⟩ := armijo hd h0 hs
  rw [Metric.eventually_nhds_iff] at hL
  obtain ⟨e', he', hL⟩ := hL
  have hlim : Filter.Tendsto (fun i : ℕ => alpha * (0.5 : ℝ) ^ i) Filter.atTop (nhds 0) := by
    have := (tendsto_pow_atTop_nhds_zero_of_lt_one (r := (0.5 : ℝ)) (by norm_num) (by norm_num)).const_mul alpha
    rwa [mul_zero] at this
  obtain ⟨i, hi⟩ := (hlim.eventually (gt_mem_nhds (lt_min he he'))).exists
  have hpos : 0 < alpha * (0.5 : ℝ) ^ i := by positivity
  refine ⟨i + 1, fun n hn r hr => ?_⟩
  by_contra hnone
  rw [Option.not_isSome_iff_eq_none] at hnone
  obtain ⟨Lt, h1, h2⟩ := search_reject c rot A T Gp f s n alpha r hr hnone i (by omega)
  rw [hL (by rw [Real.dist_eq, sub_zero, abs_of_pos hpos]; exact hi.trans_le (min_le_right _ _))] at h1
  obtain rfl := Option.some.inj h1
  exact h2 (hacc _ hpos (hi.trans_le (min_le_left _ _)))

theorem fro_sub_left (A B C : Matrix (Fin p) (Fin m) ℝ) : fro (A - B) C = fro A C - fro B C := by
  simp only [fro, Matrix.sub_apply, sub_mul, Finset.sum_sub_distrib]

theorem fro_neg_right (A B : Matrix (Fin p) (Fin m) ℝ) : fro A (-B) = -fro A B := by
  simp only [fro, Matrix.neg_apply, mul_neg, Finset.sum_neg_distrib]

/-- The oblique retraction is first order exact along a projected step. -/
theorem oblRetract_md (T G : Matrix (Fin m) (Fin m) ℝ) (hT : ∀ j, ∑ i, T i j * T i j = 1) :
    MD (fun a => oblRetract (T - a • oblProject T G)) (-oblProject T G) ∧
    oblRetract (T - (0 : ℝ) • oblProject T G) = T := by
  have hX : MD (fun a : ℝ => T - a • oblProject T G) (-oblProject T G) := by
    have := MD.line T (-oblProject T G)
    simpa only [smul_neg, ← sub_eq_add_neg] using this
  have z := (C84_oblique_project T G hT).1
  constructor
  · intro i j
    have hn := HasDerivAt.fun_sum (u := Finset.univ) fun x _ => (hX x j).fun_mul (hX x j)
    beta_reduce at hn
    simp only [zero_smul, sub_zero] at hn
    have hn' := hn.sqrt (by simp only [zero_smul, sub_zero, hT]; norm_num)
    have := (hX i j).fun_div hn' (by simp only [zero_smul, sub_zero, hT, Real.sqrt_one]; norm_num)
    refine this.congr_deriv ?_
    beta_reduce
    simp only [zero_smul, sub_zero, hT, Real.sqrt_one, Matrix.neg_apply]
    have e : ∑ x, (-oblProject T G x j * T x j + T x j * -oblProject T G x j) = 0 := by
      rw [Finset.sum_congr rfl fun x _ => show -oblProject T G x j * T x j + T x j * -oblProject T G x j =
        -2 * (T x j * oblProject T G x j) by ring, ← Finset.mul_sum, z, mul_zero]
    rw [e]; simp
  · ext i j
    rw [zero_smul, sub_zero, oblRetract, of_apply, hT, Real.sqrt_one, div_one]

/-- C87: for oblique rotation, at a point that is not stationary, the step-halving loop accepts a step once
it is allowed enough halvings (unless `np.linalg.inv` raises at some trial). -/
theorem C87_oblique_accepts (c : Crit p m) (hc : CritOk c) (A : Matrix (Fin p) (Fin m) ℝ)
    (T : Matrix (Fin m) (Fin m) ℝ) (hT : ∀ j, ∑ i, T i j * T i j = 1) (L G)
    (hL : oblLoad A T = some L) (hG : oblGrad A T (c.dQ L) = some G)
    (hne : froNorm (oblProject T G) ≠ 0) (alpha : ℝ) (ha : 0 < alpha) :
    ∃ N, ∀ n ≥ N, ∀ r, gpaSearch c (oblRot p m) A T (oblProject T G) (c.Q L) (froNorm (oblProject T G)) n alpha = some r →
      r.1.isSome := by
  obtain ⟨hR, hR0⟩ := oblRetract_md T G hT
  have hu : IsUnit T.det := by
    rw [oblLoad, Option.map_eq_some_iff] at hL
    obtain ⟨_, h, _⟩ := hL
    exact (inv?_eq h).1
  obtain ⟨Lp, G', h1, h2, h3⟩ := C84_oblique_grad c hc A _ _ hR (by beta_reduce; rw [hR0]; exact hu)
  beta_reduce at h2
  have hL0 : Lp 0 = L := by
    have := h1.self_of_nhds
    rw [hR0, hL] at this
    exact (Option.some.inj this).symm
  rw [hR0, hL0, hG] at h2
  obtain rfl := Option.some.inj h2
  refine search_accepts c (oblRot p m) A T _ _ _ alpha ha hne Lp h1 (h3.congr_deriv ?_) (by rw [hL0])
  have hp := C84_oblique_project T G hT
  have := hp.2.1 _ hp.1
  rw [fro_sub_left] at this
  rw [fro_neg_right, froNorm_sq]; linarith

/-- A quantity bounded by a multiple of the square of the step has derivative zero. -/
theorem deriv_of_sq {g : ℝ → ℝ} {C : ℝ} (h : ∀ᶠ a in nhds 0, |g a| ≤ C * a ^ 2) : HasDerivAt g 0 0 := by
  have : g =O[nhds 0] fun x => ‖x - 0‖ ^ 2 := by
    refine Asymptotics.IsBigO.of_bound C (h.mono fun a ha => ?_)
    simpa using ha
  have := this.hasFDerivAt (𝕜 := ℝ) (by norm_num)
  exact this.hasDerivAt

theorem orth_entry_le {U : Matrix (Fin m) (Fin m) ℝ} (h : Uᵀ * U = 1) (i j : Fin m) : |U i j| ≤ 1 := by
  have h1 := congrFun (congrFun h j) j
  rw [Matrix.mul_apply, one_apply_eq] at h1
  have h2 : U i j * U i j ≤ ∑ k, Uᵀ j k * U k j :=
    Finset.single_le_sum (f := fun k => Uᵀ j k * U k j) (fun k _ => mul_self_nonneg (U k j)) (Finset.mem_univ i)
  rw [← sq_le_one_iff_abs_le_one, sq]; linarith

/-- The orthogonal retraction is first order exact along a projected step. -/
theorem orthoRetract_md (svd) (hs : SvdOk (m := m) svd) (T G : Matrix (Fin m) (Fin m) ℝ)
    (hT : Tᵀ * T = 1) (hd : T.det = 1) :
    MD (fun a => orthoRetract svd (T - a • orthoProject T G)) (-orthoProject T G) ∧
    orthoRetract svd (T - (0 : ℝ) • orthoProject T G) = T := by
  set P := orthoProject T G with hP
  have sk := (C84_ortho_project T G hT).1
  rw [← hP] at sk
  have hX : MD (fun a : ℝ => T - a • P) (-P) := by
    have := MD.line T (-P)
    simpa only [smul_neg, ← sub_eq_add_neg] using this
  have hXX : ∀ a : ℝ, (T - a • P)ᵀ * (T - a • P) = 1 + a ^ 2 • (Pᵀ * P) := fun a => by
    have h2 : Pᵀ * T = -(Tᵀ * P) := by
      rw [← sk, transpose_mul, transpose_transpose]
    rw [transpose_sub, transpose_smul, Matrix.sub_mul, Matrix.mul_sub, Matrix.mul_sub, hT, Matrix.mul_smul,
      Matrix.smul_mul, smul_mul_smul_comm, h2, smul_neg, sq]
    abel
  have hdet : ∀ᶠ a in nhds (0 : ℝ), 0 < (T - a • P).det := by
    have hcont : ContinuousAt (fun a : ℝ => (T - a • P).det) 0 :=
      (Continuous.matrix_det (A := fun M : Matrix (Fin m) (Fin m) ℝ => M) continuous_id).continuousAt.comp hX.continuousAt
    have h0 : (T - (0 : ℝ) • P).det = 1 := by rw [zero_smul, sub_zero, hd]
    have := hcont.eventually (lt_mem_nhds (show (0 : ℝ) < (T - (0 : ℝ) • P).det by rw [h0]; norm_num))
    exact this
  have bound : ∀ a : ℝ, 0 < (T - a • P).det → ∀ i j,
      |orthoRetract svd (T - a • P) i j - (T - a • P) i j| ≤ (m * fro P P) * a ^ 2 := fun a hda i j => by
    set X := T - a • P with hXd
    set U := (svd X).1
    set V := (svd X).2.2
    set d := (svd X).2.1
    have hXe : U * diagonal d * V = X := hs.eq X
    have hu : Uᵀ * U = 1 := hs.u X
    have hv : V * Vᵀ = 1 := hs.v X
    have hv' : Vᵀ * V = 1 := mul_eq_one_comm.1 hv
    have hn : ∀ i, 0 ≤ d i := hs.nonneg X
    have hr : orthoRetract svd X = U * V := by
      rw [orthoRetract_eq]
      refine if_neg fun hneg => ?_
      have : X.det = (U * V).det * ∏ i, d i := by
        conv_lhs => rw [← hXe]
        rw [det_mul, det_mul, det_diagonal, det_mul]; ring
      have h2 : 0 ≤ ∏ i, d i := Finset.prod_nonneg fun i _ => hn i
      have h3 : (U * V).det < 0 := hneg
      nlinarith
    have hsq : ∀ k, d k ^ 2 = 1 + a ^ 2 * (V * (Pᵀ * P) * Vᵀ) k k := fun k => by
      have h1 : V * (Xᵀ * X) * Vᵀ = diagonal fun k => d k ^ 2 := by
        conv_lhs => rw [← hXe]
        rw [transpose_mul, transpose_mul, diagonal_transpose,
          show V * (Vᵀ * (diagonal d * Uᵀ) * (U * diagonal d * V)) * Vᵀ =
            (V * Vᵀ) * diagonal d * (Uᵀ * U) * diagonal d * (V * Vᵀ) by simp only [Matrix.mul_assoc],
          hu, hv, Matrix.one_mul, Matrix.mul_one, Matrix.mul_one, diagonal_mul_diagonal]
        congr 1; funext k; ring
      rw [hXd, hXX, Matrix.mul_add, Matrix.mul_one, Matrix.add_mul, hv, Matrix.mul_smul, Matrix.smul_mul] at h1
      have := congrFun (congrFun h1 k) k
      rw [Matrix.add_apply, one_apply_eq, Matrix.smul_apply, smul_eq_mul, diagonal_apply_eq] at this
      exact this.symm
    have htr : ∑ k, (V * (Pᵀ * P) * Vᵀ) k k = fro P P := by
      have : (V * (Pᵀ * P) * Vᵀ).trace = fro P P := by
        rw [Matrix.trace_mul_comm, ← Matrix.mul_assoc, hv', Matrix.one_mul, ← fro_trace]
      exact this
    have hnn : ∀ k, 0 ≤ (V * (Pᵀ * P) * Vᵀ) k k := fun k => by
      rw [show V * (Pᵀ * P) * Vᵀ = (P * Vᵀ)ᵀ * (P * Vᵀ) by
        rw [transpose_mul, transpose_transpose]; simp only [Matrix.mul_assoc], Matrix.mul_apply]
      exact Finset.sum_nonneg fun x _ => mul_self_nonneg _
    have hdk : ∀ k, |1 - d k| ≤ a ^ 2 * fro P P := fun k => by
      have h1 : (V * (Pᵀ * P) * Vᵀ) k k ≤ fro P P := by
        rw [← htr]; exact Finset.single_le_sum (f := fun k => (V * (Pᵀ * P) * Vᵀ) k k) (fun k _ => hnn k) (Finset.mem_univ k)
      have h2 : |1 - d k| * (1 + d k) = a ^ 2 * (V * (Pᵀ * P) * Vᵀ) k k := by
        have hge : 1 ≤ d k := by
          have := hsq k
          have := mul_nonneg (sq_nonneg a) (hnn k)
          nlinarith [hn k]
        rw [abs_of_nonpos (by linarith)]
        nlinarith [hsq k]
      have h3 := abs_nonneg (1 - d k)
      have h4 := hn k
      have h5 := mul_le_mul_of_nonneg_left h1 (sq_nonneg a)
      nlinarith
    have e : orthoRetract svd X i j - X i j = ∑ k, U i k * (1 - d k) * V k j := by
      rw [hr]
      conv_lhs => rw [← hXe]
      rw [Matrix.mul_apply, Matrix.mul_apply, ← Finset.sum_sub_distrib]
      refine Finset.sum_congr rfl fun k _ => ?_
      rw [Matrix.mul_diagonal]; ring
    rw [e]
    calc |∑ k, U i k * (1 - d k) * V k j| ≤ ∑ k, |U i k * (1 - d k) * V k j| := Finset.abs_sum_le_sum_abs _ _
      _ ≤ ∑ _k : Fin m, a ^ 2 * fro P P := Finset.sum_le_sum fun k _ => by
          rw [abs_mul, abs_mul]
          have h1 := orth_entry_le hu i k
          have h2 := orth_entry_le hv' k j
          have h3 := hdk k
          calc |U i k| * |1 - d k| * |V k j| ≤ 1 * |1 - d k| * 1 := by
                gcongr
            _ ≤ _ := by rw [one_mul, mul_one]; exact h3
      _ = (m * fro P P) * a ^ 2 := by
          rw [Finset.sum_const, Finset.card_univ, Fintype.card_fin, nsmul_eq_mul]; ring
  constructor
  · intro i j
    have h1 := deriv_of_sq (hdet.mono fun a ha => bound a ha i j)
    have h2 := h1.fun_add (hX i j)
    refine (h2.congr_of_eventuallyEq (Filter.Eventually.of_forall fun a => ?_)).congr_deriv (zero_add _)
    ring
  · ext i j
    have := bound 0 (by rw [zero_smul, sub_zero, hd]; norm_num) i j
    have h0 : |orthoRetract svd (T - (0 : ℝ) • P) i j - (T - (0 : ℝ) • P) i j| = 0 :=
      le_antisymm (by simpa using this) (abs_nonneg _)
    have := sub_eq_zero.1 (abs_eq_zero.1 h0)
    rw [this, zero_smul, sub_zero]

/-- C87: for orthogonal rotation, at a point that is not stationary, the step-halving loop accepts a step
once it is allowed enough halvings. -/
theorem C87_ortho_accepts (c : Crit p m) (hc : CritOk c) (svd) (hs : SvdOk (m := m) svd)
    (A : Matrix (Fin p) (Fin m) ℝ) (T : Matrix (Fin m) (Fin m) ℝ) (hT : Tᵀ * T = 1) (hd : T.det = 1)
    (hne : froNorm (orthoProject T (orthoGrad A T (c.dQ (orthoLoad A T)))) ≠ 0) (alpha : ℝ) (ha : 0 < alpha) :
    ∃ N, ∀ n ≥ N, ∃ r, gpaSearch c (orthoRot svd p) A T (orthoProject T (orthoGrad A T (c.dQ (orthoLoad A T))))
      (c.Q (orthoLoad A T)) (froNorm (orthoProject T (orthoGrad A T (c.dQ (orthoLoad A T))))) n alpha = some r ∧
      r.1.isSome := by
  set G := orthoGrad A T (c.dQ (orthoLoad A T)) with hG
  obtain ⟨hR, hR0⟩ := orthoRetract_md svd hs T G hT hd
  have h3 := C84_ortho_grad c hc A _ _ hR
  beta_reduce at h3
  rw [hR0] at h3
  obtain ⟨N, hN⟩ := search_accepts c (orthoRot svd p) A T (orthoProject T G) (c.Q (orthoLoad A T))
    (froNorm (orthoProject T G)) alpha ha hne
    (fun a => orthoLoad A (orthoRetract svd (T - a • orthoProject T G))) (Filter.Eventually.of_forall fun _ => rfl)
    (h3.congr_deriv (by
      have hp := C84_ortho_project T G hT
      have := hp.2.1 _ hp.1
      rw [fro_sub_left] at this
      rw [fro_neg_right, froNorm_sq, ← hG]; linarith)) (by rw [hR0])
  refine ⟨N, fun n hn => ?_⟩
  have hex : ∀ (n : ℕ) (alpha : ℝ), ∃ r, gpaSearch c (orthoRot svd p) A T (orthoProject T G)
      (c.Q (orthoLoad A T)) (froNorm (orthoProject T G)) n alpha = some r := by
    intro n
    induction n with
    | zero => intro alpha; exact ⟨_, rfl⟩
    | succ n ih =>
      intro alpha
      rw [gpaSearch]
      simp only [orthoRot, Option.bind_eq_bind, Option.bind_some]
      split
      · exact ⟨_, rfl⟩
      · exact ih _
  obtain ⟨r, hr⟩ := hex n alpha
  exact ⟨r, hr, hN n hn r hr⟩

/-- The hypotheses are satisfiable: a singular value decomposition of one-by-one matrices. -/
noncomputable def svd1 (X : Matrix (Fin 1) (Fin 1) ℝ) :
    Matrix (Fin 1) (Fin 1) ℝ × (Fin 1 → ℝ) × Matrix (Fin 1) (Fin 1) ℝ :=
  (if 0 ≤ X 0 0 then 1 else -1, fun _ => |X 0 0|, 1)

example : SvdOk svd1 where
  eq X := by
    ext i j
    fin_cases i; fin_cases j
    simp only [svd1]
    split
    · next h => simp [abs_of_nonneg h]
    · next h => simp [abs_of_neg (not_le.1 h)]
  u X := by simp only [svd1]; split <;> simp
  v X := by simp [svd1]
  nonneg X i := abs_nonneg _
  anti X i j _ := le_refl _

end Verif.Fa
