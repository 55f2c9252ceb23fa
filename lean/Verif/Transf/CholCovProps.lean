import Verif.Transf.CholCovLemmas
/-! # C77: `CholeskyCov` parametrises the positive definite matrices by all real vectors -/
namespace Verif.Transf
open Verif.Np Verif.Vec Verif.Index Verif.Lin Real

variable {n : ℕ}

/-- The symmetric matrix of a half-vectorised one. -/
def symM (n : ℕ) (x : ℕ → ℝ) : ℕ → ℕ → ℝ := fun i j => x (hp n (max i j) (min i j))

theorem symM_symm (n : ℕ) (x : ℕ → ℝ) (i j : ℕ) : symM n x i j = symM n x j i := by
  rw [symM, symM, max_comm, min_comm]

theorem symM_low {x : ℕ → ℝ} {i j : ℕ} (h : j ≤ i) : symM n x i j = x (hp n i j) := by
  rw [symM, max_eq_left h, min_eq_right h]

theorem _root_.Verif.Lin.PDOn.mono {A : ℕ → ℕ → ℝ} (h : PDOn n A) {i : ℕ} (hi : i ≤ n) : PDOn i A := by
  intro v hv
  obtain ⟨a, ha, hv⟩ := hv
  have := h (fun k => if k < i then v k else 0) ⟨a, by omega, by simpa [ha] using hv⟩
  have key : ∑ r ∈ Finset.range n, ∑ s ∈ Finset.range n, (if r < i then v r else 0) * A r s *
      (if s < i then v s else 0) = ∑ r ∈ Finset.range i, ∑ s ∈ Finset.range i, v r * A r s * v s := by
    rw [← Finset.sum_range_add_sum_Ico _ hi, Finset.sum_eq_zero (s := Finset.Ico i n), add_zero]
    · refine Finset.sum_congr rfl fun r hr => ?_
      rw [← Finset.sum_range_add_sum_Ico _ hi, Finset.sum_eq_zero (s := Finset.Ico i n), add_zero]
      · refine Finset.sum_congr rfl fun s hs => ?_
        rw [if_pos (Finset.mem_range.1 hr), if_pos (Finset.mem_range.1 hs)]
      · intro s hs
        rw [Finset.mem_Ico] at hs
        rw [if_neg (show ¬ s < i by omega), mul_zero]
    · intro r hr
      rw [Finset.mem_Ico] at hr
      refine Finset.sum_eq_zero fun s _ => ?_
      rw [if_neg (show ¬ r < i by omega), zero_mul, zero_mul]
  rwa [key] at this

/-- Positive definite symmetric matrices are those with a Cholesky factor. -/
theorem pd_iff_chol {A : ℕ → ℕ → ℝ} (hs : ∀ a b, A a b = A b a) :
    PDOn n A ↔ ∃ L, IsChol n A L := by
  constructor
  · intro h
    obtain ⟨L, _, hL, _⟩ := C46_build A n hs fun i hi => Verif.Lin.PDOn.mono h hi
    exact ⟨L, hL⟩
  · rintro ⟨L, hL⟩ v hv
    exact chol_pos hL v hv

theorem _root_.Verif.Lin.IsChol.congr {A B L : ℕ → ℕ → ℝ} (h : IsChol n A L)
    (e : ∀ i j, i < n → j < n → A i j = B i j) : IsChol n B L :=
  ⟨h.low, h.diag, fun i j hi hj => (h.prod i j hi hj).trans (e i j hi hj)⟩

/-- Rescaling rows and columns by positive numbers keeps a Cholesky factor. -/
theorem _root_.Verif.Lin.IsChol.scale {A L : ℕ → ℕ → ℝ} (h : IsChol n A L) (d : ℕ → ℝ) (hd : ∀ i, i < n → 0 < d i) :
    IsChol n (fun i j => d i * A i j * d j) (fun i j => d i * L i j) where
  low i j hi hj hij := by rw [h.low i j hi hj hij, mul_zero]
  diag i hi := mul_pos (hd i hi) (h.diag i hi)
  prod i j hi hj := by
    rw [← h.prod i j hi hj, Finset.mul_sum, Finset.sum_mul]
    exact Finset.sum_congr rfl fun c _ => by ring

theorem _root_.Verif.Lin.IsChol.posDiag {x : ℕ → ℝ} {L : ℕ → ℕ → ℝ} (h : IsChol n (symM n x) L) : PosDiag n x := by
  intro k hk
  have := h.prod k k hk hk
  rw [symM_low le_rfl] at this
  rw [← this]
  refine lt_of_lt_of_le (mul_pos (h.diag k hk) (h.diag k hk))
    (Finset.single_le_sum (f := fun c => L k c * L k c) (fun c _ => mul_self_nonneg _)
      (Finset.mem_range.2 hk))

theorem ccFwd_sym {x : ℕ → ℝ} (hx : PosDiag n x) {i j : ℕ} (hi : i < n) (hj : j < n) :
    (i ≠ j → symM n (ccFwd n x) i j =
      1 / sqrt (x (hp n i i)) * symM n x i j * (1 / sqrt (x (hp n j j)))) ∧
    symM n (ccFwd n x) i i = symM n x i i := by
  constructor
  · intro hij
    have ai := sqrt_pos.2 (hx i hi)
    have aj := sqrt_pos.2 (hx j hj)
    rcases Nat.lt_or_gt_of_ne hij with h | h
    · rw [symM_symm, symM_symm n x, symM_low h.le, symM_low h.le, (C43_fwd_cells x h hj).1]
      field_simp
    · rw [symM_low h.le, symM_low h.le, (C43_fwd_cells x h hi).1]
      field_simp
  · rw [symM_low le_rfl, symM_low le_rfl, ccFwd, if_pos (mem_diagInds.2 ⟨i, hi, rfl⟩)]

/-- The correlation matrix formed by `CovCorr._fwd` (with the variances replaced by ones). -/
def corrOf (n : ℕ) (y : ℕ → ℝ) : ℕ → ℕ → ℝ := fun i j => if i = j then 1 else symM n y i j

theorem corrOf_chol {x : ℕ → ℝ} {L : ℕ → ℕ → ℝ} (h : IsChol n (symM n x) L) :
    ∃ L', IsChol n (corrOf n (ccFwd n x)) L' := by
  have hx := h.posDiag
  refine ⟨_, (h.scale (fun i => 1 / sqrt (x (hp n i i)))
    fun i hi => one_div_pos.2 (sqrt_pos.2 (hx i hi))).congr fun i j hi hj => ?_⟩
  unfold corrOf
  by_cases e : i = j
  · subst e
    rw [if_pos rfl, symM_low le_rfl]
    have a := sqrt_pos.2 (hx i hi)
    have b := mul_self_sqrt (hx i hi).le
    field_simp
    rw [sq, b]
  · rw [if_neg e, (ccFwd_sym hx hi hj).1 e]

/-- The masked correlation Cholesky step on a vector with off-diagonal part `R`. -/
theorem odMapO_vecl {f : List ℝ → Option (List ℝ)} {y : ℕ → ℝ} {R A : ℕ → ℕ → ℝ}
    (hR : ∀ r s, s < r → r < n → y (hp n r s) = R r s) (hf : f (vecl R n) = some (vecl A n)) :
    ∃ z, odMapO n f y = some z ∧ (∀ r s, s < r → r < n → z (hp n r s) = A r s) ∧
      ∀ p, p ∉ trilInds n → z p = y p := by
  have e : (trilInds n).map y = vecl R n := by
    rw [tril_map_vecl]; exact vecl_congr fun r s h1 h2 => hR r s h2 h1
  refine ⟨_, by rw [odMapO, e, hf]; rfl, fun r s h1 h2 => ?_, fun p hp' => ?_⟩
  · rw [maskSet, if_pos (mem_tril_hp h1 h2)]
    exact vecl_getD A h1 h2
  · rw [maskSet, if_neg hp']

theorem diag_not_tril {k : ℕ} (hk : k < n) : hp n k k ∉ trilInds n := fun h =>
  (mem_tril.1 h).2 (mem_diagInds.2 ⟨k, hk, rfl⟩)

theorem odMap_off {f : (ℕ → ℝ) → ℕ → ℝ} {x : ℕ → ℝ} {p : ℕ} (h : p ∉ trilInds n) :
    odMap n f x p = x p := by rw [odMap, maskSet, if_neg h]

theorem balls_of_low {z : ℕ → ℝ} {A : ℕ → ℕ → ℝ} (hA : LowBalls n A)
    (h : ∀ r s, s < r → r < n → z (hp n r s) = A r s) :
    InBalls n (zArr (gatherN (trilInds n) z)) := by
  intro i hi
  have : rowSum (zArr (gatherN (trilInds n) z)) (pos n i) i = ∑ j ∈ Finset.range i, A i j ^ 2 :=
    Finset.sum_congr rfl fun l hl => by
      rw [zArr_gather_pos (Finset.mem_range.1 hl) hi, h i l (Finset.mem_range.1 hl) hi]
  rw [this]; exact hA i hi

theorem uc_roundtrip (hn : 1 ≤ n) {z : ℕ → ℝ} (hz : InBalls n (zArr (gatherN (trilInds n) z))) :
    odMap n (ucRvsN (trilInds n).length) (odMap n (ucFwdN (trilInds n).length) z) = z := by
  refine maskSet_gather z (fun k hk => ?_) (ucRvsN_local hn)
  obtain ⟨i, j, hj, hi, e⟩ := pos_surj (tril_two n) hn k (by omega) (by omega)
  unfold ucRvsN
  rw [← e, ucRvs_local (tril_two n) (y := ucFwd (trilInds n).length (zArr (gatherN (trilInds n) z)))
    (fun k h _ => zArr_ucFwdN _ h) hj hi, C41_rvs_fwd (tril_two n) hn _ hz _
    (pos_range (tril_two n) hj hi).1 (pos_range (tril_two n) hj hi).2, e, zArr, Int.toNat_natCast]

theorem uc_roundtrip' (hn : 1 ≤ n) {w : ℕ → ℝ}
    (hw : InCube (trilInds n).length (zArr (gatherN (trilInds n) w))) :
    odMap n (ucFwdN (trilInds n).length) (odMap n (ucRvsN (trilInds n).length) w) = w := by
  refine maskSet_gather w (fun k hk => ?_) (ucFwdN_local hn)
  obtain ⟨i, j, hj, hi, e⟩ := pos_surj (tril_two n) hn k (by omega) (by omega)
  unfold ucFwdN
  rw [← e, ucFwd_local (tril_two n) (y := ucRvs (trilInds n).length (zArr (gatherN (trilInds n) w)))
    (fun k h _ => zArr_ucRvsN _ h) hj hi, C41_fwd_rvs (tril_two n) hn _ hw _
    (pos_range (tril_two n) hj hi).1 (pos_range (tril_two n) hj hi).2, e, zArr, Int.toNat_natCast]

theorem sq_lt_one_mem {x : ℝ} (h : x ^ 2 < 1) : x ∈ Set.Ioo (-1 : ℝ) 1 :=
  ⟨by nlinarith, by nlinarith⟩

theorem tanh_sq (x : ℝ) : tanh x ^ 2 < 1 := by
  have := artanh_tanh x
  rw [tanh_eq_sinh_div_cosh, div_pow, div_lt_one (by have := cosh_pos x; positivity)]
  have := cosh_sq x
  linarith

theorem tanh_roundtrip {w : ℕ → ℝ} (hw : ∀ k, k < (trilInds n).length → gatherN (trilInds n) w k ^ 2 < 1) :
    odMap n tanhRvs (odMap n tanhFwd w) = w :=
  maskSet_gather w (fun k hk => tanh_artanh (sq_lt_one_mem (hw k hk)))
    fun a b h k hk => by simp [tanhRvs, h k hk]

theorem tanh_roundtrip' (v : ℕ → ℝ) : odMap n tanhFwd (odMap n tanhRvs v) = v :=
  maskSet_gather v (fun k _ => artanh_tanh _) fun a b h k hk => by simp [tanhFwd, h k hk]

theorem gather_odMap {f : (ℕ → ℝ) → ℕ → ℝ} {x : ℕ → ℝ} {k : ℕ} (hk : k < (trilInds n).length) :
    gatherN (trilInds n) (odMap n f x) k = f (gatherN (trilInds n) x) k := by
  rw [gatherN, List.getD_eq_getElem _ _ hk, odMap, maskSet, if_pos (List.getElem_mem hk),
    (tril_nodup n).idxOf_getElem]

/-! ## the mask -/

/-- C77: the mask applies the inner map to the off-diagonal entries and leaves the diagonal. -/
theorem C77_mask (f : (ℕ → ℝ) → ℕ → ℝ) (x : ℕ → ℝ) :
    (∀ k, k < (trilInds n).length →
      odMap n f x ((trilInds n).getD k 0) = f (gatherN (trilInds n) x) k) ∧
    ∀ k, k < n → odMap n f x (hp n k k) = x (hp n k k) :=
  ⟨fun _ hk => gather_odMap hk, fun _ hk => odMap_off (diag_not_tril hk)⟩

/-- C77: masked inverses are inverse. -/
theorem C77_mask_inverse (f g : (ℕ → ℝ) → ℕ → ℝ) (x : ℕ → ℝ)
    (h : ∀ k, k < (trilInds n).length →
      g (f (gatherN (trilInds n) x)) k = gatherN (trilInds n) x k)
    (hg : ∀ a b : ℕ → ℝ, (∀ k, k < (trilInds n).length → a k = b k) →
      ∀ k, k < (trilInds n).length → g a k = g b k) : odMap n g (odMap n f x) = x :=
  maskSet_gather x h hg

theorem tril_lt {k : ℕ} (hk : k < (trilInds n).length) : (trilInds n).getD k 0 < matSizeToHvSize n := by
  rw [List.getD_eq_getElem _ _ hk]
  exact (mem_tril.1 (List.getElem_mem hk)).1

theorem PathN.gather {X : ℝ → ℕ → ℝ} {x' : ℕ → ℝ} (hX : PathN (matSizeToHvSize n) X x') :
    PathN (trilInds n).length (fun t => gatherN (trilInds n) (X t)) (gatherN (trilInds n) x') :=
  fun _ hk => hX _ (tril_lt hk)

theorem dotN_mask {g v h : ℕ → ℝ} (h0 : ∀ q, q < matSizeToHvSize n → q ∉ trilInds n → g q = 0)
    (h1 : ∀ q, q ∈ trilInds n → g q = h ((trilInds n).idxOf q)) :
    dotN (matSizeToHvSize n) g v = dotN (trilInds n).length h (gatherN (trilInds n) v) := by
  rw [dotN_sub (B := (trilInds n).toFinset) (fun q hq => Finset.mem_range.2
    (mem_tril.1 (List.mem_toFinset.1 hq)).1) fun q a b => h0 q a fun c => b (List.mem_toFinset.2 c)]
  unfold dotN
  refine Finset.sum_bij' (fun q _ => (trilInds n).idxOf q) (fun k _ => (trilInds n).getD k 0) ?_ ?_ ?_ ?_ ?_
  · exact fun q hq => Finset.mem_range.2 (idxOf_lt (List.mem_toFinset.1 hq))
  · intro k hk
    rw [Finset.mem_range] at hk
    rw [List.getD_eq_getElem _ _ hk]
    exact List.mem_toFinset.2 (List.getElem_mem hk)
  · intro q hq
    rw [List.getD_eq_getElem _ _ (idxOf_lt (List.mem_toFinset.1 hq)), List.getElem_idxOf]
  · intro k hk
    rw [Finset.mem_range] at hk
    rw [List.getD_eq_getElem _ _ hk, (tril_nodup n).idxOf_getElem]
  · intro q hq
    rw [h1 q (List.mem_toFinset.1 hq), gather_idxOf (List.mem_toFinset.1 hq)]

theorem diag_or_tril {p : ℕ} (hp' : p < matSizeToHvSize n) (h : p ∉ trilInds n) : p ∈ diagInds n := by
  by_contra c; exact h (mem_tril.2 ⟨hp', c⟩)

theorem tril_not_diag {p : ℕ} (h : p ∈ trilInds n) : p ∉ diagInds n := (mem_tril.1 h).2

/-- C77: the masked Jacobian is the Jacobian of the masked map. -/
theorem C77_mask_jac (f : (ℕ → ℝ) → ℕ → ℝ) (J : (ℕ → ℝ) → ℕ → ℕ → ℝ) (x : ℕ → ℝ)
    (h : IsJac (trilInds n).length (trilInds n).length f (J (gatherN (trilInds n) x))
      (gatherN (trilInds n) x)) :
    IsJac (matSizeToHvSize n) (matSizeToHvSize n) (odMap n f) (odJac n J x) x := by
  intro X x' hX h0 p hp'
  unfold odMap maskSet
  by_cases ht : p ∈ trilInds n
  · simp only [if_pos ht]
    refine (h _ _ hX.gather (by simp [h0]) _ (idxOf_lt ht)).congr_deriv (dotN_mask ?_ ?_).symm
    · intro q hq hn
      simp only [odJac, ixSet2]
      rw [if_neg fun c => tril_not_diag ht c.1, if_neg fun c => hn c.2]
    · intro q hq
      simp only [odJac, ixSet2]
      rw [if_neg fun c => tril_not_diag ht c.1, if_pos ⟨ht, hq⟩]
  · simp only [if_neg ht]
    refine (hX p hp').congr_deriv ?_
    have hd := diag_or_tril hp' ht
    rw [dotN, Finset.sum_eq_single p]
    · simp only [odJac, ixSet2]
      rw [if_pos ⟨hd, hd⟩, if_pos trivial, one_mul]
    · intro q _ hqp
      simp only [odJac, ixSet2]
      by_cases hq : q ∈ diagInds n
      · rw [if_pos ⟨hd, hq⟩, if_neg, zero_mul]
        exact fun c => hqp ((List.idxOf_inj hd).1 c).symm
      · rw [if_neg fun c => hq c.2, if_neg fun c => ht c.1, zero_mul]
    · intro c; exact absurd (Finset.mem_range.2 hp') c

/-- C77: the masked Hessian is the derivative of the masked Jacobian. -/
theorem C77_mask_hess (J : (ℕ → ℝ) → ℕ → ℕ → ℝ) (H : (ℕ → ℝ) → ℕ → ℕ → ℕ → ℝ) (x : ℕ → ℝ)
    (h : IsHess (trilInds n).length (trilInds n).length J (H (gatherN (trilInds n) x))
      (gatherN (trilInds n) x)) :
    IsHess (matSizeToHvSize n) (matSizeToHvSize n) (odJac n J) (odHess n H x) x := by
  intro X x' hX h0 q hq p hp'
  by_cases ht : p ∈ trilInds n
  · have nd : ∀ c, ¬ (p ∈ diagInds n ∧ c) := fun c h => tril_not_diag ht h.1
    by_cases hqt : q ∈ trilInds n
    · simp only [odJac, ixSet2, nd, if_false, ht, hqt, and_self, if_true]
      refine (h _ _ hX.gather (by simp [h0]) _ (idxOf_lt hqt) _ (idxOf_lt ht)).congr_deriv
        (dotN_mask ?_ ?_).symm
      · intro r _ hr
        simp only [odHess]
        rw [if_neg fun c => hr c.2.2]
      · intro r hr
        simp only [odHess]
        rw [if_pos ⟨ht, hqt, hr⟩]
    · simp only [odJac, ixSet2, nd, if_false, hqt, and_false]
      refine (hasDerivAt_const _ _).congr_deriv ?_
      symm
      refine Finset.sum_eq_zero fun r _ => ?_
      simp only [odHess]
      rw [if_neg fun c => hqt c.2.1, zero_mul]
  · simp only [odJac, ixSet2, ht, false_and, if_false]
    refine (hasDerivAt_const _ _).congr_deriv ?_
    symm
    refine Finset.sum_eq_zero fun r _ => ?_
    simp only [odHess]
    rw [if_neg fun c => ht c.1, zero_mul]

/-- C77: on every positive definite matrix the forward map is defined (the Cholesky factorisation
and the inverse hyperbolic tangent are applied inside their domains), and the reverse map returns
the matrix. -/
theorem C77_roundtrip (chol) (hc : CholOk chol) (hn : 1 ≤ n) (x : ℕ → ℝ) (hx : PDOn n (symM n x)) :
    ∃ u x', cholCovFwd chol n x = some u ∧ cholCovRvs n u = some x' ∧
      ∀ p, p < matSizeToHvSize n → x' p = x p := by
  obtain ⟨L, hL⟩ := (pd_iff_chol (symM_symm n x)).1 hx
  have hd := hL.posDiag
  obtain ⟨A, hA, f1, f2⟩ := C41_corr_rvs_fwd chol hc (corrOf n (ccFwd n x)) hn
    (fun i j _ _ => by simp only [corrOf, symM_symm n _ i j, eq_comm]) (fun i _ => by simp [corrOf])
    (corrOf_chol hL)
  have hy : ∀ r s, s < r → r < n → ccFwd n x (hp n r s) = corrOf n (ccFwd n x) r s :=
    fun r s h1 h2 => by rw [corrOf, if_neg (by omega), symM_low h1.le]
  obtain ⟨z, z1, z2, z3⟩ := odMapO_vecl hy f1
  obtain ⟨y', y1, y2, y3⟩ := odMapO_vecl z2 f2
  have hb := balls_of_low hA z2
  have hcube := C41_fwd_range (tril_two n) hn _ hb
  have ey : ∀ p, p < matSizeToHvSize n → y' p = ccFwd n x p := fun p hp' => by
    by_cases h : p ∈ trilInds n
    · obtain ⟨r, s, a, b, rfl⟩ := tril_cell h
      rw [y2 r s a b, hy r s a b]
    · rw [y3 p h, z3 p h]
  refine ⟨_, ccRvs n y', by rw [cholCovFwd, z1]; rfl, ?_, fun p hp' => ?_⟩
  · unfold cholCovRvs
    have e1 : lsRvs n (lsFwd n (odMap n tanhFwd (odMap n (ucFwdN (trilInds n).length) z))) =
        odMap n tanhFwd (odMap n (ucFwdN (trilInds n).length) z) := by
      funext p
      refine (C43_log_inverse _ p).1 fun k hk => ?_
      rw [odMap_off (diag_not_tril hk), odMap_off (diag_not_tril hk), z3 _ (diag_not_tril hk)]
      exact (C43_posDiag x hd).1 k hk
    have e2 : odMap n tanhRvs (odMap n tanhFwd (odMap n (ucFwdN (trilInds n).length) z)) =
        odMap n (ucFwdN (trilInds n).length) z := by
      refine tanh_roundtrip fun k hk => ?_
      rw [gather_odMap hk]
      exact hcube k (by omega) (by omega)
    simp only [e1, e2, uc_roundtrip hn hb, y1, Option.bind_eq_bind, Option.bind_some, Option.pure_def]
  · rw [← C43_rvs_fwd x hd p hp']
    unfold ccRvs
    by_cases h : p ∈ diagInds n
    · simp only [h, if_true, ey p hp']
    · obtain ⟨-, -, -, f4, f5⟩ := off_facts hp' h
      simp only [h, if_false, ey p hp', ey _ (diag_facts f4).1, ey _ (diag_facts f5).1]

/-- C77: the reverse map is defined on every real vector, its value is a positive definite matrix,
and the forward map returns the vector. -/
theorem C77_surjective (chol) (hc : CholOk chol) (hn : 1 ≤ n) (u : ℕ → ℝ) :
    ∃ x u', cholCovRvs n u = some x ∧ PDOn n (symM n x) ∧ cholCovFwd chol n x = some u' ∧
      ∀ p, p < matSizeToHvSize n → u' p = u p := by
  have hv := C43_log_range (n := n) u
  generalize hve : lsRvs n u = v at hv
  have hw : InCube (trilInds n).length (zArr (gatherN (trilInds n) (odMap n tanhRvs v))) := by
    intro k h0 h1
    rw [zArr, gather_odMap (by omega)]
    exact tanh_sq _
  generalize hwe : odMap n tanhRvs v = w at hw
  -- the factor
  have hz := C41_rvs_range (tril_two n) _ hw
  generalize hze : odMap n (ucRvsN (trilInds n).length) w = z
  let A : ℕ → ℕ → ℝ := fun r s => z (hp n r s)
  have hA : LowBalls n A := fun i hi => by
    have := hz i hi
    refine lt_of_eq_of_lt (Finset.sum_congr rfl fun l hl => ?_) this
    have hl' := Finset.mem_range.1 hl
    change z (hp n i l) ^ 2 = _
    rw [← hze, odMap, maskSet, if_pos (mem_tril_hp hl' hi), ucRvsN, idxOf_tril hl' hi]
  obtain ⟨Y, h1, h2⟩ := (C11_lower_half A n).1 hn
  have hRc := corr_isCorr A hA
  have f2 : corrRvs (vecl A n) = some (vecl (corrR n (low A)) n) := by
    simp only [corrRvs, h1, Option.bind_eq_bind, Option.bind_some]
    exact congrArg some (vecl_congr fun i j hi hj => corrR_congr h2 i j hi (by omega))
  have f1 : corrFwd chol (vecl (corrR n (low A)) n) = some (vecl A n) := by
    have := C41_corr_fwd_rvs chol hc A hn hA
    rwa [f2, Option.bind_some] at this
  obtain ⟨y, y1, y2, y3⟩ := odMapO_vecl (y := z) (fun r s _ _ => rfl) f2
  have hyd : PosDiag n y := fun k hk => by
    rw [y3 _ (diag_not_tril hk), ← hze, odMap_off (diag_not_tril hk), ← hwe,
      odMap_off (diag_not_tril hk)]
    exact hv k hk
  have ec : ∀ p, p < matSizeToHvSize n → ccFwd n (ccRvs n y) p = y p := fun p hp' =>
    C43_fwd_rvs y hyd p hp'
  obtain ⟨z', z1, z2, z3⟩ := odMapO_vecl (y := ccFwd n (ccRvs n y)) (R := corrR n (low A))
    (fun r s a b => by rw [ec _ (hp_lt a.le b), y2 r s a b]) f1
  have ez : ∀ p, p < matSizeToHvSize n → z' p = z p := fun p hp' => by
    by_cases h : p ∈ trilInds n
    · obtain ⟨r, s, a, b, rfl⟩ := tril_cell h
      exact z2 r s a b
    · rw [z3 p h, ec p hp', y3 p h]
  -- positive definiteness
  have hpd : PDOn n (symM n (ccRvs n y)) := by
    rw [pd_iff_chol (symM_symm n _)]
    refine ⟨_, ((corr_chol A hA).scale (fun i => sqrt (y (hp n i i)))
      fun i hi => sqrt_pos.2 (hyd i hi)).congr fun i j hi hj => ?_⟩
    have key : ∀ r s, s < r → r < n → ccRvs n y (hp n r s) =
        y (hp n r s) * sqrt (y (hp n r r)) * sqrt (y (hp n s s)) := fun r s a b => by
      unfold ccRvs
      rw [if_neg (mem_tril.1 (mem_tril_hp a b)).2, rowDiag_hp a.le b, colDiag_hp a.le b]
    rcases Nat.lt_trichotomy i j with h | h | h
    · rw [symM_symm, symM_low h.le, key j i h hj, y2 j i h hj, hRc.symm i j hi hj]; ring
    · subst h
      rw [symM_low le_rfl, hRc.unit i hi, ccRvs, if_pos (mem_diagInds.2 ⟨i, hi, rfl⟩)]
      rw [mul_one]; exact mul_self_sqrt (hyd i hi).le
    · rw [symM_low h.le, key i j h hi, y2 i j h hi]; ring
  refine ⟨ccRvs n y, lsFwd n (odMap n tanhFwd (odMap n (ucFwdN (trilInds n).length) z')), ?_, hpd, ?_, ?_⟩
  · simp only [cholCovRvs, hve, hwe, hze, y1, Option.bind_eq_bind, Option.bind_some, Option.pure_def]
  · simp only [cholCovFwd, z1, Option.bind_eq_bind, Option.bind_some, Option.pure_def]
  · intro p hp'
    have g : ∀ k, k < (trilInds n).length → gatherN (trilInds n) z' k = gatherN (trilInds n) z k :=
      fun k hk => by
        rw [gatherN, gatherN, List.getD_eq_getElem _ _ hk]
        exact ez _ (mem_tril.1 (List.getElem_mem hk)).1
    have e1 : ∀ p, p < matSizeToHvSize n → odMap n (ucFwdN (trilInds n).length) z' p = w p :=
      fun p hp' => by
        rw [← uc_roundtrip' hn hw, hze]
        unfold odMap maskSet
        by_cases h : p ∈ trilInds n
        · rw [if_pos h, if_pos h]; exact ucFwdN_local hn _ _ g _ (idxOf_lt h)
        · rw [if_neg h, if_neg h, ez p hp']
    have e2 : ∀ p, p < matSizeToHvSize n →
        odMap n tanhFwd (odMap n (ucFwdN (trilInds n).length) z') p = v p := fun p hp' => by
      rw [← tanh_roundtrip' (n := n) v, hwe]
      unfold odMap maskSet
      by_cases h : p ∈ trilInds n
      · rw [if_pos h, if_pos h]
        unfold tanhFwd
        rw [gather_idxOf h, gather_idxOf h]
        exact congrArg artanh (e1 p hp')
      · have q := e1 p hp'
        unfold odMap maskSet at q
        rw [if_neg h] at q
        rw [if_neg h, if_neg h, if_neg h, q]
    rw [← (C43_log_inverse (n := n) u p).2, hve]
    unfold lsFwd
    rw [e2 p hp']

/-- The hypotheses of `C77_roundtrip` hold for the 2×2 matrix `[[2, 1], [1, 3]]`. -/
example : PDOn 2 (symM 2 fun k => if k = 0 then 2 else if k = 1 then 1 else 3) := by
  intro v hv
  have e : hp 2 0 0 = 0 ∧ hp 2 1 0 = 1 ∧ hp 2 1 1 = 2 := by decide
  simp only [Finset.sum_range_succ, Finset.sum_range_zero, symM, zero_add, max_self, min_self]
  norm_num [e.1, e.2.1, e.2.2]
  obtain ⟨i, hi, hv⟩ := hv
  interval_cases i
  · nlinarith [sq_nonneg (v 0 + v 1), sq_nonneg (v 1), sq_pos_of_ne_zero hv]
  · nlinarith [sq_nonneg (v 0 + v 1), sq_nonneg (v 0), sq_pos_of_ne_zero hv]

end Verif.Transf
