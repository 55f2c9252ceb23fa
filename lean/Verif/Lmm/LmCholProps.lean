import Verif.Lmm.LmChol
import Verif.Lmm.LmGradProps
import Verif.Transf.UcholProps
/-!
# C147: Cholesky parameters of class `LMM`
-/
namespace Verif.Lmm.Lm
open Matrix Kronecker Verif.Fa Verif.Like
variable {T : Terms} {n p q r : ℕ}

/-! ## the two transformations -/

/-- A Cholesky factor is determined by its product. -/
theorem cholM_unique {L M : Mat r r} (h : L * Lᵀ = M * Mᵀ) (hL : ∀ i j, i < j → L i j = 0) (hM : ∀ i j, i < j → M i j = 0)
    (dL : ∀ i, 0 < L i i) (dM : ∀ i, 0 < M i i) : L = M := by
  let ext : Mat r r → ℕ → ℕ → ℝ := fun K i j => if h : i < r ∧ j < r then K ⟨i, h.1⟩ ⟨j, h.2⟩ else 0
  have e : ∀ K : Mat r r, (∀ i j, i < j → K i j = 0) → (∀ i, 0 < K i i) → Verif.Lin.IsChol r (ext (K * Kᵀ)) (ext K) := by
    intro K h1 h2
    refine ⟨fun i j hi hj hij => ?_, fun i hi => ?_, fun i j hi hj => ?_⟩
    · simp only [ext, hi, hj, and_self, dif_pos]
      exact h1 _ _ hij
    · simp only [ext, hi, and_self, dif_pos]
      exact h2 _
    · rw [Finset.sum_range]
      simp only [ext, hi, hj, Fin.is_lt, and_self, dif_pos, mul_apply, transpose_apply]
  have := Verif.Transf.chol_unique (e L hL dL) (by rw [h]; exact e M hM dM)
  ext i j
  have := this i j i.2 j.2
  simpa [ext] using this

theorem ltri_upper (et : Tri r → ℝ) (i j : Fin r) (h : i < j) : ltri et i j = 0 := by
  simp [ltri, not_le.2 h]

theorem ltri_tri (et : Tri r → ℝ) (a : Tri r) : ltri et a.1.1 a.1.2 = et a := by
  simp [ltri, a.2]

theorem ltri_vech {L : Mat r r} (h : ∀ i j, i < j → L i j = 0) : ltri (vechM L) = L := by
  ext i j
  by_cases hij : j ≤ i
  · simp [ltri, hij, vechM]
  · rw [ltri_upper _ _ _ (not_le.1 hij), h _ _ (not_le.1 hij)]

theorem invech_vech {A : Mat r r} (h : Aᵀ = A) : invech (vechM A) = A := by
  ext i j
  by_cases hij : j ≤ i
  · simp [invech, tri, hij, vechM]
  · simp only [invech, tri, hij, of_apply, dif_neg, not_false_eq_true, vechM]
    rw [← transpose_apply A, h]

theorem invech_tri (th : Tri r → ℝ) (a : Tri r) : invech th a.1.1 a.1.2 = th a := by
  simp [invech, tri, a.2]

theorem sl_fromChol (et : T.Par → ℝ) (k : Fin T.K) :
    Terms.sl (fromChol et) k = vechM (ltri (Terms.sl et k) * (ltri (Terms.sl et k))ᵀ) := rfl

theorem gram_symm (L : Mat r r) : (L * Lᵀ)ᵀ = L * Lᵀ := by rw [transpose_mul, transpose_transpose]

/-- The covariance of a term is the product of its factor. -/
theorem C147_covariance (et : T.Par → ℝ) (k : Fin T.K) :
    invech (Terms.sl (fromChol et) k) = ltri (Terms.sl et k) * (ltri (Terms.sl et k))ᵀ := by
  rw [sl_fromChol, invech_vech (gram_symm _)]

theorem gram_posDef {L : Mat r r} (h0 : ∀ i j, i < j → L i j = 0) (h1 : ∀ i, 0 < L i i) : (L * Lᵀ).PosDef := by
  have hu := unit_chol h0 h1
  have := posDef_gram (X := Lᵀ) (by rw [transpose_transpose, det_mul, det_transpose]; exact hu.mul hu)
  rwa [transpose_transpose] at this

/-- Back and forth: positive diagonals. -/
theorem C147_transform_inverse {ch : (k : ℕ) → Mat k k → Option (Mat k k)} (hch : ∀ k, CholOk (ch k)) {et : T.Par → ℝ} (l : ℝ)
    (hd : ∀ k a, 0 < ltri (Terms.sl et k) a a) :
    transform ch (invTransform et l).1 (invTransform et l).2 = some (et, l) := by
  have h : ∀ k, ch _ (invech (Terms.sl (fromChol et) k)) = some (ltri (Terms.sl et k)) := fun k => by
    rw [C147_covariance]
    obtain ⟨M, hM⟩ := (hch _).total _ (gram_posDef (ltri_upper (Terms.sl et k)) (hd k))
    obtain ⟨m1, m2, m3⟩ := (hch _).ok _ _ hM
    rw [hM, cholM_unique m1 m2 (ltri_upper _) m3 (hd k)]
  have hs : ∀ k, (ch _ (invech (Terms.sl (fromChol et) k))).isSome := fun k => by rw [h k]; rfl
  unfold transform invTransform
  rw [dif_pos hs]
  simp only [h, Option.get_some, Real.log_exp, Option.some.injEq, Prod.mk.injEq, and_true]
  funext j
  exact ltri_tri _ _

/-- Forth and back: whatever `transform_theta` accepts. -/
theorem C147_inverse_transform {ch : (k : ℕ) → Mat k k → Option (Mat k k)} (hch : ∀ k, CholOk (ch k)) {th et : T.Par → ℝ} {s2 l : ℝ}
    (hs : 0 < s2) (h : transform ch th s2 = some (et, l)) : invTransform et l = (th, s2) := by
  unfold transform at h
  split at h
  · next hh =>
    have h := Option.some.inj h
    have h1 : (fun j : T.Par => vechM ((ch _ (invech (Terms.sl th j.1))).get (hh j.1)) j.2) = et := congrArg Prod.fst h
    have h2 : Real.log s2 = l := congrArg Prod.snd h
    unfold invTransform
    rw [← h2, Real.exp_log hs]
    congr 1
    funext j
    obtain ⟨l1, l2, l3⟩ := (hch _).ok _ _ (Option.some_get (hh j.1)).symm
    have e : Terms.sl et j.1 = vechM ((ch _ (invech (Terms.sl th j.1))).get (hh j.1)) := by rw [← h1]; rfl
    unfold fromChol
    rw [e, ltri_vech l2, l1]
    exact invech_tri _ _
  · simp at h

/-- `transform_theta` accepts positive definite covariances. -/
theorem C147_transform_defined {ch : (k : ℕ) → Mat k k → Option (Mat k k)} (hch : ∀ k, CholOk (ch k)) {th : T.Par → ℝ} (s2 : ℝ)
    (hth : ∀ k, (invech (Terms.sl th k)).PosDef) : ∃ v, transform ch th s2 = some v := by
  have hs : ∀ k, (ch _ (invech (Terms.sl th k))).isSome := fun k => by
    obtain ⟨L, hL⟩ := (hch _).total _ (hth k)
    rw [hL]; rfl
  unfold transform
  rw [dif_pos hs]
  exact ⟨_, rfl⟩

/-! ## derivatives of the factor -/

theorem sum_tri (f : Fin r → Fin r → ℝ) (et : Tri r → ℝ) : ∑ b : Tri r, f b.1.1 b.1.2 * et b = ∑ x, ∑ y, f x y * ltri et x y := by
  rw [← Fintype.sum_prod_type', ← Finset.sum_filter_add_sum_filter_not Finset.univ (fun x : Fin r × Fin r => x.2 ≤ x.1),
    Finset.sum_eq_zero (s := Finset.univ.filter fun x : Fin r × Fin r => ¬ x.2 ≤ x.1), add_zero,
    Finset.sum_subtype (p := fun x : Fin r × Fin r => x.2 ≤ x.1) _ (by simp)]
  · exact Finset.sum_congr rfl fun b _ => by rw [ltri_tri]
  · intro x hx
    rw [ltri_upper _ _ _ (not_le.1 (Finset.mem_filter.1 hx).2), mul_zero]

theorem elim_sandwich (M : Matrix (Fin r × Fin r) (Fin r × Fin r) ℝ) (a b : Tri r) :
    (elim r * M * (elim r)ᵀ) a b = M (a.1.2, a.1.1) (b.1.2, b.1.1) := by
  simp [elim, mul_apply]

theorem dg_entry (L : Mat r r) (a b : Tri r) :
    dgDchol L a b = (if a.1.2 = b.1.1 then L a.1.1 b.1.2 else 0) + if a.1.1 = b.1.1 then L a.1.2 b.1.2 else 0 := by
  rw [dgDchol, elim_sandwich, symmz, Matrix.add_mul, Matrix.one_mul, Matrix.add_apply, kronecker_apply, mul_apply]
  simp only [comm, of_apply, ite_mul, one_mul, zero_mul, Finset.sum_ite_eq', Finset.sum_ite_eq, Finset.mem_univ, if_true,
    kronecker_apply, one_apply, mul_ite, mul_one, mul_zero]

theorem d2_entry (t a b : Tri r) : d2Chol t a b = if a.1.2 = b.1.2 then
    (if t.1.1 = a.1.1 ∧ t.1.2 = b.1.1 then 1 else 0) + (if t.1.1 = b.1.1 ∧ t.1.2 = a.1.1 then 1 else 0) else 0 := by
  rw [d2Chol, elim_sandwich, kronecker_apply]
  simp [one_apply, single]

theorem d2_symm (t : Tri r) : (d2Chol t)ᵀ = d2Chol t := by
  ext a b
  rw [transpose_apply, d2_entry, d2_entry]
  by_cases h : a.1.2 = b.1.2
  · rw [if_pos h, if_pos h.symm, add_comm]
  · rw [if_neg h, if_neg fun h' => h h'.symm]

theorem ltri_md {et : ℝ → Tri r → ℝ} {et' : Tri r → ℝ} (h : ∀ j, HasDerivAt (fun t => et t j) (et' j) 0) (x y : Fin r) :
    HasDerivAt (fun t => ltri (et t) x y) (ltri et' x y) 0 := by
  by_cases hxy : y ≤ x
  · simpa [ltri, hxy] using h ⟨(x, y), hxy⟩
  · simpa [ltri, hxy] using hasDerivAt_const (0 : ℝ) (0 : ℝ)

/-- `dg_dchol` holds the derivatives of `vech(L L')`. -/
theorem C147_dg_dchol {et : ℝ → Tri r → ℝ} {et' : Tri r → ℝ} (h : ∀ j, HasDerivAt (fun t => et t j) (et' j) 0) (a : Tri r) :
    HasDerivAt (fun t => vechM (ltri (et t) * (ltri (et t))ᵀ) a) ((dgDchol (ltri (et 0)) *ᵥ et') a) 0 := by
  have h1 : HasDerivAt (fun t => ∑ y, ltri (et t) a.1.1 y * ltri (et t) a.1.2 y)
      (∑ y, (ltri et' a.1.1 y * ltri (et 0) a.1.2 y + ltri (et 0) a.1.1 y * ltri et' a.1.2 y)) 0 :=
    HasDerivAt.fun_sum fun y _ => (ltri_md h _ _).fun_mul (ltri_md h _ _)
  refine h1.congr_deriv ?_
  simp only [mulVec, dotProduct, dg_entry]
  rw [sum_tri (fun x y => (if a.1.2 = x then ltri (et 0) a.1.1 y else 0) + if a.1.1 = x then ltri (et 0) a.1.2 y else 0) et']
  simp only [add_mul, ite_mul, zero_mul, Finset.sum_add_distrib]
  rw [Finset.sum_comm (f := fun x y => if a.1.2 = x then ltri (et 0) a.1.1 y * ltri et' x y else 0),
    Finset.sum_comm (f := fun x y => if a.1.1 = x then ltri (et 0) a.1.2 y * ltri et' x y else 0)]
  simp only [Finset.sum_ite_eq, Finset.mem_univ, if_true]
  rw [add_comm]
  simp only [mul_comm]

/-- `get_d2_chol` holds the second derivatives. -/
theorem C147_d2_chol {et : ℝ → Tri r → ℝ} {et' : Tri r → ℝ} (h : ∀ j, HasDerivAt (fun t => et t j) (et' j) 0) (a b : Tri r) :
    HasDerivAt (fun t => dgDchol (ltri (et t)) a b) ((d2Chol a *ᵥ et') b) 0 := by
  have h1 : HasDerivAt (fun t => dgDchol (ltri (et t)) a b)
      ((if a.1.2 = b.1.1 then ltri et' a.1.1 b.1.2 else 0) + if a.1.1 = b.1.1 then ltri et' a.1.2 b.1.2 else 0) 0 := by
    simp only [dg_entry]
    refine HasDerivAt.add ?_ ?_
    · split
      · exact ltri_md h _ _
      · exact hasDerivAt_const _ _
    · split
      · exact ltri_md h _ _
      · exact hasDerivAt_const _ _
  refine h1.congr_deriv ?_
  simp only [mulVec, dotProduct, d2_entry]
  rw [sum_tri (fun x y => if b.1.2 = y then (if a.1.1 = b.1.1 ∧ a.1.2 = x then 1 else 0) + (if a.1.1 = x ∧ a.1.2 = b.1.1 then 1 else 0) else 0) et']
  simp only [ite_mul, zero_mul, Finset.sum_ite_eq, Finset.mem_univ, if_true, add_mul, one_mul, Finset.sum_add_distrib, ite_and]
  by_cases h2 : a.1.1 = b.1.1 <;> by_cases h3 : a.1.2 = b.1.1 <;> simp [h2, h3, add_comm]

/-! ## chain rule -/

theorem blockDiag_mulVec {K : ℕ} {ι : Fin K → Type} [∀ k, Fintype (ι k)] (M : ∀ k, Matrix (ι k) (ι k) ℝ) (v : (Σ k, ι k) → ℝ)
    (x : Σ k, ι k) : (blockDiagonal' M *ᵥ v) x = (M x.1 *ᵥ fun b => v ⟨x.1, b⟩) x.2 := by
  obtain ⟨k, a⟩ := x
  simp only [mulVec, dotProduct]
  rw [Fintype.sum_sigma, Finset.sum_eq_single k]
  · simp [blockDiagonal'_apply_eq]
  · intro k' _ hk
    exact Finset.sum_eq_zero fun b _ => by rw [blockDiagonal'_apply_ne _ _ _ (Ne.symm hk), zero_mul]
  · simp

theorem jacF_mulVec (et : T.Par → ℝ) (l : ℝ) (v : T.Par → ℝ) (w : ℝ) :
    jacF et l *ᵥ Sum.elim v (fun _ => w) =
      Sum.elim (fun j => (dgDchol (ltri (Terms.sl et j.1)) *ᵥ Terms.sl v j.1) j.2) fun _ => Real.exp l * w := by
  rw [jacF, fromBlocks_mulVec]
  funext x
  rcases x with j | u
  · simp only [Sum.elim_inl, Pi.add_apply, Sum.elim_comp_inl, zero_mulVec, Pi.zero_apply, add_zero]
    rw [blockDiag_mulVec]
    rfl
  · simp [mulVec, dotProduct]

theorem fromChol_deriv {et : ℝ → T.Par → ℝ} {et' : T.Par → ℝ} (h : ∀ j, HasDerivAt (fun t => et t j) (et' j) 0) (j : T.Par) :
    HasDerivAt (fun t => fromChol (et t) j) ((dgDchol (ltri (Terms.sl (et 0) j.1)) *ᵥ Terms.sl et' j.1) j.2) 0 :=
  C147_dg_dchol (et := fun t => Terms.sl (et t) j.1) (et' := Terms.sl et' j.1) (fun b => h ⟨j.1, b⟩) j.2

section chain
variable {m : Mme T n p} {cq : Mat q q → Option (Mat q q)} {e : T.RE ≃ Fin q} {tr tr' reml : Bool}
variable {et : ℝ → T.Par → ℝ} {et' : T.Par → ℝ} {l : ℝ → ℝ} {l' : ℝ}

/-- `gradient_chol` is the derivative of `loglike_c`. -/
theorem C147_gradient_chol (hT : T.Pd) (hq : CholOk cq)
    (h : ∀ j, HasDerivAt (fun t => et t j) (et' j) 0) (hl : HasDerivAt l l' 0) {g : T.Par ⊕ Unit → ℝ}
    (hg : gradChol cq e m tr tr' reml (et 0) (l 0) = some g) :
    HasDerivAt (fun t => devi reml m.X m.y (vcov m (invTransform (et t) (l t)).1 (invTransform (et t) (l t)).2))
      (∑ j, et' j * g (Sum.inl j) + l' * g (Sum.inr ())) 0 := by
  unfold gradChol at hg
  simp only [invTransform] at hg ⊢
  cases hG : gradient cq e m tr tr' reml (fromChol (et 0)) (Real.exp (l 0)) with
  | none => simp [hG] at hg
  | some P =>
  obtain ⟨gG, gR⟩ := P
  simp only [hG, Option.bind_eq_bind, Option.bind_some] at hg
  have hg := Option.some.inj hg
  have := C145_gradient (th := fun t => fromChol (et t)) (s2 := fun t => Real.exp (l t)) hT hq (fromChol_deriv h) hl.exp
    (Real.exp_ne_zero _) hG
  refine this.congr_deriv ?_
  have e1 := dotProduct_mulVec (Sum.elim gG fun _ => gR) (jacF (et 0) (l 0)) (Sum.elim et' fun _ => l')
  rw [hg, jacF_mulVec] at e1
  simp only [dotProduct, Fintype.sum_sum_type, Sum.elim_inl, Sum.elim_inr, Finset.univ_unique, Finset.sum_singleton] at e1
  rw [Finset.sum_congr rfl fun j _ => mul_comm (et' j) _, mul_comm l', ← e1]
  rw [Finset.sum_congr rfl fun j _ => mul_comm _ (gG j)]
  ring

/-- Both are defined for positive diagonals and designs of full rank. -/
theorem C147_gradient_defined (hT : T.Pd) (hI : ∀ k, T.acov k = none) (hq : CholOk cq) (e : T.RE ≃ Fin q) (tr tr' reml : Bool)
    {et : T.Par → ℝ} (l : ℝ) (hd : ∀ k a, 0 < ltri (Terms.sl et k) a a) (hX : Function.Injective m.X.mulVec) :
    (∃ g, gradChol cq e m tr tr' reml et l = some g) ∧ ∃ H, hessChol cq e m tr tr' reml et l = some H := by
  have hth : ∀ k, (invech (Terms.sl (fromChol et) k)).PosDef := fun k => by
    rw [C147_covariance]
    exact gram_posDef (ltri_upper _) (hd k)
  obtain ⟨g, hg⟩ := C145_defined hT hI hq e tr tr' reml (Real.exp_pos l) hth hX
  obtain ⟨H, hH⟩ := C145_hessian_defined hT hI hq e reml (Real.exp_pos l) hth hX
  unfold gradChol hessChol
  simp only [invTransform, hg, hH, Option.bind_eq_bind, Option.bind_some]
  exact ⟨⟨_, rfl⟩, ⟨_, rfl⟩⟩

/-- `hessian_chol` is the derivative of `gradient_chol` for the restricted likelihood. -/
theorem C147_hessian_chol_partial (hT : T.Pd) (hq : CholOk cq)
    (h : ∀ j, HasDerivAt (fun t => et t j) (et' j) 0) (hl : HasDerivAt l l' 0) {g : ℝ → T.Par ⊕ Unit → ℝ}
    {H : Matrix (T.Par ⊕ Unit) (T.Par ⊕ Unit) ℝ} (hH : hessChol cq e m tr tr' true (et 0) (l 0) = some H)
    (hg : ∀ᶠ t in nhds 0, gradChol cq e m tr tr' true (et t) (l t) = some (g t)) (x : T.Par ⊕ Unit) :
    HasDerivAt (fun t => g t x) ((H *ᵥ Sum.elim et' fun _ => l') x) 0 := by
  unfold hessChol at hH
  simp only [invTransform] at hH
  cases hh : hessian cq e m true (fromChol (et 0)) (Real.exp (l 0)) with
  | none => simp [hh] at hH
  | some HH =>
  obtain ⟨HG, HGR, HR⟩ := HH
  cases hG : gradient cq e m tr tr' true (fromChol (et 0)) (Real.exp (l 0)) with
  | none => simp [hh, hG] at hH
  | some P =>
  obtain ⟨gG, gR⟩ := P
  simp only [hh, hG, Option.bind_eq_bind, Option.bind_some] at hH
  have hH := Option.some.inj hH
  -- the inner gradient along the curve
  let gg : ℝ → (T.Par → ℝ) × ℝ := fun t => (gradient cq e m tr tr' true (fromChol (et t)) (Real.exp (l t))).getD (gG, gR)
  have hgg : ∀ᶠ t in nhds 0, gradient cq e m tr tr' true (fromChol (et t)) (Real.exp (l t)) = some (gg t) ∧
      g t = (Sum.elim (gg t).1 fun _ => (gg t).2) ᵥ* jacF (et t) (l t) := by
    filter_upwards [hg] with t ht
    unfold gradChol at ht
    simp only [invTransform] at ht
    cases hG' : gradient cq e m tr tr' true (fromChol (et t)) (Real.exp (l t)) with
    | none => simp [hG'] at ht
    | some P =>
      simp only [hG', Option.bind_eq_bind, Option.bind_some] at ht
      have ht := Option.some.inj ht
      have e1 : gg t = P := by simp only [gg, hG', Option.getD_some]
      refine ⟨by rw [e1], ?_⟩
      rw [e1, ← ht]
  have gg0 : gg 0 = (gG, gR) := by simp only [gg, hG, Option.getD_some]
  obtain ⟨d1, d2⟩ := C145_hessian_gradient (th := fun t => fromChol (et t)) (s2 := fun t => Real.exp (l t)) hT hq
    (fromChol_deriv h) hl.exp (Real.exp_ne_zero _) hh (g := gg) (hgg.mono fun t ht => ht.1)
  obtain ⟨Jv, hJv⟩ : ∃ Jv, Jv = jacF (et 0) (l 0) *ᵥ Sum.elim et' fun _ => l' := ⟨_, rfl⟩
  have hJv' := hJv
  rw [jacF_mulVec] at hJv'
  obtain ⟨Hq, hHq⟩ : ∃ Hq : Matrix (T.Par ⊕ Unit) (T.Par ⊕ Unit) ℝ, Hq =
    fromBlocks (of HG) (of fun i _ => HGR i) (of fun _ i => HGR i) (of fun _ _ => HR) := ⟨_, rfl⟩
  have hd : ∀ y, HasDerivAt (fun t => Sum.elim (gg t).1 (fun _ => (gg t).2) y) ((Hq *ᵥ Jv) y) 0 := by
    intro y
    rw [hHq, hJv', fromBlocks_mulVec]
    rcases y with j | u
    · refine (d1 j).congr_deriv ?_
      simp only [Sum.elim_inl, Pi.add_apply, Sum.elim_comp_inl, Sum.elim_comp_inr, mulVec, dotProduct, of_apply,
        Finset.univ_unique, Finset.sum_singleton]
      rw [mul_comm (HGR j)]
      congr 1
      exact Finset.sum_congr rfl fun i _ => mul_comm _ _
    · refine d2.congr_deriv ?_
      simp only [Sum.elim_inr, Pi.add_apply, Sum.elim_comp_inl, Sum.elim_comp_inr, mulVec, dotProduct, of_apply,
        Finset.univ_unique, Finset.sum_singleton]
      rw [mul_comm HR]
      congr 1
      exact Finset.sum_congr rfl fun i _ => mul_comm _ _
  -- the derivative of the Jacobian
  have hF : ∀ y x, HasDerivAt (fun t => jacF (et t) (l t) y x)
      ((fromBlocks (blockDiagonal' fun k => of fun a b => ∑ c, d2Chol a b c * et' ⟨k, c⟩) 0 0 (of fun _ _ => Real.exp (l 0) * l') :
        Matrix (T.Par ⊕ Unit) (T.Par ⊕ Unit) ℝ) y x) 0 := by
    intro y x
    rcases y with ⟨k, a⟩ | u <;> rcases x with ⟨k', b⟩ | u'
    · simp only [jacF, fromBlocks_apply₁₁]
      by_cases hk : k = k'
      · subst hk
        simp only [blockDiagonal'_apply_eq]
        exact C147_d2_chol (et := fun t => Terms.sl (et t) k) (et' := Terms.sl et' k) (fun b => h ⟨k, b⟩) a b
      · simp only [blockDiagonal'_apply_ne _ _ _ hk]
        exact hasDerivAt_const _ _
    · exact hasDerivAt_const _ _
    · exact hasDerivAt_const _ _
    · exact hl.exp
  have hm : HasDerivAt (fun t => ∑ y, Sum.elim (gg t).1 (fun _ => (gg t).2) y * jacF (et t) (l t) y x) _ 0 :=
    HasDerivAt.fun_sum fun y _ => (hd y).fun_mul (hF y x)
  have hm2 := hm.congr_of_eventuallyEq (f₁ := fun t => g t x) (by
    filter_upwards [hgg] with t ht
    rw [ht.2]
    rfl)
  refine hm2.congr_deriv ?_
  rw [← hH, Matrix.add_mulVec, Pi.add_apply, Finset.sum_add_distrib]
  congr 1
  · rw [← hHq, ← mulVec_mulVec, ← hJv, ← mulVec_mulVec]
    simp only [mulVec, dotProduct, transpose_apply]
    exact Finset.sum_congr rfl fun y _ => mul_comm _ _
  · rw [gg0, fromBlocks_mulVec]
    rcases x with ⟨k, a⟩ | u
    · simp only [Fintype.sum_sum_type, Sum.elim_inl, Sum.elim_inr, fromBlocks_apply₁₁, fromBlocks_apply₂₁, Matrix.zero_apply,
        mul_zero, Finset.sum_const_zero, add_zero, Pi.add_apply, zero_mulVec, Pi.zero_apply, Sum.elim_comp_inl]
      rw [blockDiag_mulVec, Fintype.sum_sigma, Finset.sum_eq_single k]
      · simp only [blockDiagonal'_apply_eq, of_apply, transpose_sum, transpose_smul, d2_symm]
        simp only [mulVec, dotProduct, Matrix.sum_apply, Matrix.smul_apply, smul_eq_mul, Finset.mul_sum, Finset.sum_mul]
        rw [Finset.sum_comm]
        exact Finset.sum_congr rfl fun c _ => Finset.sum_congr rfl fun y _ => by ring
      · intro k' _ hk
        exact Finset.sum_eq_zero fun b _ => by rw [blockDiagonal'_apply_ne _ _ _ hk, mul_zero]
      · simp
    · simp [mulVec, dotProduct, Fintype.sum_sum_type]
      ring

end chain

theorem exT1_chol : fromChol (T := exT1) (fun _ => 1) = fun _ => 1 := by
  funext j
  obtain ⟨k, ⟨⟨a, b⟩, hab⟩⟩ := j
  have hk : ∀ x : Fin (exT1.nrv k), x = (0 : Fin 1) := fun x => Subsingleton.elim (α := Fin 1) _ _
  have ha := hk a
  have hb := hk b
  subst ha
  subst hb
  change ∑ c : Fin 1, ltri (r := 1) (fun _ => 1) 0 c * ltri (r := 1) (fun _ => 1) 0 c = 1
  simp [ltri]

/-- With `reml=False`, `hessian_chol` is not the derivative of `gradient_chol`. -/
theorem C147_hessian_chol_ml_violated {cq : Mat 1 1 → Option (Mat 1 1)} (hq : CholOk cq) (e : exT1.RE ≃ Fin 1) (tr tr' : Bool) :
    (∀ t > -1, ∃ g, gradChol cq e exM1 tr tr' false (fun _ => 1) (Real.log (1 + t)) = some g) ∧
    ∃ H, hessChol cq e exM1 tr tr' false (fun _ => 1) 0 = some H ∧
      ∀ g : ℝ → exT1.Par ⊕ Unit → ℝ, (∀ t > -1, gradChol cq e exM1 tr tr' false (fun _ => 1) (Real.log (1 + t)) = some (g t)) →
        ¬ HasDerivAt (fun t => g t (Sum.inr ())) (H (Sum.inr ()) (Sum.inr ())) 0 := by
  obtain ⟨h1, HG, HGR, HR, h2, h3⟩ := C145_hessian_ml_violated hq e tr tr'
  choose G hG using h1
  let gg : ℝ → (exT1.Par → ℝ) × ℝ := fun t => if h : t > -1 then G t h else 0
  have hgg : ∀ t > -1, gradient cq e exM1 tr tr' false (fun _ => 1) (1 + t) = some (gg t) := fun t ht => by
    simp only [gg, dif_pos ht]
    exact hG t ht
  have hc : ∀ t > -1, gradChol cq e exM1 tr tr' false (fun _ => 1) (Real.log (1 + t)) =
      some ((Sum.elim (gg t).1 fun _ => (gg t).2) ᵥ* jacF (fun _ => 1) (Real.log (1 + t))) := fun t ht => by
    unfold gradChol invTransform
    rw [exT1_chol, Real.exp_log (by linarith)]
    dsimp only
    rw [hgg t ht]
    rfl
  refine ⟨fun t ht => ⟨_, hc t ht⟩, ?_⟩
  have g0 := hgg 0 (by norm_num)
  rw [add_zero] at g0
  unfold hessChol invTransform
  rw [exT1_chol, Real.exp_zero]
  dsimp only
  rw [h2]
  simp only [g0, Option.bind_eq_bind, Option.bind_some]
  refine ⟨_, rfl, fun g hg hd => ?_⟩
  have hgt : ∀ t > -1, g t (Sum.inr ()) = (gg t).2 * (1 + t) := fun t ht => by
    have := Option.some.inj ((hg t ht).symm.trans (hc t ht))
    rw [this]
    simp [vecMul, dotProduct, jacF, Fintype.sum_sum_type, Real.exp_log (show (0 : ℝ) < 1 + t by linarith)]
  refine h3 gg hgg ?_
  have i1 : HasDerivAt (fun t : ℝ => 1 + t) 1 0 := by simpa using (hasDerivAt_id (0 : ℝ)).const_add 1
  have i2 := hd.fun_mul (i1.fun_inv (by norm_num))
  have i3 := i2.congr_of_eventuallyEq (f₁ := fun t => (gg t).2) (by
    filter_upwards [lt_mem_nhds (show (-1 : ℝ) < 0 by norm_num)] with t ht
    have : (1 : ℝ) + t ≠ 0 := by linarith
    rw [hgt t ht]
    field_simp)
  refine i3.congr_deriv ?_
  rw [hgt 0 (by norm_num)]
  simp [jacF, mul_apply, Fintype.sum_sum_type]

/-- The hypotheses hold for a term with one variable. -/
example (cq : Mat 1 1 → Option (Mat 1 1)) (hq : CholOk cq) (e : exT1.RE ≃ Fin 1) :
    ∃ g H, gradChol cq e exM1 true true true (fun _ => 1) 0 = some g ∧ hessChol cq e exM1 true true true (fun _ => 1) 0 = some H := by
  obtain ⟨⟨g, hg⟩, H, hH⟩ := C147_gradient_defined (m := exM1) (et := fun _ => 1) exT1_pd (fun _ => rfl) hq e true true true 0
    (fun k a => by simp [ltri, Terms.sl]) (fun u v huv => by
      have := congrFun huv 0
      simp [exM1, mulVec, dotProduct] at this
      funext i
      fin_cases i
      exact this)
  exact ⟨g, H, hg, hH⟩

end Verif.Lmm.Lm
