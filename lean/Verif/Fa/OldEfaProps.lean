import Verif.Fa.OldEfa
import Verif.Fa.OldGpaProps
import Verif.Fa.LikelihoodProps
/-! # C186: derivatives of the implied covariance and of the discrepancy in `pyfa` -/
namespace Verif.Fa.Old
open Matrix Kronecker Verif.Calc

variable {p m : ℕ}

/-! ## elimination and duplication -/

theorem lmat_mulVec (X : Mat p p) : lmat p *ᵥ vec X = vech X := by
  funext q
  simp only [mulVec, dotProduct, lmat, of_apply, ite_mul, one_mul, zero_mul, Finset.sum_ite_eq', Finset.mem_univ, if_true]
  rfl

theorem nmat_mulVec (X : Mat p p) : nmat p *ᵥ vec X = vec (Xᵀ + X) := by
  rw [nmat, add_mulVec, kmat_mulVec, one_mulVec]; rfl

theorem dmat_mulVec (X : Mat p p) (h : Xᵀ = X) : dmat p *ᵥ vech X = vec X := by
  funext x
  obtain ⟨a, b⟩ := x
  simp only [mulVec, dotProduct, dmat, of_apply, ite_mul, one_mul, zero_mul]
  rcases le_total a b with hab | hab
  · rw [Finset.sum_eq_single ⟨(a, b), hab⟩ (fun q _ hq => if_neg ?_) (by simp), if_pos (Or.inl rfl)]
    · rfl
    · rintro (e | e)
      · exact hq (Subtype.ext e.symm)
      · have h2 := q.2
        rw [← e] at h2
        have : a = b := le_antisymm hab h2
        subst this
        exact hq (Subtype.ext e.symm)
  · rw [Finset.sum_eq_single ⟨(b, a), hab⟩ (fun q _ hq => if_neg ?_) (by simp), if_pos (Or.inr (by rfl))]
    · change X a b = X b a
      exact congrFun (congrFun h b) a
    · rintro (e | e)
      · have h2 := q.2
        rw [← e] at h2
        have : a = b := le_antisymm h2 hab
        subst this
        exact hq (Subtype.ext e.symm)
      · exact hq (Subtype.ext e.symm)

/-- The symmetric matrix with zero diagonal and given lower triangle. -/
def symL (u : Low m → ℝ) : Mat m m := of fun i j =>
  if h : j < i then u ⟨(j, i), h⟩ else if h : i < j then u ⟨(i, j), h⟩ else 0

theorem symL_t (u : Low m → ℝ) : (symL u)ᵀ = symL u := by
  ext i j
  simp only [transpose_apply, symL, of_apply]
  rcases lt_trichotomy i j with h | h | h
  · simp [h, h.not_gt]
  · simp [h]
  · simp [h, h.not_gt]

theorem invecl_t (u : Low m → ℝ) : (invecl u)ᵀ = invecl u := by
  ext i j
  simp only [transpose_apply, invecl, of_apply]
  rcases lt_trichotomy i j with h | h | h
  · simp [h, h.not_gt]
  · simp [h]
  · simp [h, h.not_gt]

theorem dmat_ndg (u : Low m → ℝ) : (dmat m).submatrix id ndg *ᵥ u = vec (symL u) := by
  funext x
  obtain ⟨a, b⟩ := x
  simp only [mulVec, dotProduct, dmat, submatrix_apply, of_apply, id, ndg, ite_mul, one_mul, zero_mul, vec, symL]
  rcases lt_trichotomy a b with hab | hab | hab
  · rw [Finset.sum_eq_single ⟨(a, b), hab⟩ (fun q _ hq => if_neg ?_) (by simp), if_pos (Or.inl rfl), dif_pos hab]
    rintro (e | e)
    · exact hq (Subtype.ext e.symm)
    · have h2 := q.2
      rw [← e] at h2
      exact absurd h2 hab.not_gt
  · subst hab
    rw [dif_neg (lt_irrefl _), dif_neg (lt_irrefl _)]
    refine Finset.sum_eq_zero fun q _ => if_neg ?_
    rintro (e | e)
    · have h2 := q.2; rw [← e] at h2; exact lt_irrefl _ h2
    · have h2 := q.2; rw [← e] at h2; exact lt_irrefl _ h2
  · rw [Finset.sum_eq_single ⟨(b, a), hab⟩ (fun q _ hq => if_neg ?_) (by simp), if_pos (Or.inr (by rfl)), dif_neg hab.not_gt,
      dif_pos hab]
    rintro (e | e)
    · have h2 := q.2
      rw [← e] at h2
      exact absurd h2 hab.not_gt
    · exact hq (Subtype.ext e.symm)

theorem diag_cols (P : Mat p p) (u : Fin p → ℝ) :
    (diagonal (vec P)).submatrix id (fun i : Fin p => (i, i)) *ᵥ u = vec (diagonal fun i => P i i * u i) := by
  funext x
  obtain ⟨a, b⟩ := x
  simp only [mulVec, dotProduct, submatrix_apply, id, vec]
  by_cases e : a = b
  · subst e
    rw [Finset.sum_eq_single a (fun i _ hi => by rw [diagonal_apply_ne _ (fun h => hi (congrArg Prod.fst h).symm), zero_mul]) (by simp),
      diagonal_apply_eq, diagonal_apply_eq]
    rfl
  · rw [diagonal_apply_ne _ (Ne.symm e)]
    refine Finset.sum_eq_zero fun i _ => ?_
    rw [diagonal_apply_ne _ (fun h => e ((congrArg Prod.fst h).trans (congrArg Prod.snd h).symm)), zero_mul]

theorem mul_cols {α β κ μ : Type*} [Fintype β] (A : Matrix α β ℝ) (B : Matrix β κ ℝ) (f : μ → κ) :
    (A * B).submatrix id f = A * B.submatrix id f := rfl

/-! ## the array `E` -/

theorem eLoop_apply (E : Mat p p) (l : List (Fin p × Fin p)) (a b : Fin p) :
    eLoop E l a b = if (a, b) ∈ l then 0 else E a b := by
  unfold eLoop
  induction l generalizing E with
  | nil => simp
  | cons x l ih =>
    rw [List.foldl_cons, ih]
    simp only [setE, of_apply, List.mem_cons]
    by_cases h : (a, b) ∈ l
    · simp [h]
    · by_cases e : (a, b) = x <;> simp [h, e]

theorem mem_cells (a b : Fin p) : (a, b) ∈ cells p ↔ a ≤ b := by
  simp [cells]

/-- After one pass the array is zero. -/
theorem eEnd_one : eEnd (1 : Mat p p) = 0 := by
  ext a b
  rw [eEnd, eLoop_apply, Matrix.zero_apply]
  by_cases h : a ≤ b
  · rw [if_pos ((mem_cells a b).2 h)]
  · rw [if_neg (fun hh => h ((mem_cells a b).1 hh)), Matrix.one_apply_ne (fun e => h e.le)]

theorem eEnd_zero : eEnd (0 : Mat p p) = 0 := by
  ext a b
  rw [eEnd, eLoop_apply]; simp

theorem eAt_zero (q : Tri p) (a b : Fin p) : eAt (0 : Mat p p) q a b = if (a, b) = q.1 then 1 else 0 := by
  simp only [eAt, setE, of_apply, eLoop_apply, Matrix.zero_apply, ite_self]

/-- Pairing through the matrix `T` of a position. -/
theorem fro_T {n : ℕ} (q : Tri p) (X Y : Mat p n) :
    fro X ((eAt (0 : Mat p p) q + (eAt 0 q)ᵀ) * Y) = vech (X * Yᵀ + Y * Xᵀ) q := by
  obtain ⟨⟨i, j⟩, hij⟩ := q
  have h1 : fro X (eAt (0 : Mat p p) ⟨(i, j), hij⟩ * Y) = (Y * Xᵀ) j i := by
    simp only [fro, Matrix.mul_apply, eAt_zero, transpose_apply]
    rw [Finset.sum_eq_single i (fun a _ ha => Finset.sum_eq_zero fun k _ => by
      rw [Finset.sum_eq_zero fun b _ => by rw [if_neg (fun e => ha (congrArg Prod.fst e)), zero_mul], mul_zero]) (by simp)]
    refine Finset.sum_congr rfl fun k _ => ?_
    rw [Finset.sum_eq_single j (fun b _ hb => by rw [if_neg (fun e => hb (congrArg Prod.snd e)), zero_mul]) (by simp), if_pos rfl]
    ring
  have h2 : fro X ((eAt (0 : Mat p p) ⟨(i, j), hij⟩)ᵀ * Y) = (X * Yᵀ) j i := by
    simp only [fro, Matrix.mul_apply, eAt_zero, transpose_apply]
    rw [Finset.sum_eq_single j (fun a _ ha => Finset.sum_eq_zero fun k _ => by
      rw [Finset.sum_eq_zero fun b _ => by rw [if_neg (fun e => ha (congrArg Prod.snd e)), zero_mul], mul_zero]) (by simp)]
    refine Finset.sum_congr rfl fun k _ => ?_
    rw [Finset.sum_eq_single i (fun b _ hb => by rw [if_neg (fun e => hb (congrArg Prod.fst e)), zero_mul]) (by simp), if_pos rfl]
    ring
  have h3 : ∀ A B : Mat p n, fro X (A + B) = fro X A + fro X B := fun A B => by
    simp only [fro, Matrix.add_apply, mul_add, Finset.sum_add_distrib]
  rw [Matrix.add_mul, h3, h1, h2]
  simp only [vech, Matrix.add_apply]; ring

/-! ## the discrepancy along a curve of covariances -/

theorem ml_grad {Sig : ℝ → Mat p p} {D S : Mat p p} (hs : MD Sig D) (h0 : IsUnit (Sig 0).det) (hS : Sᵀ = S)
    (ht : (Sig 0)ᵀ = Sig 0) :
    ∃ F : ℝ → ℝ, (∀ᶠ t in nhds 0, mlOf S (Sig t) = some (F t)) ∧
      HasDerivAt F (fro ((Sig 0)⁻¹ * (Sig 0 - S) * (Sig 0)⁻¹) D) 0 := by
  refine ⟨fun t => Real.log |(Sig t).det| + ((Sig t)⁻¹ * S).trace, (hs.eventually_isUnit h0).mono fun t ht => if_pos ht, ?_⟩
  refine ((logdet_deriv hs h0).fun_add (trace_deriv ((hs.inv h0).mul (MD.const S)))).congr_deriv ?_
  have hV := inv_t ht
  rw [fro_tr_symm (by rw [transpose_mul, transpose_mul, transpose_sub, hV, hS, ht, Matrix.mul_assoc])]
  have e : (Sig 0)⁻¹ * (Sig 0 - S) * (Sig 0)⁻¹ = (Sig 0)⁻¹ - (Sig 0)⁻¹ * S * (Sig 0)⁻¹ := by
    rw [Matrix.mul_sub, nonsing_inv_mul _ h0, Matrix.sub_mul, Matrix.one_mul]
  rw [e]
  generalize (Sig 0)⁻¹ = V
  rw [Matrix.sub_mul, trace_sub, Matrix.mul_zero, add_zero, Matrix.neg_mul, trace_neg, ← sub_eq_add_neg]
  congr 1
  rw [show V * D * V * S = (V * D) * (V * S) by simp only [Matrix.mul_assoc], trace_mul_comm]
  congr 1
  simp only [Matrix.mul_assoc]

theorem ml_hess {Sig G : ℝ → Mat p p} {D E S : Mat p p} (hs : MD Sig D) (hG : MD G E) (h0 : IsUnit (Sig 0).det) (hS : Sᵀ = S)
    (ht : (Sig 0)ᵀ = Sig 0) (hGt : (G 0)ᵀ = G 0) (hD : Dᵀ = D) :
    HasDerivAt (fun t => fro ((Sig t)⁻¹ * (Sig t - S) * (Sig t)⁻¹) (G t))
      (fro ((Sig 0)⁻¹ * G 0 * (Sig 0)⁻¹ + (2 : ℝ) • ((Sig 0)⁻¹ * (S - Sig 0) * (Sig 0)⁻¹ * G 0 * (Sig 0)⁻¹)) D -
        fro ((Sig 0)⁻¹ * (S - Sig 0) * (Sig 0)⁻¹) E) 0 := by
  have hi := hs.inv h0
  have h1 := (hi.mul (hs.sub (MD.const S))).mul hi
  refine (fro_deriv h1 hG).congr_deriv ?_
  have hV := inv_t ht
  rw [← hess_alg _ _ _ _ _ hV (by rw [transpose_sub, hS, ht]) hGt hD, neg_sub, sub_zero]

theorem vec_add (X Y : Mat p m) : vec (X + Y) = vec X + vec Y := rfl

/-- The quadratic form of the program's Hessian. -/
theorem hessOf_quad {κ : Type} [Fintype κ] (S Sig : Mat p p) (G : Matrix (Tri p) κ ℝ) (Hp : Tri p → Matrix κ κ ℝ)
    (hS : Sᵀ = S) (ht : Sigᵀ = Sig) (h0 : IsUnit Sig.det) :
    ∃ H, hessOf S Sig G Hp = some H ∧ ∀ (w v : κ → ℝ) (A B E : Mat p p), G *ᵥ w = vech A → Aᵀ = A → G *ᵥ v = vech B → Bᵀ = B →
      (∀ k, w ⬝ᵥ Hp k *ᵥ v = vech E k) → Eᵀ = E →
      w ⬝ᵥ H *ᵥ v = fro (Sig⁻¹ * A * Sig⁻¹ + (2 : ℝ) • (Sig⁻¹ * (S - Sig) * Sig⁻¹ * A * Sig⁻¹)) B -
        fro (Sig⁻¹ * (S - Sig) * Sig⁻¹) E := by
  rw [hessOf, inv?_unit h0, Option.map_some]
  refine ⟨_, rfl, fun w v A B E hA hAt hB hBt hE hEt => ?_⟩
  have hV := inv_t ht
  have hW : (S - Sig)ᵀ = S - Sig := by rw [transpose_sub, hS, ht]
  generalize hVe : Sig⁻¹ = V at *
  generalize hWe : S - Sig = W at *
  have hY : (V * W * V)ᵀ = V * W * V := by rw [transpose_mul, transpose_mul, hV, hW, Matrix.mul_assoc]
  have q : ∀ M : Matrix (Fin p × Fin p) (Fin p × Fin p) ℝ,
      w ⬝ᵥ ((dmat p * G)ᵀ * M * (dmat p * G)) *ᵥ v = vec A ⬝ᵥ M *ᵥ vec B := fun M => by
    rw [← mulVec_mulVec, ← mulVec_mulVec, ← mulVec_mulVec, hB, dmat_mulVec _ hBt, mulVec_transpose, dotProduct_comm,
      ← dotProduct_mulVec, ← mulVec_mulVec, hA, dmat_mulVec _ hAt, dotProduct_comm]
  have h1 : vec A ⬝ᵥ (V ⊗ₖ V) *ᵥ vec B = fro (V * A * V) B := by
    rw [kron_mulVec, hV, ← fro_vec, fro_trace, fro_trace, hAt, transpose_mul, transpose_mul, hV, hAt]
    rw [show A * (V * B * V) = (A * V * B) * V by simp only [Matrix.mul_assoc], trace_mul_comm]
    simp only [Matrix.mul_assoc]
  have h2 : vec A ⬝ᵥ (V ⊗ₖ (V * W * V)) *ᵥ vec B = fro (V * W * V * A * V) B := by
    rw [kron_mulVec, hV, ← fro_vec, fro_trace, fro_trace, hAt]
    generalize V * W * V = Y at *
    rw [transpose_mul, transpose_mul, hV, hAt, hY]
    rw [show A * (Y * B * V) = (A * Y * B) * V by simp only [Matrix.mul_assoc], trace_mul_comm]
    simp only [Matrix.mul_assoc]
  have h3 : w ⬝ᵥ (∑ k, (vech W ᵥ* ((dmat p)ᵀ * (V ⊗ₖ V) * dmat p)) k • Hp k) *ᵥ v = fro (V * W * V) E := by
    have e : w ⬝ᵥ (∑ k, (vech W ᵥ* ((dmat p)ᵀ * (V ⊗ₖ V) * dmat p)) k • Hp k) *ᵥ v =
        (vech W ᵥ* ((dmat p)ᵀ * (V ⊗ₖ V) * dmat p)) ⬝ᵥ vech E := by
      rw [sum_mulVec, dotProduct_sum, dotProduct]
      refine Finset.sum_congr rfl fun k _ => ?_
      rw [smul_mulVec, dotProduct_smul, hE, smul_eq_mul]
    rw [e, ← dotProduct_mulVec, ← mulVec_mulVec, ← mulVec_mulVec, dmat_mulVec _ hEt, mulVec_transpose, dotProduct_comm,
      ← dotProduct_mulVec, dmat_mulVec _ hW, dotProduct_comm, kron_mulVec, hV, ← fro_vec, fro_trace, fro_trace, hW, hY]
    rw [show W * (V * E * V) = (W * V * E) * V by simp only [Matrix.mul_assoc], trace_mul_comm]
    simp only [Matrix.mul_assoc]
  have e1 : (0.5 : ℝ) = 1 / 2 := by norm_num
  have e2 : (1.0 : ℝ) = 1 := by norm_num
  have e3 : (2.0 : ℝ) = 2 := by norm_num
  have h4 : ∀ X Y : Mat p p, fro (X + (2 : ℝ) • Y) B = fro X B + 2 * fro Y B := fun X Y => by
    simp only [fro, Matrix.add_apply, Matrix.smul_apply, smul_eq_mul, add_mul, Finset.sum_add_distrib, Finset.mul_sum, mul_assoc]
  simp only [e1, e2, e3, smul_mulVec, add_mulVec, sub_mulVec, dotProduct_smul, dotProduct_add, dotProduct_sub, smul_eq_mul]
  rw [q, q, h1, h2, h3, h4]
  ring

/-! ## loadings, correlations and unique variances -/

/-- Velocity of `Sigma`. -/
def dSigP (th w : Par p m → ℝ) : Mat p p :=
  (parL w * parPhi th + parL th * symL fun q => w (.inr (.inl q))) * (parL th)ᵀ + parL th * parPhi th * (parL w)ᵀ + parPsi w

theorem parPhi_t (th : Par p m → ℝ) : (parPhi th)ᵀ = parPhi th := invecl_t _

theorem parPsi_t (th : Par p m → ℝ) : (parPsi th)ᵀ = parPsi th := diagonal_transpose _

theorem sigma_t (th : Par p m → ℝ) : (sigma th)ᵀ = sigma th := by
  rw [sigma, transpose_add, transpose_mul, transpose_mul, transpose_transpose, parPhi_t, parPsi_t, Matrix.mul_assoc]

theorem dSigP_t (th w : Par p m → ℝ) : (dSigP th w)ᵀ = dSigP th w := by
  simp only [dSigP, transpose_add, transpose_mul, transpose_transpose, parPhi_t, parPsi_t, symL_t, Matrix.add_mul, Matrix.mul_add,
    Matrix.mul_assoc]
  abel

theorem md_parL {th : ℝ → Par p m → ℝ} {v : Par p m → ℝ} (h : VD th v) : MD (fun t => parL (th t)) (parL v) :=
  fun _ _ => h _

theorem md_parPhi {th : ℝ → Par p m → ℝ} {v : Par p m → ℝ} (h : VD th v) :
    MD (fun t => parPhi (th t)) (symL fun q => v (.inr (.inl q))) := fun i j => by
  simp only [parPhi, invecl, symL, of_apply]
  split_ifs
  · exact h _
  · exact h _
  · exact hasDerivAt_const _ _

theorem md_diag {n : ℕ} {f : ℝ → Fin n → ℝ} {g : Fin n → ℝ} (h : VD f g) :
    MD (fun t => (diagonal (f t) : Mat n n)) (diagonal g) := fun i j => by
  by_cases e : i = j
  · subst e; simp only [diagonal_apply_eq]; exact h _
  · simp only [diagonal_apply_ne _ e]; exact hasDerivAt_const _ _

theorem md_sigma {th : ℝ → Par p m → ℝ} {v : Par p m → ℝ} (h : VD th v) :
    MD (fun t => sigma (th t)) (dSigP (th 0) v) :=
  (((md_parL h).mul (md_parPhi h)).mul (md_parL h).transpose).add (md_diag fun i => h (.inr (.inr i)))

theorem dsigmaP_mulVec (th w : Par p m → ℝ) : dsigmaP th *ᵥ w = vech (dSigP th w) := by
  have hw : w = Sum.elim (vec (parL w)) (Sum.elim (fun q => w (.inr (.inl q))) fun i => w (.inr (.inr i))) := by
    funext x; rcases x with x | x | x <;> rfl
  have h1 : (lmat p * nmat p * ((parL th * parPhi th) ⊗ₖ (1 : Mat p p))) *ᵥ vec (parL w) =
      vech (parL th * parPhi th * (parL w)ᵀ + parL w * parPhi th * (parL th)ᵀ) := by
    rw [← mulVec_mulVec, ← mulVec_mulVec, kron_mulVec, nmat_mulVec, lmat_mulVec, Matrix.one_mul, transpose_mul, transpose_mul,
      transpose_mul, transpose_transpose, transpose_transpose, parPhi_t, ← Matrix.mul_assoc]
  have h2 : (lmat p * (parL th ⊗ₖ parL th) * dmat m).submatrix id ndg *ᵥ (fun q => w (.inr (.inl q))) =
      vech (parL th * (symL fun q => w (.inr (.inl q))) * (parL th)ᵀ) := by
    rw [mul_cols, ← mulVec_mulVec, dmat_ndg, ← mulVec_mulVec, kron_mulVec, lmat_mulVec]
  have h3 : (lmat p * diagonal (vec (1 : Mat p p))).submatrix id (fun i : Fin p => (i, i)) *ᵥ (fun i => w (.inr (.inr i))) =
      vech (parPsi w) := by
    rw [mul_cols, ← mulVec_mulVec, diag_cols, lmat_mulVec]
    simp only [Matrix.one_apply_eq, one_mul]; rfl
  conv_lhs => rw [hw]
  simp only [dsigmaP]
  rw [fromCols_mulVec_sumElim, fromCols_mulVec_sumElim, h1, h2, h3]
  funext q
  simp only [Pi.add_apply, vech, dSigP, Matrix.add_apply, Matrix.add_mul]
  ring

/-- Velocity of the velocity of `Sigma`. -/
def ddSigP (th w v : Par p m → ℝ) : Mat p p :=
  let dw := symL fun q => w (.inr (.inl q))
  let dv := symL fun q => v (.inr (.inl q))
  (parL w * dv + parL v * dw) * (parL th)ᵀ + (parL w * parPhi th + parL th * dw) * (parL v)ᵀ +
    (parL v * parPhi th + parL th * dv) * (parL w)ᵀ

theorem ddSigP_t (th w v : Par p m → ℝ) : (ddSigP th w v)ᵀ = ddSigP th w v := by
  simp only [ddSigP, transpose_add, transpose_mul, transpose_transpose, parPhi_t, symL_t, Matrix.add_mul, Matrix.mul_add,
    Matrix.mul_assoc]
  abel

theorem md_dSigP {th : ℝ → Par p m → ℝ} {v : Par p m → ℝ} (h : VD th v) (w : Par p m → ℝ) :
    MD (fun t => dSigP (th t) w) (ddSigP (th 0) w v) := by
  have h1 := ((((MD.const (parL w)).mul (md_parPhi h)).add ((md_parL h).mul (MD.const (symL fun q => w (.inr (.inl q)))))).mul
    (md_parL h).transpose).add (((md_parL h).mul (md_parPhi h)).mul (MD.const (parL w)ᵀ)) |>.add (MD.const (parPsi w))
  refine h1.congr ?_
  simp only [ddSigP, Matrix.zero_mul, Matrix.mul_zero, zero_add, add_zero]

theorem d2sigmaP_quad (th w v : Par p m → ℝ) (q : Tri p) :
    w ⬝ᵥ d2sigmaP 0 th q *ᵥ v = vech (ddSigP th w v) q := by
  set T := eAt (0 : Mat p p) q + (eAt 0 q)ᵀ with hT
  set H22 := ((1 : Mat m m) ⊗ₖ (T * parL th) * dmat m).submatrix id ndg with h22
  have hH : ∀ u : Par p m → ℝ, H22 *ᵥ (fun q => u (.inr (.inl q))) = vec (T * (parL th * symL fun q => u (.inr (.inl q)))) := fun u => by
    rw [h22, mul_cols, ← mulVec_mulVec, dmat_ndg, kron_mulVec, transpose_one, Matrix.mul_one, Matrix.mul_assoc]
  have e : w ⬝ᵥ d2sigmaP 0 th q *ᵥ v =
      (vec (parL v) ⬝ᵥ (parPhi th ⊗ₖ T) *ᵥ vec (parL w)) + (vec (parL w) ⬝ᵥ H22 *ᵥ fun q => v (.inr (.inl q))) +
        (vec (parL v) ⬝ᵥ H22 *ᵥ fun q => w (.inr (.inl q))) := by
    simp only [dotProduct, mulVec, Fintype.sum_sum_type, d2sigmaP, of_apply, ← hT, ← h22, zero_mul, Finset.sum_const_zero, add_zero,
      mul_zero, mul_add, Finset.sum_add_distrib, transpose_apply]
    have s1 : (∑ x : Fin m × Fin p, w (.inl x) * ∑ y : Fin m × Fin p, (parPhi th ⊗ₖ T) y x * v (.inl y)) =
        ∑ x : Fin m × Fin p, vec (parL v) x * ∑ y : Fin m × Fin p, (parPhi th ⊗ₖ T) x y * vec (parL w) y := by
      simp only [Finset.mul_sum]
      rw [Finset.sum_comm]
      refine Finset.sum_congr rfl fun x _ => Finset.sum_congr rfl fun y _ => ?_
      change _ = v (.inl x) * (_ * w (.inl y)); ring
    have s2 : (∑ q : Low m, w (.inr (.inl q)) * ∑ x : Fin m × Fin p, H22 x q * v (.inl x)) =
        ∑ x : Fin m × Fin p, vec (parL v) x * ∑ q : Low m, H22 x q * w (.inr (.inl q)) := by
      simp only [Finset.mul_sum]
      rw [Finset.sum_comm]
      refine Finset.sum_congr rfl fun x _ => Finset.sum_congr rfl fun y _ => ?_
      change _ = v (.inl x) * _; ring
    rw [s1, s2]
    exact add_right_comm _ _ _
  rw [e, hH, hH, kron_mulVec, ← fro_vec, ← fro_vec, ← fro_vec, parPhi_t, Matrix.mul_assoc, hT, fro_T, fro_T, fro_T]
  simp only [vech, ddSigP, ← Matrix.add_apply]
  simp only [transpose_mul, parPhi_t, symL_t, Matrix.add_mul, Matrix.mul_assoc]
  simp only [Matrix.add_apply]
  ring

theorem fro_symL (Y : Mat m m) (hY : Yᵀ = Y) (u : Low m → ℝ) : fro Y (symL u) = ∑ q : Low m, 2 * vecl Y q * u q := by
  rw [fro_vec, ← dmat_ndg, dotProduct_mulVec, dotProduct]
  refine Finset.sum_congr rfl fun q _ => ?_
  congr 1
  obtain ⟨⟨a, b⟩, hab⟩ := q
  have hne : ((a, b) : Fin m × Fin m) ≠ (b, a) := fun e => (show a < b from hab).ne (congrArg Prod.fst e)
  simp only [vecMul, dotProduct, submatrix_apply, dmat, of_apply, id, ndg, mul_ite, mul_one, mul_zero]
  have h1 : ∀ x : Fin m × Fin m, (if x = (a, b) ∨ x.swap = (a, b) then vec Y x else 0) =
      (if x = (a, b) then vec Y x else 0) + (if x = (b, a) then vec Y x else 0) := fun x => by
    have hx : x.swap = (a, b) ↔ x = (b, a) := by
      constructor
      · intro e; rw [← Prod.swap_swap x, e]; rfl
      · rintro rfl; rfl
    by_cases c : x = (a, b)
    · rw [if_pos (Or.inl c), if_pos c, if_neg (fun e => hne (c.symm.trans e)), add_zero]
    · by_cases c2 : x = (b, a)
      · rw [if_pos (Or.inr (hx.2 c2)), if_neg c, if_pos c2, zero_add]
      · rw [if_neg (fun h => h.elim c fun h => c2 (hx.1 h)), if_neg c, if_neg c2, add_zero]
  simp only [h1, Finset.sum_add_distrib, Finset.sum_ite_eq', Finset.mem_univ, if_true]
  have h2 : Y a b = Y b a := congrFun (congrFun hY b) a
  change Y b a + Y a b = 2 * Y b a
  rw [h2]; ring

theorem gradientP_dot (pinv : Mat p p → Mat p p) (hp : PinvOk pinv) (S : Mat p p) (hS : Sᵀ = S) (th w : Par p m → ℝ)
    (h0 : IsUnit (sigma th).det) :
    gradientP pinv S th ⬝ᵥ w = fro ((sigma th)⁻¹ * (sigma th - S) * (sigma th)⁻¹) (dSigP th w) := by
  have hV := inv_t (sigma_t th)
  have hX : ((sigma th)⁻¹ * (sigma th - S) * (sigma th)⁻¹)ᵀ = (sigma th)⁻¹ * (sigma th - S) * (sigma th)⁻¹ := by
    rw [transpose_mul, transpose_mul, transpose_sub, hV, hS, sigma_t, Matrix.mul_assoc]
  have e : gradientP pinv S th = Sum.elim (fun x => 2 * vec ((sigma th)⁻¹ * (sigma th - S) * (sigma th)⁻¹ * (parL th * parPhi th)) x)
      (Sum.elim (fun q => 2 * vecl ((parL th)ᵀ * ((sigma th)⁻¹ * (sigma th - S) * (sigma th)⁻¹) * parL th) q)
        fun i => ((sigma th)⁻¹ * (sigma th - S) * (sigma th)⁻¹) i i) := by
    simp only [gradientP]
    rw [show parL th * parPhi th * (parL th)ᵀ + parPsi th = sigma th from rfl, hp _ h0]
  rw [e]
  generalize (sigma th)⁻¹ * (sigma th - S) * (sigma th)⁻¹ = X at hX
  have fa : ∀ A B : Mat p p, fro X (A + B) = fro X A + fro X B := fun A B => by
    simp only [fro, Matrix.add_apply, mul_add, Finset.sum_add_distrib]
  have t1 : fro X (parL w * parPhi th * (parL th)ᵀ) = vec (X * (parL th * parPhi th)) ⬝ᵥ vec (parL w) := by
    rw [← fro_vec, fro_trace, fro_trace, hX, transpose_mul, transpose_mul, hX, parPhi_t,
      show X * (parL w * parPhi th * (parL th)ᵀ) = (X * parL w) * (parPhi th * (parL th)ᵀ) by simp only [Matrix.mul_assoc],
      trace_mul_comm]
    simp only [Matrix.mul_assoc]
  have t2 : fro X (parL th * parPhi th * (parL w)ᵀ) = vec (X * (parL th * parPhi th)) ⬝ᵥ vec (parL w) := by
    rw [← t1, fro_trace, fro_trace, ← trace_transpose, hX]
    simp only [transpose_mul, transpose_transpose, parPhi_t, hX]
    rw [trace_mul_comm]; simp only [Matrix.mul_assoc]
  have t3 : fro X (parL th * (symL fun q => w (.inr (.inl q))) * (parL th)ᵀ) =
      ∑ q : Low m, 2 * vecl ((parL th)ᵀ * X * parL th) q * w (.inr (.inl q)) := by
    have hYt : ((parL th)ᵀ * X * parL th)ᵀ = (parL th)ᵀ * X * parL th := by
      rw [transpose_mul, transpose_mul, transpose_transpose, hX, Matrix.mul_assoc]
    have : fro X (parL th * (symL fun q => w (.inr (.inl q))) * (parL th)ᵀ) =
        fro ((parL th)ᵀ * X * parL th) (symL fun q => w (.inr (.inl q))) := by
      rw [fro_trace, fro_trace, hX, hYt,
        show X * (parL th * (symL fun q => w (.inr (.inl q))) * (parL th)ᵀ) =
          (X * parL th * (symL fun q => w (.inr (.inl q)))) * (parL th)ᵀ by simp only [Matrix.mul_assoc], trace_mul_comm]
      simp only [Matrix.mul_assoc]
    rw [this, fro_symL _ hYt]
  rw [dSigP, Matrix.add_mul, fa, fa, fa, t1, t2, t3]
  simp only [dotProduct, Fintype.sum_sum_type, Sum.elim_inl, Sum.elim_inr]
  have t4 : fro X (parPsi w) = ∑ i, X i i * w (.inr (.inr i)) := by
    simp only [fro, parPsi]
    refine Finset.sum_congr rfl fun i _ => ?_
    rw [Finset.sum_eq_single i (fun j _ hj => by rw [diagonal_apply_ne _ (Ne.symm hj), mul_zero]) (by simp), diagonal_apply_eq]
  rw [t4]
  have t5 : ∀ x : Fin m × Fin p, vec (parL w) x = w (.inl x) := fun _ => rfl
  simp only [t5, mul_assoc, ← Finset.mul_sum]
  ring

/-- C186: `dsigma_params` is the derivative of `vech(Sigma)`. -/
theorem C186_dsigma (th : ℝ → Par p m → ℝ) (v : Par p m → ℝ) (h : VD th v) :
    VD (fun t => vech (sigma (th t))) (dsigmaP (th 0) *ᵥ v) := by
  rw [dsigmaP_mulVec]
  exact fun q => md_sigma h _ _

/-- C186: `d2sigma_params` is the second derivative of `vech(Sigma)`. -/
theorem C186_d2sigma (th : ℝ → Par p m → ℝ) (v w : Par p m → ℝ) (h : VD th v) :
    VD (fun t => dsigmaP (th t) *ᵥ w) fun q => w ⬝ᵥ d2sigmaP 0 (th 0) q *ᵥ v := fun q => by
  simp only [dsigmaP_mulVec, d2sigmaP_quad]
  exact md_dSigP h w _ _

/-- C186: `gradient_params` is the gradient of `loglike_params`. -/
theorem C186_gradient (pinv : Mat p p → Mat p p) (hp : PinvOk pinv) (S : Mat p p) (hS : Sᵀ = S) (th : ℝ → Par p m → ℝ)
    (v : Par p m → ℝ) (h : VD th v) (h0 : IsUnit (sigma (th 0)).det) :
    ∃ F : ℝ → ℝ, (∀ᶠ t in nhds 0, loglikeP S (th t) = some (F t)) ∧
      HasDerivAt F (gradientP pinv S (th 0) ⬝ᵥ v) 0 := by
  rw [gradientP_dot pinv hp S hS _ _ h0]
  exact ml_grad (md_sigma h) h0 hS (sigma_t _)

/-- C186: `hessian_params`, started with a zero array, is the derivative of `gradient_params`. -/
theorem C186_hessian (pinv : Mat p p → Mat p p) (hp : PinvOk pinv) (S : Mat p p) (hS : Sᵀ = S) (th : ℝ → Par p m → ℝ)
    (v : Par p m → ℝ) (h : VD th v) (h0 : IsUnit (sigma (th 0)).det) :
    ∃ H, hessianP 0 S (th 0) = some H ∧ VD (fun t => gradientP pinv S (th t)) (H *ᵥ v) := by
  obtain ⟨H, hH, hq⟩ := hessOf_quad S _ (dsigmaP (th 0)) (d2sigmaP 0 (th 0)) hS (sigma_t (th 0)) h0
  refine ⟨H, hH, fun i => ?_⟩
  have h1 := ml_hess (md_sigma h) (md_dSigP h (Pi.single i 1)) h0 hS (sigma_t _) (dSigP_t _ _) (dSigP_t _ _)
  rw [← hq (Pi.single i 1) v _ _ _ (dsigmaP_mulVec _ _) (dSigP_t _ _) (dsigmaP_mulVec _ _) (dSigP_t _ _)
    (fun k => d2sigmaP_quad _ _ _ k) (ddSigP_t _ _ _), single_one_dotProduct] at h1
  refine h1.congr_of_eventuallyEq (((md_sigma h).eventually_isUnit h0).mono fun t ht => ?_)
  change gradientP pinv S (th t) i = _
  beta_reduce
  rw [← gradientP_dot pinv hp S hS _ _ ht, dotProduct_single_one]

/-- C186: the parameters and the model matrices determine each other. -/
theorem C186_params (L : Mat p m) (Phi : Mat m m) (psi : Fin p → ℝ) (hP : Phiᵀ = Phi) (h1 : ∀ i, Phi i i = 1) :
    parL (toParams L Phi psi) = L ∧ parPhi (toParams L Phi psi) = Phi ∧ parPsi (toParams L Phi psi) = diagonal psi ∧
      ∀ th : Par p m → ℝ, toParams (parL th) (parPhi th) (fun i => parPsi th i i) = th := by
  refine ⟨rfl, ?_, rfl, fun th => ?_⟩
  · ext i j
    simp only [parPhi, invecl, toParams, of_apply, Sum.elim_inr, Sum.elim_inl, vecl]
    rcases lt_trichotomy i j with h | h | h
    · rw [dif_neg h.not_gt, dif_pos h]; exact congrFun (congrFun hP i) j
    · subst h; rw [dif_neg (lt_irrefl _), dif_neg (lt_irrefl _), h1]
    · rw [dif_pos h]
  · funext x
    rcases x with x | x | x
    · rfl
    · simp only [toParams, Sum.elim_inr, Sum.elim_inl, vecl, parPhi, invecl, of_apply]
      rw [dif_pos x.2]
    · simp [toParams, parPsi]

/-! ## loadings and logarithms of the unique variances -/

noncomputable def dSigT (th w : Theta p m → ℝ) : Mat p p :=
  thL w * (thL th)ᵀ + thL th * (thL w)ᵀ + diagonal fun i => thPsi th i i * w (.inr i)

theorem thPsi_t (th : Theta p m → ℝ) : (thPsi th)ᵀ = thPsi th := diagonal_transpose _

theorem sigmaT_t (th : Theta p m → ℝ) : (sigmaT th)ᵀ = sigmaT th := by
  rw [sigmaT, transpose_add, transpose_mul, transpose_transpose, thPsi_t]

theorem dSigT_t (th w : Theta p m → ℝ) : (dSigT th w)ᵀ = dSigT th w := by
  simp only [dSigT, transpose_add, transpose_mul, transpose_transpose, diagonal_transpose]
  abel

theorem md_thL {th : ℝ → Theta p m → ℝ} {v : Theta p m → ℝ} (h : VD th v) : MD (fun t => thL (th t)) (thL v) :=
  fun _ _ => h _

theorem vd_psi {th : ℝ → Theta p m → ℝ} {v : Theta p m → ℝ} (h : VD th v) :
    VD (fun t i => thPsi (th t) i i) fun i => thPsi (th 0) i i * v (.inr i) := fun i => by
  simp only [thPsi, diagonal_apply_eq]
  exact (h (.inr i)).exp

theorem md_sigmaT {th : ℝ → Theta p m → ℝ} {v : Theta p m → ℝ} (h : VD th v) :
    MD (fun t => sigmaT (th t)) (dSigT (th 0) v) := by
  have h1 := ((md_thL h).mul (md_thL h).transpose).add (md_diag (vd_psi h))
  simpa only [sigmaT, thPsi, diagonal_apply_eq, dSigT] using h1

theorem dsigmaT_mulVec (th w : Theta p m → ℝ) : dsigmaT th *ᵥ w = vech (dSigT th w) := by
  have hw : w = Sum.elim (vec (thL w)) fun i => w (.inr i) := by
    funext x; rcases x with x | x <;> rfl
  have h1 : (lmat p * nmat p * (thL th ⊗ₖ (1 : Mat p p))) *ᵥ vec (thL w) = vech (thL th * (thL w)ᵀ + thL w * (thL th)ᵀ) := by
    rw [← mulVec_mulVec, ← mulVec_mulVec, kron_mulVec, nmat_mulVec, lmat_mulVec, Matrix.one_mul, transpose_mul, transpose_transpose]
  conv_lhs => rw [hw]
  simp only [dsigmaT]
  rw [fromCols_mulVec_sumElim, h1, mul_cols, ← mulVec_mulVec, diag_cols, lmat_mulVec]
  funext q
  simp only [Pi.add_apply, vech, dSigT, Matrix.add_apply]
  ring

noncomputable def ddSigT (th w v : Theta p m → ℝ) : Mat p p :=
  thL w * (thL v)ᵀ + thL v * (thL w)ᵀ + diagonal fun i => thPsi th i i * v (.inr i) * w (.inr i)

theorem ddSigT_t (th w v : Theta p m → ℝ) : (ddSigT th w v)ᵀ = ddSigT th w v := by
  simp only [ddSigT, transpose_add, transpose_mul, transpose_transpose, diagonal_transpose]
  abel

theorem md_dSigT {th : ℝ → Theta p m → ℝ} {v : Theta p m → ℝ} (h : VD th v) (w : Theta p m → ℝ) :
    MD (fun t => dSigT (th t) w) (ddSigT (th 0) w v) := by
  have h1 := (((MD.const (thL w)).mul (md_thL h).transpose).add ((md_thL h).mul (MD.const (thL w)ᵀ))).add
    (md_diag fun i => (vd_psi h i).mul_const (w (.inr i)))
  refine h1.congr ?_
  simp only [ddSigT, Matrix.zero_mul, Matrix.mul_zero, zero_add, add_zero]

theorem d2sigmaT_quad (th w v : Theta p m → ℝ) (q : Tri p) :
    w ⬝ᵥ d2sigmaT 0 th q *ᵥ v = vech (ddSigT th w v) q := by
  set T := eAt (0 : Mat p p) q + (eAt 0 q)ᵀ with hT
  have e : w ⬝ᵥ d2sigmaT 0 th q *ᵥ v = (vec (thL v) ⬝ᵥ ((1 : Mat m m) ⊗ₖ T) *ᵥ vec (thL w)) +
      vech (diagonal fun i => thPsi th i i * v (.inr i) * w (.inr i)) q := by
    simp only [dotProduct, mulVec, Fintype.sum_sum_type, d2sigmaT, of_apply, ← hT, zero_mul, Finset.sum_const_zero, add_zero, zero_add]
    congr 1
    · simp only [Finset.mul_sum]
      rw [Finset.sum_comm]
      refine Finset.sum_congr rfl fun x _ => Finset.sum_congr rfl fun y _ => ?_
      change _ = v (.inl x) * (_ * w (.inl y)); ring
    · obtain ⟨⟨i, j⟩, hij⟩ := q
      simp only [vech, ite_mul, zero_mul, Finset.sum_ite_eq, Finset.mem_univ, if_true]
      by_cases c : i = j
      · subst c
        simp only [if_true, diagonal_apply_eq, mul_ite, mul_one, mul_zero, ite_mul, zero_mul, Finset.sum_ite_eq', Finset.mem_univ]
        ring
      · simp only [if_neg c, mul_zero, zero_mul, Finset.sum_const_zero, diagonal_apply_ne _ (Ne.symm c)]
  rw [e, kron_mulVec, ← fro_vec, transpose_one, Matrix.mul_one, hT, fro_T]
  simp only [vech, ddSigT, Matrix.add_apply]
  ring

theorem gradientT_dot (pinv : Mat p p → Mat p p) (hp : PinvOk pinv) (S : Mat p p) (hS : Sᵀ = S) (th w : Theta p m → ℝ)
    (h0 : IsUnit (sigmaT th).det) :
    gradientT pinv S th ⬝ᵥ w = fro ((sigmaT th)⁻¹ * (sigmaT th - S) * (sigmaT th)⁻¹) (dSigT th w) := by
  have hV := inv_t (sigmaT_t th)
  have hX : ((sigmaT th)⁻¹ * (sigmaT th - S) * (sigmaT th)⁻¹)ᵀ = (sigmaT th)⁻¹ * (sigmaT th - S) * (sigmaT th)⁻¹ := by
    rw [transpose_mul, transpose_mul, transpose_sub, hV, hS, sigmaT_t, Matrix.mul_assoc]
  have e : gradientT pinv S th = Sum.elim (fun x => 2 * vec ((sigmaT th)⁻¹ * (sigmaT th - S) * (sigmaT th)⁻¹ * thL th) x)
      fun i => ((sigmaT th)⁻¹ * (sigmaT th - S) * (sigmaT th)⁻¹ * thPsi th) i i := by
    simp only [gradientT]
    rw [show thL th * (thL th)ᵀ + thPsi th = sigmaT th from rfl, hp _ h0]
  rw [e]
  generalize (sigmaT th)⁻¹ * (sigmaT th - S) * (sigmaT th)⁻¹ = X at hX
  have fa : ∀ A B : Mat p p, fro X (A + B) = fro X A + fro X B := fun A B => by
    simp only [fro, Matrix.add_apply, mul_add, Finset.sum_add_distrib]
  have t1 : fro X (thL w * (thL th)ᵀ) = vec (X * thL th) ⬝ᵥ vec (thL w) := by
    rw [← fro_vec, fro_trace, fro_trace, hX, transpose_mul, hX, ← Matrix.mul_assoc, trace_mul_comm, ← Matrix.mul_assoc]
  have t2 : fro X (thL th * (thL w)ᵀ) = vec (X * thL th) ⬝ᵥ vec (thL w) := by
    rw [← t1, fro_trace, fro_trace, ← trace_transpose, hX]
    simp only [transpose_mul, transpose_transpose, hX]
    rw [trace_mul_comm]
  have t4 : fro X (diagonal fun i => thPsi th i i * w (.inr i)) = ∑ i, (X * thPsi th) i i * w (.inr i) := by
    simp only [fro]
    refine Finset.sum_congr rfl fun i _ => ?_
    rw [Finset.sum_eq_single i (fun j _ hj => by rw [diagonal_apply_ne _ (Ne.symm hj), mul_zero]) (by simp), diagonal_apply_eq]
    simp only [thPsi, mul_diagonal, diagonal_apply_eq]; ring
  rw [dSigT, fa, fa, t1, t2, t4]
  simp only [dotProduct, Fintype.sum_sum_type, Sum.elim_inl, Sum.elim_inr]
  have t5 : ∀ x : Fin m × Fin p, vec (thL w) x = w (.inl x) := fun _ => rfl
  simp only [t5, mul_assoc, ← Finset.mul_sum]
  ring

/-- C186: `FactorAnalysis.dsigma` is the derivative of `vech(Sigma)`. -/
theorem C186_theta_dsigma (th : ℝ → Theta p m → ℝ) (v : Theta p m → ℝ) (h : VD th v) :
    VD (fun t => vech (sigmaT (th t))) (dsigmaT (th 0) *ᵥ v) := by
  rw [dsigmaT_mulVec]
  exact fun q => md_sigmaT h _ _

/-- C186: `FactorAnalysis.gradient` is the gradient of `loglike`. -/
theorem C186_theta_gradient (pinv : Mat p p → Mat p p) (hp : PinvOk pinv) (S : Mat p p) (hS : Sᵀ = S) (th : ℝ → Theta p m → ℝ)
    (v : Theta p m → ℝ) (h : VD th v) (h0 : IsUnit (sigmaT (th 0)).det) :
    ∃ F : ℝ → ℝ, (∀ᶠ t in nhds 0, loglikeT S (th t) = some (F t)) ∧
      HasDerivAt F (gradientT pinv S (th 0) ⬝ᵥ v) 0 := by
  rw [gradientT_dot pinv hp S hS _ _ h0]
  exact ml_grad (md_sigmaT h) h0 hS (sigmaT_t _)

theorem hessianT_deriv (pinv : Mat p p → Mat p p) (hp : PinvOk pinv) (S : Mat p p) (hS : Sᵀ = S) (th : ℝ → Theta p m → ℝ)
    (v : Theta p m → ℝ) (h : VD th v) (h0 : IsUnit (sigmaT (th 0)).det) :
    ∃ H, hessianT 0 S (th 0) = some H ∧ VD (fun t => gradientT pinv S (th t)) (H *ᵥ v) := by
  obtain ⟨H, hH, hq⟩ := hessOf_quad S _ (dsigmaT (th 0)) (d2sigmaT 0 (th 0)) hS (sigmaT_t (th 0)) h0
  refine ⟨H, hH, fun i => ?_⟩
  have h1 := ml_hess (md_sigmaT h) (md_dSigT h (Pi.single i 1)) h0 hS (sigmaT_t _) (dSigT_t _ _) (dSigT_t _ _)
  rw [← hq (Pi.single i 1) v _ _ _ (dsigmaT_mulVec _ _) (dSigT_t _ _) (dsigmaT_mulVec _ _) (dSigT_t _ _)
    (fun k => d2sigmaT_quad _ _ _ k) (ddSigT_t _ _ _), single_one_dotProduct] at h1
  refine h1.congr_of_eventuallyEq (((md_sigmaT h).eventually_isUnit h0).mono fun t ht => ?_)
  change gradientT pinv S (th t) i = _
  beta_reduce
  rw [← gradientT_dot pinv hp S hS _ _ ht, dotProduct_single_one]

/-- C186: from the second call on, the array is zero and both Hessians of `FactorAnalysis` are derivatives of the gradients. -/
theorem C186_later_calls_partial (pinv : Mat p p → Mat p p) (hp : PinvOk pinv) (S : Mat p p) (hS : Sᵀ = S) (n : ℕ)
    (hn : 1 ≤ n) :
    eEnd^[n] (1 : Mat p p) = 0 ∧
    (∀ (th : ℝ → Theta p m → ℝ) (v : Theta p m → ℝ), VD th v → IsUnit (sigmaT (th 0)).det →
      ∃ H, hessianT (eEnd^[n] 1) S (th 0) = some H ∧ VD (fun t => gradientT pinv S (th t)) (H *ᵥ v)) ∧
    (∀ (th : ℝ → Par p m → ℝ) (v : Par p m → ℝ), VD th v → IsUnit (sigma (th 0)).det →
      ∃ H, hessianP (eEnd^[n] 1) S (th 0) = some H ∧ VD (fun t => gradientP pinv S (th t)) (H *ᵥ v)) := by
  have e : ∀ n, eEnd^[n + 1] (1 : Mat p p) = 0 := fun n => by
    induction n with
    | zero => exact eEnd_one
    | succ n ih => rw [Function.iterate_succ_apply', ih, eEnd_zero]
  obtain ⟨k, rfl⟩ : ∃ k, n = k + 1 := ⟨n - 1, by omega⟩
  rw [e]
  exact ⟨rfl, fun th v h h0 => hessianT_deriv pinv hp S hS th v h h0, fun th v h h0 => C186_hessian pinv hp S hS th v h h0⟩

/-! ## the first call -/

theorem univ_tri2 : (Finset.univ : Finset (Tri 2)) = {⟨(0, 0), by decide⟩, ⟨(0, 1), by decide⟩, ⟨(1, 1), by decide⟩} := by decide

theorem dW_two : ∀ k : Tri 2, (vech ((2 : ℝ) • (1 : Mat 2 2) - 1) ᵥ* ((dmat 2)ᵀ * ((1 : Mat 2 2)⁻¹ ⊗ₖ (1 : Mat 2 2)⁻¹) * dmat 2)) k =
    if k.1.1 = k.1.2 then 1 else 0 := by
  intro k
  have h1 : (2 : ℝ) • (1 : Mat 2 2) - 1 = 1 := by rw [two_smul]; abel
  rw [h1, inv_one, one_kronecker_one, Matrix.mul_one, ← vecMul_vecMul, vecMul_transpose, dmat_mulVec _ transpose_one]
  have hk : k ∈ (Finset.univ : Finset (Tri 2)) := Finset.mem_univ k
  rw [univ_tri2] at hk
  simp only [Finset.mem_insert, Finset.mem_singleton] at hk
  rcases hk with rfl | rfl | rfl <;>
    simp [vecMul, dotProduct, vec, dmat, Fintype.sum_prod_type, Fin.sum_univ_two]

/-- The difference of two Hessians with different slabs. -/
theorem hessOf_sub {κ : Type} [Fintype κ] (G : Matrix (Tri 2) κ ℝ) (Hp Hp' : Tri 2 → Matrix κ κ ℝ) (x : κ) :
    ∃ H H', hessOf ((2 : ℝ) • (1 : Mat 2 2)) 1 G Hp = some H ∧ hessOf ((2 : ℝ) • (1 : Mat 2 2)) 1 G Hp' = some H' ∧
      H x x = H' x x - ((Hp ⟨(0, 0), by decide⟩ x x - Hp' ⟨(0, 0), by decide⟩ x x) +
        (Hp ⟨(1, 1), by decide⟩ x x - Hp' ⟨(1, 1), by decide⟩ x x)) := by
  have h1 : IsUnit (1 : Mat 2 2).det := by simp
  rw [hessOf, hessOf, inv?_unit h1, Option.map_some, Option.map_some]
  refine ⟨_, _, rfl, rfl, ?_⟩
  have e3 : (2.0 : ℝ) = 2 := by norm_num
  have hs : ∀ K : Tri 2 → Matrix κ κ ℝ, (∑ k, (if k.1.1 = k.1.2 then (1 : ℝ) else 0) • K k) x x =
      K ⟨(0, 0), by decide⟩ x x + K ⟨(1, 1), by decide⟩ x x := fun K => by
    rw [univ_tri2, Finset.sum_insert (by decide), Finset.sum_insert (by decide), Finset.sum_singleton]
    simp
  simp only [Matrix.smul_apply, Matrix.sub_apply, Matrix.add_apply (A := _ + _), smul_eq_mul, dW_two, hs, e3]
  ring

theorem cells_two : cells 2 = [(0, 0), (0, 1), (1, 1)] := by decide

theorem eAt_one_00 : eAt (1 : Mat 2 2) ⟨(0, 0), by decide⟩ 1 1 = 1 := by
  simp [eAt, setE, eLoop_apply, cells_two]

theorem eAt_one_11 : eAt (1 : Mat 2 2) ⟨(1, 1), by decide⟩ 1 1 = 1 := by
  simp [eAt, setE]

theorem not_vd {κ : Type} [Fintype κ] [DecidableEq κ] {g : ℝ → κ → ℝ} {H H' : Matrix κ κ ℝ} (x : κ) (h : VD g (H' *ᵥ Pi.single x 1))
    (hne : H x x ≠ H' x x) : ¬ VD g (H *ᵥ Pi.single x 1) := fun h2 => hne (by
  have := (h2 x).unique (h x)
  simpa using this)

/-- C186: the first call of `FactorAnalysis.hessian` starts with the identity in `self.E` and is not the derivative of the
gradient. -/
theorem C186_first_call_violated (pinv : Mat 2 2 → Mat 2 2) (hp : PinvOk pinv) :
    ∃ (S : Mat 2 2) (th : ℝ → Theta 2 1 → ℝ) (v : Theta 2 1 → ℝ) (H : Matrix (Theta 2 1) (Theta 2 1) ℝ), Sᵀ = S ∧ VD th v ∧
      IsUnit (sigmaT (th 0)).det ∧ hessianT 1 S (th 0) = some H ∧ ¬ VD (fun t => gradientT pinv S (th t)) (H *ᵥ v) := by
  have hl := VD.line (0 : Theta 2 1 → ℝ) (Pi.single (.inl (0, 1)) 1)
  have e0 : (0 : Theta 2 1 → ℝ) + (0 : ℝ) • Pi.single (Sum.inl (0, 1)) (1 : ℝ) = 0 := by simp
  have hs : sigmaT (0 : Theta 2 1 → ℝ) = 1 := by
    have : thL (0 : Theta 2 1 → ℝ) = 0 := rfl
    simp [sigmaT, this, thPsi]
  have hS : ((2 : ℝ) • (1 : Mat 2 2))ᵀ = (2 : ℝ) • (1 : Mat 2 2) := by rw [transpose_smul, transpose_one]
  obtain ⟨H, H', h1, h2, h3⟩ := hessOf_sub (dsigmaT (0 : Theta 2 1 → ℝ)) (d2sigmaT 1 0) (d2sigmaT 0 0) (.inl (0, 1))
  obtain ⟨H2, h4, h5⟩ := hessianT_deriv pinv hp _ hS _ _ hl (by beta_reduce; rw [e0, hs]; simp)
  rw [e0, hessianT, hs, h2] at h4
  obtain rfl := Option.some.inj h4
  refine ⟨_, _, _, H, hS, hl, by beta_reduce; rw [e0, hs]; simp, by beta_reduce; rw [e0, hessianT, hs]; exact h1, not_vd _ h5 ?_⟩
  rw [h3]
  simp [d2sigmaT, eAt_one_00, eAt_one_11, eAt_zero]

/-- C186: the same holds for `hessian_augmented`. -/
theorem C186_first_augmented_violated (pinv : Mat 2 2 → Mat 2 2) (hp : PinvOk pinv) :
    ∃ (S : Mat 2 2) (th : ℝ → Par 2 1 → ℝ) (v : Par 2 1 → ℝ) (H : Matrix (Par 2 1) (Par 2 1) ℝ), Sᵀ = S ∧ VD th v ∧
      IsUnit (sigma (th 0)).det ∧ hessianP 1 S (th 0) = some H ∧ ¬ VD (fun t => gradientP pinv S (th t)) (H *ᵥ v) := by
  set th0 : Par 2 1 → ℝ := Sum.elim 0 (Sum.elim 0 1) with hth
  have hl := VD.line th0 (Pi.single (.inl (0, 1)) 1)
  have e0 : th0 + (0 : ℝ) • Pi.single (Sum.inl (0, 1)) (1 : ℝ) = th0 := by simp
  have hs : sigma th0 = 1 := by
    have h1 : parL th0 = 0 := rfl
    have h2 : parPsi th0 = 1 := diagonal_one
    simp [sigma, h1, h2]
  have hS : ((2 : ℝ) • (1 : Mat 2 2))ᵀ = (2 : ℝ) • (1 : Mat 2 2) := by rw [transpose_smul, transpose_one]
  obtain ⟨H, H', h1, h2, h3⟩ := hessOf_sub (dsigmaP th0) (d2sigmaP 1 th0) (d2sigmaP 0 th0) (.inl (0, 1))
  obtain ⟨H2, h4, h5⟩ := C186_hessian pinv hp _ hS _ _ hl (by beta_reduce; rw [e0, hs]; simp)
  rw [e0, hessianP, hs, h2] at h4
  obtain rfl := Option.some.inj h4
  refine ⟨_, _, _, H, hS, hl, by beta_reduce; rw [e0, hs]; simp, by beta_reduce; rw [e0, hessianP, hs]; exact h1, not_vd _ h5 ?_⟩
  have hphi : parPhi th0 0 0 = 1 := by simp [parPhi, invecl]
  rw [h3]
  simp [d2sigmaP, eAt_one_00, eAt_one_11, eAt_zero, hphi]

/-- The hypotheses are satisfiable. -/
example : IsUnit (sigmaT (0 : Theta 2 1 → ℝ)).det := by
  have : thL (0 : Theta 2 1 → ℝ) = 0 := rfl
  simp [sigmaT, this, thPsi]

example : PinvOk (fun X : Mat 2 2 => X⁻¹) := fun _ _ => rfl

end Verif.Fa.Old
