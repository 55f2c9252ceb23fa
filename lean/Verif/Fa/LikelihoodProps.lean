import Verif.Fa.Likelihood
import Verif.Fa.ConstraintProps
/-! # C88: derivatives of the maximum likelihood discrepancy -/
namespace Verif.Fa
open Matrix Verif.Calc Verif.Index Verif.Np Verif.Vec

variable {p m : ℕ}

theorem phiOf_t (th : ℕ → ℝ) : (phiOf p m th)ᵀ = phiOf p m th := by
  ext i j
  simp only [transpose_apply, phiOf, of_apply]
  rcases lt_trichotomy i j with h | h | h
  · simp [h, h.not_gt]
  · simp [h]
  · simp [h, h.not_gt]

theorem sigmaOf_t (th : ℕ → ℝ) : (sigmaOf p m th)ᵀ = sigmaOf p m th := by
  rw [sigmaOf, lphi, transpose_add, transpose_mul, transpose_mul, transpose_transpose, phiOf_t, diagonal_transpose,
    Matrix.mul_assoc]

/-- Velocity of `Sigma`. -/
def dSig (p m : ℕ) (th d : ℕ → ℝ) : Matrix (Fin p) (Fin p) ℝ :=
  (Lof p m d * phiOf p m th + Lof p m th * dPhiOf p m d) * (Lof p m th)ᵀ + lphi p m th * (Lof p m d)ᵀ +
    diagonal (psiOf p m d)

theorem TD.lphi {th : ℝ → ℕ → ℝ} {d : ℕ → ℝ} (h : TD th d) :
    MD (fun t => lphi p m (th t)) (Lof p m d * phiOf p m (th 0) + Lof p m (th 0) * dPhiOf p m d) :=
  h.L.mul h.Phi

theorem TD.sigma {th : ℝ → ℕ → ℝ} {d : ℕ → ℝ} (h : TD th d) :
    MD (fun t => sigmaOf p m (th t)) (dSig p m (th 0) d) := by
  have hd : MD (fun t => (diagonal (psiOf p m (th t)) : Matrix (Fin p) (Fin p) ℝ)) (diagonal (psiOf p m d)) :=
    fun i j => by
      by_cases e : i = j
      · subst e; simp only [diagonal_apply_eq]; exact h _
      · simp only [diagonal_apply_ne _ e]; exact hasDerivAt_const _ _
  exact (h.lphi.mul h.L.transpose).add hd

/-! ## the three kinds of slab -/

theorem dsigma_L (th : ℕ → ℝ) (a : Fin p) (i : Fin m) : dsigma p m th (a + p * i) =
    Matrix.of fun x y => (if x = a then lphi p m th y i else 0) + (if y = a then lphi p m th x i else 0) := by
  ext x y
  rw [dsigma, if_pos (flat_lt a i), (flat_div a.2).1, (flat_div a.2).2]
  simp only [of_apply, entry_fin, Fin.val_inj]
  by_cases h : y = a <;> simp [h]

theorem dsigma_Phi (th : ℕ → ℝ) {k : ℕ} (hk : k < nS m) : dsigma p m th (p * m + k) =
    Matrix.of fun x y => Lof p m th x (rF hk) * Lof p m th y (cF hk) + Lof p m th x (cF hk) * Lof p m th y (rF hk) := by
  ext x y
  rw [dsigma, if_neg (by omega), if_pos (by omega), Nat.add_sub_cancel_left]
  simp only [of_apply]
  change entry _ (x : ℕ) (rF hk : ℕ) * entry _ (y : ℕ) (cF hk : ℕ) + entry _ (x : ℕ) (cF hk : ℕ) * entry _ (y : ℕ) (rF hk : ℕ) = _
  simp only [entry_fin]

theorem dsigma_psi (th : ℕ → ℝ) (a : Fin p) : dsigma p m th (p * m + nS m + a) =
    Matrix.of fun x y => if x = a ∧ y = a then 1 else 0 := by
  ext x y
  rw [dsigma, if_neg (by omega), if_neg (by omega), Nat.add_sub_cancel_left]
  simp only [of_apply, Fin.val_inj]

/-- Any position is of one of the three kinds. -/
theorem pos_cases {f : ℕ} (hf : f < nT p m) : (∃ (a : Fin p) (i : Fin m), f = a + p * i) ∨
    (∃ k, k < nS m ∧ f = p * m + k) ∨ ∃ a : Fin p, f = p * m + nS m + a := by
  unfold nT at hf
  by_cases h1 : f < p * m
  · exact Or.inl (flat_surj h1)
  · by_cases h2 : f < p * m + nS m
    · exact Or.inr (Or.inl ⟨f - p * m, by omega, by omega⟩)
    · exact Or.inr (Or.inr ⟨⟨f - (p * m + nS m), by omega⟩, by simp; omega⟩)

theorem dsigma_t (th : ℕ → ℝ) {f : ℕ} (hf : f < nT p m) : (dsigma p m th f)ᵀ = dsigma p m th f := by
  rcases pos_cases hf with ⟨a, i, rfl⟩ | ⟨k, hk, rfl⟩ | ⟨a, rfl⟩
  · rw [dsigma_L]; ext x y; simp only [transpose_apply, of_apply]; ring
  · rw [dsigma_Phi th hk]; ext x y; simp only [transpose_apply, of_apply]; ring
  · rw [dsigma_psi]; ext x y; simp only [transpose_apply, of_apply, and_comm]

/-- Pairing with a symmetric matrix. -/
theorem dsigma_fro_L (th : ℕ → ℝ) (X : Matrix (Fin p) (Fin p) ℝ) (hX : Xᵀ = X) (a : Fin p) (i : Fin m) :
    fro X (dsigma p m th (a + p * i)) = 2 * (X * lphi p m th) a i := by
  have hs : ∀ x y, X x y = X y x := fun x y => (congrFun (congrFun hX x) y).symm
  rw [dsigma_L]
  simp only [fro, of_apply, mul_add, mul_ite, mul_zero, Finset.sum_add_distrib]
  have h1 : (∑ x, ∑ y, if x = a then X x y * lphi p m th y i else 0) = (X * lphi p m th) a i := by
    rw [Finset.sum_eq_single a (fun b _ hb => by simp [hb]) (by simp), Matrix.mul_apply]
    exact Finset.sum_congr rfl fun y _ => if_pos rfl
  have h2 : (∑ x, ∑ y, if y = a then X x y * lphi p m th x i else 0) = (X * lphi p m th) a i := by
    rw [Matrix.mul_apply]
    refine Finset.sum_congr rfl fun x _ => ?_
    rw [Finset.sum_eq_single a (fun b _ hb => by simp [hb]) (by simp), if_pos rfl, hs x a]
  rw [h1, h2]; ring

theorem dsigma_fro_Phi (th : ℕ → ℝ) (X : Matrix (Fin p) (Fin p) ℝ) (hX : Xᵀ = X) {k : ℕ} (hk : k < nS m) :
    fro X (dsigma p m th (p * m + k)) = 2 * ((Lof p m th)ᵀ * X * Lof p m th) (rF hk) (cF hk) := by
  have hs : ∀ x y, X x y = X y x := fun x y => (congrFun (congrFun hX x) y).symm
  have h1 : ∀ r c : Fin m, (∑ x, ∑ y, X x y * (Lof p m th x r * Lof p m th y c)) = ((Lof p m th)ᵀ * X * Lof p m th) r c := fun r c => by
    rw [Matrix.mul_assoc, Matrix.mul_apply]
    refine Finset.sum_congr rfl fun x _ => ?_
    rw [Matrix.mul_apply, Finset.mul_sum, transpose_apply]
    exact Finset.sum_congr rfl fun y _ => by ring
  have h2 : ((Lof p m th)ᵀ * X * Lof p m th) (cF hk) (rF hk) = ((Lof p m th)ᵀ * X * Lof p m th) (rF hk) (cF hk) := by
    have : ((Lof p m th)ᵀ * X * Lof p m th)ᵀ = (Lof p m th)ᵀ * X * Lof p m th := by
      rw [transpose_mul, transpose_mul, transpose_transpose, hX, Matrix.mul_assoc]
    exact congrFun (congrFun this (rF hk)) (cF hk)
  rw [dsigma_Phi th hk]
  simp only [fro, of_apply, mul_add, Finset.sum_add_distrib]
  rw [h1, h1, h2]; ring

theorem dsigma_fro_psi (th : ℕ → ℝ) (X : Matrix (Fin p) (Fin p) ℝ) (a : Fin p) :
    fro X (dsigma p m th (p * m + nS m + a)) = X a a := by
  rw [dsigma_psi]
  simp only [fro, of_apply]
  rw [Finset.sum_eq_single a (fun b _ hb => by simp [hb]) (by simp),
    Finset.sum_eq_single a (fun b _ hb => by simp [hb]) (by simp)]
  simp

/-- C88: the slabs of `dsigma` are the partial derivatives of `Sigma`. -/
theorem C88_dsigma (th : ℝ → ℕ → ℝ) (d : ℕ → ℝ) (h : TD th d) (x y : Fin p) :
    HasDerivAt (fun t => sigmaOf p m (th t) x y) (∑ f ∈ Finset.range (nT p m), dsigma p m (th 0) f x y * d f) 0 := by
  refine (h.sigma x y).congr_deriv ?_
  rw [sum_nT]
  have h1 : fro (unflatF p m fun f => dsigma p m (th 0) f x y) (unflatF p m d) =
      (lphi p m (th 0) * (Lof p m d)ᵀ) x y + (Lof p m d * phiOf p m (th 0) * (Lof p m (th 0))ᵀ) x y := by
    simp only [fro, unflatF, of_apply, dsigma_L, add_mul, ite_mul, zero_mul, Finset.sum_add_distrib]
    rw [add_comm]
    congr 1
    · rw [Finset.sum_eq_single y (fun b _ hb => by simp [Ne.symm hb]) (by simp), Matrix.mul_apply]
      exact Finset.sum_congr rfl fun j _ => by rw [if_pos rfl]; rfl
    · rw [Finset.sum_eq_single x (fun b _ hb => by simp [Ne.symm hb]) (by simp), Matrix.mul_assoc, Matrix.mul_apply]
      refine Finset.sum_congr rfl fun j _ => ?_
      rw [if_pos rfl, mul_comm]
      congr 1
      have : (phiOf p m (th 0) * (Lof p m (th 0))ᵀ)ᵀ = lphi p m (th 0) := by
        rw [transpose_mul, transpose_transpose, phiOf_t]; rfl
      exact (congrFun (congrFun this y) j).symm
  have h2 : ∑ k ∈ Finset.range (nS m), dsigma p m (th 0) (p * m + k) x y * d (p * m + k) =
      (Lof p m (th 0) * dPhiOf p m d * (Lof p m (th 0))ᵀ) x y := by
    have e : (Lof p m (th 0) * dPhiOf p m d * (Lof p m (th 0))ᵀ) x y =
        fro (Matrix.of fun r c => Lof p m (th 0) x r * Lof p m (th 0) y c) (dPhiOf p m d) := by
      rw [Matrix.mul_assoc, Matrix.mul_apply]
      simp only [fro, of_apply]
      refine Finset.sum_congr rfl fun r _ => ?_
      rw [Matrix.mul_apply, Finset.mul_sum]
      exact Finset.sum_congr rfl fun c _ => by rw [transpose_apply]; ring
    rw [e, dPhi_fro]
    refine Finset.sum_congr rfl fun k hk => ?_
    have hk := Finset.mem_range.1 hk
    rw [dsigma_Phi _ hk]
    congr 1
    change _ = entry _ (rF hk : ℕ) (cF hk : ℕ) + entry _ (cF hk : ℕ) (rF hk : ℕ)
    simp only [entry_fin, of_apply]
  have h3 : ∑ i : Fin p, dsigma p m (th 0) (p * m + nS m + i) x y * d (p * m + nS m + i) =
      (diagonal (psiOf p m d) : Matrix (Fin p) (Fin p) ℝ) x y := by
    simp only [dsigma_psi, of_apply]
    by_cases e : x = y
    · subst e
      rw [Finset.sum_eq_single x (fun b _ hb => by simp [Ne.symm hb]) (by simp), diagonal_apply_eq]
      simp [psiOf]
    · rw [diagonal_apply_ne _ e]
      refine Finset.sum_eq_zero fun i _ => ?_
      rw [if_neg (fun hh => e (hh.1.trans hh.2.symm)), zero_mul]
  rw [h1, h2, h3, dSig, Matrix.add_mul]
  simp only [Matrix.add_apply]
  ring

theorem fro_dSig (th d : ℕ → ℝ) (X : Matrix (Fin p) (Fin p) ℝ) :
    fro X (dSig p m th d) = ∑ f ∈ Finset.range (nT p m), fro X (dsigma p m th f) * d f := by
  have hpath : TD (fun t f => th f + t * d f) d := fun f => by
    simpa using ((hasDerivAt_id (0 : ℝ)).mul_const (d f)).const_add (th f)
  have e0 : (fun f => th f + (0 : ℝ) * d f) = th := by funext f; ring
  have key : ∀ x y, dSig p m th d x y = ∑ f ∈ Finset.range (nT p m), dsigma p m th f x y * d f := fun x y => by
    have h1 := C88_dsigma (p := p) (m := m) _ d hpath x y
    have h2 := hpath.sigma (p := p) (m := m) x y
    beta_reduce at h1 h2
    rw [e0] at h1 h2
    exact h2.unique h1
  simp only [fro, key, Finset.mul_sum, Finset.sum_mul]
  rw [Finset.sum_comm]
  simp only [Finset.sum_comm (t := Finset.range (nT p m))]
  refine Finset.sum_congr rfl fun f _ => ?_
  rw [Finset.sum_comm]
  exact Finset.sum_congr rfl fun x _ => Finset.sum_congr rfl fun y _ => by ring

/-! ## the objective and its gradient -/

theorem fro_tr_symm {q : ℕ} {X Y : Matrix (Fin q) (Fin q) ℝ} (hX : Xᵀ = X) : fro X Y = (X * Y).trace := by
  rw [fro_trace, hX]

theorem vecl_at (X : Matrix (Fin m) (Fin m) ℝ) {k : ℕ} (hk : k < nS m) :
    (vecl (entry X) m).getD k 0 = X (rF hk) (cF hk) := by
  have hl : (tri m).length = (npTriu m 1).length := by
    simp only [tri, trilIndices, if_true, List.length_map]; rfl
  have h1 : k < (npTriu m 1).length := by rw [← hl, tri_length]; exact hk
  have h2 := triu_getD hk
  rw [List.getD_eq_getElem _ _ h1] at h2
  rw [vecl, List.getD_eq_getElem _ _ (by simpa using h1), List.getElem_map, h2]
  change entry X (rF hk : ℕ) (cF hk : ℕ) = _
  rw [entry_fin]

/-- Each entry of the gradient is a pairing with a slab of `dsigma`. -/
theorem mlGradV_eq (S : Matrix (Fin p) (Fin p) ℝ) (hS : Sᵀ = S) (th : ℕ → ℝ) (V : Matrix (Fin p) (Fin p) ℝ) (hV : Vᵀ = V)
    {f : ℕ} (hf : f < nT p m) :
    mlGradV m S th V f = fro (V * (sigmaOf p m th - S) * V) (dsigma p m th f) := by
  have hX : (V * (sigmaOf p m th - S) * V)ᵀ = V * (sigmaOf p m th - S) * V := by
    rw [transpose_mul, transpose_mul, transpose_sub, hV, hS, sigmaOf_t, Matrix.mul_assoc]
  rcases pos_cases hf with ⟨a, i, rfl⟩ | ⟨k, hk, rfl⟩ | ⟨a, rfl⟩
  · rw [dsigma_fro_L _ _ hX, mlGradV, concatRow, if_pos (flat_lt a i), flatF_at]
  · rw [dsigma_fro_Phi _ _ hX hk, mlGradV, concatRow, if_neg (by omega), if_pos (by omega), Nat.add_sub_cancel_left]
    beta_reduce
    rw [vecl_at _ hk]
  · rw [dsigma_fro_psi, mlGradV, concatRow, if_neg (by omega), if_neg (by omega), Nat.add_sub_cancel_left, entry_fin]

theorem inv_t {q : ℕ} {X : Matrix (Fin q) (Fin q) ℝ} (h : Xᵀ = X) : (X⁻¹)ᵀ = X⁻¹ := by
  rw [transpose_nonsing_inv, h]

/-- C88: `grad` is the gradient of `F`. -/
theorem C88_grad (S : Matrix (Fin p) (Fin p) ℝ) (hS : Sᵀ = S) (th : ℝ → ℕ → ℝ) (d : ℕ → ℝ) (h : TD th d)
    (h0 : IsUnit (sigmaOf p m (th 0)).det) :
    ∃ F : ℝ → ℝ, ∃ g, (∀ᶠ t in nhds 0, mlF m S (th t) = some (F t)) ∧ mlGrad m S (th 0) = some g ∧
      HasDerivAt F (∑ f ∈ Finset.range (nT p m), g f * d f) 0 := by
  refine ⟨fun t => Real.log |(sigmaOf p m (th t)).det| + ((sigmaOf p m (th t))⁻¹ * S).trace, _,
    (h.sigma.eventually_isUnit h0).mono fun t ht => if_pos ht, by rw [mlGrad, inv?_unit h0]; rfl, ?_⟩
  have hs := h.sigma (p := p) (m := m)
  have h1 := (logdet_deriv hs h0).fun_add (trace_deriv ((hs.inv h0).mul (MD.const S)))
  refine h1.congr_deriv ?_
  have hV := inv_t (sigmaOf_t (p := p) (m := m) (th 0))
  rw [Finset.sum_congr rfl fun f hf => by rw [mlGradV_eq S hS _ _ hV (Finset.mem_range.1 hf)], ← fro_dSig]
  rw [fro_tr_symm (by rw [transpose_mul, transpose_mul, transpose_sub, hV, hS, sigmaOf_t, Matrix.mul_assoc])]
  generalize hD : dSig p m (th 0) d = D
  have e : (sigmaOf p m (th 0))⁻¹ * (sigmaOf p m (th 0) - S) * (sigmaOf p m (th 0))⁻¹ =
      (sigmaOf p m (th 0))⁻¹ - (sigmaOf p m (th 0))⁻¹ * S * (sigmaOf p m (th 0))⁻¹ := by
    rw [Matrix.mul_sub, nonsing_inv_mul _ h0, Matrix.sub_mul, Matrix.one_mul]
  rw [e]
  generalize (sigmaOf p m (th 0))⁻¹ = V
  rw [Matrix.sub_mul, trace_sub, Matrix.mul_zero, add_zero, Matrix.neg_mul, trace_neg, ← sub_eq_add_neg]
  congr 1
  rw [show V * D * V * S = (V * D) * (V * S) by simp only [Matrix.mul_assoc], trace_mul_comm]
  congr 1
  simp only [Matrix.mul_assoc]

/-! ## the Hessian -/

theorem fro_deriv {q r : ℕ} {A B : ℝ → Matrix (Fin q) (Fin r) ℝ} {A' B'} (hA : MD A A') (hB : MD B B') :
    HasDerivAt (fun t => fro (A t) (B t)) (fro A' (B 0) + fro (A 0) B') 0 := by
  simp only [fro_trace]
  refine (trace_deriv (hA.transpose.mul hB)).congr_deriv ?_
  rw [trace_add]

/-- Velocity of a slab. -/
def ddsig (p m : ℕ) (th d : ℕ → ℝ) (f : ℕ) : Matrix (Fin p) (Fin p) ℝ :=
  let dLP := Lof p m d * phiOf p m th + Lof p m th * dPhiOf p m d
  if f < p * m then
    Matrix.of fun x y => (if (x : ℕ) = f % p then entry dLP y (f / p) else 0) +
      (if (y : ℕ) = f % p then entry dLP x (f / p) else 0)
  else if f < p * m + nS m then
    let r := rowI m (f - p * m)
    let c := colJ m (f - p * m)
    Matrix.of fun x y => (entry (Lof p m d) x r * entry (Lof p m th) y c + entry (Lof p m th) x r * entry (Lof p m d) y c) +
      (entry (Lof p m d) x c * entry (Lof p m th) y r + entry (Lof p m th) x c * entry (Lof p m d) y r)
  else 0

theorem TD.dsigma {th : ℝ → ℕ → ℝ} {d : ℕ → ℝ} (h : TD th d) {f : ℕ} (hf : f < nT p m) :
    MD (fun t => dsigma p m (th t) f) (ddsig p m (th 0) d f) := by
  intro x y
  rcases pos_cases hf with ⟨a, i, rfl⟩ | ⟨k, hk, rfl⟩ | ⟨a, rfl⟩
  · simp only [dsigma_L, ddsig, if_pos (flat_lt a i), (flat_div a.2).1, (flat_div a.2).2, of_apply, entry_fin, Fin.val_inj]
    refine HasDerivAt.fun_add ?_ ?_
    · by_cases e : x = a
      · simp only [e, if_true]; exact h.lphi y i
      · simp only [e, if_false]; exact hasDerivAt_const _ _
    · by_cases e : y = a
      · simp only [e, if_true]; exact h.lphi x i
      · simp only [e, if_false]; exact hasDerivAt_const _ _
  · simp only [dsigma_Phi _ hk, ddsig]
    rw [if_neg (by omega), if_pos (by omega), Nat.add_sub_cancel_left]
    change HasDerivAt _ ((entry _ (x : ℕ) (rF hk : ℕ) * entry _ (y : ℕ) (cF hk : ℕ) + entry _ (x : ℕ) (rF hk : ℕ) * entry _ (y : ℕ) (cF hk : ℕ)) +
      (entry _ (x : ℕ) (cF hk : ℕ) * entry _ (y : ℕ) (rF hk : ℕ) + entry _ (x : ℕ) (cF hk : ℕ) * entry _ (y : ℕ) (rF hk : ℕ))) 0
    simp only [entry_fin, of_apply]
    exact ((h.L x _).fun_mul (h.L y _)).fun_add ((h.L x _).fun_mul (h.L y _))
  · simp only [dsigma_psi, ddsig]
    rw [if_neg (by omega), if_neg (by omega)]
    exact hasDerivAt_const _ _

theorem h3_at (YL : Matrix (Fin p) (Fin m) ℝ) (a : Fin p) (i : Fin m) {k : ℕ} (hk : k < nS m) :
    h3LPhi YL a i k = 2 * ((if i = rF hk then YL a (cF hk) else 0) + (if i = cF hk then YL a (rF hk) else 0)) := by
  have hne := (cF_lt_rF hk).ne
  have h1 : ((i : ℕ) = colJ m k) = (i = cF hk) := propext ⟨fun e => Fin.ext e, fun e => congrArg Fin.val e⟩
  have h2 : ((i : ℕ) = rowI m k) = (i = rF hk) := propext ⟨fun e => Fin.ext e, fun e => congrArg Fin.val e⟩
  have e1 : entry YL a (rowI m k) = YL a (rF hk) := entry_fin YL a (rF hk)
  have e2 : entry YL a (colJ m k) = YL a (cF hk) := entry_fin YL a (cF hk)
  simp only [h3LPhi, h1, h2, e1, e2]
  by_cases c : i = cF hk
  · subst c; simp [hne]; norm_num
  · by_cases c2 : i = rF hk
    · subst c2; simp [hne.symm]; norm_num
    · simp [c, c2]

/-- The second-order correction subtracted from the main term. -/
def corr (p m : ℕ) (th : ℕ → ℝ) (Y : Matrix (Fin p) (Fin p) ℝ) (f g : ℕ) : ℝ :=
  (if f < p * m ∧ g < p * m then entry (phiOf p m th) (f / p) (g / p) * (2 * entry Y (f % p) (g % p)) else 0) +
  (if f < p * m ∧ (p * m ≤ g ∧ g < p * m + nS m) then h3LPhi (Y * Lof p m th) (f % p) (f / p) (g - p * m) else 0) +
  (if (p * m ≤ f ∧ f < p * m + nS m) ∧ g < p * m then h3LPhi (Y * Lof p m th) (g % p) (g / p) (f - p * m) else 0)

theorem mlHessV_eq (S : Matrix (Fin p) (Fin p) ℝ) (th : ℕ → ℝ) (V : Matrix (Fin p) (Fin p) ℝ) (f g : ℕ) :
    mlHessV m S th V f g =
      fro (dsigma p m th f) (V * dsigma p m th g * V + (2 : ℝ) • (V * (S - sigmaOf p m th) * (V * dsigma p m th g * V))) -
      corr p m th (V * (S - sigmaOf p m th) * V) f g := by
  have h2 : (2.0 : ℝ) = 2 := by norm_num
  simp only [mlHessV, corr, h2]
  change _ = (∑ x, ∑ y, _) - _
  split_ifs <;> ring

theorem corr_sum (th d : ℕ → ℝ) (Y : Matrix (Fin p) (Fin p) ℝ) (hY : Yᵀ = Y) {f : ℕ} (hf : f < nT p m) :
    ∑ g ∈ Finset.range (nT p m), corr p m th Y f g * d g = fro Y (ddsig p m th d f) := by
  have hs : ∀ x y, Y x y = Y y x := fun x y => (congrFun (congrFun hY x) y).symm
  rw [sum_nT]
  rcases pos_cases hf with ⟨a, i, rfl⟩ | ⟨k, hk, rfl⟩ | ⟨a, rfl⟩
  · have h0 := flat_lt a i
    have e1 : fro (unflatF p m fun g => corr p m th Y (a + p * i) g) (unflatF p m d) =
        2 * (Y * (Lof p m d * phiOf p m th)) a i := by
      have : ∀ (b : Fin p) (j : Fin m), corr p m th Y (a + p * i) (b + p * j) = phiOf p m th i j * (2 * Y a b) := fun b j => by
        have h1 := flat_lt b j
        rw [corr, if_pos ⟨h0, h1⟩, if_neg (by omega), if_neg (by omega), (flat_div a.2).1, (flat_div a.2).2,
          (flat_div b.2).1, (flat_div b.2).2, entry_fin, entry_fin, add_zero, add_zero]
      simp only [fro, unflatF, of_apply, this, Matrix.mul_apply, Finset.mul_sum]
      refine Finset.sum_congr rfl fun b _ => Finset.sum_congr rfl fun j _ => ?_
      have : phiOf p m th j i = phiOf p m th i j := congrFun (congrFun (phiOf_t th) i) j
      rw [this]; simp only [Lof, unflatF, of_apply]; ring
    have e2 : ∑ k ∈ Finset.range (nS m), corr p m th Y (a + p * i) (p * m + k) * d (p * m + k) =
        2 * (Y * (Lof p m th * dPhiOf p m d)) a i := by
      have e : 2 * (Y * (Lof p m th * dPhiOf p m d)) a i =
          fro (Matrix.of fun r c : Fin m => if c = i then 2 * (Y * Lof p m th) a r else 0) (dPhiOf p m d) := by
        rw [← Matrix.mul_assoc, Matrix.mul_apply, Finset.mul_sum]
        simp only [fro, of_apply]
        refine Finset.sum_congr rfl fun r _ => ?_
        rw [Finset.sum_eq_single i (fun b _ hb => by simp [hb]) (by simp), if_pos rfl, mul_assoc]
      rw [e, dPhi_fro]
      refine Finset.sum_congr rfl fun k hk => ?_
      have hk := Finset.mem_range.1 hk
      congr 1
      change _ = entry _ (rF hk : ℕ) (cF hk : ℕ) + entry _ (cF hk : ℕ) (rF hk : ℕ)
      rw [corr, if_neg (by omega), if_pos ⟨h0, by omega, by omega⟩, if_neg (by omega), (flat_div a.2).1, (flat_div a.2).2,
        Nat.add_sub_cancel_left, h3_at _ _ _ hk]
      simp only [entry_fin, of_apply, eq_comm (a := i)]
      split_ifs <;> ring
    have e3 : ∑ b : Fin p, corr p m th Y (a + p * i) (p * m + nS m + b) * d (p * m + nS m + b) = 0 :=
      Finset.sum_eq_zero fun b _ => by
        rw [corr, if_neg (by omega), if_neg (by omega), if_neg (by omega)]; ring
    rw [e1, e2, e3, add_zero, ← mul_add, ← Matrix.add_apply, ← Matrix.mul_add]
    generalize hD : Lof p m d * phiOf p m th + Lof p m th * dPhiOf p m d = D
    simp only [ddsig, hD]
    rw [if_pos h0, (flat_div a.2).1, (flat_div a.2).2]
    simp only [fro, of_apply, Fin.val_inj, entry_fin, mul_add, mul_ite, mul_zero, Finset.sum_add_distrib]
    have h1 : (∑ x, ∑ y, if x = a then Y x y * D y i else 0) = (Y * D) a i := by
      rw [Finset.sum_eq_single a (fun b _ hb => by simp [hb]) (by simp), Matrix.mul_apply]
      exact Finset.sum_congr rfl fun y _ => if_pos rfl
    have h2 : (∑ x, ∑ y, if y = a then Y x y * D x i else 0) = (Y * D) a i := by
      rw [Matrix.mul_apply]
      refine Finset.sum_congr rfl fun x _ => ?_
      rw [Finset.sum_eq_single a (fun b _ hb => by simp [hb]) (by simp), if_pos rfl, hs x a]
    rw [h1, h2]; ring
  · have e1 : fro (unflatF p m fun g => corr p m th Y (p * m + k) g) (unflatF p m d) =
        2 * ((∑ b, (Y * Lof p m th) b (cF hk) * Lof p m d b (rF hk)) + ∑ b, (Y * Lof p m th) b (rF hk) * Lof p m d b (cF hk)) := by
      have : ∀ (b : Fin p) (j : Fin m), corr p m th Y (p * m + k) (b + p * j) = h3LPhi (Y * Lof p m th) b j k := fun b j => by
        have h1 := flat_lt b j
        rw [corr, if_neg (by omega), if_neg (by omega), if_pos (by omega), (flat_div b.2).1, (flat_div b.2).2,
          Nat.add_sub_cancel_left, zero_add, zero_add]
      simp only [fro, unflatF, of_apply, this, h3_at _ _ _ hk, ← Finset.sum_add_distrib, Finset.mul_sum]
      refine Finset.sum_congr rfl fun b _ => ?_
      simp only [mul_add, add_mul, Finset.sum_add_distrib, mul_ite, ite_mul, mul_zero, zero_mul, Finset.sum_ite_eq',
        Finset.mem_univ, if_true]
      simp only [Lof, unflatF, of_apply]; ring
    have e2 : ∑ l ∈ Finset.range (nS m), corr p m th Y (p * m + k) (p * m + l) * d (p * m + l) = 0 :=
      Finset.sum_eq_zero fun l _ => by
        rw [corr, if_neg (by omega), if_neg (by omega), if_neg (by omega)]; ring
    have e3 : ∑ b : Fin p, corr p m th Y (p * m + k) (p * m + nS m + b) * d (p * m + nS m + b) = 0 :=
      Finset.sum_eq_zero fun b _ => by
        rw [corr, if_neg (by omega), if_neg (by omega), if_neg (by omega)]; ring
    rw [e1, e2, e3, add_zero, add_zero]
    simp only [ddsig]
    rw [if_neg (by omega), if_pos (by omega), Nat.add_sub_cancel_left]
    have q1 : ∀ u v : Fin p → ℝ, (∑ x, ∑ y, Y x y * (u x * v y)) = ∑ x, (∑ y, Y x y * v y) * u x := fun u v =>
      Finset.sum_congr rfl fun x _ => by
        rw [Finset.sum_mul]; exact Finset.sum_congr rfl fun y _ => by ring
    have q2 : ∀ u v : Fin p → ℝ, (∑ x, ∑ y, Y x y * (v x * u y)) = ∑ x, (∑ y, Y x y * v y) * u x := fun u v => by
      rw [Finset.sum_comm]
      refine Finset.sum_congr rfl fun x _ => ?_
      rw [Finset.sum_mul]; exact Finset.sum_congr rfl fun y _ => by rw [hs]; ring
    have hr : ∀ (X : Matrix (Fin p) (Fin m) ℝ) (x : Fin p), entry X x (rowI m k) = X x (rF hk) := fun X x => entry_fin X x (rF hk)
    have hc : ∀ (X : Matrix (Fin p) (Fin m) ℝ) (x : Fin p), entry X x (colJ m k) = X x (cF hk) := fun X x => entry_fin X x (cF hk)
    simp only [fro, of_apply, hr, hc, mul_add, Finset.sum_add_distrib]
    rw [q1 (fun x => Lof p m d x (rF hk)), q2 (fun x => Lof p m d x (cF hk)), q1 (fun x => Lof p m d x (cF hk)), q2 (fun x => Lof p m d x (rF hk))]
    simp only [Matrix.mul_apply]
    ring
  · have e0 : ∀ g, corr p m th Y (p * m + nS m + a) g = 0 := fun g => by
      rw [corr, if_neg (by omega), if_neg (by omega), if_neg (by omega)]; ring
    simp only [ddsig, fro, unflatF, of_apply, e0, zero_mul, Finset.sum_const_zero, add_zero]
    rw [if_neg (by omega), if_neg (by omega)]
    simp

theorem hess_alg (V W G D E : Matrix (Fin p) (Fin p) ℝ) (hV : Vᵀ = V) (hW : Wᵀ = W) (hG : Gᵀ = G) (hD : Dᵀ = D) :
    fro ((-(V * D * V) * -W + V * D) * V + V * -W * -(V * D * V)) G + fro (V * -W * V) E =
      fro (V * G * V + (2 : ℝ) • (V * W * V * G * V)) D - fro (V * W * V) E := by
  have hneg2 : ∀ X Y : Matrix (Fin p) (Fin p) ℝ, fro (-X) Y = - fro X Y := fun X Y => by simp [fro]
  have hA : (V * W * V)ᵀ = V * W * V := by rw [transpose_mul, transpose_mul, hV, hW, Matrix.mul_assoc]
  rw [show V * -W * V = -(V * W * V) by simp, hneg2, ← sub_eq_add_neg]
  congr 1
  rw [show (-(V * D * V) * -W + V * D) * V + V * -W * -(V * D * V) = V * D * (V * W * V) + V * D * V + (V * W * V) * D * V by
    simp only [Matrix.neg_mul, Matrix.mul_neg, neg_neg, Matrix.add_mul, Matrix.mul_assoc]]
  generalize V * W * V = A at *
  rw [fro_trace, fro_trace]
  simp only [transpose_add, transpose_mul, transpose_smul, hV, hA, hG, hD, Matrix.add_mul, trace_add, Matrix.smul_mul, trace_smul]
  have t1 : (A * (D * V) * G).trace = (V * (G * A) * D).trace := by
    rw [show A * (D * V) * G = (A * D) * (V * G) by simp only [Matrix.mul_assoc], trace_mul_comm]; simp only [Matrix.mul_assoc]
  have t2 : (V * (D * A) * G).trace = (V * (G * A) * D).trace := by
    rw [← trace_transpose]
    simp only [transpose_mul, hV, hA, hG, hD]
    rw [show G * ((A * D) * V) = (G * A * D) * V by simp only [Matrix.mul_assoc], trace_mul_comm]; simp only [Matrix.mul_assoc]
  have t3 : (V * (D * V) * G).trace = (V * (G * V) * D).trace := by
    rw [show V * (D * V) * G = (V * D) * (V * G) by simp only [Matrix.mul_assoc], trace_mul_comm]; simp only [Matrix.mul_assoc]
  rw [t1, t2, t3, smul_eq_mul]
  ring

/-- C88: `hessian` is the Jacobian of `grad`. -/
theorem C88_hessian (S : Matrix (Fin p) (Fin p) ℝ) (hS : Sᵀ = S) (th : ℝ → ℕ → ℝ) (d : ℕ → ℝ) (h : TD th d)
    (h0 : IsUnit (sigmaOf p m (th 0)).det) :
    ∃ g : ℝ → ℕ → ℝ, ∃ H, (∀ᶠ t in nhds 0, mlGrad m S (th t) = some (g t)) ∧ mlHess m S (th 0) = some H ∧
      ∀ f, f < nT p m → HasDerivAt (fun t => g t f) (∑ j ∈ Finset.range (nT p m), H f j * d j) 0 := by
  refine ⟨fun t => mlGradV m S (th t) (sigmaOf p m (th t))⁻¹, _,
    (h.sigma.eventually_isUnit h0).mono fun t ht => by rw [mlGrad, inv?_unit ht]; rfl, by rw [mlHess, inv?_unit h0]; rfl, ?_⟩
  intro f hf
  have hs := h.sigma (p := p) (m := m)
  have hi := hs.inv h0
  have hR := (hi.mul (hs.sub (MD.const S))).mul hi
  have hd := (fro_deriv hR (h.dsigma hf))
  have he : (fun t => mlGradV m S (th t) (sigmaOf p m (th t))⁻¹ f) = fun t => fro ((sigmaOf p m (th t))⁻¹ * (sigmaOf p m (th t) - S) * (sigmaOf p m (th t))⁻¹) (dsigma p m (th t) f) :=
    funext fun t => mlGradV_eq S hS _ _ (inv_t (sigmaOf_t _)) hf
  rw [he]
  refine hd.congr_deriv ?_
  have hV := inv_t (sigmaOf_t (p := p) (m := m) (th 0))
  have hG := dsigma_t (p := p) (m := m) (th 0) hf
  have hDs : (dSig p m (th 0) d)ᵀ = dSig p m (th 0) d := by
    have hu : MD (fun t => sigmaOf p m (th t)) (dSig p m (th 0) d)ᵀ := by
      have := hs.transpose; simpa only [sigmaOf_t] using this
    ext x y; exact (hu x y).unique (hs x y)
  have hW : (S - sigmaOf p m (th 0))ᵀ = S - sigmaOf p m (th 0) := by rw [transpose_sub, hS, sigmaOf_t]
  have hneg : sigmaOf p m (th 0) - S = -(S - sigmaOf p m (th 0)) := by rw [neg_sub]
  simp only [mlHessV_eq, sub_mul, Finset.sum_sub_distrib]
  rw [corr_sum _ _ _ (by rw [transpose_mul, transpose_mul, hV, hW, Matrix.mul_assoc]) hf, hneg]
  have hZ : ∀ V W G X : Matrix (Fin p) (Fin p) ℝ, Vᵀ = V → Wᵀ = W → fro G (V * X * V + (2 : ℝ) • (V * W * (V * X * V))) =
      fro (V * G * V + (2 : ℝ) • (V * W * V * G * V)) X := fun V W G X hV hW => by
    rw [fro_trace, fro_trace, Matrix.mul_add, trace_add, transpose_add, Matrix.add_mul, trace_add, transpose_smul]
    simp only [transpose_mul, hV, hW, Matrix.mul_smul, Matrix.smul_mul, trace_smul]
    congr 1
    · rw [← Matrix.mul_assoc, trace_mul_comm]; simp only [Matrix.mul_assoc]
    · congr 1
      rw [show Gᵀ * (V * W * (V * X * V)) = (Gᵀ * V * W * V * X) * V by simp only [Matrix.mul_assoc], trace_mul_comm]
      simp only [Matrix.mul_assoc]
  simp only [hZ _ _ _ _ hV hW]
  rw [← fro_dSig]
  generalize hE : ddsig p m (th 0) d f = E
  generalize dSig p m (th 0) d = D at *
  generalize dsigma p m (th 0) f = G at *
  rw [sub_zero]
  exact hess_alg _ _ _ _ _ hV hW hG hDs

theorem entry_symm {q : ℕ} {A : Matrix (Fin q) (Fin q) ℝ} (hA : Aᵀ = A) (a b : ℕ) : entry A a b = entry A b a := by
  unfold entry
  split_ifs with h1 h2
  · exact congrFun (congrFun hA ⟨b, h1.2⟩) ⟨a, h1.1⟩
  all_goals first | rfl | omega

/-- C88: the Hessian is symmetric. -/
theorem C88_hessian_symm (S : Matrix (Fin p) (Fin p) ℝ) (hS : Sᵀ = S) (th : ℕ → ℝ) (H : ℕ → ℕ → ℝ)
    (h : mlHess m S th = some H) {f g : ℕ} (hf : f < nT p m) (hg : g < nT p m) : H f g = H g f := by
  unfold mlHess at h
  obtain ⟨V, hV, rfl⟩ := Option.map_eq_some_iff.1 h
  obtain ⟨hu, rfl⟩ := inv?_eq hV
  have hV := inv_t (sigmaOf_t (p := p) (m := m) th)
  have hW : (S - sigmaOf p m th)ᵀ = S - sigmaOf p m th := by rw [transpose_sub, hS, sigmaOf_t]
  have hG := dsigma_t (p := p) (m := m) th hf
  have hG' := dsigma_t (p := p) (m := m) th hg
  rw [mlHessV_eq, mlHessV_eq]
  generalize (sigmaOf p m th)⁻¹ = V at *
  generalize S - sigmaOf p m th = W at *
  have hA : (V * W * V)ᵀ = V * W * V := by rw [transpose_mul, transpose_mul, hV, hW, Matrix.mul_assoc]
  congr 1
  · generalize dsigma p m th f = G at *
    generalize dsigma p m th g = K at *
    rw [fro_trace, fro_trace, hG, hG', Matrix.mul_add, Matrix.mul_add, trace_add, trace_add]
    simp only [Matrix.mul_smul, trace_smul]
    congr 1
    · rw [show G * (V * K * V) = (G * V) * (K * V) by simp only [Matrix.mul_assoc], trace_mul_comm]
      simp only [Matrix.mul_assoc]
    · congr 1
      rw [← trace_transpose]
      simp only [transpose_mul, hV, hW, hG, hG']
      rw [show V * (K * V) * (W * V) * G = V * (K * V * W * V * G) by simp only [Matrix.mul_assoc], trace_mul_comm]
      simp only [Matrix.mul_assoc]
  · have hY : ∀ a b, entry (V * W * V) a b = entry (V * W * V) b a := entry_symm hA
    have hP : ∀ a b, entry (phiOf p m th) a b = entry (phiOf p m th) b a := entry_symm (phiOf_t th)
    unfold corr
    rw [hY (f % p), hP (f / p)]
    split_ifs <;> first | omega | ring

/-! ## sensitivity of the score and the outer product -/

theorem sum_vech (F : ℕ → ℕ → ℝ) : ((npTriu p 0).map fun q => F q.2 q.1).sum =
    ∑ x : Fin p, ∑ y : Fin p, if y ≤ x then F x y else 0 := by
  rw [← List.sum_toFinset _ (nodup_npTriu p 0)]
  have : (npTriu p 0).toFinset = (Finset.range p ×ˢ Finset.range p).filter fun q => q.1 ≤ q.2 := by
    ext ⟨i, j⟩
    rw [List.mem_toFinset, mem_npTriu, Finset.mem_filter, Finset.mem_product, Finset.mem_range, Finset.mem_range]
    simp only
    omega
  rw [this, Finset.sum_filter, Finset.sum_product_right, Finset.sum_range]
  refine Finset.sum_congr rfl fun i _ => ?_
  rw [Finset.sum_range]
  exact Finset.sum_congr rfl fun j _ => if_congr Fin.le_def.symm rfl rfl

/-- Sums over the positions of `vech`. -/
theorem sum_vech_range (F : ℕ → ℕ → ℕ → ℝ) (G : ℕ → ℕ → ℝ)
    (hF : ∀ r (h : r < (npTriu p 0).length), F (npTriu p 0)[r].2 (npTriu p 0)[r].1 r = G (npTriu p 0)[r].2 (npTriu p 0)[r].1) :
    ∑ r ∈ Finset.range (npTriu p 0).length, F ((npTriu p 0).getD r (0, 0)).2 ((npTriu p 0).getD r (0, 0)).1 r =
    ∑ x : Fin p, ∑ y : Fin p, if y ≤ x then G x y else 0 := by
  rw [← sum_vech]
  have : (npTriu p 0).map (fun q => G q.2 q.1) = (List.range (npTriu p 0).length).map fun r =>
      F ((npTriu p 0).getD r (0, 0)).2 ((npTriu p 0).getD r (0, 0)).1 r := by
    apply List.ext_getElem
    · simp
    · intro r h1 h2
      have h3 : r < (npTriu p 0).length := by simpa using h1
      simp only [List.getElem_map, List.getElem_range]
      rw [List.getD_eq_getElem _ _ h3, hF r h3]
  rw [this, ← List.sum_toFinset _ List.nodup_range, List.toFinset_range]

theorem vech_dot (A B : ℕ → ℕ → ℝ) : ∑ r ∈ Finset.range (vech A p).length, (vech A p).getD r 0 * (vech B p).getD r 0 =
    ∑ x : Fin p, ∑ y : Fin p, if y ≤ x then A x y * B x y else 0 := by
  have hl : (vech A p).length = (npTriu p 0).length := by simp [vech]
  have := sum_vech_range (p := p) (fun _ _ r => (vech A p).getD r 0 * (vech B p).getD r 0) (fun x y => A x y * B x y)
    (fun r h => by
      rw [List.getD_eq_getElem _ _ (by simpa [vech] using h), List.getD_eq_getElem _ _ (by simpa [vech] using h)]
      simp [vech])
  rw [hl]; exact this

/-- A weighted half-sum of a symmetric function is its full sum. -/
theorem half_sum (F : Fin p → Fin p → ℝ) (hF : ∀ x y, F x y = F y x) :
    (∑ x, ∑ y, if y ≤ x then F x y * (2 - if x = y then 1 else 0) else 0) = ∑ x, ∑ y, F x y := by
  have h1 : ∀ x y : Fin p, (if y ≤ x then F x y * (2 - if x = y then 1 else 0) else 0) =
      (if y ≤ x then F x y else 0) + (if y < x then F x y else 0) := fun x y => by
    rcases lt_trichotomy x y with h | h | h
    · simp [h.not_ge, h.not_gt]
    · subst h; simp; ring
    · simp [h, h.le, h.ne']; ring
  have h2 : (∑ x, ∑ y, if y < x then F x y else 0) = ∑ x, ∑ y, if x < y then F x y else 0 := by
    rw [Finset.sum_comm]
    exact Finset.sum_congr rfl fun x _ => Finset.sum_congr rfl fun y _ => by rw [hF]
  simp only [h1, Finset.sum_add_distrib]
  rw [h2, ← Finset.sum_add_distrib]
  refine Finset.sum_congr rfl fun x _ => ?_
  rw [← Finset.sum_add_distrib]
  refine Finset.sum_congr rfl fun y _ => ?_
  rcases lt_or_ge x y with h | h
  · simp [h, h.not_ge]
  · simp [h, h.not_gt]

/-- C88: `score_jacobian` is the Jacobian of the gradient with respect to `vech(S)`. -/
theorem C88_score_jacobian (S : ℝ → Matrix (Fin p) (Fin p) ℝ) (D : Matrix (Fin p) (Fin p) ℝ) (hS : MD S D)
    (hsym : ∀ t, (S t)ᵀ = S t) (th : ℕ → ℝ) (h0 : IsUnit (sigmaOf p m th).det) {f : ℕ} (hf : f < nT p m) :
    ∃ g : ℝ → ℕ → ℝ, (∀ t, mlGrad m (S t) th = some (g t)) ∧
      HasDerivAt (fun t => g t f) (∑ r ∈ Finset.range (scoreJacV p m th (sigmaOf p m th)⁻¹ f).length,
        (scoreJacV p m th (sigmaOf p m th)⁻¹ f).getD r 0 * (vech (entry D) p).getD r 0) 0 := by
  refine ⟨fun t => mlGradV m (S t) th (sigmaOf p m th)⁻¹, fun t => by rw [mlGrad, inv?_unit h0]; rfl, ?_⟩
  have hV := inv_t (sigmaOf_t (p := p) (m := m) th)
  have hG := dsigma_t (p := p) (m := m) th hf
  have hD : Dᵀ = D := by
    have : MD S Dᵀ := by have := hS.transpose; simpa only [hsym] using this
    ext x y; exact (this x y).unique (hS x y)
  have he : (fun t => mlGradV m (S t) th (sigmaOf p m th)⁻¹ f) = fun t => fro ((sigmaOf p m th)⁻¹ * (sigmaOf p m th - S t) * (sigmaOf p m th)⁻¹) (dsigma p m th f) :=
    funext fun t => mlGradV_eq _ (hsym t) _ _ hV hf
  rw [he]
  have hd := fro_deriv (((MD.const (sigmaOf p m th)⁻¹).mul ((MD.const (sigmaOf p m th)).sub hS)).mul (MD.const (sigmaOf p m th)⁻¹)) (MD.const (dsigma p m th f))
  refine hd.congr_deriv ?_
  have h2 : (2.0 : ℝ) = 2 := by norm_num
  rw [scoreJacV, vech_dot, h2]
  generalize (sigmaOf p m th)⁻¹ = V at *
  generalize dsigma p m th f = G at *
  have hM : ∀ x y, (V * G * V) x y = (V * G * V) y x := fun x y => by
    have : (V * G * V)ᵀ = V * G * V := by rw [transpose_mul, transpose_mul, hV, hG, Matrix.mul_assoc]
    exact (congrFun (congrFun this x) y).symm
  have hDe : ∀ x y, D x y = D y x := fun x y => (congrFun (congrFun hD x) y).symm
  simp only [entry_fin, of_apply]
  have : ∀ x y : Fin p, (if y ≤ x then -(V * G * V) x y * (2 - if x = y then 1 else 0) * D x y else 0) =
      if y ≤ x then (-(V * G * V) x y * D x y) * (2 - if x = y then 1 else 0) else 0 := fun x y => by
    split_ifs <;> ring
  simp only [this]
  rw [half_sum _ (fun x y => by rw [hM, hDe])]
  have e : (∑ x, ∑ y, -(V * G * V) x y * D x y) = - fro (V * G * V) D := by
    simp only [fro, neg_mul, Finset.sum_neg_distrib]
  rw [e, fro_trace, fro_trace, fro_trace]
  simp only [Matrix.zero_mul, Matrix.mul_zero, add_zero, zero_add, trace_zero, zero_sub, Matrix.mul_neg, Matrix.neg_mul,
    transpose_neg, transpose_mul, hV, hG, hD, trace_neg]
  congr 1
  rw [show V * (D * V) * G = (V * D) * (V * G) by simp only [Matrix.mul_assoc], trace_mul_comm]; simp only [Matrix.mul_assoc]

/-- Covariance of `vech` of a sample covariance matrix of `n` Gaussian observations with covariance `Sig`:
`Cov(S_xy, S_zw) = (Sig_xz Sig_yw + Sig_xw Sig_yz) / n`, at the positions of `vech`. -/
noncomputable def gaussVS (p : ℕ) (Sig : Matrix (Fin p) (Fin p) ℝ) (n : ℝ) (r s : ℕ) : ℝ :=
  let a := (npTriu p 0).getD r (0, 0)
  let b := (npTriu p 0).getD s (0, 0)
  (entry Sig a.2 b.2 * entry Sig a.1 b.1 + entry Sig a.2 b.1 * entry Sig a.1 b.2) / n

/-- Weighted `vech` sums against a matrix symmetric in both pairs. -/
theorem jac_dot (M : Matrix (Fin p) (Fin p) ℝ) (hM : ∀ x y, M x y = M y x) (K : ℕ → ℕ → ℝ) (hK : ∀ x y, K x y = K y x) :
    ∑ r ∈ Finset.range (vech (entry (Matrix.of fun x y : Fin p => -M x y * (2.0 - if x = y then 1 else 0))) p).length,
      (vech (entry (Matrix.of fun x y : Fin p => -M x y * (2.0 - if x = y then 1 else 0))) p).getD r 0 *
        K ((npTriu p 0).getD r (0, 0)).2 ((npTriu p 0).getD r (0, 0)).1 = -∑ x : Fin p, ∑ y : Fin p, M x y * K x y := by
  have h2 : (2.0 : ℝ) = 2 := by norm_num
  have h := vech_dot (p := p) (entry (Matrix.of fun x y : Fin p => -M x y * (2.0 - if x = y then 1 else 0))) K
  have e : ∀ r, r < (npTriu p 0).length → (vech K p).getD r 0 = K ((npTriu p 0).getD r (0, 0)).2 ((npTriu p 0).getD r (0, 0)).1 :=
    fun r hr => by
      rw [List.getD_eq_getElem _ _ (by simpa [vech] using hr), List.getD_eq_getElem _ _ hr]; simp [vech]
  rw [Finset.sum_congr rfl fun r hr => by rw [← e r (by simpa [vech] using hr)], h, h2]
  simp only [entry_fin, of_apply]
  have : ∀ x y : Fin p, (if y ≤ x then -M x y * (2 - if x = y then 1 else 0) * K x y else 0) =
      if y ≤ x then (-(M x y * K x y)) * (2 - if x = y then 1 else 0) else 0 := fun x y => by
    split_ifs <;> ring
  simp only [this]
  rw [half_sum _ (fun x y => by rw [hM, hK])]
  simp only [Finset.sum_neg_distrib]

/-- C88: the Gaussian branch of `meat` equals `B V_S Bᵀ` for the covariance of `vech(S)` under normality. -/
theorem C88_meat (th : ℕ → ℝ) (n : ℝ) (h0 : IsUnit (sigmaOf p m th).det) {f g : ℕ} (hf : f < nT p m) (hg : g < nT p m) :
    meatV p m th (sigmaOf p m th)⁻¹ (gaussVS p (sigmaOf p m th) n) f g =
      meatGaussV p m th (sigmaOf p m th)⁻¹ n f g := by
  have hV := inv_t (sigmaOf_t (p := p) (m := m) th)
  have hG := dsigma_t (p := p) (m := m) th hf
  have hK := dsigma_t (p := p) (m := m) th hg
  have hSg := sigmaOf_t (p := p) (m := m) th
  have hi := nonsing_inv_mul _ h0
  have hi' := mul_nonsing_inv _ h0
  simp only [meatV, meatGaussV, scoreJacV]
  generalize (sigmaOf p m th)⁻¹ = V at *
  generalize sigmaOf p m th = Sg at *
  generalize dsigma p m th f = G at *
  generalize dsigma p m th g = K at *
  have hM : ∀ X : Matrix (Fin p) (Fin p) ℝ, Xᵀ = X → ∀ x y, (V * X * V) x y = (V * X * V) y x := fun X hX x y => by
    have : (V * X * V)ᵀ = V * X * V := by rw [transpose_mul, transpose_mul, hV, hX, Matrix.mul_assoc]
    exact (congrFun (congrFun this x) y).symm
  have e1 : ∀ s, (∑ r ∈ Finset.range (vech (entry (Matrix.of fun x y : Fin p => -(V * G * V) x y * (2.0 - if x = y then 1 else 0))) p).length,
      (vech (entry (Matrix.of fun x y : Fin p => -(V * G * V) x y * (2.0 - if x = y then 1 else 0))) p).getD r 0 * gaussVS p Sg n r s) =
      -∑ x : Fin p, ∑ y : Fin p, (V * G * V) x y * ((entry Sg x ((npTriu p 0).getD s (0, 0)).2 * entry Sg y ((npTriu p 0).getD s (0, 0)).1 +
        entry Sg x ((npTriu p 0).getD s (0, 0)).1 * entry Sg y ((npTriu p 0).getD s (0, 0)).2) / n) := fun s =>
    jac_dot (V * G * V) (hM G hG) (fun a b => (entry Sg a ((npTriu p 0).getD s (0, 0)).2 * entry Sg b ((npTriu p 0).getD s (0, 0)).1 +
        entry Sg a ((npTriu p 0).getD s (0, 0)).1 * entry Sg b ((npTriu p 0).getD s (0, 0)).2) / n) (fun a b => by ring)
  simp only [e1]
  have e2 := jac_dot (V * K * V) (hM K hK) (fun a b => -∑ x : Fin p, ∑ y : Fin p, (V * G * V) x y * ((entry Sg x a * entry Sg y b +
        entry Sg x b * entry Sg y a) / n)) (fun a b => by
      congr 1
      exact Finset.sum_congr rfl fun x _ => Finset.sum_congr rfl fun y _ => by ring)
  rw [Finset.sum_congr rfl fun s _ => mul_comm _ _]
  refine e2.trans ?_
  simp only [entry_fin]
  have q : ∀ z w : Fin p, (∑ x, ∑ y, (V * G * V) x y * ((Sg x z * Sg y w + Sg x w * Sg y z) / n)) = 2 / n * G z w := fun z w => by
    have q1 : ∀ z w : Fin p, (∑ x, ∑ y, (V * G * V) x y * (Sg x z * Sg y w)) = G z w := fun z w => by
      have : Sgᵀ * (V * G * V) * Sg = G := by
        rw [hSg, show Sg * (V * G * V) * Sg = (Sg * V) * G * (V * Sg) by simp only [Matrix.mul_assoc], hi, hi', Matrix.one_mul, Matrix.mul_one]
      rw [← congrFun (congrFun this z) w, Matrix.mul_assoc Sgᵀ, Matrix.mul_apply]
      refine Finset.sum_congr rfl fun x _ => ?_
      rw [Matrix.mul_apply, Finset.mul_sum, transpose_apply]
      exact Finset.sum_congr rfl fun y _ => by ring
    have q2 : ∀ z w : Fin p, (∑ x, ∑ y, (V * G * V) x y * ((Sg x z * Sg y w + Sg x w * Sg y z) / n)) =
        ((∑ x, ∑ y, (V * G * V) x y * (Sg x z * Sg y w)) + (∑ x, ∑ y, (V * G * V) x y * (Sg x w * Sg y z))) / n := fun z w => by
      simp only [← Finset.sum_add_distrib, Finset.sum_div]
      exact Finset.sum_congr rfl fun x _ => Finset.sum_congr rfl fun y _ => by ring
    rw [q2, q1, q1]
    have : G w z = G z w := congrFun (congrFun hG z) w
    rw [this]; ring
  simp only [q, mul_neg, Finset.sum_neg_distrib, neg_neg, Finset.mul_sum]
  have h2 : (2.0 : ℝ) = 2 := by norm_num
  rw [h2]
  exact Finset.sum_congr rfl fun x _ => Finset.sum_congr rfl fun y _ => by ring

/-! Nonvacuity: `p = m = 1`, `L = 1`, `psi = 1` gives `Sigma = 2`. -/
example : IsUnit (sigmaOf 1 1 (fun _ => 1)).det := by
  have : sigmaOf 1 1 (fun _ => (1 : ℝ)) = Matrix.of fun _ _ => 2 := by
    ext i j
    have hi := Subsingleton.elim i 0; have hj := Subsingleton.elim j 0
    subst hi hj
    simp [sigmaOf, lphi, Lof, phiOf, psiOf, unflatF, Matrix.mul_apply]
    norm_num
  rw [this, det_fin_one]; simp

end Verif.Fa
