import Verif.Fa.Align
import Verif.Fa.ConstraintProps
/-! # C90: alignment of factors and the canonical rotation -/
namespace Verif.Fa
open Matrix

variable {p m : ℕ}

theorem sign1_or (x : ℝ) : sign1 x = 1 ∨ sign1 x = -1 := by
  unfold sign1
  rcases lt_trichotomy x 0 with h | h | h
  · right; simp [h, h.not_gt]
  · left; simp [h]; norm_num
  · left; simp [h]

theorem sign1_sq (x : ℝ) : sign1 x * sign1 x = 1 := by rcases sign1_or x with h | h <;> rw [h] <;> norm_num

theorem sign1_mul (x : ℝ) : x * sign1 x = |x| := by
  unfold sign1
  rcases lt_trichotomy x 0 with h | h | h
  · rw [abs_of_neg h]; simp [h, h.not_gt]
  · simp [h]
  · rw [abs_of_pos h]; simp [h]

/-- A signed permutation matrix. -/
def sgnP (perm : Equiv.Perm (Fin m)) (s : Fin m → ℝ) : Matrix (Fin m) (Fin m) ℝ :=
  Matrix.of fun i j => if i = perm j then s j else 0

theorem alApply_eq (L : Matrix (Fin p) (Fin m) ℝ) (perm : Equiv.Perm (Fin m)) (s : Fin m → ℝ) :
    alApply L perm s = L * sgnP perm s := by
  ext i j; simp [alApply, sgnP, Matrix.mul_apply]

theorem alPhi_eq (Phi : Matrix (Fin m) (Fin m) ℝ) (perm : Equiv.Perm (Fin m)) (s : Fin m → ℝ) :
    alPhi Phi perm s = (sgnP perm s)ᵀ * Phi * sgnP perm s := by
  ext i j; simp [alPhi, sgnP, Matrix.mul_apply]

theorem sgnP_orth (perm : Equiv.Perm (Fin m)) (s : Fin m → ℝ) (hs : ∀ j, s j * s j = 1) :
    (sgnP perm s)ᵀ * sgnP perm s = 1 := by
  ext i j
  simp only [Matrix.mul_apply, transpose_apply, sgnP, of_apply, mul_ite, ite_mul, zero_mul, mul_zero, Matrix.one_apply]
  rw [Finset.sum_eq_single (perm j) (fun b _ hb => by simp [hb]) (by simp)]
  by_cases h : i = j
  · subst h; simp [hs]
  · have : perm j ≠ perm i := fun e => h (perm.injective e).symm
    simp [h, this]

/-- C90: applying any permutation and signs to the loadings and factor correlations leaves the implied common
covariance unchanged, and preserves a unit diagonal. -/
theorem C90_invariant (lsa : Matrix (Fin m) (Fin m) ℝ → Equiv.Perm (Fin m)) (Lest Ltar : Matrix (Fin p) (Fin m) ℝ) (nrm : Bool)
    (Phi : Matrix (Fin m) (Fin m) ℝ) :
    let a := align lsa Lest Ltar nrm
    alApply Lest a.1 a.2 * alPhi Phi a.1 a.2 * (alApply Lest a.1 a.2)ᵀ = Lest * Phi * Lestᵀ ∧
    ((∀ i, Phi i i = 1) → ∀ i, alPhi Phi a.1 a.2 i i = 1) ∧
    (Phiᵀ = Phi → (alPhi Phi a.1 a.2)ᵀ = alPhi Phi a.1 a.2) ∧
    ∀ i j, |alApply Lest a.1 a.2 i j| = |alSe Lest a.1 i j| := by
  intro a
  have hs : ∀ j, a.2 j * a.2 j = 1 := fun j => sign1_sq _
  refine ⟨?_, fun h i => ?_, fun h => ?_, fun i j => ?_⟩
  · have h1 := sgnP_orth a.1 a.2 hs
    have h2 := mul_eq_one_comm.1 h1
    rw [alApply_eq, alPhi_eq, transpose_mul]
    generalize sgnP a.1 a.2 = P at *
    rw [show Lest * P * (Pᵀ * Phi * P) * (Pᵀ * Lestᵀ) = Lest * (P * Pᵀ) * Phi * (P * Pᵀ) * Lestᵀ by
      simp only [Matrix.mul_assoc], h2, Matrix.mul_one, Matrix.mul_one]
  · simp only [alPhi, of_apply, h, mul_one, hs]
  · ext i j
    simp only [alPhi, transpose_apply, of_apply]
    have : Phi (a.1 j) (a.1 i) = Phi (a.1 i) (a.1 j) := congrFun (congrFun h _) _
    rw [this]; ring
  · simp only [alApply, alSe, of_apply, abs_mul]
    have h0 : ∀ x, |sign1 x| = 1 := fun x => by rcases sign1_or x with h | h <;> rw [h] <;> simp
    have : |a.2 j| = 1 := h0 _
    rw [this, mul_one]

/-- C90: after alignment every column has a nonnegative inner product with its target column. -/
theorem C90_signs (lsa : Matrix (Fin m) (Fin m) ℝ → Equiv.Perm (Fin m)) (Lest Ltar : Matrix (Fin p) (Fin m) ℝ) (nrm : Bool) (j : Fin m) :
    let a := align lsa Lest Ltar nrm
    (a.2 j = 1 ∨ a.2 j = -1) ∧ ∑ i, Ltar i j * alApply Lest a.1 a.2 i j = |∑ i, Ltar i j * Lest i (a.1 j)| := by
  intro a
  refine ⟨sign1_or _, ?_⟩
  rw [← sign1_mul, Finset.sum_mul]
  exact Finset.sum_congr rfl fun i _ => by simp only [alApply, of_apply]; rw [← mul_assoc]; rfl

theorem sqdist (Lest Ltar : Matrix (Fin p) (Fin m) ℝ) (t : Equiv.Perm (Fin m)) (s : Fin m → ℝ) (hs : ∀ j, s j * s j = 1) :
    fro (alApply Lest t s - Ltar) (alApply Lest t s - Ltar) =
      fro Lest Lest + fro Ltar Ltar - 2 * ∑ j, (∑ i, Ltar i j * Lest i (t j)) * s j := by
  have h1 : fro Lest Lest = ∑ j, ∑ i, Lest i (t j) * Lest i (t j) := by
    rw [fro, Finset.sum_comm]; exact (Equiv.sum_comp t fun j => ∑ i, Lest i j * Lest i j).symm
  have h2 : ∀ X : Matrix (Fin p) (Fin m) ℝ, fro X X = ∑ j, ∑ i, X i j * X i j := fun X => Finset.sum_comm
  rw [h1, h2, h2, Finset.mul_sum, ← Finset.sum_add_distrib, ← Finset.sum_sub_distrib]
  refine Finset.sum_congr rfl fun j _ => ?_
  rw [Finset.sum_mul, Finset.mul_sum, ← Finset.sum_add_distrib, ← Finset.sum_sub_distrib]
  refine Finset.sum_congr rfl fun i _ => ?_
  simp only [Matrix.sub_apply, alApply, of_apply]
  linear_combination (Lest i (t j)) ^ 2 * hs j

/-- C90: without normalisation the alignment is the closest signed permutation of the estimated loadings to the
target in Frobenius distance. -/
theorem C90_optimal (lsa : Matrix (Fin m) (Fin m) ℝ → Equiv.Perm (Fin m)) (hl : LsaOk lsa) (Lest Ltar : Matrix (Fin p) (Fin m) ℝ)
    (t : Equiv.Perm (Fin m)) (s : Fin m → ℝ) (hs : ∀ j, s j = 1 ∨ s j = -1) :
    let a := align lsa Lest Ltar false
    fro (alApply Lest a.1 a.2 - Ltar) (alApply Lest a.1 a.2 - Ltar) ≤
      fro (alApply Lest t s - Ltar) (alApply Lest t s - Ltar) := by
  intro a
  have hs2 : ∀ j, s j * s j = 1 := fun j => by rcases hs j with h | h <;> rw [h] <;> norm_num
  have hs3 : ∀ j, a.2 j * a.2 j = 1 := fun j => sign1_sq _
  rw [sqdist _ _ _ _ hs2, sqdist _ _ _ _ hs3]
  have h1 : ∑ j, (∑ i, Ltar i j * Lest i (t j)) * s j ≤ ∑ j, |∑ i, Ltar i j * Lest i (t j)| :=
    Finset.sum_le_sum fun j _ => by
      rcases hs j with h | h <;> rw [h]
      · rw [mul_one]; exact le_abs_self _
      · rw [mul_neg_one]; exact neg_le_abs _
  have h2 : ∑ j, (∑ i, Ltar i j * Lest i (a.1 j)) * a.2 j = ∑ j, |∑ i, Ltar i j * Lest i (a.1 j)| :=
    Finset.sum_congr rfl fun j _ => sign1_mul _
  have hM : ∀ i j, alignM Lest Ltar false i j = ∑ k, Ltar k i * Lest k j := fun i j => by
    simp [alignM, Matrix.mul_apply]
  have h3 := hl (Matrix.of fun i j => -|alignM Lest Ltar false i j|) t
  simp only [of_apply, Finset.sum_neg_distrib, hM] at h3
  have h4 : ∑ j, |∑ i, Ltar i j * Lest i (t j)| ≤ ∑ j, |∑ i, Ltar i j * Lest i (a.1 j)| := by
    have : a.1 = lsa (Matrix.of fun i j => -|∑ k, Ltar k i * Lest k j|) := by
      change lsa (Matrix.of fun i j => -|alignM Lest Ltar false i j|) = _
      simp only [hM]
    rw [this]; linarith
  linarith

/-- C90: aligning a signed permutation of the target to the target recovers the target. -/
theorem C90_recovers (lsa : Matrix (Fin m) (Fin m) ℝ → Equiv.Perm (Fin m)) (hl : LsaOk lsa) (Ltar : Matrix (Fin p) (Fin m) ℝ)
    (t : Equiv.Perm (Fin m)) (s : Fin m → ℝ) (hs : ∀ j, s j = 1 ∨ s j = -1) :
    let Lest := alApply Ltar t s
    let a := align lsa Lest Ltar false
    alApply Lest a.1 a.2 = Ltar := by
  intro Lest a
  have h := C90_optimal lsa hl Lest Ltar t.symm (fun j => s (t.symm j)) (fun j => hs _)
  have e : alApply Lest t.symm (fun j => s (t.symm j)) = Ltar := by
    ext i j
    have hq : s (t.symm j) * s (t.symm j) = 1 := by rcases hs (t.symm j) with h | h <;> rw [h] <;> norm_num
    simp only [Lest, alApply, of_apply, Equiv.apply_symm_apply]
    rw [mul_assoc, hq, mul_one]
  rw [e, sub_self] at h
  have h0 : fro (0 : Matrix (Fin p) (Fin m) ℝ) 0 = 0 := by simp [fro]
  rw [h0] at h
  ext i j
  have hz : fro (alApply Lest a.1 a.2 - Ltar) (alApply Lest a.1 a.2 - Ltar) = 0 := le_antisymm h (fro_self_nonneg _)
  have h1 : ∑ j, (alApply Lest a.1 a.2 - Ltar) i j * (alApply Lest a.1 a.2 - Ltar) i j = 0 :=
    (Finset.sum_eq_zero_iff_of_nonneg fun i _ => Finset.sum_nonneg fun j _ =>
      mul_self_nonneg ((alApply Lest a.1 a.2 - Ltar) i j)).1 hz i (Finset.mem_univ _)
  have h2 : (alApply Lest a.1 a.2 - Ltar) i j * (alApply Lest a.1 a.2 - Ltar) i j = 0 :=
    (Finset.sum_eq_zero_iff_of_nonneg fun j _ => mul_self_nonneg ((alApply Lest a.1 a.2 - Ltar) i j)).1 h1 j (Finset.mem_univ _)
  exact sub_eq_zero.1 (mul_self_eq_zero.1 h2)

/-- An optimal assignment exists. -/
example : ∃ lsa : Matrix (Fin m) (Fin m) ℝ → Equiv.Perm (Fin m), LsaOk lsa := by
  have : ∀ C : Matrix (Fin m) (Fin m) ℝ, ∃ q : Equiv.Perm (Fin m), ∀ t : Equiv.Perm (Fin m), ∑ i, C i (q i) ≤ ∑ i, C i (t i) := fun C => by
    obtain ⟨q, -, hq⟩ := Finset.exists_min_image Finset.univ (fun q : Equiv.Perm (Fin m) => ∑ i, C i (q i)) ⟨1, Finset.mem_univ _⟩
    exact ⟨q, fun t => hq t (Finset.mem_univ _)⟩
  choose f hf using this
  exact ⟨f, hf⟩

/-! ## canonical rotation -/

/-- C90: the canonical rotation is orthogonal, diagonalises `Aᵀ Psi⁻¹ A` with decreasing diagonal, leaves `A Aᵀ`
unchanged and satisfies the canonical constraint. -/
theorem C90_canonical (eigh : Matrix (Fin m) (Fin m) ℝ → (Fin m → ℝ) × Matrix (Fin m) (Fin m) ℝ)
    (argsort : (Fin m → ℝ) → Equiv.Perm (Fin m)) (ha : ∀ v, Monotone (v ∘ argsort v))
    (A : Matrix (Fin p) (Fin m) ℝ) (psi : Option (Fin p → ℝ))
    (he : EighOk (canonM A psi) (eigh (canonM A psi)).1 (eigh (canonM A psi)).2) :
    let r := canonFit eigh argsort A psi
    r.2.2.1ᵀ * r.2.2.1 = 1 ∧ r.1 = A * r.2.2.1 ∧ r.1 * r.2.1 * r.1ᵀ = A * Aᵀ ∧
    canonM r.1 psi = diagonal r.2.2.2 ∧ Antitone r.2.2.2 := by
  intro r
  set v := (eigh (canonM A psi)).1 with hv
  set Q := (eigh (canonM A psi)).2 with hQ
  set o : Fin m → Fin m := fun j => argsort v (Fin.rev j) with ho
  have hT : r.2.2.1 = Q.submatrix id o := rfl
  have hinj : Function.Injective o := fun a b h => Fin.rev_injective ((argsort v).injective h)
  have h1 : r.2.2.1ᵀ * r.2.2.1 = 1 := by
    rw [hT]
    ext i j
    have := congrFun (congrFun he.orth (o i)) (o j)
    rw [Matrix.mul_apply] at this ⊢
    refine this.trans ?_
    rw [Matrix.one_apply, Matrix.one_apply]
    exact if_congr hinj.eq_iff rfl rfl
  have h2 : r.2.2.1 * r.2.2.1ᵀ = 1 := mul_eq_one_comm.1 h1
  refine ⟨h1, rfl, ?_, ?_, ?_⟩
  · change A * r.2.2.1 * 1 * (A * r.2.2.1)ᵀ = _
    rw [Matrix.mul_one, transpose_mul, show A * r.2.2.1 * (r.2.2.1ᵀ * Aᵀ) = A * (r.2.2.1 * r.2.2.1ᵀ) * Aᵀ by
      simp only [Matrix.mul_assoc], h2, Matrix.mul_one]
  · have hc : canonM r.1 psi = r.2.2.1ᵀ * canonM A psi * r.2.2.1 := by
      have : ∀ T : Matrix (Fin m) (Fin m) ℝ, canonM (A * T) psi = Tᵀ * canonM A psi * T := fun T => by
        unfold canonM
        cases psi with
        | none => simp only; rw [transpose_mul]; simp only [Matrix.mul_assoc]
        | some s =>
          have : (Matrix.of fun i j => (A * T) i j / s i) = (Matrix.of fun i j => A i j / s i : Matrix (Fin p) (Fin m) ℝ) * T := by
            ext i j
            simp only [of_apply, Matrix.mul_apply, Finset.sum_div]
            exact Finset.sum_congr rfl fun k _ => by ring
          simp only
          rw [this, transpose_mul]; simp only [Matrix.mul_assoc]
      exact this _
    rw [hc, Matrix.mul_assoc]
    have hW : canonM A psi * r.2.2.1 = r.2.2.1 * diagonal r.2.2.2 := by
      rw [hT]
      ext i j
      have := congrFun (congrFun he.eig i) (o j)
      rw [Matrix.mul_diagonal] at this ⊢
      rw [Matrix.mul_apply] at this ⊢
      exact this
    rw [hW, ← Matrix.mul_assoc, h1, Matrix.one_mul]
  · intro a b hab
    exact ha v (Fin.rev_le_rev.2 hab)

/-- C90: the canonical constraints vanish at the canonical rotation. -/
theorem C90_canonical_constraint (eigh : Matrix (Fin m) (Fin m) ℝ → (Fin m → ℝ) × Matrix (Fin m) (Fin m) ℝ)
    (argsort : (Fin m → ℝ) → Equiv.Perm (Fin m)) (ha : ∀ v, Monotone (v ∘ argsort v))
    (A : Matrix (Fin p) (Fin m) ℝ) (th : ℕ → ℝ)
    (he : EighOk (canonM A (some (psiOf p m th))) (eigh (canonM A (some (psiOf p m th)))).1 (eigh (canonM A (some (psiOf p m th)))).2)
    (hL : Lof p m th = (canonFit eigh argsort A (some (psiOf p m th))).1) :
    ∀ c ∈ canonCons p m th, c = 0 := by
  intro c hc
  obtain ⟨q, hq, rfl⟩ := List.mem_map.1 hc
  have hq' := mem_tril1.1 hq
  have h := (C90_canonical eigh argsort ha A _ he).2.2.2.1
  rw [← hL] at h
  have e := entry_fin (canonM (Lof p m th) (some (psiOf p m th))) ⟨q.1, hq'.2⟩ ⟨q.2, hq'.1.trans hq'.2⟩
  refine e.trans ?_
  rw [h, diagonal_apply_ne]
  exact fun e => hq'.1.ne' (congrArg Fin.val e)

end Verif.Fa
