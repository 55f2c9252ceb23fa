import Verif.Fa.AlignMat
import Mathlib.Tactic
import Mathlib.LinearAlgebra.Matrix.NonsingularInverse

/-!
C266: the alignment matrix carries parameters and their covariance to the aligned factors.
-/

namespace Verif.Fa
open Matrix

variable {p m : ℕ}

/-- Specification: the position whose parameter an aligned position shows. -/
def amSrc (perm : Fin m ≃ Fin m) : AmIx p m → AmIx p m
  | .inl x => .inl (x.1, perm x.2)
  | .inr (.inl x) =>
    if h : perm x.1.2 < perm x.1.1 then .inr (.inl ⟨(perm x.1.1, perm x.1.2), h⟩)
    else .inr (.inl ⟨(perm x.1.2, perm x.1.1),
      lt_of_le_of_ne (not_lt.1 h) fun e => absurd (perm.injective e) x.2.ne'⟩)
  | .inr (.inr i) => .inr (.inr i)

/-- Specification: the sign it gets. -/
def amSgn (s : Fin m → ℝ) : AmIx p m → ℝ
  | .inl x => s x.2
  | .inr (.inl x) => s x.1.1 * s x.1.2
  | .inr (.inr _) => 1

/-- Unpacking and packing returns every parameter vector. -/
theorem C266_pack (θ : AmIx p m → ℝ) : amPack (amUnpack θ) = θ := by
  funext c
  match c with
  | .inl x => rfl
  | .inr (.inl x) => simp [amPack, amUnpack, amSym, x.2]
  | .inr (.inr i) => rfl

/-- The unpacked correlations are symmetric with a unit diagonal. -/
theorem C266_phi (θ : AmIx p m → ℝ) (k l : Fin m) :
    (amUnpack θ).Phi k l = (amUnpack θ).Phi l k ∧ (amUnpack θ).Phi k k = 1 := by
  refine ⟨?_, by simp [amUnpack, amSym]⟩
  rcases lt_trichotomy k l with h | h | h
  · simp [amUnpack, amSym, h, not_lt.2 h.le]
  · simp [h]
  · simp [amUnpack, amSym, h, not_lt.2 h.le]

/-- Aligning takes each parameter from one position, with a sign. -/
theorem C266_entry (perm : Fin m ≃ Fin m) (s : Fin m → ℝ) (θ : AmIx p m → ℝ) (c : AmIx p m) :
    amPack (amAlign perm s (amUnpack θ)) c = amSgn s c * θ (amSrc perm c) := by
  match c with
  | .inl x => simp [amPack, amAlign, amUnpack, amSgn, amSrc, mul_comm]
  | .inr (.inl x) =>
    obtain ⟨⟨k, l⟩, h⟩ := x
    have hne : perm k ≠ perm l := fun e => absurd (perm.injective e) (ne_of_gt h)
    rcases lt_or_gt_of_ne hne with g | g
    · simp only [amPack, amAlign, amUnpack, amSgn, amSrc, amSym, not_lt.2 g.le, dif_neg, g, dif_pos, not_false_eq_true]
      ring
    · simp only [amPack, amAlign, amUnpack, amSgn, amSrc, amSym, g, dif_pos]
      ring
  | .inr (.inr i) => simp [amPack, amAlign, amUnpack, amSgn, amSrc]

/-- Different positions show different parameters. -/
theorem C266_inj (perm : Fin m ≃ Fin m) : Function.Injective (amSrc (p := p) perm) := by
  intro c d h
  match c, d with
  | .inl x, .inl y =>
    simp only [amSrc, Sum.inl.injEq, Prod.mk.injEq, EmbeddingLike.apply_eq_iff_eq] at h
    exact congrArg Sum.inl (Prod.ext h.1 h.2)
  | .inl x, .inr (.inl y) => simp only [amSrc] at h; split_ifs at h
  | .inl x, .inr (.inr y) => simp [amSrc] at h
  | .inr (.inl x), .inl y => simp only [amSrc] at h; split_ifs at h
  | .inr (.inl x), .inr (.inr y) => simp only [amSrc] at h; split_ifs at h <;> simp at h
  | .inr (.inr x), .inl y => simp [amSrc] at h
  | .inr (.inr x), .inr (.inl y) => simp only [amSrc] at h; split_ifs at h <;> simp at h
  | .inr (.inr x), .inr (.inr y) => simpa [amSrc] using h
  | .inr (.inl x), .inr (.inl y) =>
    obtain ⟨⟨k, l⟩, hx⟩ := x
    obtain ⟨⟨a, b⟩, hy⟩ := y
    simp only at hx hy
    simp only [amSrc] at h
    split_ifs at h <;>
      simp only [Sum.inr.injEq, Sum.inl.injEq, Subtype.mk.injEq, Prod.mk.injEq, EmbeddingLike.apply_eq_iff_eq] at h <;>
      obtain ⟨h1, h2⟩ := h <;> subst h1 <;> subst h2
    · rfl
    · exact absurd hx (not_lt.2 hy.le)
    · exact absurd hx (not_lt.2 hy.le)
    · rfl

/-- Aligned positions are free exactly if the position they show is. -/
theorem C266_free (phiFree : Bool) (perm : Fin m ≃ Fin m) (c : AmIx p m) :
    amFree phiFree (amSrc perm c) = amFree phiFree c := by
  match c with
  | .inl x => rfl
  | .inr (.inl x) => simp only [amSrc]; split_ifs <;> rfl
  | .inr (.inr i) => rfl

/-- The source of a free position, as a free position. -/
def amSrcF (phiFree : Bool) (perm : Fin m ≃ Fin m) (c : {c : AmIx p m // amFree phiFree c = true}) :
    {c : AmIx p m // amFree phiFree c = true} :=
  ⟨amSrc perm c.1, by rw [C266_free]; exact c.2⟩

/-- Each row has one entry, a sign. -/
theorem C266_row (phiFree : Bool) (perm : Fin m ≃ Fin m) (s : Fin m → ℝ) (c j : {c : AmIx p m // amFree phiFree c = true}) :
    amMat (amFree phiFree) perm s c j = if amSrcF phiFree perm c = j then amSgn s c.1 else 0 := by
  simp only [amMat]
  rw [C266_entry]
  by_cases h : amSrcF phiFree perm c = j
  · rw [if_pos h, ← h]; simp [amSrcF]
  · rw [if_neg h, if_neg, mul_zero]
    exact fun e => h (Subtype.ext e)

/-- The matrix applied to the free parameters gives the free aligned parameters — whatever the fixed ones are. -/
theorem C266_apply (phiFree : Bool) (perm : Fin m ≃ Fin m) (s : Fin m → ℝ) (θ : AmIx p m → ℝ)
    (c : {c : AmIx p m // amFree phiFree c = true}) :
    (amMat (amFree phiFree) perm s *ᵥ fun j => θ j.1) c = amPack (amAlign perm s (amUnpack θ)) c.1 := by
  rw [C266_entry]
  simp only [mulVec, dotProduct, C266_row, ite_mul, zero_mul, Finset.sum_ite_eq, Finset.mem_univ, if_true]
  rfl

/-- The covariance of the aligned parameters is that of the parameters they show, with both signs. -/
theorem C266_cov (phiFree : Bool) (perm : Fin m ≃ Fin m) (s : Fin m → ℝ)
    (V : Matrix {c : AmIx p m // amFree phiFree c = true} {c : AmIx p m // amFree phiFree c = true} ℝ)
    (c d : {c : AmIx p m // amFree phiFree c = true}) :
    (amMat (p := p) (amFree phiFree) perm s * V * (amMat (p := p) (amFree phiFree) perm s)ᵀ : Matrix _ _ ℝ) c d
      = amSgn s c.1 * amSgn s d.1 * V (amSrcF phiFree perm c) (amSrcF phiFree perm d) := by
  simp only [mul_apply, transpose_apply, C266_row, ite_mul, mul_ite, zero_mul, mul_zero, Finset.sum_ite_eq, Finset.mem_univ, if_true]
  ring

/-- With signs of one, squares of the position signs are one. -/
theorem amSgn_sq {s : Fin m → ℝ} (hs : ∀ k, s k = 1 ∨ s k = -1) (c : AmIx p m) : amSgn s c * amSgn s c = 1 := by
  match c with
  | .inl x => rcases hs x.2 with h | h <;> simp [amSgn, h]
  | .inr (.inl x) => rcases hs x.1.1 with h | h <;> rcases hs x.1.2 with g | g <;> simp [amSgn, h, g]
  | .inr (.inr i) => simp [amSgn]

/-- The standard errors are moved and not changed. -/
theorem C266_se (phiFree : Bool) (perm : Fin m ≃ Fin m) {s : Fin m → ℝ} (hs : ∀ k, s k = 1 ∨ s k = -1)
    (V : Matrix {c : AmIx p m // amFree phiFree c = true} {c : AmIx p m // amFree phiFree c = true} ℝ)
    (c : {c : AmIx p m // amFree phiFree c = true}) :
    (amMat (p := p) (amFree phiFree) perm s * V * (amMat (p := p) (amFree phiFree) perm s)ᵀ : Matrix _ _ ℝ) c c
      = V (amSrcF phiFree perm c) (amSrcF phiFree perm c) := by
  rw [C266_cov, amSgn_sq hs, one_mul]

/-- The matrix is orthogonal. -/
theorem C266_orthogonal (phiFree : Bool) (perm : Fin m ≃ Fin m) {s : Fin m → ℝ} (hs : ∀ k, s k = 1 ∨ s k = -1) :
    amMat (p := p) (amFree phiFree) perm s * (amMat (amFree phiFree) perm s)ᵀ = 1 := by
  ext c d
  have h := C266_cov phiFree perm s (1 : Matrix {c : AmIx p m // amFree phiFree c = true} _ ℝ) c d
  rw [Matrix.mul_one] at h
  rw [h]
  by_cases e : c = d
  · subst e
    rw [one_apply_eq, mul_one, one_apply_eq, amSgn_sq hs]
  · rw [one_apply_ne e, one_apply_ne, mul_zero]
    intro g
    exact e (Subtype.ext (C266_inj perm (congrArg Subtype.val g)))

/-- Statistics from the covariance do not depend on the alignment: the quadratic form of an aligned deviation is that of the deviation. -/
theorem C266_mahalanobis (phiFree : Bool) (perm : Fin m ≃ Fin m) {s : Fin m → ℝ} (hs : ∀ k, s k = 1 ∨ s k = -1)
    (W : Matrix {c : AmIx p m // amFree phiFree c = true} {c : AmIx p m // amFree phiFree c = true} ℝ)
    (d : {c : AmIx p m // amFree phiFree c = true} → ℝ) :
    let M := amMat (amFree phiFree) perm s
    (M *ᵥ d) ⬝ᵥ ((M * W * Mᵀ) *ᵥ (M *ᵥ d)) = d ⬝ᵥ (W *ᵥ d) := by
  intro M
  have h : Mᵀ * M = 1 := mul_eq_one_comm.1 (C266_orthogonal phiFree perm hs)
  rw [mulVec_mulVec, Matrix.mul_assoc, h, Matrix.mul_one, ← mulVec_mulVec, dotProduct_mulVec, vecMul_mulVec, ← dotProduct_mulVec]
  rw [h, one_mulVec]

/-- `unpack_se` puts every free standard error in its place and zeros in the fixed ones. -/
theorem C266_unpack (phiFree : Bool) (se : {c : AmIx p m // amFree phiFree c = true} → ℝ) (c : AmIx p m) :
    amPack (amSe (amFree phiFree) phiFree se) c = if h : amFree phiFree c = true then se ⟨c, h⟩ else 0 := by
  match c with
  | .inl x => rfl
  | .inr (.inr i) => rfl
  | .inr (.inl x) =>
    cases phiFree with
    | true => simp [amPack, amSe, amSym, x.2]
    | false => simp [amPack, amSe, amFree]

/-- Its correlations' errors are symmetric, with zeros for the fixed diagonal. -/
theorem C266_unpack_sym (phiFree : Bool) (free : AmIx p m → Bool) (se : {c : AmIx p m // free c = true} → ℝ) (k l : Fin m) :
    (amSe free phiFree se).Phi k l = (amSe free phiFree se).Phi l k ∧ (amSe free phiFree se).Phi k k = 0 := by
  cases phiFree with
  | false => simp [amSe]
  | true =>
    refine ⟨?_, by simp [amSe, amSym]⟩
    rcases lt_trichotomy k l with h | h | h
    · simp [amSe, amSym, h, not_lt.2 h.le]
    · simp [h]
    · simp [amSe, amSym, h, not_lt.2 h.le]

example : ∀ k : Fin 2, (![1, -1] : Fin 2 → ℝ) k = 1 ∨ (![1, -1] : Fin 2 → ℝ) k = -1 := by
  intro k; fin_cases k <;> simp

/-- Two factors exchanged, the second reflected: their correlation changes its sign. -/
example (θ : AmIx 1 2 → ℝ) :
    amPack (amAlign (Equiv.swap 0 1) ![1, -1] (amUnpack θ)) (.inr (.inl ⟨(1, 0), by decide⟩)) = -θ (.inr (.inl ⟨(1, 0), by decide⟩)) := by
  simp [amPack, amAlign, amUnpack, amSym]

end Verif.Fa
