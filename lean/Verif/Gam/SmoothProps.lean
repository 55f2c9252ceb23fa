import Verif.Gam.SetupProps
import Verif.Spl.CubicProps
import Verif.Spl.CyclicProps

/-! The constraint applied to the cubic regression and cyclic splines of `Verif.Spl`. -/

namespace Verif.Gam
open Matrix Verif.Spl

variable {n p : ℕ}

/-- Extension of a vector of coefficients to an infinite sequence. -/
def ext0 (b : Fin p → ℝ) (i : ℕ) : ℝ := if h : i < p then b ⟨i, h⟩ else 0

theorem ext0_val (b : Fin p → ℝ) : (fun c : Fin p => ext0 b c) = b := by ext c; simp [ext0]

theorem psd_of {S : Matrix (Fin p) (Fin p) ℝ} (hs : S.IsSymm) (h : ∀ b : ℕ → ℝ, 0 ≤ (fun c : Fin p => b c) ⬝ᵥ S.mulVec (fun c => b c)) : S.PosSemidef := by
  refine Matrix.PosSemidef.of_dotProduct_mulVec_nonneg ?_ fun v => ?_
  · rw [Matrix.IsHermitian, Matrix.conjTranspose_eq_transpose_of_trivial]; exact hs
  · have := h (ext0 v)
    rw [ext0_val] at this
    simpa using this

/-- `crspline_basis` at the data. -/
noncomputable def crMat (k : ℕ → ℝ) (F : ℕ → ℕ → ℝ) (x : Fin n → ℝ) : Matrix (Fin n) (Fin p) ℝ := fun i c => crRow p k F (x i) c

/-- `ccspline_basis` at the data. -/
noncomputable def ccMat (k : ℕ → ℝ) (F : ℕ → ℕ → ℝ) (x : Fin n → ℝ) : Matrix (Fin n) (Fin p) ℝ := fun i c => ccRow p k F (x i) c

theorem crMat_mulVec (k : ℕ → ℝ) (F : ℕ → ℕ → ℝ) (x : Fin n → ℝ) (b : ℕ → ℝ) :
    crMat k F x *ᵥ (fun c : Fin p => b c) = fun i => crFun p k F b (x i) := by
  ext i
  rw [crFun, ← Fin.sum_univ_eq_sum_range (fun c => crRow p k F (x i) c * b c)]
  rfl

theorem ccMat_mulVec (k : ℕ → ℝ) (F : ℕ → ℕ → ℝ) (x : Fin n → ℝ) (b : ℕ → ℝ) :
    ccMat k F x *ᵥ (fun c : Fin p => b c) = fun i => ccFun p k F b (x i) := by
  ext i
  rw [ccFun, ← Fin.sum_univ_eq_sum_range (fun c => ccRow p k F (x i) c * b c)]
  rfl

/-- **C123** The constrained cubic regression spline: one unpenalised direction, the centred data. -/
theorem C123_cubic {k : ℕ → ℝ} (hp : 2 ≤ p) (hk : Inc (p + 1) k) {S : Matrix (Fin (p + 1)) (Fin (p + 1)) ℝ} {F : ℕ → ℕ → ℝ}
    (h : crPenalty (p + 1) k = some (S, F)) {x : Fin n → ℝ} (hx : ∃ i j, x i ≠ x j)
    {q : Matrix (Fin (p + 1)) (Fin (p + 1)) ℝ} (hq : QrOk (colMean (crMat k F x)) q) :
    (absorbS q S).PosSemidef ∧ ∃ g0 : Fin p → ℝ, g0 ≠ 0 ∧ (∀ g, absorbS q S *ᵥ g = 0 ↔ ∃ s : ℝ, g = s • g0) ∧
      absorbX q (crMat k F x) *ᵥ g0 = fun i => x i - (∑ j, x j) / n := by
  obtain ⟨hsym, hnull⟩ := C118_null (by omega) hk h
  have hS : S.PosSemidef := psd_of hsym fun b => (hnull b).1
  have hn : 0 < n := by obtain ⟨i, _⟩ := hx; exact i.pos
  refine ⟨absorbS_psd hS, C123_lines (k := fun c => k c) hn hq ?_ ?_ hS hx fun b => ?_⟩
  · rw [crMat_mulVec k F x fun _ => 1]
    ext i
    rw [C118_lines (by omega) hk h (fun _ => 1) 1 0 fun i _ => by ring]; ring
  · rw [crMat_mulVec k F x k]
    ext i
    rw [C118_lines (by omega) hk h k 0 1 fun i _ => by ring]; ring
  · have h1 := (hnull (ext0 b)).2
    rw [ext0_val] at h1
    constructor
    · intro hb
      obtain ⟨a, s, hh⟩ := h1.1 (by rw [show S.mulVec b = 0 from hb, dotProduct_zero])
      refine ⟨a, s, ?_⟩
      ext i
      have := hh i i.2
      rwa [ext0, dif_pos i.2] at this
    · rintro ⟨a, s, rfl⟩
      refine psd_zero hS (h1.2 ⟨a, s, fun i hi => by simp [ext0, hi]⟩)

/-- **C123** The constrained cyclic spline: every direction is penalised. -/
theorem C123_cyclic {k : ℕ → ℝ} (hp : 2 ≤ p) (hk : Inc (p + 1 + 1) k) {S F : Matrix (Fin (p + 1)) (Fin (p + 1)) ℝ}
    (h : ccPenalty (p + 1) k = some (S, F)) (hn : 0 < n) {x : Fin n → ℝ}
    {q : Matrix (Fin (p + 1)) (Fin (p + 1)) ℝ} (hq : QrOk (colMean (ccMat k (rd F) x)) q) : (absorbS q S).PosDef := by
  obtain ⟨hsym, hnull⟩ := C119_null_partial (by omega) hk h
  have hS : S.PosSemidef := psd_of hsym fun b => (hnull b).1
  refine C123_constants hn hq ?_ hS fun b hb => ?_
  · rw [ccMat_mulVec k (rd F) x fun _ => 1]
    ext i
    rw [C119_constants_partial (by omega) hk h]
  · have h1 := (hnull (ext0 b)).2
    rw [ext0_val] at h1
    have h2 := h1.1 (by rw [show S.mulVec b = 0 from hb, dotProduct_zero])
    refine ⟨b 0, ?_⟩
    ext i
    have := h2 i i.2
    rwa [ext0, dif_pos i.2, ext0, dif_pos (Nat.succ_pos p)] at this

end Verif.Gam
