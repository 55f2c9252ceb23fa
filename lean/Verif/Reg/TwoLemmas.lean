import Verif.Reg.Two
/-!
# Derivatives of sums over observations of functions of two linear predictors
-/
namespace Verif.Reg
open Matrix

variable {n p q : ℕ}

/-- `a`, `b` are the partial derivatives of `l` at `(x, z)` (along every line through the point). -/
def D2 (l : ℝ → ℝ → ℝ) (a b x z : ℝ) : Prop :=
  ∀ dx dz : ℝ, HasDerivAt (fun t : ℝ => l (x + t * dx) (z + t * dz)) (a * dx + b * dz) 0

theorem mulVec_line (X : Matrix (Fin n) (Fin p) ℝ) (b d : Fin p → ℝ) (t : ℝ) (i : Fin n) :
    (X *ᵥ (b + t • d)) i = (X *ᵥ b) i + t * (X *ᵥ d) i := by
  rw [mulVec_add, mulVec_smul]; rfl

theorem fstPart_line (theta d : Fin (p + q) → ℝ) (t : ℝ) : fstPart (theta + t • d) = fstPart theta + t • fstPart d := rfl
theorem sndPart_line (theta d : Fin (p + q) → ℝ) (t : ℝ) : sndPart (theta + t • d) = sndPart theta + t • sndPart d := rfl

theorem dot_fst (X : Matrix (Fin n) (Fin p) ℝ) (u : Fin n → ℝ) (d : Fin p → ℝ) :
    ∑ i, u i * (X *ᵥ d) i = (fun j => ∑ i, X i j * u i) ⬝ᵥ d := by
  simp only [mulVec, dotProduct, Finset.mul_sum, Finset.sum_mul]
  rw [Finset.sum_comm]
  refine Finset.sum_congr rfl fun j _ => Finset.sum_congr rfl fun i _ => by ring

theorem concat_dot (a : Fin p → ℝ) (b : Fin q → ℝ) (d : Fin (p + q) → ℝ) :
    concat a b ⬝ᵥ d = a ⬝ᵥ fstPart d + b ⬝ᵥ sndPart d := by
  simp only [dotProduct, Fin.sum_univ_add, concat, fstPart, sndPart, Fin.append_left, Fin.append_right]

theorem block_fst (A : Matrix (Fin p) (Fin p) ℝ) (B : Matrix (Fin p) (Fin q) ℝ) (B' : Matrix (Fin q) (Fin p) ℝ) (C : Matrix (Fin q) (Fin q) ℝ)
    (d : Fin (p + q) → ℝ) (i : Fin p) : (block A B B' C *ᵥ d) (Fin.castAdd q i) = A i ⬝ᵥ fstPart d + B i ⬝ᵥ sndPart d := by
  rw [← concat_dot]
  simp only [mulVec, block, Fin.addCases_left]; rfl

theorem block_snd (A : Matrix (Fin p) (Fin p) ℝ) (B : Matrix (Fin p) (Fin q) ℝ) (B' : Matrix (Fin q) (Fin p) ℝ) (C : Matrix (Fin q) (Fin q) ℝ)
    (d : Fin (p + q) → ℝ) (i : Fin q) : (block A B B' C *ᵥ d) (Fin.natAdd p i) = B' i ⬝ᵥ fstPart d + C i ⬝ᵥ sndPart d := by
  rw [← concat_dot]
  simp only [mulVec, block, Fin.addCases_right]; rfl

section
variable (A : Matrix (Fin p) (Fin p) ℝ) (B : Matrix (Fin p) (Fin q) ℝ) (B' : Matrix (Fin q) (Fin p) ℝ) (C : Matrix (Fin q) (Fin q) ℝ)
theorem block_11 (i j : Fin p) : block A B B' C (Fin.castAdd q i) (Fin.castAdd q j) = A i j := by simp only [block, Fin.addCases_left, Fin.append_left]
theorem block_12 (i : Fin p) (j : Fin q) : block A B B' C (Fin.castAdd q i) (Fin.natAdd p j) = B i j := by simp only [block, Fin.addCases_left, Fin.append_right]
theorem block_21 (i : Fin q) (j : Fin p) : block A B B' C (Fin.natAdd p i) (Fin.castAdd q j) = B' i j := by simp only [block, Fin.addCases_right, Fin.append_left]
theorem block_22 (i j : Fin q) : block A B B' C (Fin.natAdd p i) (Fin.natAdd p j) = C i j := by simp only [block, Fin.addCases_right, Fin.append_right]
end

/-- The derivative of a sum over observations of functions of the two predictors. -/
theorem sum_grad {l : Fin n → ℝ → ℝ → ℝ} {a b : Fin n → ℝ} {X : Matrix (Fin n) (Fin p) ℝ} {Z : Matrix (Fin n) (Fin q) ℝ} {theta : Fin (p + q) → ℝ} (d : Fin (p + q) → ℝ)
    (h : ∀ i, D2 (l i) (a i) (b i) ((X *ᵥ fstPart theta) i) ((Z *ᵥ sndPart theta) i)) :
    HasDerivAt (fun t : ℝ => ∑ i, l i ((X *ᵥ fstPart (theta + t • d)) i) ((Z *ᵥ sndPart (theta + t • d)) i))
      (concat (fun j => ∑ i, X i j * a i) (fun j => ∑ i, Z i j * b i) ⬝ᵥ d) 0 := by
  rw [concat_dot, ← dot_fst, ← dot_fst, ← Finset.sum_add_distrib]
  refine HasDerivAt.fun_sum fun i _ => ?_
  simp only [fstPart_line, sndPart_line, mulVec_line]
  exact h i _ _

theorem D2.mul_const {l : ℝ → ℝ → ℝ} {a b x z : ℝ} (h : D2 l a b x z) (c : ℝ) : D2 (fun x z => c * l x z) (c * a) (c * b) x z :=
  fun dx dz => ((h dx dz).const_mul c).congr_deriv (by ring)

/-- Second derivatives: the derivative of the stacked gradient. -/
theorem sum_hess {a b : Fin n → ℝ → ℝ → ℝ} {aa ab bb : Fin n → ℝ} {X : Matrix (Fin n) (Fin p) ℝ} {Z : Matrix (Fin n) (Fin q) ℝ} {theta : Fin (p + q) → ℝ} (d : Fin (p + q) → ℝ)
    (ha : ∀ i, D2 (a i) (aa i) (ab i) ((X *ᵥ fstPart theta) i) ((Z *ᵥ sndPart theta) i))
    (hb : ∀ i, D2 (b i) (ab i) (bb i) ((X *ᵥ fstPart theta) i) ((Z *ᵥ sndPart theta) i)) (k : Fin (p + q)) :
    HasDerivAt (fun t : ℝ => concat (fun j => ∑ i, X i j * a i ((X *ᵥ fstPart (theta + t • d)) i) ((Z *ᵥ sndPart (theta + t • d)) i))
        (fun j => ∑ i, Z i j * b i ((X *ᵥ fstPart (theta + t • d)) i) ((Z *ᵥ sndPart (theta + t • d)) i)) k)
      ((block (wdm X aa X) (wdm X ab Z) (wdm X ab Z)ᵀ (wdm Z bb Z) *ᵥ d) k) 0 := by
  refine Fin.addCases (fun j => ?_) (fun j => ?_) k
  · rw [block_fst]
    simp only [concat, Fin.append_left]
    refine (sum_grad (l := fun i x z => X i j * a i x z) d fun i => (ha i).mul_const (X i j)).congr_deriv ?_
    rw [concat_dot]
    congr 1
    · refine Finset.sum_congr rfl fun k _ => congrArg (· * _) (Finset.sum_congr rfl fun i _ => by ring)
    · refine Finset.sum_congr rfl fun k _ => congrArg (· * _) (Finset.sum_congr rfl fun i _ => by ring)
  · rw [block_snd]
    simp only [concat, Fin.append_right]
    refine (sum_grad (l := fun i x z => Z i j * b i x z) d fun i => (hb i).mul_const (Z i j)).congr_deriv ?_
    rw [concat_dot]
    congr 1
    · refine Finset.sum_congr rfl fun k _ => congrArg (· * _) (Finset.sum_congr rfl fun i _ => by ring)
    · refine Finset.sum_congr rfl fun k _ => congrArg (· * _) (Finset.sum_congr rfl fun i _ => by ring)

end Verif.Reg
