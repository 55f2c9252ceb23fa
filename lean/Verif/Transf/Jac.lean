import Mathlib.Analysis.Calculus.Deriv.Add
import Mathlib.Analysis.Calculus.Deriv.Mul
import Mathlib.Analysis.Calculus.Deriv.Inv
import Mathlib.Analysis.Calculus.Deriv.Pow
import Mathlib.Analysis.SpecialFunctions.Sqrt
import Mathlib.Algebra.BigOperators.Ring.Finset
/-! # Derivatives along paths of arrays (spec side) -/
namespace Verif.Transf

/-- Derivative at `0` of a path of arrays of length `m`. -/
def PathN (m : ℕ) (X : ℝ → ℕ → ℝ) (x' : ℕ → ℝ) : Prop :=
  ∀ k, k < m → HasDerivAt (fun t => X t k) (x' k) 0

/-- `g · v` over the cells. -/
def dotN (m : ℕ) (g v : ℕ → ℝ) : ℝ := ∑ q ∈ Finset.range m, g q * v q

/-- `J` is the Jacobian at `x` of the map `f` from arrays of length `m` to arrays of length `r`. -/
def IsJac (m r : ℕ) (f : (ℕ → ℝ) → ℕ → ℝ) (J : ℕ → ℕ → ℝ) (x : ℕ → ℝ) : Prop :=
  ∀ X x', PathN m X x' → X 0 = x → PathN r (fun t => f (X t)) fun k => dotN m (J k) x'

/-- `H` is the Hessian at `x` of a map with Jacobian `J`: `H k p` is the gradient of `J k p`. -/
def IsHess (m r : ℕ) (J : (ℕ → ℝ) → ℕ → ℕ → ℝ) (H : ℕ → ℕ → ℕ → ℝ) (x : ℕ → ℝ) : Prop :=
  ∀ X x', PathN m X x' → X 0 = x → ∀ p, p < m →
    PathN r (fun t k => J (X t) k p) fun k => dotN m (H k p) x'

theorem dotN_sub {m : ℕ} {B : Finset ℕ} (hB : B ⊆ Finset.range m) {g v : ℕ → ℝ}
    (h : ∀ q, q < m → q ∉ B → g q = 0) : dotN m g v = ∑ q ∈ B, g q * v q :=
  (Finset.sum_subset hB fun q hq hn => by rw [h q (Finset.mem_range.1 hq) hn, zero_mul]).symm

theorem PathN.sumSq {m : ℕ} {X : ℝ → ℕ → ℝ} {x' : ℕ → ℝ} (hX : PathN m X x') {B : Finset ℕ}
    (hB : B ⊆ Finset.range m) :
    HasDerivAt (fun t => ∑ q ∈ B, X t q ^ 2) (2 * ∑ q ∈ B, X 0 q * x' q) 0 := by
  have := HasDerivAt.fun_sum (u := B) (A := fun q t => X t q ^ 2)
    (A' := fun q => 2 * (X 0 q * x' q)) (x := 0) fun q hq => by
      refine ((hX q (Finset.mem_range.1 (hB hq))).fun_pow 2).congr_deriv ?_
      simp; ring
  rwa [← Finset.mul_sum] at this

theorem path_lineN (m : ℕ) (x v : ℕ → ℝ) : PathN m (fun t k => x k + t * v k) v := fun k _ => by
  simpa using ((hasDerivAt_id (0 : ℝ)).mul_const (v k)).const_add (x k)

/-- Jacobians of locally inverse maps are inverse matrices. -/
theorem jac_inverse {m : ℕ} {f g : (ℕ → ℝ) → ℕ → ℝ} {Jf Jg : ℕ → ℕ → ℝ} {x : ℕ → ℝ}
    (D : (ℕ → ℝ) → Prop) (hf : IsJac m m f Jf x) (hg : IsJac m m g Jg (f x))
    (hD : ∀ X x', PathN m X x' → X 0 = x → ∀ᶠ t in nhds (0 : ℝ), D (X t))
    (hinv : ∀ z, D z → ∀ k, k < m → g (f z) k = z k) (k p : ℕ) (hk : k < m) (hp : p < m) :
    ∑ q ∈ Finset.range m, Jg k q * Jf q p = if k = p then 1 else 0 := by
  let e : ℕ → ℝ := fun q => if q = p then 1 else 0
  let X : ℝ → ℕ → ℝ := fun t k => x k + t * e k
  have hX : PathN m X e := path_lineN m x e
  have X0 : X 0 = x := by funext k; simp [X]
  have h2 := hg (fun t => f (X t)) _ (hf X e hX X0) (by simp [X0]) k hk
  have h3 := h2.congr_of_eventuallyEq (f₁ := fun t => X t k) (by
    filter_upwards [hD X e hX X0] with t ht
    exact (hinv _ ht k hk).symm)
  have h4 := h3.unique (hX k hk)
  have h5 : ∀ q, dotN m (Jf q) e = Jf q p := fun q => by
    simp [dotN, e, hp]
  simp only [h5] at h4
  exact h4

end Verif.Transf
