import Verif.Lmm.ProfileFit
import Mathlib.Analysis.Calculus.FDeriv.Pi
import Mathlib.Analysis.Calculus.FDeriv.Comp
import Mathlib.Analysis.Calculus.FDeriv.Add
import Mathlib.Topology.Algebra.Module.FiniteDimension
import Mathlib.LinearAlgebra.Matrix.ToLin
import Mathlib.Algebra.BigOperators.Fin
import Mathlib.Tactic

/-!
C258: the refit of a mixed model with one covariance parameter held.
-/

namespace Verif.Lmm
open Finset

variable {n m : ℕ}

/-- **C258** The held component has the held value, the others those of the vector, in order: before `k` at their own place, after it one later. -/
theorem C258_entries (k : Fin (n + 1)) (v : ℝ) (u : Fin n → ℝ) :
    heldTau k v u k = v ∧ (∀ j : Fin n, heldTau k v u (k.succAbove j) = u j) ∧ freeTau k (heldTau k v u) = u ∧
      (∀ j : Fin n, (j : ℕ) < k → heldTau k v u j.castSucc = u j) ∧ (∀ j : Fin n, (k : ℕ) ≤ j → heldTau k v u j.succ = u j) := by
  refine ⟨by simp [heldTau], fun j => by simp [heldTau], by funext j; simp [freeTau, heldTau], fun j h => ?_, fun j h => ?_⟩
  · have : k.succAbove j = j.castSucc := Fin.succAbove_of_castSucc_lt _ _ h
    rw [← this]; simp [heldTau]
  · have : k.succAbove j = j.succ := Fin.succAbove_of_le_castSucc _ _ h
    rw [← this]; simp [heldTau]

/-- **C258** Starting from the free part of a vector gives back the vector with the held component replaced. -/
theorem C258_start (k : Fin (n + 1)) (v : ℝ) (tau : Fin (n + 1) → ℝ) : heldTau k v (freeTau k tau) = Function.update tau k v := by
  funext i
  rcases Fin.eq_self_or_eq_succAbove k i with rfl | ⟨j, rfl⟩
  · simp [heldTau]
  · simp [heldTau, freeTau, Fin.succAbove_ne]

/-- **C258** Each free variance is bounded away from zero, and nothing else is. -/
theorem C258_bounds (k : Fin (n + 1)) (isVar : Fin (n + 1) → Bool) (lo : ℝ) (u : Fin n → ℝ) (hb : ∀ j, ∀ b ∈ heldBounds k isVar j, b ≤ u j)
    (i : Fin (n + 1)) (hi : i ≠ k) : (isVar i = true → 0 < heldTau k lo u i) ∧ (isVar i = false → ∀ j, k.succAbove j = i → heldBounds k isVar j = none) := by
  obtain ⟨j, rfl⟩ := Fin.exists_succAbove_eq hi
  refine ⟨fun h => ?_, fun h j' hj => ?_⟩
  · have := hb j (1 / 1000000) (by simp [heldBounds, h])
    have e : heldTau k lo u (k.succAbove j) = u j := by simp [heldTau]
    rw [e]
    linarith [show (0 : ℝ) < 1 / 1000000 by norm_num]
  · rw [heldBounds, hj, h]; rfl

/-- The derivative of a scalar function as the row of its partial derivatives. -/
noncomputable def rowMap {d : ℕ} (g : Fin d → ℝ) : (Fin d → ℝ) →L[ℝ] ℝ := ∑ i, g i • ContinuousLinearMap.proj (R := ℝ) (φ := fun _ : Fin d => ℝ) i

theorem rowMap_apply {d : ℕ} (g x : Fin d → ℝ) : rowMap g x = ∑ i, g i * x i := by simp [rowMap]

/-- The derivative of a vector function as the map of its matrix. -/
noncomputable def matMap {d e : ℕ} (J : Matrix (Fin e) (Fin d) ℝ) : (Fin d → ℝ) →L[ℝ] (Fin e → ℝ) := LinearMap.toContinuousLinearMap (Matrix.mulVecLin J)

theorem matMap_apply {d e : ℕ} (J : Matrix (Fin e) (Fin d) ℝ) (x : Fin d → ℝ) : matMap J x = J.mulVec x := rfl

/-- The derivative of filling in the free components. -/
noncomputable def fillMap (k : Fin (n + 1)) : (Fin n → ℝ) →L[ℝ] (Fin (n + 1) → ℝ) :=
  ContinuousLinearMap.pi (k.insertNth (α := fun _ => (Fin n → ℝ) →L[ℝ] ℝ) 0 fun j => ContinuousLinearMap.proj (R := ℝ) (φ := fun _ : Fin n => ℝ) j)

theorem fillMap_apply (k : Fin (n + 1)) (u : Fin n → ℝ) : fillMap k u = heldTau k 0 u := by
  funext i
  rcases Fin.eq_self_or_eq_succAbove k i with rfl | ⟨j, rfl⟩
  · simp [fillMap, heldTau]
  · simp [fillMap, heldTau]

theorem heldTau_hasFDeriv (k : Fin (n + 1)) (v : ℝ) (u : Fin n → ℝ) : HasFDerivAt (heldTau k v) (fillMap k) u := by
  have e : heldTau k v = fun u => fillMap k u + Pi.single k v := by
    funext u i
    rw [fillMap_apply]
    rcases Fin.eq_self_or_eq_succAbove k i with rfl | ⟨j, rfl⟩
    · simp [heldTau]
    · simp [heldTau, Fin.succAbove_ne]
  rw [e]
  exact (fillMap k).hasFDerivAt.add_const _

/-- **C258** If `jacobian` is the derivative of `rvs` and `gradient` that of the objective, the second value of `fg` is the gradient of the first in
the free components. -/
theorem C258_gradient (ll : (Fin m → ℝ) → ℝ) (g : (Fin m → ℝ) → Fin m → ℝ) (rvs : (Fin (n + 1) → ℝ) → Fin m → ℝ)
    (jac : (Fin (n + 1) → ℝ) → Matrix (Fin m) (Fin (n + 1)) ℝ) (k : Fin (n + 1)) (v : ℝ) (u : Fin n → ℝ)
    (hr : HasFDerivAt rvs (matMap (jac (heldTau k v u))) (heldTau k v u))
    (hl : HasFDerivAt ll (rowMap (g (rvs (heldTau k v u)))) (rvs (heldTau k v u))) :
    HasFDerivAt (heldObj ll rvs k v) (rowMap (heldGrad g jac rvs k v u)) u := by
  have h := hl.comp u (hr.comp u (heldTau_hasFDeriv k v u))
  refine HasFDerivAt.congr_fderiv h ?_
  ext x
  simp only [ContinuousLinearMap.comp_apply, rowMap_apply, matMap_apply, fillMap_apply]
  set J := jac (heldTau k v u)
  set gg := g (rvs (heldTau k v u)) with hgg
  have h1 : ∀ i, J.mulVec (heldTau k 0 x) i = ∑ j, J i (k.succAbove j) * x j := fun i => by
    rw [Matrix.mulVec, dotProduct, Fin.sum_univ_succAbove _ k]
    simp [heldTau]
  simp only [h1]
  simp only [heldGrad, freeTau, Matrix.mulVec, dotProduct, Matrix.transpose_apply, ← hgg, Finset.mul_sum, Finset.sum_mul]
  rw [Finset.sum_comm]
  exact Finset.sum_congr rfl fun j _ => Finset.sum_congr rfl fun i _ => by ring

/-- What a minimiser over the free components, within the bounds, would return. -/
def HeldMin (ll : (Fin m → ℝ) → ℝ) (rvs : (Fin (n + 1) → ℝ) → Fin m → ℝ) (isVar : Fin (n + 1) → Bool) (k : Fin (n + 1)) (v : ℝ) (x : Fin n → ℝ) : Prop :=
  (∀ j, ∀ b ∈ heldBounds k isVar j, b ≤ x j) ∧ ∀ u : Fin n → ℝ, (∀ j, ∀ b ∈ heldBounds k isVar j, b ≤ u j) → heldObj ll rvs k v x ≤ heldObj ll rvs k v u

/-- **C258** With a minimiser the second value returned is the profile of the objective: the least value over all admissible parameters with
the held component, attained at the first. -/
theorem C258_profile (ll : (Fin m → ℝ) → ℝ) (rvs : (Fin (n + 1) → ℝ) → Fin m → ℝ) (isVar : Fin (n + 1) → Bool) (k : Fin (n + 1)) (v : ℝ)
    (x : Fin n → ℝ) (h : HeldMin ll rvs isVar k v x) :
    (heldFit ll rvs k v x).2 = ll (heldFit ll rvs k v x).1 ∧
      ∀ tau : Fin (n + 1) → ℝ, tau k = v → (∀ i, i ≠ k → isVar i = true → 1 / 1000000 ≤ tau i) → (heldFit ll rvs k v x).2 ≤ ll (rvs tau) := by
  refine ⟨rfl, fun tau hv hb => ?_⟩
  have e : heldTau k v (freeTau k tau) = tau := by rw [C258_start, ← hv, Function.update_eq_self]
  have := h.2 (freeTau k tau) fun j b hj => by
    unfold heldBounds at hj
    split_ifs at hj with hh
    · cases hj
      exact hb _ (Fin.succAbove_ne k j) hh
    · simp at hj
  rw [heldObj, heldObj, e] at this
  exact this

/-- **C258** So at the estimate the profile is the least value of the objective, and elsewhere it is no less: the likelihood ratio of `profile` is
never negative. -/
theorem C258_ratio (ll : (Fin m → ℝ) → ℝ) (rvs : (Fin (n + 1) → ℝ) → Fin m → ℝ) (isVar : Fin (n + 1) → Bool) (k : Fin (n + 1)) (v : ℝ)
    (x : Fin n → ℝ) (h : HeldMin ll rvs isVar k v x) (mle : Fin (n + 1) → ℝ) (hm : ∀ tau, ll (rvs mle) ≤ ll (rvs tau))
    (hb : ∀ i, isVar i = true → 1 / 1000000 ≤ mle i) :
    0 ≤ (heldFit ll rvs k v x).2 - ll (rvs mle) ∧ (v = mle k → (heldFit ll rvs k v x).2 = ll (rvs mle)) := by
  refine ⟨sub_nonneg.2 (hm _), fun hv => le_antisymm ?_ (hm _)⟩
  exact (C258_profile ll rvs isVar k v x h).2 mle hv.symm fun i _ hi => hb i hi

/-- **C258 (violated)** An estimate below the bound is out of reach of the refit: with the objective `τ₀² + |τ₁|`, least at zero, the
profile at the estimate is above the least value. -/
theorem C258_bound_violated : ∃ x : Fin 1 → ℝ,
    HeldMin (fun t : Fin 2 → ℝ => t 0 ^ 2 + |t 1|) id (fun _ => true) 0 0 x ∧
      (∀ tau : Fin 2 → ℝ, (fun t : Fin 2 → ℝ => t 0 ^ 2 + |t 1|) 0 ≤ (fun t : Fin 2 → ℝ => t 0 ^ 2 + |t 1|) tau) ∧
      0 < (heldFit (fun t : Fin 2 → ℝ => t 0 ^ 2 + |t 1|) id 0 0 x).2 := by
  have e : ∀ u : Fin 1 → ℝ, heldObj (fun t : Fin 2 → ℝ => t 0 ^ 2 + |t 1|) id 0 0 u = |u 0| := fun u => by
    have h0 : heldTau (0 : Fin 2) 0 u 0 = 0 := (C258_entries 0 0 u).1
    have h1 : heldTau (0 : Fin 2) 0 u 1 = u 0 := (C258_entries 0 0 u).2.1 0
    simp [heldObj, h0, h1]
  refine ⟨fun _ => 1 / 1000000, ⟨fun j b hj => ?_, fun u hu => ?_⟩, fun tau => ?_, ?_⟩
  · simp only [heldBounds, if_true, Option.mem_def, Option.some.injEq] at hj
    exact hj.ge
  · rw [e, e]
    have := hu 0 (1 / 1000000) (by simp [heldBounds])
    rw [abs_of_pos (by norm_num)]
    exact this.trans (le_abs_self _)
  · simp only [Pi.zero_apply]
    have := abs_nonneg (tau 1)
    have := sq_nonneg (tau 0)
    simp; linarith
  · simp only [heldFit, e]; norm_num

/-- The hypotheses of the gradient are satisfiable: linear maps. -/
example (J : Matrix (Fin m) (Fin (n + 1)) ℝ) (g : Fin m → ℝ) (k : Fin (n + 1)) (v : ℝ) (u : Fin n → ℝ) :
    HasFDerivAt (heldObj (rowMap g) (matMap J) k v) (rowMap (heldGrad (fun _ => g) (fun _ => J) (matMap J) k v u)) u :=
  C258_gradient _ (fun _ => g) _ (fun _ => J) k v u (matMap J).hasFDerivAt (rowMap g).hasFDerivAt

end Verif.Lmm
