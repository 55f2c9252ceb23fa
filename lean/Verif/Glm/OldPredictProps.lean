import Verif.Glm.OldPredict
import Mathlib.Tactic
/-!
# C278: predictions of the older generalised linear model and of beta regression
-/
namespace Verif.Glm

/-- The linear predictor of each row. -/
noncomputable def opEta (X : OpMat) (b : List ℝ) : List ℝ := X.rows.map fun x => (List.zipWith (· * ·) x b).sum

theorem opDot_some {X : OpMat} {b : List ℝ} (h : X.cols = b.length) : opDot X b = some (opEta X b) := if_pos h

/-- Predictors, means and both at given coefficients: with the scale last when it is a parameter, and without otherwise. -/
theorem C278_predict (nr : Bool) (inv : ℝ → ℝ) (X0 : OpMat) (p0 b : List ℝ) (s : ℝ) (X : OpMat) (h : X.cols = b.length) :
    let q := some (if nr then b ++ [s] else b)
    (∀ k, k = "lp" ∨ k = "eta" ∨ k = "linpred" → opPredict nr inv X0 p0 q k (some X) = some (.vec (opEta X b))) ∧
    (∀ k, k = "mean" ∨ k = "mu" → opPredict nr inv X0 p0 q k (some X) = some (.vec ((opEta X b).map inv))) ∧
    opPredict nr inv X0 p0 q "both" (some X) = some (.both ((opEta X b).map fun e => (e, inv e))) := by
  intro q
  have hq : ∀ k, opPredict nr inv X0 p0 q k (some X) = opKind inv k (opEta X b) := by
    intro k
    cases nr <;> simp [opPredict, q, opDot_some h]
  refine ⟨fun k hk => ?_, fun k hk => ?_, ?_⟩
  · rw [hq, opKind, if_pos hk]
  · rw [hq]
    rcases hk with rfl | rfl <;> simp [opKind]
  · rw [hq]
    have : (opEta X b).zip ((opEta X b).map inv) = (opEta X b).map fun e => (e, inv e) := by
      induction opEta X b with
      | nil => rfl
      | cons a l ih => simp [ih]
    simp [opKind, this]

/-- The parameters and the design left out are those of the fit. -/
theorem C278_defaults (nr : Bool) (inv : ℝ → ℝ) (X0 : OpMat) (p0 : List ℝ) (k : String) :
    opPredict nr inv X0 p0 none k none = opPredict nr inv X0 p0 (some p0) k (some X0) := rfl

/-- Another kind, as `"response"`, raises after the work is done. -/
theorem C278_kind (nr : Bool) (inv : ℝ → ℝ) (X0 : OpMat) (p0 : List ℝ) (q : Option (List ℝ)) (X : Option OpMat) {k : String}
    (h : k ∉ ["lp", "eta", "linpred", "mean", "mu", "both"]) : opPredict nr inv X0 p0 q k X = none := by
  simp only [List.mem_cons, List.not_mem_nil, or_false, not_or] at h
  unfold opPredict
  simp only
  cases opDot (X.getD X0) (if nr then (q.getD p0).dropLast else q.getD p0) with
  | none => rfl
  | some e =>
    change opKind inv k e = none
    unfold opKind
    rw [if_neg (by tauto), if_neg (by tauto), if_neg (by tauto)]

/-- When the scale is a parameter, the coefficients alone are not accepted. -/
theorem C278_coefficients_violated (inv : ℝ → ℝ) (X0 : OpMat) (p0 b : List ℝ) (X : OpMat) (k : String) (h : X.cols = b.length) (hb : b ≠ []) :
    opPredict true inv X0 p0 (some b) k (some X) = none := by
  have : X.cols ≠ b.dropLast.length := by
    rw [List.length_dropLast, h]
    have := List.length_pos_iff.mpr hb
    omega
  unfold opPredict opDot
  simp only [Option.getD_some, if_true]
  rw [if_neg this, Option.bind_none]

/-- Means and precisions of beta regression at given designs. -/
theorem C278_betareg (invM invS : ℝ → ℝ) (X0 Z0 X Z : OpMat) (t0 b g : List ℝ) (hX : X.cols = b.length) (hZ : Z.cols = g.length) :
    opBeta invM invS X0 Z0 t0 (some (b ++ g)) (some X) (some Z) = some ((opEta X b).map invM, (opEta Z g).map invS) := by
  simp [opBeta, hX, opDot, hZ, opEta]

/-- There is one mean and one precision for every row, if both designs are given with the same rows. -/
theorem C278_rows_partial (invM invS : ℝ → ℝ) (X0 Z0 X Z : OpMat) (t0 : List ℝ) (t : Option (List ℝ)) (h : X.rows.length = Z.rows.length)
    {m s : List ℝ} (hr : opBeta invM invS X0 Z0 t0 t (some X) (some Z) = some (m, s)) : m.length = X.rows.length ∧ s.length = m.length := by
  simp only [opBeta, opDot, Option.getD_some] at hr
  split at hr
  · split at hr
    · simp only [Option.bind_some, Option.map_some, Option.some.injEq, Prod.mk.injEq] at hr
      obtain ⟨rfl, rfl⟩ := hr
      simp [h]
    · simp at hr
  · simp at hr

/-- A new design for the means alone is combined with the precisions of the data: two means and one precision. -/
theorem C278_rows_violated : opBeta id id ⟨1, [[1]]⟩ ⟨1, [[1]]⟩ [2, 3] none (some ⟨1, [[1], [4]]⟩) none = some ([2, 8], [3]) := by
  norm_num [opBeta, opDot]

end Verif.Glm
