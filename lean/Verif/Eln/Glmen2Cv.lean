import Verif.Eln.Glmen2
import Mathlib.Analysis.SpecialFunctions.Sqrt
/-!
# Cross-validation of the elastic net GLM

Model of `pystatsm/pyglmnet/glmen2.py`: the standardisation in `__init__` (line 87) and in `_glm_elnet_path` (line 259), `crossval_path`
(lines 210-216) and one fold of `_glm_elnet_cv` (lines 301-306).

Simplifications: `fit` stands for the loop of `_glm_elnet_path` on the standardised columns, giving an intercept and coefficients for each
penalty; the unit deviance and the inverse link are given.  `none`: a column without spread makes the result nan.
-/
namespace Verif.Eln

/-- `np.mean(X, axis=0)[j]`. -/
noncomputable def g2Mean (n : ℕ) (X : ℕ → ℕ → ℝ) (j : ℕ) : ℝ := (∑ i ∈ Finset.range n, X i j) / n

/-- `np.std(X, axis=0)[j]`. -/
noncomputable def g2Sd (n : ℕ) (X : ℕ → ℕ → ℝ) (j : ℕ) : ℝ := √((∑ i ∈ Finset.range n, (X i j - g2Mean n X j) ^ 2) / n)

/-- The standardised columns — 87, 259. -/
noncomputable def g2Std (n p : ℕ) (X : ℕ → ℕ → ℝ) : Option (ℕ → ℕ → ℝ) :=
  open Classical in
  if ∃ j, j < p ∧ g2Sd n X j = 0 then none else some fun i j => (X i j - g2Mean n X j) / g2Sd n X j

/-- `_glm_elnet_path` — 253-284. -/
noncomputable def g2Path (n p : ℕ) (fit : (ℕ → ℕ → ℝ) → (ℕ → ℝ) → (ℕ → ℝ) → List (ℝ × (ℕ → ℝ))) (X : ℕ → ℕ → ℝ) (y w : ℕ → ℝ) :
    Option (List (ℝ × (ℕ → ℝ))) :=
  (g2Std n p X).map fun Z => fit Z y w

/-- One entry of `crossval_path` — 214-215. -/
noncomputable def g2Val (d : ℝ → ℝ → ℝ) (inv : ℝ → ℝ) (n p : ℕ) (X : ℕ → ℕ → ℝ) (y w : ℕ → ℝ) (b : ℝ × (ℕ → ℝ)) : ℝ :=
  (∑ i ∈ Finset.range n, w i * d (y i) (inv (gEta p X b.2 b.1 i))) / ∑ i ∈ Finset.range n, w i

/-- One fold of `_glm_elnet_cv` — 301-306: `f` the rows fitted, `v` the rows left out, of the standardised design `X`. -/
noncomputable def g2Fold (d : ℝ → ℝ → ℝ) (inv : ℝ → ℝ) (p : ℕ) (fit : (ℕ → ℕ → ℝ) → (ℕ → ℝ) → (ℕ → ℝ) → List (ℝ × (ℕ → ℝ)))
    (X : ℕ → ℕ → ℝ) (y w : ℕ → ℝ) (nf : ℕ) (f : ℕ → ℕ) (nv : ℕ) (v : ℕ → ℕ) : Option (List ℝ) :=
  (g2Path nf p fit (fun i => X (f i)) (fun i => y (f i)) (fun i => w (f i))).map fun bs =>
    bs.map (g2Val d inv nv p (fun i => X (v i)) (fun i => y (v i)) (fun i => w (v i)))

end Verif.Eln
