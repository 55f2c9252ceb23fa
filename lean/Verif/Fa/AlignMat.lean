import Mathlib.Data.Real.Basic
import Mathlib.Data.Fintype.Sum
import Mathlib.Data.Fintype.Prod
import Mathlib.LinearAlgebra.Matrix.Defs

/-!
Model of `unpack_se` and `alignment_matrix` of `pystatsm/pyfa2/sim_factor_model.py` (lines 14-39) on the layout of `pyfa2/layout.py` (lines 18-31).
A position of the parameter vector is a loading, a pair below the diagonal of the factor correlations, or a uniqueness; the numbering of the
positions is that of the layout of C40 and left out here.
-/

namespace Verif.Fa

variable {p m : ℕ}

/-- The positions `ixl`, `ixs`, `ixr` — pyfa2/layout.py 13-16. -/
abbrev AmIx (p m : ℕ) := (Fin p × Fin m) ⊕ {x : Fin m × Fin m // x.2 < x.1} ⊕ Fin p

/-- Loadings, factor correlations and uniquenesses. -/
structure AmPar (p m : ℕ) where
  L : Fin p → Fin m → ℝ
  Phi : Fin m → Fin m → ℝ
  psi : Fin p → ℝ

/-- `ParamLayout.pack` — pyfa2/layout.py 18-23, for a vector of uniquenesses. -/
def amPack (P : AmPar p m) : AmIx p m → ℝ
  | .inl x => P.L x.1 x.2
  | .inr (.inl x) => P.Phi x.1.1 x.1.2
  | .inr (.inr i) => P.psi i

/-- A symmetric matrix from the entries below its diagonal — pyfa2/layout.py 27-29; sim_factor_model.py 18-21. -/
def amSym (d : ℝ) (f : {x : Fin m × Fin m // x.2 < x.1} → ℝ) (k l : Fin m) : ℝ :=
  if h : l < k then f ⟨(k, l), h⟩ else if h : k < l then f ⟨(l, k), h⟩ else d

/-- `ParamLayout.unpack` — pyfa2/layout.py 25-31. -/
def amUnpack (θ : AmIx p m → ℝ) : AmPar p m where
  L i k := θ (.inl (i, k))
  Phi := amSym 1 fun x => θ (.inr (.inl x))
  psi i := θ (.inr (.inr i))

/-- Factors permuted and reflected — sim_factor_model.py 34-37 (and 82-85). -/
def amAlign (perm : Fin m → Fin m) (s : Fin m → ℝ) (P : AmPar p m) : AmPar p m where
  L i k := P.L i (perm k) * s k
  Phi k l := s k * P.Phi (perm k) (perm l) * s l
  psi := P.psi

/-- The free positions: without the correlations if these are fixed — pyfa2/identification.py 32-36. -/
def amFree (phiFree : Bool) : AmIx p m → Bool
  | .inr (.inl _) => phiFree
  | _ => true

/-- `alignment_matrix` — sim_factor_model.py 26-39: column `j` is the aligned `j`-th unit vector. -/
def amMat (free : AmIx p m → Bool) (perm : Fin m → Fin m) (s : Fin m → ℝ) : Matrix {c // free c = true} {c // free c = true} ℝ :=
  fun c j => amPack (amAlign perm s (amUnpack fun i => if i = j.1 then 1 else 0)) c.1

/-- `unpack_se` — sim_factor_model.py 14-23. -/
def amSe (free : AmIx p m → Bool) (phiFree : Bool) (se : {c // free c = true} → ℝ) : AmPar p m :=
  let full : AmIx p m → ℝ := fun c => if h : free c = true then se ⟨c, h⟩ else 0
  { L := fun i k => full (.inl (i, k))
    Phi := if phiFree then amSym 0 fun x => full (.inr (.inl x)) else fun _ _ => 0
    psi := fun i => full (.inr (.inr i)) }

end Verif.Fa
