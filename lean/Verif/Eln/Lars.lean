import Mathlib.Data.Real.Sqrt
import Mathlib.Data.List.GetD
import Mathlib.Algebra.BigOperators.Intervals

/-!
Model of the path of `pystatsm/pyglmnet/lars.py` (lines 15-24, 38-46, 72-84 and 100-121): one turn of `_lars` over the reals.  Variables are
numbers below `p`; `active` and `ind` are the lists of the code, and the signs `s` are kept by variable.  The factor `L` is the subject of
C74; here the solution of `cho_solve` is the parameter `solve`.  A quotient with denominator zero is zero: numpy gives an infinity or a nan,
and neither is the least positive number.  The turns of the
lasso that drop a variable are left out: they raise (C74).
-/

namespace Verif.Eln
open Finset

/-- `np.argmax(np.abs(C))`: the first position of the greatest absolute value. -/
noncomputable def argmaxAbs : List ℝ → ℕ
  | [] => 0
  | a :: l => open Classical in if ∀ b ∈ l, |b| ≤ |a| then 0 else argmaxAbs l + 1

/-- The state at the top of the loop. -/
structure LarsState where
  beta : ℕ → ℝ
  C : ℕ → ℝ
  active : List ℕ
  s : ℕ → ℝ
  ind : List ℕ

/-- `_tmin(a)` (lines 72-77): the least positive entry, `big` if there is none. -/
noncomputable def tmin (big : ℝ) (l : List ℝ) : ℝ :=
  open Classical in
  match l.filter (fun a => decide (a > 0)) with
  | [] => big
  | x :: b => b.foldl min x

/-- `np.sign`. -/
noncomputable def larsSign (x : ℝ) : ℝ := open Classical in if 0 < x then 1 else if x < 0 then -1 else 0

/-- `A` (line 113). -/
noncomputable def larsA (s gi1 : ℕ → ℝ) (active : List ℕ) : ℝ := 1 / √((active.map fun k => gi1 k * s k).sum)

/-- `aj` (line 115). -/
def larsAj (G : ℕ → ℕ → ℝ) (w : ℕ → ℝ) (active : List ℕ) (k : ℕ) : ℝ := (active.map fun l => G l k * w l).sum

/-- `get_lars_gamma(C, cj, A, aj)` (lines 79-84). -/
noncomputable def larsGamma (big : ℝ) (C : ℕ → ℝ) (cj A : ℝ) (aj : ℕ → ℝ) (ind : List ℕ) : ℝ :=
  let gamma1 := tmin big (ind.map fun k => (cj - C k) / (A - aj k))
  let gamma2 := tmin big (ind.map fun k => (cj + C k) / (A + aj k))
  let gamma3 := cj / A
  min gamma1 (min gamma2 gamma3)

/-- `lars_add_var` (lines 38-46) without the factor; `j` is a position in `ind`. -/
noncomputable def larsAdd (st : LarsState) (j : ℕ) : LarsState :=
  let v := st.ind.getD j 0
  { st with active := st.active ++ [v], s := Function.update st.s v (larsSign (st.C v)), ind := st.ind.eraseIdx j }

/-- The step along the direction (lines 112-121) from the level `cj`; the new row of `betas` is zero outside the active variables. -/
noncomputable def larsMove (big : ℝ) (G : ℕ → ℕ → ℝ) (solve : List ℕ → (ℕ → ℝ) → ℕ → ℝ) (cj : ℝ) (st : LarsState) : LarsState :=
  let gi1 := solve st.active st.s
  let A := larsA st.s gi1 st.active
  let w := fun k => gi1 k * A
  let aj := larsAj G w st.active
  let gam := larsGamma big st.C cj A aj st.ind
  { st with
    beta := fun k => if k ∈ st.active then st.beta k + gam * w k else 0
    C := fun k => if k ∈ st.ind then st.C k - gam * aj k else st.C k }

/-- One turn with `method="lars"`, nothing dropped before (lines 106-121): `cj` is the greatest absolute correlation outside the active
variables; the returned number is `lambdas[i]` times the number of observations.  With no variable left the position is `None` (`none`). -/
noncomputable def larsTurn (big : ℝ) (G : ℕ → ℕ → ℝ) (solve : List ℕ → (ℕ → ℝ) → ℕ → ℝ) (st : LarsState) : Option (ℝ × LarsState) :=
  if st.ind = [] then none
  else
    let j := argmaxAbs (st.ind.map st.C)
    let cj := |st.C (st.ind.getD j 0)|
    some (cj, larsMove big G solve cj (larsAdd st j))

/-- The start (lines 101-104): nothing active, `C = Xty`. -/
def larsInit (p : ℕ) (Xty : ℕ → ℝ) : LarsState := ⟨fun _ => 0, Xty, [], fun _ => 0, List.range p⟩

/-- `cho_solve` solves the equations of the active variables. -/
def SolveOK (G : ℕ → ℕ → ℝ) (solve : List ℕ → (ℕ → ℝ) → ℕ → ℝ) (active : List ℕ) (s : ℕ → ℝ) : Prop :=
  ∀ k ∈ active, (active.map fun l => G l k * solve active s l).sum = s k

end Verif.Eln
