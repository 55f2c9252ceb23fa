import Mathlib.Data.Real.Basic
import Mathlib.Data.Matrix.Mul
import Mathlib.Data.Finset.Max
import Mathlib.Data.Fintype.Basic

/-!
Model of `pystatsm/pygam/smooth_setup.py` and of `absorb_constraints` and `get_penalty_scale` in
`pystatsm/utilities/splines.py` (lines 85-94).  A basis has `p + 1` columns before the constraint is
absorbed.  `np.linalg.qr` is represented by the contract `QrOk` on what it returns.
-/

namespace Verif.Gam
open Matrix

variable {n p m : ℕ}

/-- `np.dot(q.T, X.T)[1:].T` (splines.py line 87). -/
def absorbX (q : Matrix (Fin (p + 1)) (Fin (p + 1)) ℝ) (X : Matrix (Fin n) (Fin (p + 1)) ℝ) : Matrix (Fin n) (Fin p) ℝ :=
  ((qᵀ * Xᵀ).submatrix Fin.succ id)ᵀ

/-- `np.dot(q.T, np.dot(q.T, S)[1:].T)[1:].T` (splines.py line 89). -/
def absorbS (q S : Matrix (Fin (p + 1)) (Fin (p + 1)) ℝ) : Matrix (Fin p) (Fin p) ℝ :=
  ((qᵀ * ((qᵀ * S).submatrix Fin.succ id)ᵀ).submatrix Fin.succ id)ᵀ

/-- `np.linalg.qr(c.reshape(-1, 1), mode='complete')`: `q` is orthogonal and `c` is a multiple of its
first column (smooth_setup.py line 65). -/
def QrOk (c : Fin (p + 1) → ℝ) (q : Matrix (Fin (p + 1)) (Fin (p + 1)) ℝ) : Prop :=
  qᵀ * q = 1 ∧ ∃ r : ℝ, ∀ i, c i = r * q i 0

/-- `X.mean(axis=0)`. -/
noncomputable def colMean (X : Matrix (Fin n) (Fin m) ℝ) (j : Fin m) : ℝ := (∑ i, X i j) / n

/-- Largest value of `f` (`.max()`), of a nonempty array. -/
noncomputable def maxOf (f : Fin (n + 1) → ℝ) : ℝ := Finset.univ.sup' ⟨0, Finset.mem_univ _⟩ f

/-- `np.linalg.norm(S, ord=1)`: the largest column sum of absolute values. -/
noncomputable def norm1 (S : Matrix (Fin m) (Fin (p + 1)) ℝ) : ℝ := maxOf fun j => ∑ i, |S i j|

/-- `np.abs(X).sum(axis=1).max()`. -/
noncomputable def rowMax (X : Matrix (Fin (n + 1)) (Fin m) ℝ) : ℝ := maxOf fun i => ∑ j, |X i j|

/-- `get_penalty_scale` (splines.py lines 92-94). -/
noncomputable def penaltyScale (X : Matrix (Fin (n + 1)) (Fin (p + 1)) ℝ) (S : Matrix (Fin (p + 1)) (Fin (p + 1)) ℝ) : ℝ :=
  norm1 S / rowMax X ^ 2

/-- The matrices of `get_smooth` without `by` (smooth_setup.py lines 61-67, 78-79). -/
noncomputable def getSmooth (q : Matrix (Fin (p + 1)) (Fin (p + 1)) ℝ) (X : Matrix (Fin (n + 1)) (Fin (p + 1)) ℝ)
    (S : Matrix (Fin (p + 1)) (Fin (p + 1)) ℝ) : Matrix (Fin (n + 1)) (Fin p) ℝ × Matrix (Fin p) (Fin p) ℝ :=
  let sc := penaltyScale X S
  (absorbX q X, (1 / sc) • absorbS q S)

/-- One column of indicators applied to the rows: `X * by['by_vals'][:, [i]]` (line 71). -/
def byRows (v : Fin n → ℝ) (X : Matrix (Fin n) (Fin m) ℝ) : Matrix (Fin n) (Fin m) ℝ := fun i j => X i j * v i

/-- `xm = x0[x0 != 0]` with `x0 = x*by_vals[:, i]` (lines 72-75). -/
def byValues (x v : List ℚ) : List ℚ := (List.zipWith (· * ·) x v).filter (· ≠ 0)

/-! ### Dictionaries of terms -/

/-- `d[k] = v`: a key keeps the position of its first insertion. -/
def dset {α : Type} (d : List (String × α)) (k : String) (v : α) : List (String × α) :=
  if d.any (fun e => e.1 == k) then d.map fun e => if e.1 == k then (k, v) else e else d ++ [(k, v)]

/-- A smooth of `p` columns, with its category when there is a `by` variable.  Only the number of
columns matters for the bookkeeping. -/
structure Term where
  cat : String
  p : ℕ
deriving DecidableEq

/-- State of `get_smooth_terms`: `smooths`, `n_smooth_terms`, `n_total_params`, `varnames`. -/
structure Terms where
  smooths : List (String × ℕ)
  ns : ℕ
  total : ℕ
  names : List String
deriving DecidableEq

/-- `[f"{pre}{j}" for j in range(1, p+1)]`. -/
def colNames (pre : String) (p : ℕ) : List String := (List.range p).map fun j => pre ++ toString (j + 1)

/-- One key of `smooth_info` with the list `get_smooth` returned (lines 85-100). -/
def addTerm (st : Terms) (key : String) (slist : List Term) : Terms :=
  match slist with
  | [s] => ⟨dset st.smooths key s.p, st.ns + 1, st.total + s.p, st.names ++ colNames key s.p⟩
  | l => l.foldl (fun st s =>
      let byKey := key ++ "_" ++ s.cat
      ⟨dset st.smooths byKey s.p, st.ns + 1, st.total + s.p, st.names ++ colNames (byKey ++ "_") s.p⟩) st

/-- `get_smooth_terms` (lines 82-101), with the parametric names `xp`. -/
def smoothTerms (xp : List String) (info : List (String × List Term)) : Terms :=
  info.foldl (fun st e => addTerm st e.1 e.2) ⟨[], 0, xp.length, xp⟩

/-! ### Block layout -/

/-- A smooth after set up: its number of columns, its design and its penalty. -/
structure Block where
  p : ℕ
  X : ℕ → ℕ → ℝ
  S : ℕ → ℕ → ℝ

/-- `Si[ix, ix.reshape(-1, 1)] = s['S']` with `ix = np.arange(start, start+p_i)` (lines 109-111):
the two index arrays broadcast to `Si[ix[b], ix[a]] = S[a, b]`. -/
def blockPen (start : ℕ) (b : Block) (i j : ℕ) : ℝ :=
  if start ≤ i ∧ i < start + b.p ∧ start ≤ j ∧ j < start + b.p then b.S (j - start) (i - start) else 0

/-- The penalties `S[i]` of `get_smooth_matrices` (lines 103-118). -/
def penalties : ℕ → List Block → List (ℕ → ℕ → ℝ)
  | _, [] => []
  | start, b :: bs => blockPen start b :: penalties (start + b.p) bs

/-- `np.concatenate(X, axis=1)` with `X = [Xp] + [s['X'] for s in smooths]`: the part from column
`start`. -/
def design : ℕ → List Block → ℕ → ℕ → ℝ
  | _, [] => fun _ _ => 0
  | start, b :: bs => fun i j => if j < start + b.p then b.X i (j - start) else design (start + b.p) bs i j

/-- All columns, the `p0` parametric ones first. -/
def fullDesign (p0 : ℕ) (Xp : ℕ → ℕ → ℝ) (bs : List Block) (i j : ℕ) : ℝ := if j < p0 then Xp i j else design p0 bs i j

/-- `np.einsum('i,ijk->jk', lam, S)` (gam.py line 209). -/
def penaltyMat (lam : ℕ → ℝ) (Ss : List (ℕ → ℕ → ℝ)) (j k : ℕ) : ℝ :=
  ((Ss.zipIdx).map fun e => lam e.2 * e.1 j k).sum

end Verif.Gam
