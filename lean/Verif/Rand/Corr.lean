import Mathlib.Analysis.SpecialFunctions.Pow.Real
import Mathlib.Data.Real.Sqrt

/-!
Model of `vine_corr` and `onion_corr` in `pystatsm/utilities/random.py`.  The draws of the generator are arguments: `P` holds the beta draws
mapped to `[-1, 1]`.  Matrices are functions of two indices with the size beside them.
-/

namespace Verif.Rand

/-- The indices `l` of `range(k-1, 1, -1)` (line 28). -/
def vineLs (k : ℕ) : List ℕ := ((List.range k).drop 2).reverse

/-- The update of `p` (line 29). -/
noncomputable def vineStep (P : ℕ → ℕ → ℝ) (k i : ℕ) (p : ℝ) (l : ℕ) : ℝ :=
  p * √((1 - P l i ^ 2) * (1 - P l k ^ 2)) + P l i * P l k

/-- `S[k, i]` for `k < i` (lines 27-31), the loop running over `ls k`. -/
noncomputable def vineEntry (ls : ℕ → List ℕ) (P : ℕ → ℕ → ℝ) (k i : ℕ) : ℝ := (ls k).foldl (vineStep P k i) (P k i)

/-- `S` (lines 21-31). -/
noncomputable def vineMat (ls : ℕ → List ℕ) (P : ℕ → ℕ → ℝ) (i j : ℕ) : ℝ :=
  if i = j then 1 else if i < j then vineEntry ls P i j else vineEntry ls P j i

/-- `vine_corr(d)` with `min_eig=False` (lines 15-31 and 41); the result does not depend on `d` beyond its size. -/
noncomputable def vineCorr (P : ℕ → ℕ → ℝ) : ℕ → ℕ → ℝ := vineMat vineLs P

/-- The repaired eigenvalues (lines 34-35): the `r`-th negative one becomes `umin * 0.5 ** ((r + 1) / n)`. -/
noncomputable def fixEig (d : ℕ) (u : ℕ → ℝ) (umin : ℝ) (j : ℕ) : ℝ :=
  open Classical in
    if u j < 0 then
      umin * (0.5 : ℝ) ^ ((((((Finset.range j).filter fun i => u i < 0).card + 1 : ℕ) : ℝ)) / (((Finset.range d).filter fun i => u i < 0).card : ℝ))
    else u j

/-- `V.dot(np.diag(u)).dot(V.T)` (line 37). -/
def assemble (d : ℕ) (u : ℕ → ℝ) (V : ℕ → ℕ → ℝ) (i j : ℕ) : ℝ := ∑ k ∈ Finset.range d, V i k * u k * V j k

/-- The repair of `vine_corr` with `min_eig=True` (lines 33-40), given the result of `eigh` and the least positive eigenvalue. -/
noncomputable def repair (d : ℕ) (u : ℕ → ℝ) (umin : ℝ) (V : ℕ → ℕ → ℝ) (i j : ℕ) : ℝ :=
  let S := assemble d (fixEig d u umin) V
  let v := fun i => 1 / √(S i i)
  v i * S i j * v j

/-- `q` (lines 57-60): `R w`, with `R` the square root of `S` built from its eigenvalues `c` and eigenvectors `V`, and `w = r theta`. -/
noncomputable def onionQ (n : ℕ) (c : ℕ → ℝ) (V : ℕ → ℕ → ℝ) (w : ℕ → ℝ) (i : ℕ) : ℝ :=
  ∑ j ∈ Finset.range n, (∑ k ∈ Finset.range n, V i k * √(c k) * V j k) * w j

/-- The bordered matrix (lines 61-62). -/
def border (n : ℕ) (S : ℕ → ℕ → ℝ) (q : ℕ → ℝ) (i j : ℕ) : ℝ :=
  if i < n ∧ j < n then S i j
  else if i < n then (if j = n then q i else 0)
  else if j < n then (if i = n then q j else 0)
  else if i = n ∧ j = n then 1 else 0

/-- The first matrix (line 50). -/
def onionInit (r12 : ℝ) (i j : ℕ) : ℝ := if i < 2 ∧ j < 2 then (if i = j then 1 else r12) else 0

/-- The loop of `onion_corr` (lines 52-62): `n` is the size so far and `ws` are the vectors `w`. -/
noncomputable def onionGo (eig : ℕ → (ℕ → ℕ → ℝ) → (ℕ → ℝ) × (ℕ → ℕ → ℝ)) : ℕ → (ℕ → ℕ → ℝ) → List (ℕ → ℝ) → ℕ × (ℕ → ℕ → ℝ)
  | n, S, [] => (n, S)
  | n, S, w :: ws => onionGo eig (n + 1) (border n S (onionQ n (eig n S).1 (eig n S).2 w)) ws

/-- `onion_corr(d)` (lines 45-63): the size and the matrix.  `range(3, d+1)` takes `d - 2` of the vectors. -/
noncomputable def onionCorr (eig : ℕ → (ℕ → ℕ → ℝ) → (ℕ → ℝ) × (ℕ → ℕ → ℝ)) (d : ℕ) (u : ℝ) (ws : List (ℕ → ℝ)) : ℕ × (ℕ → ℕ → ℝ) :=
  onionGo eig 2 (onionInit (2 * u - 1)) (ws.take (d - 2))

end Verif.Rand
