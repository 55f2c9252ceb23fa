import Verif.Fa.Rotation
import Verif.Np.Basic
/-!
# Model of `pyfa2/inference.py`

Arrays are functions of natural numbers with explicit shapes.
-/
namespace Verif.Fa
open Matrix Verif.Np Verif.Index Verif.Vec

/-- `augmented_hessian` — inference.py 4-11: zeros, then three block stores. -/
def augH (nt nc : ℕ) (H dC : ℕ → ℕ → ℝ) : ℕ → ℕ → ℝ :=
  let A : ℕ → ℕ → ℝ := fun _ _ => 0
  let A : ℕ → ℕ → ℝ := fun i j => if i < nt ∧ j < nt then H i j else A i j
  let A : ℕ → ℕ → ℝ := fun i j => if i < nt ∧ (nt ≤ j ∧ j < nt + nc) then dC (j - nt) i else A i j
  let A : ℕ → ℕ → ℝ := fun i j => if (nt ≤ i ∧ i < nt + nc) ∧ j < nt then dC (i - nt) j else A i j
  A

/-- `np.where(free_mask)[0]`. -/
def freeIdx (nt : ℕ) (mask : ℕ → Bool) : List ℕ := (List.range nt).filter mask

/-- `free` in `bread` — inference.py 18. -/
def freeAug (nt nc : ℕ) (mask : ℕ → Bool) : List ℕ := freeIdx nt mask ++ (List.range nc).map fun c => nt + c

/-- `A[np.ix_(free, free)]` — inference.py 19. -/
def subAug (nt nc : ℕ) (H dC : ℕ → ℕ → ℝ) (mask : ℕ → Bool) :
    Matrix (Fin (freeAug nt nc mask).length) (Fin (freeAug nt nc mask).length) ℝ :=
  Matrix.of fun i j => augH nt nc H dC ((freeAug nt nc mask).getD i 0) ((freeAug nt nc mask).getD j 0)

/-- `bread` — inference.py 14-21: the number of free parameters and the block of the inverse. -/
noncomputable def bread (nt nc : ℕ) (H dC : ℕ → ℕ → ℝ) (mask : ℕ → Bool) : Option (ℕ × (ℕ → ℕ → ℝ)) :=
  (inv? (subAug nt nc H dC mask)).map fun Ainv =>
    let nFree := (freeAug nt nc mask).length - nc
    (nFree, fun i j => if i < nFree ∧ j < nFree then entry Ainv i j else 0)

/-- `param_cov` — inference.py 24-25. -/
noncomputable def paramCov (nt nc : ℕ) (H dC : ℕ → ℕ → ℝ) (mask : ℕ → Bool) (n : ℝ) : Option (ℕ × (ℕ → ℕ → ℝ)) :=
  (bread nt nc H dC mask).map fun b => (b.1, fun i j => b.2 i j * (2.0 / n))

/-- `sandwich_cov` — inference.py 28-31. -/
noncomputable def sandwichCov (nt nc : ℕ) (H dC J : ℕ → ℕ → ℝ) (mask : ℕ → Bool) : Option (ℕ × (ℕ → ℕ → ℝ)) :=
  (bread nt nc H dC mask).map fun b =>
    let fr := freeIdx nt mask
    let JF : ℕ → ℕ → ℝ := fun i j => J (fr.getD i 0) (fr.getD j 0)
    (b.1, fun i j => ∑ l ∈ Finset.range b.1, (∑ k ∈ Finset.range b.1, b.2 i k * JF k l) * b.2 j l)

/-- `empirical_cov_vech_S` — inference.py 38-45.  `x[:, jx] * x[:, ix]` at the positions `(ix, jx)` of
`np.triu_indices(p)`. -/
noncomputable def empVechs (n p : ℕ) (X : ℕ → ℕ → ℝ) (i r : ℕ) : ℝ :=
  let q := (npTriu p 0).getD r (0, 0)
  let Xc : ℕ → ℕ → ℝ := fun i j => X i j - (∑ k ∈ Finset.range n, X k j) / n
  Xc i q.2 * Xc i q.1

noncomputable def empCov (n p : ℕ) (X : ℕ → ℕ → ℝ) (r s : ℕ) : ℝ :=
  let vechs := empVechs n p X
  let centered : ℕ → ℕ → ℝ := fun i r => vechs i r - (∑ k ∈ Finset.range n, vechs k r) / n
  (∑ i ∈ Finset.range n, centered i r * centered i s) / ((n : ℝ) * ((n : ℝ) - 1))

end Verif.Fa
