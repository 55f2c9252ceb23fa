import Verif.Np.Basic
import Mathlib.Analysis.SpecialFunctions.Artanh
/-!
# Variances and correlations as parameters of the profile likelihood, `VarCorrReparam`

/repo/pystatsm/pylmm/prf.py 16-85; the class of the same name in /repo/pystatsm/pylmm/model_matrices.py 205-269 is the same
text.  Not the class `_VarCorrReparam` of re_mod.py, see `Infer.lean`.

The covariance parameters of all terms are one array, a function of the index; a term with `n` variables has the
`n (n + 1) / 2` entries from `s` on (`indices['theta'][key]`, model_matrices.py 94-106, and `ix` of `__init__`, which agree),
the residual variance is the last entry.  `dims` is the list of the numbers of variables.  Floating point numbers are reals.
-/
namespace Verif.Lmm.Prf
open Verif.Np

/-- The position of the entry `(i, j)` in `vech`, i.e. in the order of `np.triu_indices`. -/
def pos (n i j : ℕ) : ℕ := (npTriu n 0).idxOf (min i j, max i j)

/-- `invech` of the entries of a term (contract, proved of the code in C11). -/
def gmat (n : ℕ) (x : ℕ → ℝ) (i j : ℕ) : ℝ := x (pos n i j)

/-- `ix[i==j]`, `ix[i!=j]` less `start` — prf.py 24-28. -/
def tixV (n : ℕ) : List ℕ := maskSelect (List.range (npTriu n 0).length) ((npTriu n 0).map fun p => decide (p.1 = p.2))
def tixR (n : ℕ) : List ℕ := maskSelect (List.range (npTriu n 0).length) ((npTriu n 0).map fun p => decide (p.1 ≠ p.2))

/-- `gix[key]['r']` — prf.py 27. -/
def gixR (n : ℕ) : List (ℕ × ℕ) := npTril n (-1)

/-- `dix[key]` — prf.py 29-30. -/
def dix (n : ℕ) : List (ℕ × ℕ) := (npTril n 0).filter fun p => decide (p.1 ≠ p.2)

/-- `a[start + ix] = vals`. -/
def scatter1 (s : ℕ) (a : ℕ → ℝ) (ix : List ℕ) (vals : List ℝ) : ℕ → ℝ :=
  (ix.zip vals).foldl (fun a p => fun i => if i = s + p.1 then p.2 else a i) a

/-- `n_params` — prf.py 23. -/
def npar (n : ℕ) : ℕ := n * (n + 1) / 2

/-- One pass of the loop of `transform` — prf.py 39-46; `x` are the entries of the term. -/
noncomputable def fwdTerm (s n : ℕ) (x : ℕ → ℝ) (tau : ℕ → ℝ) : ℕ → ℝ :=
  let G := gmat n x
  let R := fun i j => √(1 / G i i) * G i j * √(1 / G j j)
  let tau := scatter1 s tau (tixR n) ((gixR n).map fun p => Real.artanh (R p.1 p.2))
  scatter1 s tau (tixV n) ((List.range n).map fun i => G i i)

noncomputable def fwdLoop (th : ℕ → ℝ) : ℕ → List ℕ → (ℕ → ℝ) → ℕ → ℝ
  | _, [], tau => tau
  | s, n :: ns, tau => fwdLoop th (s + npar n) ns (fwdTerm s n (fun k => th (s + k)) tau)

/-- `transform` — prf.py 36-48 (line 47 writes back what the copy already holds). -/
noncomputable def transform (dims : List ℕ) (th : ℕ → ℝ) : ℕ → ℝ := fwdLoop th 0 dims th

/-- One pass of the loop of `inverse_transform` — prf.py 53-58: only the lower triangle goes through `tanh`, and only the lower
triangle is returned by `vech`. -/
noncomputable def rvsTerm (s n : ℕ) (x : ℕ → ℝ) (th : ℕ → ℝ) : ℕ → ℝ :=
  let G := gmat n x
  let H := scatter2 G ((List.range n).map fun i => (i, i)) ((List.range n).map fun _ => (1 : ℝ))
  let H := scatter2 H (gixR n) ((gixR n).map fun p => Real.tanh (H p.1 p.2))
  let G' := fun i j => √(G i i) * H i j * √(G j j)
  scatter1 s th (List.range (npar n)) ((npTriu n 0).map fun p => G' p.2 p.1)

noncomputable def rvsLoop (tau : ℕ → ℝ) : ℕ → List ℕ → (ℕ → ℝ) → ℕ → ℝ
  | _, [], th => th
  | s, n :: ns, th => rvsLoop tau (s + npar n) ns (rvsTerm s n (fun k => tau (s + k)) th)

/-- `inverse_transform` — prf.py 50-60. -/
noncomputable def inverse (dims : List ℕ) (tau : ℕ → ℝ) : ℕ → ℝ := rvsLoop tau 0 dims tau

/-- `a[start + rows, start + cols] = vals`. -/
def put2 (s : ℕ) (a : ℕ → ℕ → ℝ) (rows cols : List ℕ) (vals : List ℝ) : ℕ → ℕ → ℝ :=
  ((rows.zip cols).zip vals).foldl (fun a p => fun i j => if i = s + p.1.1 ∧ j = s + p.1.2 then p.2 else a i j) a

/-- One pass of the loop of `jacobian` — prf.py 66-76; `tau` are the transformed entries of the term. -/
noncomputable def jacTerm (s n : ℕ) (x tau : ℕ → ℝ) (J : ℕ → ℕ → ℝ) : ℕ → ℕ → ℝ :=
  let v := fun i => gmat n x i i
  let u := (tixR n).map fun k => Real.tanh (tau k)
  let ds := (dix n).zip u
  let J := put2 s J (tixV n) (tixV n) ((tixV n).map fun _ => 1)
  let J := put2 s J (tixR n) (tixR n) (ds.map fun d => √(v d.1.1) * √(v d.1.2) * (1 - d.2 ^ 2))
  let J := put2 s J ((dix n).map fun d => (tixV n).getD d.2 0) (tixR n) (ds.map fun d => d.2 * √(v d.1.1) / (√(v d.1.2) * 2))
  put2 s J ((dix n).map fun d => (tixV n).getD d.1 0) (tixR n) (ds.map fun d => d.2 * √(v d.1.2) / (√(v d.1.1) * 2))

noncomputable def jacLoop (th tau : ℕ → ℝ) : ℕ → List ℕ → (ℕ → ℕ → ℝ) → ℕ → ℕ → ℝ
  | s, [], J => fun i j => if i = s ∧ j = s then 1 else J i j
  | s, n :: ns, J => jacLoop th tau (s + npar n) ns (jacTerm s n (fun k => th (s + k)) (fun k => tau (s + k)) J)

/-- `jacobian` — prf.py 62-78: the residual variance comes after the last term (line 77). -/
noncomputable def jacobian (dims : List ℕ) (th : ℕ → ℝ) : ℕ → ℕ → ℝ := jacLoop th (transform dims th) 0 dims fun _ _ => 0

end Verif.Lmm.Prf
