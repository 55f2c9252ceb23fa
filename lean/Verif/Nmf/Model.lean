import Mathlib.Data.Real.Basic
import Mathlib.Algebra.BigOperators.Group.Finset.Basic
import Mathlib.Algebra.Order.BigOperators.Group.Finset
/-!
# Model of `pynmf/hfuncs.py`: convolutive non-negative matrix factorisation

Arrays are functions of natural indices, their sizes are arguments.  `np.linalg.norm` of the error and
random starts are parameters.
-/
namespace Verif.Nmf
open Finset

/-- `np.roll(x, j)` of an array of length `t` — entry `s`, for `0 ≤ j ≤ t`. -/
def roll (t j : ℕ) (x : ℕ → ℝ) (s : ℕ) : ℝ := x ((s + (t - j)) % t)

/-- `np.roll(x, -j)`. -/
def rollBack (t j : ℕ) (x : ℕ → ℝ) (s : ℕ) : ℝ := x ((s + j) % t)

/-- `np.pad(x, (L, L))` of an array of length `t`. -/
def pad (L t : ℕ) (x : ℕ → ℝ) (s : ℕ) : ℝ := if L ≤ s ∧ s < L + t then x (s - L) else 0

/-- `np.roll(H, (0, tau))` without an axis: the `k × w` array is rolled as one flat array, by the sum
of the two shifts. -/
def rollFlat (k w tau : ℕ) (H : ℕ → ℕ → ℝ) (r s : ℕ) : ℝ :=
  let i := (r * w + s + (k * w - tau)) % (k * w)
  H (i / w) (i % w)

/-- `reconstruct` — hfuncs.py 76-84, entry `i, s`; `H` is `k × t`, and `L` is positive. -/
def reconstruct (k L t : ℕ) (W : ℕ → ℕ → ℕ → ℝ) (H : ℕ → ℕ → ℝ) (i s : ℕ) : ℝ :=
  ∑ tau ∈ range L, ∑ r ∈ range k,
    W i r tau * rollFlat k (t + 2 * L) tau (fun r => pad L t (H r)) r (s + L)

/-- `shift1d` — hfuncs.py 41-51. -/
def shift1d (arr : List ℝ) (n : ℤ) (c : ℝ) : List ℝ :=
  if n > 0 then List.replicate (min n.toNat arr.length) c ++ arr.take (arr.length - n.toNat)
  else if n < 0 then arr.drop (-n).toNat ++ List.replicate (min (-n).toNat arr.length) c
  else arr

/-- `shift` along one axis of length `t` with the pair `(nl, nr)`, `nl + nr ≤ t` — hfuncs.py 53-63:
the margins are cut off and padded again. -/
def shiftAxis (t nl nr : ℕ) (c : ℝ) (x : ℕ → ℝ) (s : ℕ) : ℝ :=
  let y : ℕ → ℝ := fun s => x (s + nl)
  let m := t - nl - nr
  if nl ≤ s ∧ s < nl + m then y (s - nl) else c

/-- The first row of `conv2(A, B, mode='same')` in the full convolution, for `a` rows of `A` and `b`
of `B` — hfuncs.py 65-72. -/
def sameStart (a b : ℕ) : ℤ := ((a + b - 1 : ℕ) / 2 : ℤ) - 1

/-- `WtX` and `WtX_hat` of `_fit` — hfuncs.py 180-185. -/
def wtx (n L t : ℕ) (W : ℕ → ℕ → ℕ → ℝ) (X : ℕ → ℕ → ℝ) (r s : ℕ) : ℝ :=
  ∑ j ∈ range L, ∑ i ∈ range n, W i r j * rollBack t j (X i) s

/-- `XHt` and `X_hatHt` for lag `j` — hfuncs.py 200-202. -/
def xht (t : ℕ) (X H : ℕ → ℕ → ℝ) (j i r : ℕ) : ℝ := ∑ s ∈ range t, X i s * roll t j (H r) s

/-- `WtX` of `seqnmf_objfunc` — hfuncs.py 91-94. -/
def wtxObj (n L t : ℕ) (W : ℕ → ℕ → ℕ → ℝ) (X : ℕ → ℕ → ℝ) (r s : ℕ) : ℝ :=
  ∑ j ∈ range L, ∑ i ∈ range n, W i r j * shiftAxis t 0 j 0 (X i) s

/-- `sp.signal.convolve2d(Y, Sk, 'same')` for one row, `Sk` ones of length `2L-1`. -/
def window (L t : ℕ) (y : ℕ → ℝ) (s : ℕ) : ℝ :=
  ∑ u ∈ (range t).filter (fun u => u < s + L ∧ s < u + L), y u

/-- `RI.dot(Y)`, `RI = 1 - eye(k)`. -/
def offDot (k : ℕ) (Y : ℕ → ℝ) (r : ℕ) : ℝ := ∑ r' ∈ range k, (1 - if r = r' then 1 else 0) * Y r'

/-- `_get_penaltyH` — hfuncs.py 159-163. -/
def penaltyH (k L t : ℕ) (lam lamH : ℝ) (WtX H : ℕ → ℕ → ℝ) (r s : ℕ) : ℝ :=
  lam * offDot k (fun r' => window L t (WtX r') s) r + lamH * offDot k (fun r' => window L t (H r') s) r

/-- `_get_penaltyW` at lag `j` — hfuncs.py 165-169, with `Xs` and `Wflat` of 197-198. -/
def penaltyW (k L t : ℕ) (lam lamW : ℝ) (X H : ℕ → ℕ → ℝ) (W : ℕ → ℕ → ℕ → ℝ) (j i r : ℕ) : ℝ :=
  lam * offDot k (fun r' => ∑ s ∈ range t, window L t (X i) s * roll t j (H r') s) r +
    lamW * offDot k (fun r' => ∑ l ∈ range L, W i r' l) r

/-- `H = H * WtX / (WtX_hat + dRdH + epsilon)` — hfuncs.py 187, one entry. -/
noncomputable def updateH (h wtx wtxhat dR eps : ℝ) : ℝ := h * wtx / (wtxhat + dR + eps)

/-- `np.linalg.norm(M, 1)` of a matrix: the largest column sum of absolute values. -/
noncomputable def norm1 (k : ℕ) (M : ℕ → ℕ → ℝ) : ℝ :=
  (List.range k).foldl (fun m c => max m (∑ r ∈ range k, |M r c|)) 0

/-- The scaling step — hfuncs.py 192-195. -/
noncomputable def scaleH (rho : ℕ → ℝ) (eps : ℝ) (H : ℕ → ℕ → ℝ) (r s : ℕ) : ℝ :=
  1 / (rho r + eps) * H r s

def scaleW (rho : ℕ → ℝ) (W : ℕ → ℕ → ℕ → ℝ) (i r j : ℕ) : ℝ := W i r j * rho r

/-- `f_evals[:, run]` of `_fit` — hfuncs.py 171-208: `err` of the reconstruction from the state, `step`
one pass of the loop; `none`: the index error without iterations. -/
def fEvals {S : Type} (nIters : ℕ) (err : S → ℝ) (step : S → S) (s0 : S) : Option (List ℝ) :=
  if nIters = 0 then none else
    let f0 := (List.replicate nIters (0 : ℝ)).set 0 (err s0)
    some ((List.range nIters).foldl
      (fun (a : S × List ℝ) i => let s := step a.1; (s, a.2.set i (err s))) (s0, f0)).2

/-- `center_factors` — hfuncs.py 112-124 and its call 190: `np.roll(H[i], m, axis=1)` of a row, which
has one axis, raises as soon as there is a factor; the caller unpacks the returned array, of `n`
rows, into two names. -/
def centerFactors (n k : ℕ) : Option Unit :=
  if 0 < k then none else if n = 2 then some () else none

end Verif.Nmf
