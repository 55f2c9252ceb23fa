import Mathlib.Data.Rat.Defs
import Mathlib.Order.Defs.LinearOrder
import Mathlib.Data.List.Basic
/-!
# Model of `pysem/sem.py`: free parameters, starting values and labels of the older structural equation model

A dataframe is a list of names with an array; arrays are functions of two natural numbers with their sizes beside them.
A label is kept as its parts rather than as a formatted string.  `np.argmax` gives the first place of the largest value.
-/
namespace Verif.Sem.OldSetup

variable {R : Type} [Zero R] [DecidableEq R]

/-- `vec(X)`, `vech(X)` — linalg_operations.py 324-325, 332-339. -/
def vecL (p q : ℕ) (X : ℕ → ℕ → R) : List R := (List.range q).flatMap fun j => (List.range p).map fun i => X i j
def vechL (m : ℕ) (X : ℕ → ℕ → R) : List R := (List.range m).flatMap fun j => (List.range (m - j)).map fun d => X (j + d) j

/-- `np.where(X)`, `np.triu_indices(m)`. -/
def whereIx (p q : ℕ) (X : ℕ → ℕ → R) : List (ℕ × ℕ) :=
  (List.range p).flatMap fun i => ((List.range q).filter fun j => X i j ≠ 0).map fun j => (i, j)
def triuIx (m : ℕ) : List (ℕ × ℕ) := (List.range m).flatMap fun i => (List.range (m - i)).map fun d => (i, i + d)

/-- `np.argmax` of the first entries of a column. -/
def argmax [LE R] [DecidableLE R] (p : ℕ) (c : ℕ → R) : ℕ :=
  (List.range p).foldl (fun b i => if c i ≤ c b then b else i) 0

/-- The free loadings without `indicator_vars` — sem.py 85-89. -/
def indDefault [LE R] [DecidableLE R] (p q : ℕ) (LA PH : ℕ → ℕ → R) : ℕ → ℕ → R :=
  (List.range q).foldl (fun LAf i =>
    if PH i i ≠ 0 ∨ ((List.range p).filter fun r => LAf r i ≠ 0).length = 1 then
      let vi := argmax p fun r => LAf r i
      fun r c => if r = vi ∧ c = i then 0 else LAf r c
    else LAf) LA

/-- The free loadings with `indicator_vars` — sem.py 91. -/
def indGiven [Sub R] (LA ind : ℕ → ℕ → R) : ℕ → ℕ → R := fun r c => LA r c - ind r c

/-- The labels — sem.py 120-147: loading, regression, covariance, residual covariance. -/
inductive Lab
  | load (x y : ℕ) | reg (x y : ℕ) | cov (x y : ℕ) | res (x y : ℕ)
deriving DecidableEq

/-- Pairs of `np.triu_indices` whose entry of `vech` is not zero — sem.py 126-132, 138-143. -/
def triuLabels (m : ℕ) (X : ℕ → ℕ → R) : List (ℕ × ℕ) :=
  let v := (vechL m X).map fun x => decide (x ≠ 0)
  ((v.zip (triuIx m)).filter fun a => a.1).map fun a => a.2

/-- `self.labels` — sem.py 120-149. -/
def labels (p q : ℕ) (LAf BEf PHf PSf : ℕ → ℕ → R) : List Lab :=
  (whereIx p q LAf).map (fun a => Lab.load a.1 a.2) ++ (whereIx q q BEf).map (fun a => Lab.reg a.1 a.2) ++
    (triuLabels q PHf).map (fun a => Lab.cov a.1 a.2) ++ (triuLabels p PSf).map (fun a => Lab.res a.1 a.2)

/-- `theta_indices` — sem.py 98-99. -/
def thetaIndices (p q : ℕ) (LAf BEf PHf PSf : ℕ → ℕ → R) : List Bool :=
  (vecL p q LAf ++ vecL q q BEf ++ vechL q PHf ++ vechL p PSf).map fun x => decide (x ≠ 0)

/-- `params_template` — sem.py 101-102. -/
def paramsTemplate (p q : ℕ) (LA BE PH PS : ℕ → ℕ → R) : List R := vecL p q LA ++ vecL q q BE ++ vechL q PH ++ vechL p PS

/-- Boolean indexing. -/
def pick {α : Type} (mask : List Bool) (xs : List α) : List α := ((mask.zip xs).filter fun a => a.1).map fun a => a.2

/-- `theta` — sem.py 103. -/
def theta0 (p q : ℕ) (LA BE PH PS LAf : ℕ → ℕ → R) : List R :=
  pick (thetaIndices p q LAf BE PH PS) (paramsTemplate p q LA BE PH PS)

/-- `params[self.theta_indices] = theta` — sem.py 219-220. -/
def putMask {α : Type} : List Bool → List α → List α → List α
  | b :: bs, x :: xs, ts => if b then (match ts with | t :: ts => t :: putMask bs xs ts | [] => x :: putMask bs xs []) else x :: putMask bs xs ts
  | _, xs, _ => xs

/-- A square dataframe and a lookup by name. -/
structure Frame (ν R : Type) where
  idx : List ν
  val : ℕ → ℕ → R

/-- `Lambda.loc[S.index]` — sem.py 71: a name not in the index raises `KeyError`; names are not repeated. -/
def locRows {ν : Type} [DecidableEq ν] (L : Frame ν R) (names : List ν) : Option (ℕ → ℕ → R) :=
  if names.all fun a => decide (a ∈ L.idx) then
    some fun i j => match names[i]? with
      | some a => L.val (L.idx.idxOf a) j
      | none => 0
  else none

/-- `LA`, `PS` — sem.py 71, 78, 81: rows of `Psi` are taken by position. -/
def setupLP {ν : Type} [DecidableEq ν] (L Psi : Frame ν R) (sIdx : List ν) : Option ((ℕ → ℕ → R) × (ℕ → ℕ → R)) :=
  (locRows L sIdx).map fun LA => (LA, Psi.val)

/-- `self.n_obs` — sem.py 179: `data.shape` of `None` raises `AttributeError`.  The moments are given by `S` or computed
from the data (69-70). -/
def nObs {D S : Type} (cov : D → S) (nrow : D → ℕ) (data : Option D) (S0 : Option S) : Option (S × ℕ) :=
  match S0, data with
  | none, none => none
  | none, some d => some (cov d, nrow d)
  | some _, none => none
  | some s, some d => some (s, nrow d)

end Verif.Sem.OldSetup
