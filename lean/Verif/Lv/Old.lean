import Verif.Lv.Sample
import Mathlib.Analysis.SpecialFunctions.Trigonometric.DerivHyp

/-!
Model of the polychoric correlations of `pystatsm/pylvcorr/lvcorr.py` (`_Polychor`, `Polychoric`, `PolychoricCorr`) and of the table functions of
`statfuncs.py`.  Columns hold integers, or `none` where a value is missing (NaN).  `F` stands for `binorm_cdf`; `binorm_pdf`, `dbinorm_pdf`
and `_dphi` are the functions `pdf` and `dpdf` of `func_utils.py`, whose text they repeat.
-/

namespace Verif.Lv

/-! ### Flattened tables: `_Polychor`, `PolychoricCorr` -/

/-- A table with `p` rows and `q` columns, flattened by rows, and the thresholds of the columns (`a`) and of the rows (`b`). -/
structure Flat where
  p : ℕ
  q : ℕ
  vecx : ℕ → ℝ
  a : ℕ → ℝ
  b : ℕ → ℝ

namespace Flat
variable (T : Flat)

/-- `a1`, `a2`, `b1`, `b2` of `_Polychor.__init__` (lines 98-107) and `PolychoricCorr._init_crosstab` (lines 624-628). -/
def a1 (k : ℕ) : ℝ := T.a (k % T.q + 1)
def a2 (k : ℕ) : ℝ := T.a (k % T.q + 1 - 1)
def b1 (k : ℕ) : ℝ := T.b (k / T.q + 1)
def b2 (k : ℕ) : ℝ := T.b (k / T.q + 1 - 1)

/-- `prob` (lines 121-124, 636-639), `dprob` (lines 137-140, 645-648) and `gfunc` (lines 178-181, 670-673). -/
def four (f : ℝ → ℝ → ℝ → ℝ) (r : ℝ) (k : ℕ) : ℝ :=
  f (T.a1 k) (T.b1 k) r - f (T.a2 k) (T.b1 k) r - f (T.a1 k) (T.b2 k) r + f (T.a2 k) (T.b2 k) r

/-- `loglike` (lines 194-196, 677-679). -/
noncomputable def loglike (F : ℝ → ℝ → ℝ → ℝ) (r : ℝ) : ℝ :=
  -∑ k ∈ Finset.range (T.p * T.q), T.vecx k * Real.log (max (T.four F r k) (10 ^ (-16 : ℤ)))

/-- `gradient` (lines 199-205, 687-691). -/
noncomputable def gradient (F : ℝ → ℝ → ℝ → ℝ) (r : ℝ) : ℝ :=
  -∑ k ∈ Finset.range (T.p * T.q), T.vecx k / max (T.four F r k) (10 ^ (-16 : ℤ)) * T.four pdf r k

/-- `hessian` (lines 208-216, 701-709). -/
noncomputable def hessian (F : ℝ → ℝ → ℝ → ℝ) (r : ℝ) : ℝ :=
  let prb := fun k => max (T.four F r k) (10 ^ (-16 : ℤ))
  let phi := T.four pdf r
  let gfn := T.four dpdf r
  let u := fun k => T.vecx k / prb k
  let v := fun k => T.vecx k / max (prb k ^ 2) (10 ^ (-16 : ℤ));
  -∑ k ∈ Finset.range (T.p * T.q), (u k * gfn k - v k * phi k ^ 2)

end Flat

/-- `loglike_tanh` (lines 514-517, 681-684). -/
noncomputable def llTanh (ll : ℝ → ℝ) (y : ℝ) : ℝ := ll (Real.tanh y)

/-- `gradient_tanh` (lines 526-530, 694-698). -/
noncomputable def gTanh (g : ℝ → ℝ) (y : ℝ) : ℝ :=
  let r := Real.tanh y
  g r * (1 - r ^ 2)

/-- `hessian_tanh` (lines 544-549, 711-716). -/
noncomputable def hTanh (g H : ℝ → ℝ) (y : ℝ) : ℝ :=
  let r := Real.tanh y
  1 / Real.cosh y ^ 4 * H r - 2 * r * gTanh g y

/-! ### `Polychoric` -/

/-- `hessian` of `Polychoric` (lines 533-542); `loglike` (lines 508-512) and `gradient` (lines 520-524) are those of `Pair`. -/
noncomputable def Pair.hessianO (P : Pair) (F : ℝ → ℝ → ℝ → ℝ) (a b : ℕ → ℝ) (r : ℝ) : ℝ :=
  let pr := fun i j => max (Pair.cell F a b r i j) (10 ^ (-16 : ℤ))
  let u := fun i j => P.counts i j / pr i j
  let v := fun i j => P.counts i j / max (pr i j ^ 2) (10 ^ (-16 : ℤ));
  -∑ i ∈ Finset.range (P.m1 + 1), ∑ j ∈ Finset.range (P.m2 + 1),
    (u i j * Pair.cell dpdf a b r i j - v i j * Pair.cell pdf a b r i j ^ 2)

/-- The counts of `np.unique(x, return_counts=True)` (lines 459, 613): the missing values are a category of their own, the last one. -/
def countsNan (x : List (Option ℤ)) : List ℕ := catt x.reduceOption ++ if x.count none = 0 then [] else [x.count none]

/-- `t_inner` (lines 460, 614). -/
noncomputable def tInner (ndtri : ℝ → ℝ) (c : List ℕ) : List ℝ :=
  (cumsum 0 c).dropLast.map fun s : ℕ => ndtri ((s : ℝ) / (c.sum : ℝ))

/-- `np.r_[-1e6, t_inner, 1e6]` as a list. -/
noncomputable def tOuter (t : List ℝ) : List ℝ := (-10 ^ 6) :: (t ++ [10 ^ 6])

/-- `Polychoric._get_threshold` (lines 458-465): without `outer` the name `t` is read before it is bound. -/
noncomputable def getThreshold (ndtri : ℝ → ℝ) (x : List (Option ℤ)) (outer : Bool) : Option (List ℝ) :=
  if outer then some (tOuter (tInner ndtri (countsNan x))) else none

/-- The rows without missing values (lines 468-469, 592-594). -/
def complete (x y : List (Option ℤ)) : List (ℤ × ℤ) := (x.zip y).filterMap fun p =>
  match p with
  | (some a, some b) => some (a, b)
  | _ => none

/-- `_init_crosstab` (lines 467-487) at the thresholds of the columns: the table of the complete rows and the two arrays of thresholds, read at
the positions of the categories of the table. -/
noncomputable def initCrosstab (ndtri : ℝ → ℝ) (x y : List (Option ℤ)) : Option (Pair × (ℕ → ℝ) × (ℕ → ℝ)) := do
  let ti ← getThreshold ndtri x true
  let tj ← getThreshold ndtri y true
  let z := complete x y
  some (samplePair (z.map Prod.fst) (z.map Prod.snd), (fun k => ti.getD k 0), fun k => tj.getD k 0)

/-! ### `_Polychor`, `PolychoricCorr`: thresholds -/

/-- `norm_qtf` of `statfuncs.py` (lines 83-85). -/
noncomputable def normQtf (erfinv : ℝ → ℝ) (q : ℝ) : ℝ := √2 * erfinv (2 * q - 1)

/-- `polychor_thresh` of `statfuncs.py` (lines 382-386) for a table with `p` rows and `q` columns: the thresholds of the columns and those of
the rows. -/
noncomputable def polychorThresh (erfinv : ℝ → ℝ) (p q : ℕ) (X : ℕ → ℕ → ℕ) : List ℝ × List ℝ :=
  let N : ℝ := ((∑ i ∈ Finset.range p, ∑ j ∈ Finset.range q, X i j : ℕ) : ℝ)
  let a := ((cumsum 0 ((List.range q).map fun j => ∑ i ∈ Finset.range p, X i j)).map fun s : ℕ => normQtf erfinv ((s : ℝ) / N)).dropLast
  let b := ((cumsum 0 ((List.range p).map fun i => ∑ j ∈ Finset.range q, X i j)).map fun s : ℕ => normQtf erfinv ((s : ℝ) / N)).dropLast
  (tOuter a, tOuter b)

/-- The table of `_Polychor.__init__` (lines 93-107). -/
noncomputable def flatPolychor (erfinv : ℝ → ℝ) (x y : List ℤ) : Flat :=
  let t := polychorThresh erfinv (ncat x) (ncat y) (crosstab x y)
  ⟨ncat x, ncat y, fun k => (crosstab x y (k / ncat y) (k % ncat y) : ℝ), fun k => t.1.getD k 0, fun k => t.2.getD k 0⟩

/-- The table of `PolychoricCorr._init_crosstab` (lines 618-630) for the complete rows of two columns (lines 591-595). -/
noncomputable def flatCorr (ndtri : ℝ → ℝ) (x y : List (Option ℤ)) : Flat :=
  let z := complete x y
  let x := z.map Prod.fst
  let y := z.map Prod.snd
  ⟨ncat x, ncat y, fun k => (crosstab x y (k / ncat y) (k % ncat y) : ℝ), fun k => (tOuter (tInner ndtri (catt y))).getD k 0,
    fun k => (tOuter (tInner ndtri (catt x))).getD k 0⟩

/-! ### Table functions -/

/-- `polychor_loglike` of `statfuncs.py` (lines 417-425) for arrays `a`, `b` of lengths `k`, `n`. -/
noncomputable def polychorLoglike (F : ℝ → ℝ → ℝ → ℝ) (n k : ℕ) (X : ℕ → ℕ → ℝ) (a b : ℕ → ℝ) (r : ℝ) : ℝ :=
  let pr := fun i j => F (a j) (b i) r
  ∑ i ∈ Finset.range (n - 1), ∑ j ∈ Finset.range (k - 1),
    X i j * Real.log (max (pr (i + 1) (j + 1) + pr i j - pr i (j + 1) - pr (i + 1) j) (10 ^ (-16 : ℤ)))

/-- `polychor_ll` (lines 442-445) for an array of `1 + k + n` parameters. -/
noncomputable def polychorLl (F : ℝ → ℝ → ℝ → ℝ) (n : ℕ) (X : ℕ → ℕ → ℝ) (k : ℕ) (params : ℕ → ℝ) : ℝ :=
  -polychorLoglike F n k X (fun j => params (1 + j)) (fun i => params (k + 1 + i)) (params 0)

/-- `polychor_partial_ll` (lines 449-451) for an array of `k + n` parameters. -/
noncomputable def polychorPartialLl (F : ℝ → ℝ → ℝ → ℝ) (n : ℕ) (rho : ℝ) (X : ℕ → ℕ → ℝ) (k : ℕ) (params : ℕ → ℝ) : ℝ :=
  -polychorLoglike F n k X (fun j => params j) (fun i => params (k + i)) rho

/-- The five-point rule of `binorm_l` (lines 126-141) for the integral of `f` over `(0, r)`. -/
noncomputable def gl5 (f : ℝ → ℝ) (r : ℝ) : ℝ :=
  let root1 := √(5 - 2 * √(10 / 7)) / 3
  let root2 := √(5 + 2 * √(10 / 7)) / 3
  let r2 := r / 2
  let w1 := 128 / 225
  let w2 := (322 + 13 * √70) / 900
  let w3 := (322 - 13 * √70) / 900
  let eq1 := w1 * f (r / 2)
  let eq2 := w2 * f ((1 - root1) * r2)
  let eq3 := w2 * f ((1 + root1) * r2)
  let eq4 := w3 * f ((1 - root2) * r2)
  let eq5 := w3 * f ((1 + root2) * r2)
  r2 * (eq1 + eq2 + eq3 + eq4 + eq5)

end Verif.Lv
