import Verif.Lv.Binorm
import Mathlib.Analysis.SpecialFunctions.Log.Basic
import Verif.Transf.Ordered
import Verif.Transf.Compose

/-!
Model of the likelihood of one pair of variables in `Polychor` of `pystatsm/pylvcorr/polychoric2.py` (the same methods are in
`polychoric.py`).  The tables have `m1 + 1` rows and `m2 + 1` columns; parameters are arrays of length `m1 + m2 + 1`.  `F` stands for
`binorm_cdf` and `erf` for `scipy.special.erf`.
-/

namespace Verif.Lv

/-- `np.r_[lo, t, hi]` for an array of length `m`. -/
def pad (lo hi : ℝ) (m : ℕ) (t : ℕ → ℝ) (i : ℕ) : ℝ := if i = 0 then lo else if i ≤ m then t (i - 1) else hi

/-- A pair of variables: `ncat[i1] - 1`, `ncat[i2] - 1` and the table of counts. -/
structure Pair where
  m1 : ℕ
  m2 : ℕ
  counts : ℕ → ℕ → ℝ

namespace Pair
variable (P : Pair)

/-- The length of the array of parameters. -/
def len : ℕ := P.m1 + P.m2 + 1

/-- `unpack_params_full` (lines 139-143) with its default `padval`; the second array is closed by `1e10`. -/
def t1 (x : ℕ → ℝ) : ℕ → ℝ := pad (-10 ^ 12) (10 ^ 12) P.m1 x
def t2 (x : ℕ → ℝ) : ℕ → ℝ := pad (-10 ^ 12) (10 ^ 10) P.m2 fun k => x (P.m1 + k)
def rho (x : ℕ → ℝ) : ℝ := x (P.m1 + P.m2)

/-- A region function at every cell, `f((ti1[i], ti2[j]), (ti1[i+1], ti2[j+1]), r)`. -/
def cell (f : ℝ → ℝ → ℝ → ℝ) (a b : ℕ → ℝ) (r : ℝ) (i j : ℕ) : ℝ := region f (a i) (b j) (a (i + 1)) (b (j + 1)) r

/-- `-np.sum(counts * np.log(np.maximum(p, 1e-16)))`. -/
noncomputable def nll (p : ℕ → ℕ → ℝ) : ℝ :=
  -∑ i ∈ Finset.range (P.m1 + 1), ∑ j ∈ Finset.range (P.m2 + 1), P.counts i j * Real.log (max (p i j) (10 ^ (-16 : ℤ)))

/-- `loglike` (lines 155-163). -/
noncomputable def loglike (F : ℝ → ℝ → ℝ → ℝ) (x : ℕ → ℝ) : ℝ := P.nll (cell F (P.t1 x) (P.t2 x) (P.rho x))

/-- `np.concatenate` of arrays of lengths `m1`, `m2` and one along the axis of the parameters. -/
def cat (u v : ℕ → ℝ) (w : ℝ) (k : ℕ) : ℝ := if k < P.m1 then u k else if k < P.m1 + P.m2 then v (k - P.m1) else w

/-- The array that is zero but for `[k] = v` and `[k + 1] = -v`, at position `i`. -/
def step (i k : ℕ) (v : ℝ) : ℝ := if i = k then v else if i = k + 1 then -v else 0

/-- `dp_dt1` (lines 188-192) for thresholds `a`, `b`. -/
noncomputable def dt1 (erf : ℝ → ℝ) (a b : ℕ → ℝ) (r : ℝ) (i j k : ℕ) : ℝ :=
  step i k (cdfDu erf (a (k + 1)) (b (j + 1)) r - cdfDu erf (a (k + 1)) (b j) r)

/-- `dp_dt2` (lines 193-199). -/
noncomputable def dt2 (erf : ℝ → ℝ) (a b : ℕ → ℝ) (r : ℝ) (i j k : ℕ) : ℝ :=
  step j k (cdfDu erf (b (k + 1)) (a (i + 1)) r - cdfDu erf (b (k + 1)) (a i) r)

/-- `dp_dparams` of `dprob_dparams` (lines 175-201) at cell `i`, `j`. -/
noncomputable def dprob (erf : ℝ → ℝ) (x : ℕ → ℝ) (i j : ℕ) : ℕ → ℝ :=
  let a := P.t1 x
  let b := P.t2 x
  let r := P.rho x
  P.cat (dt1 erf a b r i j) (dt2 erf a b r i j) (cell pdf a b r i j)

/-- `d2p_dparams2` of `dprob_dparams` (lines 206-247) at cell `i`, `j`. -/
noncomputable def d2prob (erf : ℝ → ℝ) (x : ℕ → ℝ) (i j : ℕ) (k l : ℕ) : ℝ :=
  let a := P.t1 x
  let b := P.t2 x
  let r := P.rho x
  let rr := cell dpdf a b r i j
  let t1t1 := fun k l : ℕ => if k = l then step i k (cdfDu2 erf (a (k + 1)) (b (j + 1)) r - cdfDu2 erf (a (k + 1)) (b j) r) else 0
  let t1r := fun k : ℕ => step i k (cdfDur (a (k + 1)) (b (j + 1)) r - cdfDur (a (k + 1)) (b j) r)
  let t2t2 := fun k l : ℕ => if k = l then step j k (cdfDu2 erf (b (k + 1)) (a (i + 1)) r - cdfDu2 erf (b (k + 1)) (a i) r) else 0
  let t2r := fun k : ℕ => step j k (cdfDur (b (k + 1)) (a (i + 1)) r - cdfDur (b (k + 1)) (a i) r)
  let t1t2 := fun k l : ℕ => step i k (step j l (cdfDuv (a (k + 1)) (b (l + 1)) r))
  P.cat (fun k => P.cat (fun l => t1t1 k l) (fun l => t1t2 k l) (t1r k) l)
    (fun k => P.cat (fun l => t1t2 l k) (fun l => t2t2 k l) (t2r k) l)
    (P.cat t1r t2r rr l) k

/-- `gradient` (lines 263-268). -/
noncomputable def gradient (F : ℝ → ℝ → ℝ → ℝ) (erf : ℝ → ℝ) (x : ℕ → ℝ) (k : ℕ) : ℝ :=
  -∑ i ∈ Finset.range (P.m1 + 1), ∑ j ∈ Finset.range (P.m2 + 1),
    P.counts i j / max (cell F (P.t1 x) (P.t2 x) (P.rho x) i j) (10 ^ (-16 : ℤ)) * P.dprob erf x i j k

/-- `hessian` (lines 287-294). -/
noncomputable def hessian (F : ℝ → ℝ → ℝ → ℝ) (erf : ℝ → ℝ) (x : ℕ → ℝ) (l k : ℕ) : ℝ :=
  let prob := fun i j => max (cell F (P.t1 x) (P.t2 x) (P.rho x) i j) (10 ^ (-16 : ℤ))
  let u := fun i j => P.counts i j / prob i j
  let v := fun i j => P.counts i j / max (prob i j ^ 2) (10 ^ (-16 : ℤ))
  ∑ i ∈ Finset.range (P.m1 + 1), ∑ j ∈ Finset.range (P.m2 + 1), P.dprob erf x i j l * v i j * P.dprob erf x i j k -
    ∑ i ∈ Finset.range (P.m1 + 1), ∑ j ∈ Finset.range (P.m2 + 1), u i j * P.d2prob erf x i j l k

/-- `qloglike` (lines 165-173) at the thresholds `a`, `b`, arrays closed by ±1e10; also `_PairWorkspace.loglike`. -/
noncomputable def qloglike (F : ℝ → ℝ → ℝ → ℝ) (a b : ℕ → ℝ) (r : ℝ) : ℝ := P.nll (cell F a b r)

/-- `qgradient` (lines 271-276); also `_PairWorkspace.score`. -/
noncomputable def qgradient (F : ℝ → ℝ → ℝ → ℝ) (a b : ℕ → ℝ) (r : ℝ) : ℝ :=
  -∑ i ∈ Finset.range (P.m1 + 1), ∑ j ∈ Finset.range (P.m2 + 1),
    P.counts i j / max (cell F a b r i j) (10 ^ (-16 : ℤ)) * cell pdf a b r i j

/-- `qhessian` (lines 278-285); also `_PairWorkspace.hessian`. -/
noncomputable def qhessian (F : ℝ → ℝ → ℝ → ℝ) (a b : ℕ → ℝ) (r : ℝ) : ℝ :=
  let prob := fun i j => max (cell F a b r i j) (10 ^ (-16 : ℤ))
  let u := fun i j => P.counts i j / prob i j
  let v := fun i j => P.counts i j / max (prob i j ^ 2) (10 ^ (-16 : ℤ))
  ∑ i ∈ Finset.range (P.m1 + 1), ∑ j ∈ Finset.range (P.m2 + 1), cell pdf a b r i j * v i j * cell pdf a b r i j -
    ∑ i ∈ Finset.range (P.m1 + 1), ∑ j ∈ Finset.range (P.m2 + 1), u i j * cell dpdf a b r i j

/-- The transforms of `transform_list` (lines 67-69), as their methods on arrays of the given length. -/
noncomputable def ordTr (q : ℕ) : Verif.Transf.Tr where
  fwd := Verif.Transf.ordFwd q
  rvs := Verif.Transf.ordRvs q
  jacF := Verif.Transf.ordJacFwd q
  jacR := Verif.Transf.ordJacRvs q
  hessF := Verif.Transf.ordHessFwd q
  hessR := Verif.Transf.ordHessRvs q

noncomputable def tanhTr (q : ℕ) : Verif.Transf.Tr where
  fwd := Verif.Transf.tanhFwd
  rvs := Verif.Transf.tanhRvs
  jacF := Verif.Transf.tanhJacFwd q
  jacR := Verif.Transf.tanhJacRvs q
  hessF := Verif.Transf.tanhHessFwd q
  hessR := Verif.Transf.tanhHessRvs q

/-- `CombinedTransform(self.transform_list, [mi1, mi2, 1])` of `_xtabs` (lines 135-136). -/
noncomputable def trs : List ((ℕ × ℕ) × Verif.Transf.Tr) :=
  (Verif.Transf.processIdx ([P.m1, P.m2, 1].map .len) 0).zip [ordTr P.m1, ordTr P.m2, tanhTr 1]

/-- The parameters of the transformed parameters. -/
noncomputable def rvs (y : ℕ → ℝ) : ℕ → ℝ := Verif.Transf.combApply P.len Verif.Transf.Tr.rvs P.trs y

/-- `loglike_transformed` (lines 297-301). -/
noncomputable def loglikeT (F : ℝ → ℝ → ℝ → ℝ) (y : ℕ → ℝ) : ℝ := P.loglike F (P.rvs y)

/-- `gradient_transformed` (lines 303-309). -/
noncomputable def gradientT (F : ℝ → ℝ → ℝ → ℝ) (erf : ℝ → ℝ) (y : ℕ → ℝ) (k : ℕ) : ℝ :=
  let x := P.rvs y
  let J := Verif.Transf.combJac Verif.Transf.Tr.jacR P.trs y
  let g := P.gradient F erf x
  ∑ i ∈ Finset.range P.len, g i * J i k

/-- `hessian_transformed` (lines 311-319). -/
noncomputable def hessianT (F : ℝ → ℝ → ℝ → ℝ) (erf : ℝ → ℝ) (y : ℕ → ℝ) (j k : ℕ) : ℝ :=
  let x := P.rvs y
  let J := Verif.Transf.combJac Verif.Transf.Tr.jacR P.trs y
  let D := Verif.Transf.combHess Verif.Transf.Tr.hessR P.trs y
  let g := P.gradient F erf x
  let H := P.hessian F erf x
  ∑ l ∈ Finset.range P.len, (∑ i ∈ Finset.range P.len, J i j * H i l) * J l k + ∑ i ∈ Finset.range P.len, D i j k * g i

/-- `qloglike_transformed` (lines 321-324). -/
noncomputable def qloglikeT (F : ℝ → ℝ → ℝ → ℝ) (a b : ℕ → ℝ) (y : ℝ) : ℝ := P.qloglike F a b (Real.tanh y)

/-- `qgradient_transformed` (lines 326-331). -/
noncomputable def qgradientT (F : ℝ → ℝ → ℝ → ℝ) (a b : ℕ → ℝ) (y : ℝ) : ℝ :=
  P.qgradient F a b (Real.tanh y) * (1 - Real.tanh y ^ 2)

/-- `qhessian_transformed` (lines 334-341). -/
noncomputable def qhessianT (F : ℝ → ℝ → ℝ → ℝ) (a b : ℕ → ℝ) (y : ℝ) : ℝ :=
  let J := 1 - Real.tanh y ^ 2
  let D := -2 * Real.tanh y * (1 - Real.tanh y ^ 2)
  P.qhessian F a b (Real.tanh y) * J ^ 2 + D * P.qgradient F a b (Real.tanh y)

end Pair

/-! ### `_fit_qml_newton` -/

/-- The halvings (lines 395-405): the accepted point, or `none` when they are exhausted. -/
noncomputable def newtonSearch (ll : ℝ → ℝ) (y step ll0 : ℝ) : ℕ → ℝ → Option ℝ
  | 0, _ => none
  | n + 1, alpha =>
    open Classical in
    if ll (Real.tanh (y + alpha * step)) < ll0 then some (y + alpha * step) else newtonSearch ll y step ll0 n (alpha * (1 / 2))

/-- The step (lines 384-393) for the score and the second derivative at `r`; `none` when the score is below the tolerance.  The Hessian is a
real number, so `np.isfinite` holds. -/
noncomputable def newtonDir (gr Hr r tol : ℝ) : ℝ × Option ℝ :=
  let omr := 1 - r * r
  let gy := gr * omr
  let Hy := Hr * omr ^ 2 - 2 * gr * r * omr
  open Classical in
  if |gy| < tol then (gy, none)
  else
    let Hy := if Hy ≤ 10 ^ (-12 : ℤ) then max |gy| (10 ^ (-6 : ℤ)) else Hy
    (gy, some (-gy / Hy))

/-- The loop (lines 383-405) with the likelihood, the score and the second derivative as functions of the correlation: the correlation, the
number of iterations and the last score computed. -/
noncomputable def newtonLoop (ll sc hs : ℝ → ℝ) (tol : ℝ) : ℕ → ℕ → ℝ → ℝ → ℝ → ℝ × ℕ × ℝ
  | 0, it, _, r, g => (r, it, g)
  | n + 1, it, y, r, _ =>
    match newtonDir (sc r) (hs r) r tol with
    | (gy, none) => (r, it + 1, gy)
    | (gy, some step) =>
      match newtonSearch ll y step (ll r) 20 1 with
      | none => (r, it + 1, gy)
      | some y' => newtonLoop ll sc hs tol n (it + 1) y' (Real.tanh y') gy

/-- `np.clip`. -/
def clip (x lo hi : ℝ) : ℝ := min (max x lo) hi

/-- `_fit_qml_newton` (lines 368-407): correlation, iterations, final score, success.  With `max_iter = 0` the loop variable is unbound and
the code raises. -/
noncomputable def newtonFit (ll sc hs : ℝ → ℝ) (r0 tol : ℝ) (maxIter : ℕ) (rclip : ℝ) : Option (ℝ × ℕ × ℝ × Prop) :=
  if maxIter = 0 then none
  else
    let r := clip r0 (-rclip) rclip
    let y := Real.artanh r
    let out := newtonLoop ll sc hs tol maxIter 0 y r 0
    some (out.1, out.2.1, out.2.2, |out.2.2| < tol)

end Verif.Lv
