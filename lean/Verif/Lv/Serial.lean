import Verif.Lv.Sample

/-!
Model of `dcrep` and `Polyserial` of `pystatsm/pylvcorr/lvcorr.py` and of `polyex`, `norm_qtf` and `polyserial_ll` of `statfuncs.py`, for an array `x` of
real numbers and a column `y` of integers.  `erf` and `erfinv` are the functions of `scipy.special`.
-/

namespace Verif.Lv

/-- A threshold: a number or one of `-np.inf`, `np.inf`. -/
inductive Ext where
  | bot
  | fin (t : ℝ)
  | top

/-- `norm_qtf` of `statfuncs.py` (lines 83-85), which is infinite at zero and one. -/
noncomputable def qtfE (erfinv : ℝ → ℝ) (q : ℚ) : Ext :=
  if q = 1 then .top else if q = 0 then .bot else .fin (√2 * erfinv (2 * (q : ℝ) - 1))

/-- `dcrep` (lines 237-242) at one entry: the value of the key at the position where the entry would be inserted; `none` past the last one
(IndexError). -/
def dcrep {β : Type} (dic : List (ℤ × β)) (a : ℤ) : Option β :=
  let s := dic.insertionSort fun p q => p.1 ≤ q.1
  (s[s.countP fun p => decide (p.1 < a)]?).map Prod.snd

/-- `order` (line 294). -/
def order (y : List ℤ) : List (ℤ × ℤ) := (uniq y).zip ((List.range (uniq y).length).map fun k : ℕ => (k : ℤ))

/-- `tau_arr` (lines 295-297). -/
noncomputable def tauArr (erfinv : ℝ → ℝ) (y : List ℤ) : List Ext :=
  .bot :: (cumsum 0 (catt y)).map fun c : ℕ => qtfE erfinv ((c : ℚ) / ((catt y).sum : ℚ))

/-- `tau_dict` (lines 298-299); the last value of `order` is read, so an empty column raises. -/
noncomputable def tauDict (erfinv : ℝ → ℝ) (y : List ℤ) : Option (List (ℤ × Ext)) := do
  let vals := (order y).map Prod.snd
  let last ← vals.getLast?
  some ((vals ++ [last + 1]).zip (tauArr erfinv y))

/-- The observations: `x`, `tau1`, `tau2` (lines 300-305). -/
noncomputable def serialObs (erfinv : ℝ → ℝ) (x : List ℝ) (y : List ℤ) : Option (List (ℝ × Ext × Ext)) := do
  let d ← tauDict erfinv y
  (x.zip y).mapM fun p => do
    let k ← dcrep (order y) p.2
    let t1 ← dcrep d k
    let t2 ← dcrep d (k + 1)
    some (p.1, t1, t2)

/-- `polyex` of `statfuncs.py` (lines 360-361) for `|rho| < 1`. -/
noncomputable def polyex (x : ℝ) (tau : Ext) (rho : ℝ) : Ext :=
  match tau with
  | .bot => .bot
  | .top => .top
  | .fin t => .fin ((t - rho * x) / √(1 - rho ^ 2))

/-- `norm_cdf`. -/
noncomputable def cdfE (erf : ℝ → ℝ) : Ext → ℝ
  | .bot => 0
  | .top => 1
  | .fin t => normCdf erf t

/-- `norm_pdf`. -/
noncomputable def pdfE : Ext → ℝ
  | .bot => 0
  | .top => 0
  | .fin t => normPdf t

/-- `tmp1`, `tmp2` of `gradient` (lines 361-365).  A finite threshold below `-1e12` is not replaced in the model. -/
def tmpE : Ext → ℝ
  | .bot => 0
  | .top => 0
  | .fin t => t

/-- `prob` (lines 319-323) at one observation. -/
noncomputable def serialProb (erf : ℝ → ℝ) (o : ℝ × Ext × Ext) (r : ℝ) : ℝ :=
  let th1 := polyex o.1 o.2.1 r
  let th2 := polyex o.1 o.2.2 r
  cdfE erf th2 - cdfE erf th1

/-- `loglike` (lines 339-340). -/
noncomputable def serialLl (erf : ℝ → ℝ) (l : List (ℝ × Ext × Ext)) (r : ℝ) : ℝ := -(l.map fun o => Real.log (serialProb erf o r)).sum

/-- `gradient` (lines 357-373). -/
noncomputable def serialGrad (erf : ℝ → ℝ) (l : List (ℝ × Ext × Ext)) (r : ℝ) : ℝ :=
  (l.map fun o =>
    let x := o.1
    let tau1 := o.2.1
    let tau2 := o.2.2
    let th1 := polyex x tau1 r
    let th2 := polyex x tau2 r
    let u := pdfE th2 * (tmpE tau2 * r - x)
    let v := pdfE th1 * (tmpE tau1 * r - x)
    let p := serialProb erf o r;
    -1 / (p * √((1 - r ^ 2) ^ 3)) * (u - v)).sum

/-- `polyserial_ll` of `statfuncs.py` (lines 363-370) with the array `tau` and the dictionary `order`. -/
noncomputable def polyserialLl (erf : ℝ → ℝ) (rho : ℝ) (x : List ℝ) (y : List ℤ) (tau : List Ext) (ord : ℤ → Option ℕ) : Option ℝ := do
  let ll ← (x.zip y).mapM fun p => do
    let k ← ord p.2
    let u ← tau[k + 1]?
    let v ← tau[k]?
    some (Real.log (cdfE erf (polyex p.1 u rho) - cdfE erf (polyex p.1 v rho)))
  some (-ll.sum)

end Verif.Lv
