import Mathlib.Analysis.SpecialFunctions.Exp
import Mathlib.Analysis.SpecialFunctions.Sqrt
import Mathlib.Analysis.SpecialFunctions.Trigonometric.Basic

/-!
Model of the bivariate normal functions of `pystatsm/utilities/func_utils.py` at one point (the array versions apply them elementwise).
`erf` stands for `scipy.special.erf` and `N` for `norm_cdf_jit`.
-/

namespace Verif.Lv

/-- `_GL32_W` (lines 20-32) times `10 ^ 16`. -/
def glW : List ℕ := [
  494723666239310, 494118330399182, 492303804237476, 489284528205120, 485067890978838, 479664211379951,
  473086713122689, 465351492453837, 456477478762926, 446486388259414, 435402670830276, 423253450208158,
  410068457596664, 395879958915441, 380722675843496, 364633700854573, 347652406453559, 329820348837793,
  311181166222198, 291780472082805, 271665743590979, 250886205533450, 229492710048899, 207537612580391,
  185074644601613, 162158784103383, 138846126161156, 115193760768800, 91259686763267, 67102917659601,
  42785083468638, 18398745955771]

/-- `_GL32_X` (lines 33-45) times `10 ^ 16`. -/
def glX : List ℕ := [
  0, 494521871161596, 987833564469453, 1478727863578720, 1966003467915067, 2448467932459534,
  2924940585862514, 3394255419745844, 3855263942122479, 4306837987951116, 4747872479948044, 5177288132900333,
  5594034094862850, 5997090518776252, 6385471058213654, 6758225281149861, 7114440995848458, 7453246483178474,
  7773812629903724, 8075354957734567, 8357135543195029, 8618464823641238, 8858703285078534, 9077263027785316,
  9273609206218432, 9447261340410098, 9597794497589419, 9724840346975701, 9828088105937273, 9907285468921895,
  9962240127779701, 9992829840291237]

/-- The pairs of weight and node. -/
noncomputable def glTable : List (ℝ × ℝ) := (List.zip glW glX).map fun p => ((p.1 : ℝ) / 10 ^ 16, (p.2 : ℝ) / 10 ^ 16)

/-- The sum `gsum` of `binorm_l2_jit` (lines 684-689) for the integrand `f` and half the length `r2`. -/
def gsum (f : ℝ → ℝ) (r2 : ℝ) : List (ℝ × ℝ) → ℝ
  | [] => 0
  | (w0, x0) :: rest => w0 * f ((1 + x0) * r2) + (rest.map fun p => p.1 * f ((1 - p.2) * r2) + p.1 * f ((1 + p.2) * r2)).sum

/-- The quadrature over `(0, r)` (lines 683-690). -/
noncomputable def gl (f : ℝ → ℝ) (r : ℝ) : ℝ :=
  let r2 := r / 2
  r2 * gsum f r2 glTable

/-- `norm_cdf` (lines 126-151) with the default mean and standard deviation. -/
noncomputable def normCdf (erf : ℝ → ℝ) (x : ℝ) : ℝ := (erf (x / √2) + 1) / 2

/-- `norm_pdf` (lines 153-176) with the default mean and standard deviation. -/
noncomputable def normPdf (x : ℝ) : ℝ := Real.exp (-x ^ 2 / 2) / √(2 * Real.pi)

/-- `binorm_pdf_jit` (lines 612-648). -/
noncomputable def pdfG (x y r mx my sx sy : ℝ) : ℝ :=
  let r2 := 1 - r ^ 2
  let c0 := 1 / (2 * Real.pi * sx * sy * √r2)
  let c1 := -1 / (2 * r2)
  let eq1 := (x - mx) ^ 2 / sx ^ 2
  let eq2 := (y - my) ^ 2 / sy ^ 2
  let eq3 := (2 * r * (x - mx) * (y - my)) / (sx * sy)
  c0 * Real.exp (c1 * (eq1 + eq2 - eq3))

/-- `binorm_pdf` (lines 818-856): the defaults of `binorm_pdf_jit`. -/
noncomputable def pdf (x y r : ℝ) : ℝ := pdfG x y r 0 0 1 1

/-- `binorm_dl_jit` (lines 652-657). -/
noncomputable def dl (h k r : ℝ) : ℝ :=
  let r2 := 1 - r ^ 2
  let constant := 1 / (2 * Real.pi * √r2)
  let d := Real.exp (-(h ^ 2 - 2 * r * h * k + k ^ 2) / (2 * r2))
  d * constant

/-- `binorm_l2_jit` (lines 661-692) with the rule `quad` for the integral over `(0, r)`. -/
noncomputable def l2 (quad : (ℝ → ℝ) → ℝ → ℝ) (N : ℝ → ℝ) (h k r : ℝ) : ℝ := quad (dl h k) r + N (-h) * N (-k)

/-- `binorm_cdf_jit` (lines 695-719). -/
noncomputable def cdf (quad : (ℝ → ℝ) → ℝ → ℝ) (N : ℝ → ℝ) (h k r : ℝ) : ℝ := l2 quad N h k r + N h + N k - 1

/-- The sum over the four corners of `binorm_cdf_region` (lines 860-896), `binorm_pdf_region` (lines 899-929) and `dbinorm_pdf_region`
(lines 975-1004). -/
def region (f : ℝ → ℝ → ℝ → ℝ) (l1 l2 u1 u2 r : ℝ) : ℝ := f u1 u2 r - f u1 l2 r - f l1 u2 r + f l1 l2 r

/-- `dbinorm_pdf` (lines 933-972). -/
noncomputable def dpdf (x y r : ℝ) : ℝ :=
  let xy := x * y
  let x2 := x ^ 2
  let y2 := y ^ 2
  let r2 := r ^ 2
  let s := 1 - r2
  let u1 := x2 / (2 * s)
  let u2 := r * xy / s
  let u3 := y2 / (2 * s)
  let num1 := Real.exp (-u1 + u2 - u3)
  let num2 := r ^ 3 - r2 * xy + r * x2 + r * y2 - r - xy
  let num := num1 * num2
  let den := 2 * Real.pi * (r - 1) * (r + 1) * √(s ^ 3)
  num / den

/-- `dbinorm_cdf_du` (lines 1052-1056). -/
noncomputable def cdfDu (erf : ℝ → ℝ) (u v r : ℝ) : ℝ :=
  let den := √(1 - r ^ 2)
  let num := v - r * u
  normCdf erf (num / den) * normPdf u

/-- `d2binorm_cdf_du2` (lines 1058-1067). -/
noncomputable def cdfDu2 (erf : ℝ → ℝ) (u v r : ℝ) : ℝ :=
  let x0 := √2
  let x1 := Real.exp (-u ^ 2 / 2)
  let x2 := v - r * u
  let x3 := 1 - r ^ 2
  let x4 := 1 / (2 * √x3)
  let t1 := -r * x1 * x4 * Real.exp (-x2 ^ 2 / (2 * x3)) / Real.pi
  let t2 := u * x0 * x1 * (erf (x0 * x2 * x4) / 2 + 1 / 2) / (2 * √Real.pi)
  t1 - t2

/-- `d2binorm_cdf_duv` (lines 1069-1072). -/
noncomputable def cdfDuv (u v r : ℝ) : ℝ :=
  let x0 := 1 - r ^ 2
  Real.exp (-u ^ 2 / 2) * Real.exp (-(v - r * u) ^ 2 / (2 * x0)) / (2 * Real.pi * √x0)

/-- `d2binorm_cdf_dur` (lines 1074-1080). -/
noncomputable def cdfDur (u v r : ℝ) : ℝ :=
  let x0 := 1 / ((r - 1) * (r + 1))
  let x1 := 2 * r * v - 2 * u
  let x2 := -x0 * (2 * r * u * v - u ^ 2 - v ^ 2) / 2
  let x3 := 4 * Real.pi * √(1 - r ^ 2)
  (-x0) * x1 * Real.exp x2 / x3

/-- The upper tail of `_norm_cdf` before the sign is looked at (lines 540-574). -/
noncomputable def hartTail (zabs : ℝ) : ℝ :=
  let u := Real.exp (-(1 / 2) * zabs ^ 2)
  let ppdf := u / 2.506628274631001
  open Classical in
  if zabs < 7.071 then
    let num := ((((((0.03526249659989109 * zabs + 0.7003830644436881) * zabs + 6.373962203531650) * zabs + 33.91286607838300) * zabs +
      112.0792914978709) * zabs + 221.2135961699311) * zabs + 220.2068679123761)
    let den := (((((((0.08838834764831844 * zabs + 1.755667163182642) * zabs + 16.06417757920695) * zabs + 86.78073220294608) * zabs +
      296.5642487796737) * zabs + 637.3336333788311) * zabs + 793.8265125199484) * zabs + 440.4137358247522)
    u * num / den
  else ppdf / (zabs + 1 / (zabs + 2 / (zabs + 3 / (zabs + 4 / (zabs + 0.65)))))

/-- `_norm_cdf` (lines 525-581), called by `norm_cdf_jit` (lines 584-607) with the default mean and deviation. -/
noncomputable def hart (z : ℝ) : ℝ :=
  let zabs := |z|
  open Classical in
  if 37 < zabs then
    if 0 < z then 1 else 0
  else
    let pp := hartTail zabs
    if z < 0 then pp else 1 - pp

end Verif.Lv
