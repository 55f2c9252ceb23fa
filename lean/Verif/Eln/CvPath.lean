import Verif.Eln.Model
/-!
# Cross-validation of the Gaussian elastic net

Model of the loops of `cv_glmnet` (pystatsm/pyglmnet/gaussian_eln.py lines 132-186), of `process_cv` (eln_utils.py lines 46-51) and of
`GLMEN.fit_cv` (glmen.py lines 73-85).

Simplifications: the folds are given; the penalties are given as an array; the numbers of iterations and the standard errors are left out.
Arrays of coefficients that are read at rows `i-1` and `i` and written at row `i+1` are passed as the two rows read.
-/
namespace Verif.Eln
variable {α : Type*} [Field α] [LinearOrder α]

/-- The data of one fold: fitted on `Xf`, `yf`, evaluated on `Xt`, `yt`. -/
structure CvFold (α : Type*) where
  nf : ℕ
  Xf : ℕ → ℕ → α
  yf : ℕ → α
  nt : ℕ
  Xt : ℕ → ℕ → α
  yt : ℕ → α

/-- The options of `cv_glmnet` that do not change. -/
structure CvOpt (α : Type*) where
  p : ℕ
  al : α
  lamMax : α
  dtol : α
  iters : ℕ
  seqRule : Bool
  warm : Bool
  refit : Bool
  intercept : Bool

/-- `active` — 145-152, 171-178; `b2` is row `i - 1` of the coefficients. -/
def cvActive (o : CvOpt α) (n : ℕ) (X : ℕ → ℕ → α) (y : ℕ → α) (i : ℕ) (lam : α) (b2 : ℕ → α) : ℕ → Bool :=
  if o.seqRule then
    if i = 0 then fun _ => true else screen n X (resid o.p X y b2) o.al lam o.lamMax
  else fun _ => true

/-- `bi` — 153-155, 179-181. -/
def cvFit (o : CvOpt α) (n : ℕ) (X : ℕ → ℕ → α) (y : ℕ → α) (i : ℕ) (lam : α) (b2 start : ℕ → α) : Option (ℕ → α) :=
  (elnet n o.p X y lam o.al (some start) (some (cvActive o n X y i lam b2)) o.iters o.dtol o.intercept).map fun s => s.1.b

/-- `fi` — 156-159, with the doubling of its first entry — 185. -/
def cvFoldVal (o : CvOpt α) (F : CvFold α) (lam : α) (b : ℕ → α) : α × α × α :=
  let y := if o.intercept then fun i => F.yt i - mean F.nt F.yt else F.yt
  let f := loglike F.nt o.p F.Xt y b o.al lam
  (f.1 * 2, f.2)

/-- `for k in range(cv)` — 140-163: each fold with rows `i - 1` and `i` of its coefficients; the state is `b`. -/
def cvFolds (o : CvOpt α) (i : ℕ) (lam : α) : List (CvFold α × (ℕ → α) × (ℕ → α)) → (ℕ → α) →
    Option (List ((ℕ → α) × α × α × α) × (ℕ → α))
  | [], b => some ([], b)
  | (F, b2, b1) :: fs, b =>
    (cvFit o F.nf F.Xf F.yf i lam b2 (if o.warm then b1 else b)).bind fun bi =>
      (cvFolds o i lam fs bi).map fun r => ((bi, cvFoldVal o F lam bi) :: r.1, r.2)

/-- What the loop over the penalties carries: each fold with its last two rows, `b`, the last two rows of `betas`. -/
structure CvSt (α : Type*) where
  folds : List (CvFold α × (ℕ → α) × (ℕ → α))
  b : ℕ → α
  r2 : ℕ → α
  r1 : ℕ → α

/-- `if refit` — 166-181: row `i + 1` of `betas`, which stays zero without. -/
def cvRefit (o : CvOpt α) (n : ℕ) (X : ℕ → ℕ → α) (y : ℕ → α) (i : ℕ) (lam : α) (s : CvSt α) : Option (ℕ → α) :=
  if o.refit then cvFit o n X y i lam s.r2 (if o.warm then s.r1 else fun _ => 0) else some fun _ => 0

/-- `for i, lambda_ in enumerate(lambdas)` — 139-181: for each penalty the folds' coefficients and values, and the row of `betas`. -/
def cvLoop (o : CvOpt α) (n : ℕ) (X : ℕ → ℕ → α) (y : ℕ → α) : List α → ℕ → CvSt α →
    Option (List (List ((ℕ → α) × α × α × α) × (ℕ → α)))
  | [], _, _ => some []
  | lam :: lams, i, s =>
    (cvFolds o i lam s.folds s.b).bind fun r =>
      (cvRefit o n X y i lam s).bind fun bi =>
        (cvLoop o n X y lams (i + 1)
          ⟨List.zipWith (fun f b => (f.1, f.2.2, b.1)) s.folds r.1, r.2, s.r1, bi⟩).map fun t => (r.1, bi) :: t

/-- `cv_glmnet` — 121-122, 132-186. -/
def cvGlmnet (o : CvOpt α) (n : ℕ) (X : ℕ → ℕ → α) (y : ℕ → α) (folds : List (CvFold α)) (lams : List α) (b : Option (ℕ → α)) :
    Option (List (List ((ℕ → α) × α × α × α) × (ℕ → α))) :=
  cvLoop o n X y lams 0 ⟨folds.map fun F => (F, fun _ => 0, fun _ => 0), b.getD (xty n X y), fun _ => 0, fun _ => 0⟩

/-- `idxmin`: the first position of the least entry; of nothing it raises. -/
def idxMin : List α → Option ℕ
  | [] => none
  | x :: xs =>
    match idxMin xs with
    | none => some 0
    | some j => if x ≤ xs[j]?.getD x then some 0 else some (j + 1)

/-- `mean` of `process_cv` — eln_utils.py 47-48: the first value averaged over the folds. -/
def cvMean (row : List ((ℕ → α) × α × α × α)) : α := (row.map fun x => x.2.1).sum / row.length

/-- `lambda_min` and `beta` from the result of `cv_glmnet` — glmen.py 82-85. -/
def fitCv (o : CvOpt α) (n : ℕ) (X : ℕ → ℕ → α) (y : ℕ → α) (folds : List (CvFold α)) (lams : List α) (b : Option (ℕ → α)) :
    Option (α × (ℕ → α)) :=
  (cvGlmnet o n X y folds lams b).bind fun res =>
    (idxMin (res.map fun r => cvMean r.1)).bind fun k =>
      (lams[k]?).bind fun lam => (res[k]?).map fun r => (lam, r.2)

/-- `GLMEN.fit_cv` — glmen.py 69-85: `intercept` is an argument of its own, and is not among those handed on at 73-77, so that
`cv_glmnet` uses its default. -/
def glmenFitCv (o : CvOpt α) (n : ℕ) (X : ℕ → ℕ → α) (y : ℕ → α) (folds : List (CvFold α)) (lams : List α) (b : Option (ℕ → α)) :
    Option (α × (ℕ → α)) :=
  fitCv { o with intercept := true } n X y folds lams b

end Verif.Eln
