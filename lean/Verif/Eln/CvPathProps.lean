import Verif.Eln.CvPath
import Mathlib.Tactic
/-!
# C273: cross-validation of the Gaussian elastic net

The chosen penalty has the least average error over the folds, the coefficients are those fitted to all the data at it, and each fold is
fitted to its own data only.
-/
namespace Verif.Eln
variable {α : Type*} [Field α] [LinearOrder α] {o : CvOpt α} {n : ℕ} {X : ℕ → ℕ → α} {y : ℕ → α}

/-- `idxMin` gives the first of the least. -/
theorem idxMin_spec {l : List α} {k : ℕ} (h : idxMin l = some k) :
    ∃ x, l[k]? = some x ∧ (∀ z ∈ l, x ≤ z) ∧ ∀ j z, j < k → l[j]? = some z → x < z := by
  induction l generalizing k with
  | nil => simp [idxMin] at h
  | cons a l ih =>
    unfold idxMin at h
    cases hl : idxMin l with
    | none =>
      have : l = [] := by
        cases l with
        | nil => rfl
        | cons b l =>
          unfold idxMin at hl
          split at hl
          · simp at hl
          · split at hl <;> simp at hl
      subst this
      rw [hl] at h
      obtain rfl : 0 = k := by simpa using h
      exact ⟨a, rfl, by simp, fun j z hj => absurd hj (Nat.not_lt_zero _)⟩
    | some j =>
      rw [hl] at h
      obtain ⟨x, hx, hmin, hfst⟩ := ih hl
      simp only [hx, Option.getD_some] at h
      split at h
      · rename_i hax
        obtain rfl : 0 = k := by simpa using h
        refine ⟨a, rfl, ?_, fun j z hj => absurd hj (Nat.not_lt_zero _)⟩
        intro z hz
        rcases List.mem_cons.mp hz with rfl | hz
        · exact le_rfl
        · exact hax.trans (hmin z hz)
      · rename_i hax
        obtain rfl : j + 1 = k := by simpa using h
        refine ⟨x, by simpa using hx, ?_, ?_⟩
        · intro z hz
          rcases List.mem_cons.mp hz with rfl | hz
          · exact (not_le.mp hax).le
          · exact hmin z hz
        · intro i z hi hz
          cases i with
          | zero => obtain rfl : a = z := by simpa using hz
                    exact not_le.mp hax
          | succ i => exact hfst i z (by omega) (by simpa using hz)

theorem cvLoop_cons {lam : α} {lams : List α} {i : ℕ} {s : CvSt α} {t} (h : cvLoop o n X y (lam :: lams) i s = some t) :
    ∃ r bi t', cvFolds o i lam s.folds s.b = some r ∧ cvRefit o n X y i lam s = some bi ∧
      cvLoop o n X y lams (i + 1) ⟨List.zipWith (fun f b => (f.1, f.2.2, b.1)) s.folds r.1, r.2, s.r1, bi⟩ = some t' ∧
      t = (r.1, bi) :: t' := by
  rw [cvLoop, Option.bind_eq_some_iff] at h
  obtain ⟨r, h1, h⟩ := h
  rw [Option.bind_eq_some_iff] at h
  obtain ⟨bi, h2, h⟩ := h
  rw [Option.map_eq_some_iff] at h
  obtain ⟨t', h3, h4⟩ := h
  exact ⟨r, bi, t', h1, h2, h3, h4.symm⟩

theorem cvLoop_length {lams : List α} {i : ℕ} {s : CvSt α} {t} (h : cvLoop o n X y lams i s = some t) : t.length = lams.length := by
  induction lams generalizing i s t with
  | nil => rw [cvLoop] at h; obtain rfl := Option.some.inj h; rfl
  | cons lam lams ih =>
    obtain ⟨r, bi, t', -, -, h3, rfl⟩ := cvLoop_cons h
    simp [ih h3]

/-- The path of fits over the penalties, each started from the one before. -/
inductive CvPath (o : CvOpt α) (n : ℕ) (X : ℕ → ℕ → α) (y : ℕ → α) : List α → ℕ → (ℕ → α) → (ℕ → α) → List (ℕ → α) → Prop
  | nil (i b2 b1) : CvPath o n X y [] i b2 b1 []
  | cons {lam lams i b2 b1 b bs} (h : cvFit o n X y i lam b2 b1 = some b) (t : CvPath o n X y lams (i + 1) b1 b bs) :
      CvPath o n X y (lam :: lams) i b2 b1 (b :: bs)

theorem cvLoop_refit (hw : o.warm = true) (hr : o.refit = true) {lams : List α} {i : ℕ} {s : CvSt α} {t}
    (h : cvLoop o n X y lams i s = some t) : CvPath o n X y lams i s.r2 s.r1 (t.map Prod.snd) := by
  induction lams generalizing i s t with
  | nil => rw [cvLoop] at h; obtain rfl := Option.some.inj h; exact .nil _ _ _
  | cons lam lams ih =>
    obtain ⟨r, bi, t', -, h2, h3, rfl⟩ := cvLoop_cons h
    rw [cvRefit, if_pos hr, if_pos hw] at h2
    exact .cons h2 (ih h3)

/-- The rows of `bfits` are the fits to all the data along the penalties, each started from the one before. -/
theorem C273_refit (hw : o.warm = true) (hr : o.refit = true) {folds : List (CvFold α)} {lams : List α} {b : Option (ℕ → α)} {t}
    (h : cvGlmnet o n X y folds lams b = some t) : CvPath o n X y lams 0 (fun _ => 0) (fun _ => 0) (t.map Prod.snd) :=
  cvLoop_refit hw hr h

theorem cvFolds_cons {i : ℕ} {lam : α} {F : CvFold α} {b2 b1 : ℕ → α} {fs} {b : ℕ → α} {r}
    (h : cvFolds o i lam ((F, b2, b1) :: fs) b = some r) :
    ∃ bi r', cvFit o F.nf F.Xf F.yf i lam b2 (if o.warm then b1 else b) = some bi ∧ cvFolds o i lam fs bi = some r' ∧
      r = ((bi, cvFoldVal o F lam bi) :: r'.1, r'.2) := by
  rw [cvFolds, Option.bind_eq_some_iff] at h
  obtain ⟨bi, h1, h⟩ := h
  rw [Option.map_eq_some_iff] at h
  obtain ⟨r', h2, h3⟩ := h
  exact ⟨bi, r', h1, h2, h3.symm⟩

theorem cvFolds_get (hw : o.warm = true) {i : ℕ} {lam : α} {fs} {b : ℕ → α} {r} (h : cvFolds o i lam fs b = some r) {k : ℕ}
    {F : CvFold α} {b2 b1 : ℕ → α} (hk : fs[k]? = some (F, b2, b1)) :
    ∃ bi, cvFit o F.nf F.Xf F.yf i lam b2 b1 = some bi ∧ r.1[k]? = some (bi, cvFoldVal o F lam bi) := by
  induction fs generalizing b r k with
  | nil => simp at hk
  | cons f fs ih =>
    obtain ⟨F', c2, c1⟩ := f
    obtain ⟨bi, r', h1, h2, rfl⟩ := cvFolds_cons h
    cases k with
    | zero =>
      simp only [List.getElem?_cons_zero, Option.some.injEq, Prod.mk.injEq] at hk
      obtain ⟨rfl, rfl, rfl⟩ := hk
      rw [if_pos hw] at h1
      exact ⟨bi, h1, rfl⟩
    | succ k => simpa using ih h2 (by simpa using hk)

theorem cvLoop_fold (hw : o.warm = true) {lams : List α} {i : ℕ} {s : CvSt α} {t} (h : cvLoop o n X y lams i s = some t) {k : ℕ}
    {F : CvFold α} {b2 b1 : ℕ → α} (hk : s.folds[k]? = some (F, b2, b1)) :
    ∃ bs, CvPath o F.nf F.Xf F.yf lams i b2 b1 bs ∧
      t.map (fun r => r.1[k]?) = (lams.zip bs).map fun x => some (x.2, cvFoldVal o F x.1 x.2) := by
  induction lams generalizing i s t b2 b1 with
  | nil => rw [cvLoop] at h; obtain rfl := Option.some.inj h; exact ⟨[], .nil _ _ _, rfl⟩
  | cons lam lams ih =>
    obtain ⟨r, bi, t', h1, -, h3, rfl⟩ := cvLoop_cons h
    obtain ⟨c, hc, hg⟩ := cvFolds_get hw h1 hk
    obtain ⟨bs, hp, he⟩ := ih h3 (b2 := b1) (b1 := c) (by simp [List.getElem?_zipWith, hk, hg])
    refine ⟨c :: bs, .cons hc hp, ?_⟩
    rw [List.map_cons, he, List.zip_cons_cons, List.map_cons, hg]

/-- With warm starts each fold runs along the penalties on its own data only, each fit started from the fold's last one, and its values
are those of its own left out data. -/
theorem C273_folds_partial (hw : o.warm = true) {folds : List (CvFold α)} {lams : List α} {b : Option (ℕ → α)} {t}
    (h : cvGlmnet o n X y folds lams b = some t) {k : ℕ} {F : CvFold α} (hk : folds[k]? = some F) :
    ∃ bs, CvPath o F.nf F.Xf F.yf lams 0 (fun _ => 0) (fun _ => 0) bs ∧
      t.map (fun r => r.1[k]?) = (lams.zip bs).map fun x => some (x.2, cvFoldVal o F x.1 x.2) :=
  cvLoop_fold hw h (by simp [hk])

theorem cvPath_get {lams : List α} {i : ℕ} {b2 b1 : ℕ → α} {bs} (h : CvPath o n X y lams i b2 b1 bs) {k : ℕ} {lam : α} {b : ℕ → α}
    (hl : lams[k]? = some lam) (hb : bs[k]? = some b) : ∃ c2 c1, cvFit o n X y (i + k) lam c2 c1 = some b := by
  induction h generalizing k with
  | nil => simp at hl
  | cons h t ih =>
    cases k with
    | zero =>
      simp only [List.getElem?_cons_zero, Option.some.injEq] at hl hb
      subst hl hb
      exact ⟨_, _, h⟩
    | succ k =>
      obtain ⟨c2, c1, hc⟩ := ih (by simpa using hl) (by simpa using hb)
      exact ⟨c2, c1, by rw [← hc]; congr 1; omega⟩

theorem fitCv_eq {folds : List (CvFold α)} {lams : List α} {b : Option (ℕ → α)} {lam : α} {beta : ℕ → α}
    (h : fitCv o n X y folds lams b = some (lam, beta)) :
    ∃ t k r, cvGlmnet o n X y folds lams b = some t ∧ idxMin (t.map fun r => cvMean r.1) = some k ∧ lams[k]? = some lam ∧
      t[k]? = some r ∧ r.2 = beta := by
  rw [fitCv, Option.bind_eq_some_iff] at h
  obtain ⟨t, h1, h⟩ := h
  rw [Option.bind_eq_some_iff] at h
  obtain ⟨k, h2, h⟩ := h
  rw [Option.bind_eq_some_iff] at h
  obtain ⟨l, h3, h⟩ := h
  rw [Option.map_eq_some_iff] at h
  obtain ⟨r, h4, h5⟩ := h
  obtain ⟨rfl, h6⟩ := Prod.mk.inj h5
  exact ⟨t, k, r, h1, h2, h3, h4, h6⟩

/-- The penalty chosen has the least average value over the folds, and with refitting the coefficients come from a fit to all the data at
that penalty. -/
theorem C273_choice_partial (hw : o.warm = true) (hr : o.refit = true) {folds : List (CvFold α)} {lams : List α} {b : Option (ℕ → α)}
    {lam : α} {beta : ℕ → α} (h : fitCv o n X y folds lams b = some (lam, beta)) :
    ∃ t k r, cvGlmnet o n X y folds lams b = some t ∧ lams[k]? = some lam ∧ t[k]? = some r ∧ (∀ q ∈ t, cvMean r.1 ≤ cvMean q.1) ∧
      ∃ c2 c1, cvFit o n X y k lam c2 c1 = some beta := by
  obtain ⟨t, k, r, h1, h2, h3, h4, rfl⟩ := fitCv_eq h
  obtain ⟨x, hx, hmin, -⟩ := idxMin_spec h2
  have hxr : cvMean r.1 = x := by simpa [h4] using hx
  obtain ⟨c2, c1, hc⟩ := cvPath_get (C273_refit hw hr h1) h3 (b := r.2) (by simp [h4])
  exact ⟨t, k, r, h1, h3, h4, fun q hq => hxr ▸ hmin _ (List.mem_map_of_mem hq), c2, c1, by simpa using hc⟩

theorem cvLoop_no_refit (hr : o.refit = false) {lams : List α} {i : ℕ} {s : CvSt α} {t} (h : cvLoop o n X y lams i s = some t) :
    ∀ r ∈ t, r.2 = fun _ => 0 := by
  induction lams generalizing i s t with
  | nil => rw [cvLoop] at h; obtain rfl := Option.some.inj h; simp
  | cons lam lams ih =>
    obtain ⟨r, bi, t', -, h2, h3, rfl⟩ := cvLoop_cons h
    rw [cvRefit, hr] at h2
    intro q hq
    rcases List.mem_cons.mp hq with rfl | hq
    · simpa using h2.symm
    · exact ih h3 q hq

/-- Without refitting the coefficients kept are zero whatever the data. -/
theorem C273_no_refit_violated (hr : o.refit = false) {folds : List (CvFold α)} {lams : List α} {b : Option (ℕ → α)} {lam : α}
    {beta : ℕ → α} (h : fitCv o n X y folds lams b = some (lam, beta)) : beta = fun _ => 0 := by
  obtain ⟨t, k, r, h1, -, -, h4, rfl⟩ := fitCv_eq h
  exact cvLoop_no_refit hr h1 r (List.mem_of_getElem? h4)

/-- Without an intercept the first value is the mean squared error of the predictions for the left out data. -/
theorem C273_error_partial (ho : o.intercept = false) [IsStrictOrderedRing α] (F : CvFold α) (lam : α) (b : ℕ → α) :
    (cvFoldVal o F lam b).1 = (∑ i ∈ Finset.range F.nt, (F.yt i - ∑ j ∈ Finset.range o.p, F.Xt i j * b j) ^ 2) / F.nt := by
  unfold cvFoldVal
  simp only [ho, Bool.false_eq_true, if_false, loglike, msr, resid]
  rcases Nat.eq_zero_or_pos F.nt with h | h
  · simp [h]
  · have : (F.nt : α) ≠ 0 := by exact_mod_cast h.ne'
    field_simp

/-- With an intercept a constant added to the left out responses goes unnoticed. -/
theorem C273_shift (ho : o.intercept = true) [IsStrictOrderedRing α] (F : CvFold α) (hn : 0 < F.nt) (lam c : α) (b : ℕ → α) :
    cvFoldVal o { F with yt := fun i => F.yt i + c } lam b = cvFoldVal o F lam b := by
  have h : (F.nt : α) ≠ 0 := by exact_mod_cast hn.ne'
  have hm : mean F.nt (fun i => F.yt i + c) = mean F.nt F.yt + c := by
    unfold mean
    rw [Finset.sum_add_distrib, Finset.sum_const, Finset.card_range, nsmul_eq_mul]
    field_simp
  unfold cvFoldVal
  simp only [ho, if_true, hm, add_sub_add_right_eq_sub]

/-- So with one observation left out at a time, and predictors zero for it, the error is zero however far it is from the mean of the
others that `predict` gives for it. -/
theorem C273_error_violated : ∃ (o : CvOpt ℚ) (F : CvFold ℚ), o.intercept = true ∧ F.nt = 1 ∧ F.Xt = (fun _ _ => 0) ∧
    ∀ lam b, (cvFoldVal o F lam b).1 = 0 ∧ (F.yt 0 - mean F.nf F.yf) ^ 2 = 25 := by
  refine ⟨⟨1, 1, 1, 0, 1, true, true, true, true⟩, ⟨2, fun _ _ => 0, fun _ => 0, 1, fun _ _ => 0, fun _ => 5⟩, rfl, rfl, rfl, fun lam b => ⟨?_, ?_⟩⟩
  · simp [cvFoldVal, loglike, msr, resid, mean]
  · norm_num [mean]

/-- The second fold of the example below, fitted with cold starts. -/
def coldFold : CvFold ℚ := ⟨2, fun i j => if i = 0 then 1 else if j = 0 then 1 else 0, fun i => if i = 0 then 1 else 0, 1, fun _ _ => 0, fun _ => 0⟩

/-- The first one, with response `a`. -/
def otherFold (a : ℚ) : CvFold ℚ := ⟨2, fun i j => if i = j then 1 else 0, fun _ => a, 1, fun _ _ => 0, fun _ => 0⟩

def coldRun (warm : Bool) (a : ℚ) : Option (List ℚ) :=
  ((cvGlmnet ⟨2, 1, 1, 0, 1, true, warm, false, false⟩ 2 (fun _ _ => 0) (fun _ => 0) [otherFold a, coldFold] [0] none).bind
    fun t => t[0]?).map fun r => (r.1.drop 1).map fun x => x.1 0

/-- With cold starts the fits of a fold start from the fit of the fold before, so that its coefficients depend on the data of the other
folds, which hold its own left out data. -/
theorem C273_cold_violated : coldRun false 0 ≠ coldRun false 2 ∧ coldRun true 0 = coldRun true 2 := by
  decide +kernel

/-- The options, data and folds of an example. -/
def cvEx (intercept : Bool) : CvOpt ℚ := ⟨1, 1, 1, 0, 5, true, true, true, intercept⟩

/-- With an intercept asked for, `fit_cv` does what the loops do. -/
theorem C273_intercept_partial (o : CvOpt α) (ho : o.intercept = true) (folds : List (CvFold α)) (lams : List α) (b : Option (ℕ → α)) :
    glmenFitCv o n X y folds lams b = fitCv o n X y folds lams b := by
  obtain ⟨p, al, lm, dt, it, sr, w, rf, ic⟩ := o
  simp only at ho
  subst ho
  rfl

/-- Without one it centres the response all the same. -/
theorem C273_intercept_violated :
    (glmenFitCv (cvEx false) 1 (fun _ _ => 1) (fun _ => 2) [⟨1, fun _ _ => 1, fun _ => 2, 1, fun _ _ => 1, fun _ => 2⟩] [1] none).map
      (fun r => r.2 0) = some 0 ∧
    (fitCv (cvEx false) 1 (fun _ _ => 1) (fun _ => 2) [⟨1, fun _ _ => 1, fun _ => 2, 1, fun _ _ => 1, fun _ => 2⟩] [1] none).map
      (fun r => r.2 0) = some 1 := by
  decide +kernel

/-- A run that ends. -/
example : (fitCv (⟨1, 1, 1, 0, 5, true, true, true, false⟩ : CvOpt ℚ) 2 (fun _ _ => 1) (fun i => i + 1)
    [⟨1, fun _ _ => 1, fun _ => 1, 1, fun _ _ => 1, fun _ => 2⟩, ⟨1, fun _ _ => 1, fun _ => 2, 1, fun _ _ => 1, fun _ => 1⟩]
    [1, 1 / 2, 1 / 4] none).map (fun r => (r.1, r.2 0)) = some (1 / 4, 5 / 4) := by
  decide +kernel

end Verif.Eln
