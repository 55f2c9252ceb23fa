import Verif.Glm.Inference
import Verif.Glm.DevianceProps
import Mathlib.LinearAlgebra.Matrix.PosDef
import Mathlib.Algebra.Order.Star.Real
/-!
# C213: robust covariance, bootstrap and null model of `GLM`
-/
namespace Verif.Glm
open Real Set

variable {n p : ℕ}

/-! ## Robust covariance -/

/-- When the family carries the weights of the model, the rows that are squared sum to the gradient,
and the result is symmetric and positive semidefinite. -/
theorem C213_robust_partial (f : Fam) (est : Scale) (d : Dat n p) (beta : Fin p → ℝ) (tau : ℝ)
    {A : Matrix (Fin p) (Fin p) ℝ} (hA : A.transpose = A) :
    (∀ j, ∑ i, gradIBeta f est (d.withWeights d.w) beta tau i j = gradBeta f est d beta tau j) ∧
    (robustCov A (robustMeat f est d d.w beta tau)).PosSemidef := by
  refine ⟨fun j => rfl, ?_⟩
  let G : Matrix (Fin n) (Fin p) ℝ := fun i j => gradIBeta f est (d.withWeights d.w) beta tau i j
  have e : robustCov A (robustMeat f est d d.w beta tau) = (G * A).conjTranspose * (G * A) := by
    have h1 : robustMeat f est d d.w beta tau = G.transpose * G := rfl
    rw [Matrix.conjTranspose_eq_transpose_of_trivial, Matrix.transpose_mul, hA, robustCov, h1]
    simp only [Matrix.mul_assoc]
  rw [e]
  exact Matrix.posSemidef_conjTranspose_mul_self _

/-- One observation of a Gaussian model with weight two, the family object without weights. -/
noncomputable def exFam : Fam := ⟨gaussian, identityLink, false⟩
def exDat : Dat 1 1 := ⟨fun _ _ => 1, fun _ => 1, fun _ => 2⟩

theorem scales_fixed (f : Fam) (hf : f.isNB = false) (d : Dat n p) (b : Fin p → ℝ) (tau : ℝ) :
    scales f .fixed d b tau = (1, 1) := by
  simp [scales, hf]

/-- With weights given to the model only, the rows that are squared do not sum to the gradient, and
the middle matrix is not the sum of their squares. -/
theorem C213_robust_violated :
    ∑ i, gradIBeta exFam .fixed (exDat.withWeights fun _ => 1) (fun _ => 0) 0 i 0 = -1 ∧
    gradBeta exFam .fixed exDat (fun _ => 0) 0 0 = -2 ∧
    robustMeat exFam .fixed exDat (fun _ => 1) (fun _ => 0) 0 0 0 = 1 ∧
    robustMeat exFam .fixed exDat exDat.w (fun _ => 0) 0 0 0 = 4 := by
  refine ⟨?_, ?_, ?_, ?_⟩ <;>
    simp only [gradIBeta, gradBeta, robustMeat, scales_fixed exFam rfl] <;>
    norm_num [exFam, exDat, Dat.withWeights, fitted, gw, variance, gaussian, identityLink]

/-! ## Bootstrap -/

/-- With the same weights in the family object, the sample that draws every row once gives the
estimate, and a sample of pure repetitions only uses the drawn rows. -/
theorem C213_bootstrap_partial {P : Type} (opt : Dat n p → P) (d : Dat n p) :
    bootstrap opt d d.w [id] = [opt d] ∧
    ∀ (ii : Fin n → Fin n) (d' : Dat n p), (∀ i, (∀ j, d.X (ii i) j = d'.X (ii i) j) ∧
      d.y (ii i) = d'.y (ii i) ∧ d.w (ii i) = d'.w (ii i)) →
      bootstrap opt d d.w [ii] = bootstrap opt d' d'.w [ii] := by
  refine ⟨rfl, fun ii d' h => ?_⟩
  have e : bootData d d.w ii = bootData d' d'.w ii := by
    unfold bootData
    congr 1
    · funext i j; exact (h i).1 j
    · funext i; exact (h i).2.1
    · funext i; exact (h i).2.2
  simp only [bootstrap, List.map_cons, List.map_nil, e]

/-- The weighted mean, the estimate of a Gaussian model with a constant only. -/
def wmean (d : Dat 2 1) : ℚ → Prop := fun b => (b : ℝ) * (∑ i, d.w i) = ∑ i, d.w i * d.y i

/-- The estimate is a stationary point of the objective. -/
theorem wmean_stationary (d : Dat 2 1) (hX : ∀ i, d.X i 0 = 1) {b : ℚ} :
    wmean d b ↔ gradBeta exFam .fixed d (fun _ => (b : ℝ)) 0 0 = 0 := by
  have h0 := hX 0
  have h1 := hX 1
  simp only [wmean, gradBeta, scales_fixed exFam rfl, Fin.sum_univ_two]
  norm_num [exFam, fitted, gw, variance, gaussian, identityLink, h0, h1]
  constructor <;> intro h <;> linarith

/-- With weights given to the model only, the sample that draws every row once does not give the
estimate: `3/4` against `1/2`. -/
theorem C213_bootstrap_violated :
    let d : Dat 2 1 := ⟨fun _ _ => 1, ![0, 1], ![1, 3]⟩
    wmean d (3 / 4) ∧ wmean (bootData d (fun _ => 1) id) (1 / 2) ∧
      ¬ wmean (bootData d (fun _ => 1) id) (3 / 4) := by
  intro d
  refine ⟨?_, ?_, ?_⟩ <;> norm_num [wmean, d, bootData, Fin.sum_univ_two]

/-- `pyglm`: the same estimates with a progress bar; without one the first iteration raises. -/
theorem C213_bootstrapO_partial {P : Type} (opt : Dat n p → P) (d : Dat n p) (fw : Fin n → ℝ)
    (draws : List (Fin n → Fin n)) :
    bootstrapO true opt d fw draws = some (bootstrap opt d fw draws) := by
  unfold bootstrapO bootstrap
  induction draws with
  | nil => rfl
  | cons a t ih =>
    rw [List.mapM_cons, List.map_cons]
    dsimp only at ih ⊢
    rw [ih]
    rfl

theorem C213_bootstrapO_violated {P : Type} (opt : Dat n p → P) (d : Dat n p) (fw : Fin n → ℝ)
    (a : Fin n → Fin n) (draws : List (Fin n → Fin n)) :
    bootstrapO false opt d fw (a :: draws) = none := by
  simp [bootstrapO, List.mapM_cons]

/-! ## Null model -/

/-- The log-likelihood is affine in the response, up to a term without the mean. -/
def AffineOK (F : Family) (Y M : Set ℝ) : Prop :=
  ∀ phi > 0, ∃ (c c' : ℝ → ℝ → ℝ) (α β : ℝ → ℝ), ∀ y ∈ Y, ∀ mu ∈ M, ∀ w > 0,
    F.nll y mu w phi 1 = c y w + w * (α mu - y * β mu) ∧
    F.full y mu w phi 1 = c' y w + w * (α mu - y * β mu)

theorem affine_gaussian : AffineOK gaussian univ univ := by
  intro phi hphi
  have hp : phi ≠ 0 := ne_of_gt hphi
  refine ⟨fun y w => w / phi * y ^ 2 / 2 + log (1 / (w / phi)) / 2,
    fun y w => w / phi * y ^ 2 / 2 + log (1 / (w / phi)) / 2 + ln2pi / 2,
    fun mu => mu ^ 2 / (2 * phi), fun mu => mu / phi, fun y _ mu _ w _ => ?_⟩
  constructor <;> simp only [gaussian] <;> field_simp <;> ring

theorem affine_invGaussian : AffineOK invGaussian (Ioi 0) (Ioi 0) := by
  intro phi hphi
  have hp : phi ≠ 0 := ne_of_gt hphi
  refine ⟨fun y w => (w / (y * phi) + log (phi * y ^ 3 / w)) / 2,
    fun y w => (w / (y * phi) + log (phi * y ^ 3 / w)) / 2 + ln2pi / 2,
    fun mu => -1 / (phi * mu), fun mu => -1 / (2 * phi * mu ^ 2), fun y hy mu hm w _ => ?_⟩
  have hy' : y ≠ 0 := ne_of_gt hy
  have hm' : mu ≠ 0 := ne_of_gt hm
  constructor <;> simp only [invGaussian] <;> generalize log (phi * y ^ 3 / w) = L <;>
    field_simp <;> ring

theorem affine_gamma (sp : Sp) : AffineOK (gamma sp) (Ioi 0) (Ioi 0) := by
  intro phi hphi
  have hp : 0 < phi := hphi
  refine ⟨fun y w => -(w / phi) * log (w / phi * y) + sp.gammaln (w / phi),
    fun y w => -(w / phi) * log (w / phi * y) + sp.gammaln (w / phi) + log y,
    fun mu => log mu / phi, fun mu => -1 / (phi * mu), fun y hy mu hm w hw => ?_⟩
  have hy : 0 < y := hy
  have hm : 0 < mu := hm
  have hw : 0 < w := hw
  have e : log (w / phi * y / mu) = log (w / phi * y) - log mu :=
    log_div (by positivity) hm.ne'
  constructor <;> simp only [gamma, e] <;> generalize log (w / phi * y) = L <;>
    generalize sp.gammaln (w / phi) = G <;> field_simp <;> ring

theorem affine_poisson (sp : Sp) : AffineOK (poisson sp) (Ici 0) (Ioi 0) := by
  intro phi hphi
  have hp : phi ≠ 0 := ne_of_gt hphi
  refine ⟨fun _ _ => 0, fun y w => w / phi * sp.gammaln (y + 1), fun mu => mu / phi,
    fun mu => log mu / phi, fun y _ mu _ w _ => ?_⟩
  constructor <;> simp only [poisson] <;> field_simp <;> ring

theorem affine_binomial (sp : Sp) : AffineOK (binomial sp) (Icc 0 1) (Ioo 0 1) := by
  intro phi hphi
  have hp : phi ≠ 0 := ne_of_gt hphi
  refine ⟨fun _ _ => 0, fun y w => -logbinom sp w (w * y), fun mu => -log (1 - mu) / phi,
    fun mu => (log mu - log (1 - mu)) / phi, fun y _ mu _ w _ => ?_⟩
  constructor <;> simp only [binomial] <;> field_simp <;> ring

theorem sum_affine (d : List (ℝ × ℝ)) (c : ℝ → ℝ → ℝ) (a b : ℝ) :
    (d.map fun o => c o.1 o.2 + o.2 * (a - o.1 * b)).sum =
      (d.map fun o => c o.1 o.2).sum + a * (d.map Prod.snd).sum -
        b * (d.map fun o => o.2 * o.1).sum := by
  induction d with
  | nil => simp
  | cons o t ih => simp only [List.map_cons, List.sum_cons, ih]; ring

/-- The weighted mean minimises the sum over all constant means. -/
theorem null_min {F : Family} {Y M : Set ℝ} (hA : AffineOK F Y M) (hMY : M ⊆ Y) (hD : DevOK F Y M)
    (hS : SatOK F M (fun _ => True)) {d : List (ℝ × ℝ)} (hY : ∀ o ∈ d, o.1 ∈ Y)
    (hw : ∀ o ∈ d, 0 < o.2) {phi : ℝ} (hphi : 0 < phi) {ybar : ℝ} (hb : ybar ∈ M)
    (hbar : ybar * (d.map Prod.snd).sum = (d.map fun o => o.2 * o.1).sum) {m : ℝ} (hm : m ∈ M) :
    (d.map fun o => F.full o.1 ybar o.2 phi 1).sum ≤ (d.map fun o => F.full o.1 m o.2 phi 1).sum := by
  obtain ⟨c, c', α, β, h⟩ := hA phi hphi
  have e : ∀ x ∈ M, (d.map fun o => F.full o.1 x o.2 phi 1) =
      d.map fun o => c' o.1 o.2 + o.2 * (α x - o.1 * β x) := fun x hx =>
    List.map_congr_left fun o ho => (h o.1 (hY o ho) x hx o.2 (hw o ho)).2
  rw [e _ hb, e _ hm, sum_affine, sum_affine, ← hbar]
  have h1 := (hD ybar (hMY hb) m hm 1 one_pos phi 1 one_pos).1
  rw [hS ybar hb m hm 1 one_pos phi hphi trivial 1 one_pos,
    (h ybar (hMY hb) m hm 1 one_pos).1, (h ybar (hMY hb) ybar hb 1 one_pos).1] at h1
  have h2 : 0 ≤ (α m - ybar * β m) - (α ybar - ybar * β ybar) := by
    have h3 : (0 : ℝ) < 2 * phi := by positivity
    have := nonneg_of_mul_nonneg_right h1 h3
    linarith
  have hW : 0 ≤ (d.map Prod.snd).sum := by
    apply List.sum_nonneg
    intro x hx
    obtain ⟨o, ho, rfl⟩ := List.mem_map.1 hx
    exact (hw o ho).le
  nlinarith [mul_nonneg h2 hW]

theorem sum_snd {d : List (ℝ × ℝ)} {w : ℝ} (hw : ∀ o ∈ d, o.2 = w) :
    (d.map Prod.snd).sum = w * d.length ∧
    (d.map fun o => o.2 * o.1).sum = w * (d.map Prod.fst).sum := by
  induction d with
  | nil => simp
  | cons o t ih =>
    obtain ⟨h1, h2⟩ := ih fun o ho => hw o (List.mem_cons_of_mem _ ho)
    simp only [List.map_cons, List.sum_cons, h1, h2, hw o List.mem_cons_self, List.length_cons]
    constructor
    · push_cast; ring
    · ring

/-- With equal weights `lln` is the smallest value of minus the log-likelihood over the models with
a constant mean: Gaussian, inverse Gaussian, gamma, Poisson and binomial families. -/
theorem C213_null_partial (sp : Sp) {F : Family} {Y M : Set ℝ}
    (hF : (F, Y, M) = (gaussian, univ, univ) ∨ (F, Y, M) = (invGaussian, Ioi 0, Ioi 0) ∨
      (F, Y, M) = (gamma sp, Ioi 0, Ioi 0) ∨ (F, Y, M) = (poisson sp, Ici 0, Ioi 0) ∨
      (F, Y, M) = (binomial sp, Icc 0 1, Ioo 0 1))
    {d : List (ℝ × ℝ)} (hd : d ≠ []) (hY : ∀ o ∈ d, o.1 ∈ Y) {w : ℝ} (hw0 : 0 < w)
    (hw : ∀ o ∈ d, o.2 = w) {phi : ℝ} (hphi : 0 < phi)
    (hb : (d.map Prod.fst).sum / d.length ∈ M) {m : ℝ} (hm : m ∈ M) :
    lln F d phi ≤ (d.map fun o => F.full o.1 m o.2 phi 1).sum := by
  have hlen : (d.length : ℝ) ≠ 0 := by
    rw [Nat.cast_ne_zero]; exact fun h => hd (List.length_eq_zero_iff.1 h)
  have hbar : (d.map Prod.fst).sum / d.length * (d.map Prod.snd).sum =
      (d.map fun o => o.2 * o.1).sum := by
    rw [(sum_snd hw).1, (sum_snd hw).2]; field_simp
  have hw' : ∀ o ∈ d, 0 < o.2 := fun o ho => by rw [hw o ho]; exact hw0
  have key : ∀ {F : Family} {Y M : Set ℝ}, AffineOK F Y M → M ⊆ Y → DevOK F Y M →
      SatOK F M (fun _ => True) → (∀ o ∈ d, o.1 ∈ Y) → (d.map Prod.fst).sum / d.length ∈ M →
      m ∈ M → lln F d phi ≤ (d.map fun o => F.full o.1 m o.2 phi 1).sum :=
    fun hA hMY hD hS hY hb hm => null_min hA hMY hD hS hY hw' hphi hb hbar hm
  rcases hF with h | h | h | h | h <;> simp only [Prod.mk.injEq] at h <;>
    obtain ⟨rfl, rfl, rfl⟩ := h
  · exact key affine_gaussian (subset_refl _) C37_gaussian C37_saturated_gaussian hY hb hm
  · exact key affine_invGaussian (subset_refl _) C37_invGaussian C37_saturated_invGaussian hY hb hm
  · exact key (affine_gamma sp) (subset_refl _) (C37_gamma sp) (C37_saturated_gamma sp) hY hb hm
  · exact key (affine_poisson sp) Ioi_subset_Ici_self (C37_poisson sp) (C37_saturated_poisson sp)
      hY hb hm
  · exact key (affine_binomial sp) Ioo_subset_Icc_self (C37_binomial sp) (C37_saturated_binomial sp)
      hY hb hm

/-- With unequal weights it is not: the weighted mean is better. -/
theorem C213_null_violated :
    ([((0 : ℝ), (1 : ℝ)), (1, 3)].map fun o => gaussian.full o.1 (3 / 4) o.2 1 1).sum <
      lln gaussian [(0, 1), (1, 3)] 1 := by
  simp only [lln, gaussian, List.map_cons, List.map_nil, List.sum_cons, List.sum_nil,
    List.length_cons, List.length_nil]
  norm_num
  linarith

/-- Negative binomial: the null model starts for the estimator `NR` … -/
theorem C213_null_negBinomial_partial : nullNB .NR = some 1 := rfl

/-- … and raises for the default estimator `M` and for `fixed`. -/
theorem C213_null_negBinomial_violated : nullNB .M = none ∧ nullNB .fixed = none := ⟨rfl, rfl⟩

example : ∃ d : List (ℝ × ℝ), d ≠ [] ∧ (∀ o ∈ d, o.1 ∈ Ici (0 : ℝ)) ∧ (∀ o ∈ d, o.2 = 2) ∧
    (d.map Prod.fst).sum / d.length ∈ Ioi (0 : ℝ) :=
  ⟨[(0, 2), (1, 2)], by simp, by simp, by simp, by norm_num⟩

end Verif.Glm
