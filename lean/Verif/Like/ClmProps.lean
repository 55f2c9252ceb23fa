import Verif.Like.Clm
import Verif.Transf.OrderedProps
import Verif.Glm.LinksProps
import Mathlib.Analysis.SpecialFunctions.Log.Deriv
/-!
# C99: the cumulative link likelihood and its derivatives
-/
namespace Verif.Like
open Real Verif.Transf
variable {l : CLink} {d : ClmData} {n k q p : ℕ}

/-! ## The ordinal design -/

theorem dot_split (q p : ℕ) (f g : ℕ → ℝ) : dotN (q + p) f g =
    dotN q f g + ∑ j ∈ Finset.range p, f (q + j) * g (q + j) := by
  rw [dotN, Finset.sum_range_add]; rfl

theorem dot_ind {q c : ℕ} (v : ℕ → ℝ) : dotN q (fun j => if c = j then 1 else 0) v = if c < q then v c else 0 := by
  simp [dotN]

/-- Spec: `x'β`. -/
def lin (q p : ℕ) (X : ℕ → ℕ → ℝ) (th : ℕ → ℝ) (i : ℕ) : ℝ := dotN p (X i) fun j => th (q + j)

/-- The two linear predictors of a row are its upper and lower thresholds minus `x'β`; the missing thresholds are
`300` and `-10⁶`. -/
theorem C99_eta (cat : ℕ → ℕ) (X : ℕ → ℕ → ℝ) (w th : ℕ → ℝ) (i : ℕ) (hc : cat i ≤ q) :
    eta1 (ordinalData q cat X w) (q + p) th i = (if cat i < q then th (cat i) else 300) - lin q p X th i ∧
      eta2 (ordinalData q cat X w) (q + p) th i =
        (if cat i = 0 then -1000000 else th (cat i - 1)) - lin q p X th i := by
  have e : ∀ B : ℕ → ℝ, (∀ j, B (q + j) = -X i j) →
      ∑ j ∈ Finset.range p, B (q + j) * th (q + j) = -lin q p X th i := by
    intro B hB
    simp only [hB, lin, dotN, ← Finset.sum_neg_distrib, neg_mul]
  have cong : ∀ B B' : ℕ → ℝ, (∀ j, j < q → B j = B' j) → dotN q B th = dotN q B' th := fun B B' h =>
    Finset.sum_congr rfl fun j hj => by rw [h j (Finset.mem_range.1 hj)]
  refine ⟨?_, ?_⟩
  · rw [eta1, dot_split, e _ fun j => by simp [ordinalData],
      cong _ (fun j => if cat i = j then 1 else 0) fun j hj => by simp [ordinalData, ordY, hj], dot_ind]
    by_cases h : cat i < q
    · rw [if_pos h, if_pos h]; simp [ordinalData, ordY, h.ne]; ring
    · have : cat i = q := by omega
      rw [if_neg h, if_neg h]; simp [ordinalData, ordY, this]; norm_num; ring
  · rw [eta2, dot_split, e _ fun j => by simp [ordinalData]]
    by_cases h : cat i = 0
    · rw [cong _ (fun _ => 0) fun j hj => by simp [ordinalData, ordY, hj, h]]
      simp [ordinalData, ordY, h, dotN]; norm_num; ring
    · rw [cong _ (fun j => if cat i - 1 = j then 1 else 0) fun j hj => by
          simp only [ordinalData, ordY, hj, if_true]
          congr 1
          exact propext ⟨fun h' => by omega, fun h' => by omega⟩, dot_ind, if_pos (by omega)]
      simp [ordinalData, ordY, h]; ring

theorem o1ix_iff (cat : ℕ → ℕ) (X : ℕ → ℕ → ℝ) (w : ℕ → ℝ) (i : ℕ) :
    (ordinalData q cat X w).o1ix i = true ↔ cat i = q := by
  by_cases h : cat i = q <;> simp [ordinalData, ordY, h]
  norm_num

/-- Spec: the cumulative probability of category `c` and below, with a lowest threshold `-10⁶` for "none". -/
noncomputable def cumP (F : ℝ → ℝ) (q : ℕ) (th : ℕ → ℝ) (x : ℝ) (c : ℕ) : ℝ :=
  if c < q then F (th c - x) else 1

/-- Spec: the probability of category `c`, but for the finite lowest threshold. -/
noncomputable def catP (F : ℝ → ℝ) (q : ℕ) (th : ℕ → ℝ) (x : ℝ) (c : ℕ) : ℝ :=
  cumP F q th x c - if c = 0 then F (-1000000 - x) else cumP F q th x (c - 1)

/-- The probabilities used by the derivatives are those of the model, up to the finite lowest threshold. -/
theorem C99_prob (cat : ℕ → ℕ) (X : ℕ → ℕ → ℝ) (w th : ℕ → ℝ) (i : ℕ) (hc : cat i ≤ q) :
    clmProb l (ordinalData q cat X w) (q + p) th i = catP l.F q th (lin q p X th i) (cat i) := by
  obtain ⟨h1, h2⟩ := C99_eta (p := p) cat X w th i hc
  simp only [clmProb, h1, h2, catP, cumP, o1ix_iff]
  by_cases hq : cat i = q
  · by_cases h0 : cat i = 0
    · rw [if_pos hq, if_pos h0, if_neg (by omega), if_pos h0]
    · rw [if_pos hq, if_neg h0, if_neg (by omega), if_neg h0, if_pos (show cat i - 1 < q by omega)]
  · have : cat i < q := by omega
    by_cases h0 : cat i = 0
    · rw [if_neg hq, if_pos this, if_pos h0, if_pos this, if_pos h0]
    · rw [if_neg hq, if_pos this, if_neg h0, if_pos this, if_neg h0, if_pos (show cat i - 1 < q by omega)]

/-- Those probabilities add up to one minus the mass below the lowest threshold. -/
theorem C99_total (F : ℝ → ℝ) (q : ℕ) (th : ℕ → ℝ) (x : ℝ) :
    ∑ c ∈ Finset.range (q + 1), catP F q th x c = 1 - F (-1000000 - x) := by
  have : ∀ m, ∑ c ∈ Finset.range (m + 1), catP F q th x c = cumP F q th x m - F (-1000000 - x) := by
    intro m
    induction m with
    | zero => simp [catP]
    | succ m ih => rw [Finset.sum_range_succ, ih, catP, if_neg (by omega), Nat.add_sub_cancel]; ring
  rw [this, cumP, if_neg (lt_irrefl q)]

/-- Spec: the probability of category `c` used by the likelihood itself. -/
noncomputable def likP (F : ℝ → ℝ) (q : ℕ) (th : ℕ → ℝ) (x : ℝ) (c : ℕ) : ℝ :=
  F ((if c < q then th c else 300) - x) - F ((if c = 0 then -1000000 else th (c - 1)) - x)

/-- The likelihood is minus the weighted sum of the logarithms of these. -/
theorem C99_loglike (cat : ℕ → ℕ) (X : ℕ → ℕ → ℝ) (w th : ℕ → ℝ) (hc : ∀ i, i < n → cat i ≤ q) :
    clmLoglike l (ordinalData q cat X w) n (q + p) th =
      -∑ i ∈ Finset.range n, w i * log (likP l.F q th (lin q p X th i) (cat i)) := by
  simp only [clmLoglike]
  congr 1
  refine Finset.sum_congr rfl fun i hi => ?_
  obtain ⟨h1, h2⟩ := C99_eta (p := p) cat X w th i (hc i (Finset.mem_range.1 hi))
  rw [h1, h2]; rfl

/-- They add up to the mass between the two artificial thresholds. -/
theorem likP_total (F : ℝ → ℝ) (q : ℕ) (th : ℕ → ℝ) (x : ℝ) :
    ∑ c ∈ Finset.range (q + 1), likP F q th x c = F (300 - x) - F (-1000000 - x) := by
  have : ∀ m, m ≤ q → ∑ c ∈ Finset.range (m + 1), likP F q th x c =
      F ((if m < q then th m else 300) - x) - F (-1000000 - x) := by
    intro m hm
    induction m with
    | zero => simp [likP]
    | succ m ih =>
      rw [Finset.sum_range_succ, ih (by omega), likP, if_neg (show ¬ m + 1 = 0 by omega), Nat.add_sub_cancel,
        if_pos (show m < q by omega)]
      ring
  rw [this q le_rfl, if_neg (lt_irrefl q)]

/-- The three functions of a link agree with a link of the package. -/
structure OfLink (l : CLink) (L : Glm.LinkFns) : Prop where
  F : l.F = L.inv
  F1 : ∀ x, L.dinv x = some (l.F1 x)
  F2 : l.F2 = L.d2inv

/-- `dinv_link` and `d2inv_link` are the derivatives of `inv_link`. -/
structure GoodC (l : CLink) : Prop where
  d1 : ∀ x, HasDerivAt l.F (l.F1 x) x
  d2 : ∀ x, HasDerivAt l.F1 (l.F2 x) x

/-- Every link of the package with correct derivatives qualifies (logit, probit, complementary log-log by C35). -/
theorem good_of_link {L : Glm.LinkFns} (h : Glm.InvD2 L Set.univ) : ∃ l, OfLink l L ∧ GoodC l := by
  obtain ⟨f, h1, h2⟩ := h
  exact ⟨⟨L.inv, f, L.d2inv⟩, ⟨rfl, h1, rfl⟩, ⟨fun x => (h2 x trivial).1, fun x => (h2 x trivial).2⟩⟩

/-- The logistic link of the package. -/
noncomputable def logitC : CLink := ⟨Glm.logitLink.inv, fun x => exp x / (1 + exp x) ^ 2, Glm.logitLink.d2inv⟩

theorem ofLink_logit : OfLink logitC Glm.logitLink := ⟨rfl, fun _ => rfl, rfl⟩

theorem OfLink.good {l : CLink} {L : Glm.LinkFns} (hl : OfLink l L) (h : Glm.InvD2 L Set.univ) : GoodC l := by
  obtain ⟨f, h1, h2⟩ := h
  have e : f = l.F1 := funext fun x => Option.some.inj ((h1 x).symm.trans (hl.F1 x))
  subst e
  exact ⟨fun x => hl.F ▸ (h2 x trivial).1, fun x => hl.F2 ▸ (h2 x trivial).2⟩

theorem good_logit : GoodC logitC := ofLink_logit.good Glm.C35_logit.2.2

theorem logit_half : logitC.F 0 = 1 / 2 := by simp [logitC, Glm.logitLink]; norm_num
theorem logit_neg {x : ℝ} (h : x < 0) : 0 < logitC.F x ∧ logitC.F x < 1 / 2 := by
  have := exp_lt_one_iff.2 h
  have := exp_pos x
  simp only [logitC, Glm.logitLink]
  refine ⟨by positivity, ?_⟩
  rw [div_lt_div_iff₀ (by positivity) (by norm_num)]
  linarith

/-- Spec: the objective whose derivatives the code computes: minus the weighted log-probabilities of the model. -/
noncomputable def clmObj (l : CLink) (d : ClmData) (n k : ℕ) (th : ℕ → ℝ) : ℝ :=
  -∑ i ∈ Finset.range n, d.w i * log (clmProb l d k th i)

/-- The likelihood is that objective when the link has reached one at the artificial top threshold (as it has in
floating point for moderate predictors). -/
theorem C99_objective_partial (th : ℕ → ℝ) (h : ∀ i, i < n → d.o1ix i = true → l.F (eta1 d k th i) = 1) :
    clmLoglike l d n k th = clmObj l d n k th := by
  simp only [clmLoglike, clmObj]
  congr 1
  refine Finset.sum_congr rfl fun i hi => ?_
  simp only [clmProb]
  by_cases h1 : d.o1ix i = true
  · rw [if_pos h1, h i (Finset.mem_range.1 hi) h1]
  · rw [if_neg h1]

/-- In general it is not: with one observation in the top category and predictor 300 the likelihood uses the probability
`1/2 - F(-300)` where the derivatives (and `predict`) use `1 - F(-300)`; the probabilities of the likelihood add up to
less than one half. -/
theorem C99_objective_violated : ∃ (cat : ℕ → ℕ) (X : ℕ → ℕ → ℝ) (w th : ℕ → ℝ),
    (∀ i, cat i ≤ 1) ∧
      clmLoglike logitC (ordinalData 1 cat X w) 1 2 th ≠ clmObj logitC (ordinalData 1 cat X w) 1 2 th ∧
      ∑ c ∈ Finset.range 2, likP logitC.F 1 th (lin 1 1 X th 0) c < 1 / 2 := by
  refine ⟨fun _ => 1, fun _ _ => 300, fun _ => 1, fun j => j, fun _ => le_rfl, ?_, ?_⟩
  · have hl : lin 1 1 (fun _ _ => 300) (fun j => (j : ℝ)) 0 = 300 := by simp [lin, dotN]
    have h1 := C99_loglike (l := logitC) (n := 1) (q := 1) (p := 1) (fun _ => 1) (fun _ _ => 300) (fun _ => 1)
      (fun j => (j : ℝ)) fun _ _ => le_rfl
    have h2 := C99_prob (l := logitC) (q := 1) (p := 1) (fun _ => 1) (fun _ _ => 300) (fun _ => 1)
      (fun j => (j : ℝ)) 0 le_rfl
    rw [h1, clmObj, Finset.sum_range_one, Finset.sum_range_one, h2, hl]
    have e : ∀ i, (ordinalData 1 (fun _ => 1) (fun _ _ => 300) fun _ => 1).w i = 1 := fun _ => rfl
    rw [e, one_mul, one_mul]
    refine fun hh => ?_
    replace hh := neg_injective hh
    revert hh
    simp only [likP, catP, cumP]
    norm_num
    rw [logit_half]
    have := logit_neg (x := -300) (by norm_num)
    exact (log_lt_log (by linarith) (by linarith)).ne
  · have hl : lin 1 1 (fun _ _ => 300) (fun j => (j : ℝ)) 0 = 300 := by simp [lin, dotN]
    rw [likP_total, hl, sub_self, logit_half]
    have := logit_neg (x := -1000000 - 300) (by norm_num)
    exact sub_lt_self _ this.1

/-! ## Derivatives -/

theorem dot_path {k : ℕ} {P : ℝ → ℕ → ℝ} {v : ℕ → ℝ} (hP : PathN k P v) (g : ℕ → ℝ) :
    HasDerivAt (fun t => dotN k g (P t)) (dotN k g v) 0 :=
  HasDerivAt.fun_sum fun j hj => (hP j (Finset.mem_range.1 hj)).const_mul (g j)

theorem dot_sub (k : ℕ) (f g v : ℕ → ℝ) (a b : ℝ) :
    dotN k (fun j => f j * a - g j * b) v = a * dotN k f v - b * dotN k g v := by
  simp only [dotN, Finset.mul_sum, ← Finset.sum_sub_distrib]
  exact Finset.sum_congr rfl fun j _ => by ring

variable {P : ℝ → ℕ → ℝ} {v : ℕ → ℝ}

theorem prob_path (hl : GoodC l) (hP : PathN k P v) (i : ℕ) :
    HasDerivAt (fun t => clmProb l d k (P t) i) (dotN k (clmDprob l d k (P 0) i) v) 0 := by
  have h1 : HasDerivAt (fun t => eta1 d k (P t) i) (dotN k (d.B1 i) v) 0 := (dot_path hP _).add_const _
  have h2 : HasDerivAt (fun t => eta2 d k (P t) i) (dotN k (d.B2 i) v) 0 := (dot_path hP _).add_const _
  have g2 := (hl.d1 (eta2 d k (P 0) i)).comp (0 : ℝ) h2
  have g1 := (hl.d1 (eta1 d k (P 0) i)).comp (0 : ℝ) h1
  have e : dotN k (clmDprob l d k (P 0) i) v = (if d.o1ix i then 0 else l.F1 (eta1 d k (P 0) i)) * dotN k (d.B1 i) v -
      l.F1 (eta2 d k (P 0) i) * dotN k (d.B2 i) v := dot_sub k (d.B1 i) (d.B2 i) v _ _
  rw [e]
  simp only [clmProb]
  by_cases hi : d.o1ix i = true
  · simp only [if_pos hi]
    exact ((hasDerivAt_const (0 : ℝ) (1 : ℝ)).fun_sub g2).congr_deriv (by ring)
  · simp only [if_neg hi]
    exact g1.fun_sub g2

/-- `gradient` is the gradient of the objective; the rows of `gradient_i` add up to it. -/
theorem C99_gradient (hl : GoodC l) (hP : PathN k P v) (hp : ∀ i, i < n → 0 < clmProb l d k (P 0) i) :
    HasDerivAt (fun t => clmObj l d n k (P t)) (dotN k (clmGrad l d n k (P 0)) v) 0 ∧
      ∀ j, ∑ i ∈ Finset.range n, clmGradI l d k (P 0) i j = clmGrad l d n k (P 0) j := by
  refine ⟨?_, fun j => by simp only [clmGradI, clmGrad, neg_mul, Finset.sum_neg_distrib]⟩
  have h := (HasDerivAt.fun_sum (u := Finset.range n) (A := fun i t => d.w i * log (clmProb l d k (P t) i))
    (A' := fun i => d.w i * (dotN k (clmDprob l d k (P 0) i) v / clmProb l d k (P 0) i)) (x := 0) fun i hi =>
      ((prob_path hl hP i).log (hp i (Finset.mem_range.1 hi)).ne').const_mul _).fun_neg
  refine h.congr_deriv ?_
  simp only [dotN, clmGrad, neg_mul, Finset.sum_neg_distrib, Finset.sum_mul]
  rw [Finset.sum_comm]
  congr 1
  refine Finset.sum_congr rfl fun i _ => ?_
  rw [Finset.sum_div, Finset.mul_sum]
  exact Finset.sum_congr rfl fun j _ => by ring

theorem dprob_path (hl : GoodC l) (hP : PathN k P v) {i : ℕ} (ho : d.o1ix i = false → d.o1 i = 0) (j : ℕ) :
    HasDerivAt (fun t => clmDprob l d k (P t) i j)
      (d.B1 i j * ((if d.o1ix i then 0 else l.F2 (dotN k (d.B1 i) (P 0))) * dotN k (d.B1 i) v) -
        d.B2 i j * (l.F2 (eta2 d k (P 0) i) * dotN k (d.B2 i) v)) 0 := by
  have h1 : HasDerivAt (fun t => eta1 d k (P t) i) (dotN k (d.B1 i) v) 0 := (dot_path hP _).add_const _
  have h2 : HasDerivAt (fun t => eta2 d k (P t) i) (dotN k (d.B2 i) v) 0 := (dot_path hP _).add_const _
  have g2 := (hl.d2 (eta2 d k (P 0) i)).comp (0 : ℝ) h2
  have g1 := (hl.d2 (eta1 d k (P 0) i)).comp (0 : ℝ) h1
  simp only [clmDprob]
  by_cases hi : d.o1ix i = true
  · simp only [if_pos hi]
    exact (((hasDerivAt_const (0 : ℝ) (0 : ℝ)).const_mul (d.B1 i j)).fun_sub (g2.const_mul (d.B2 i j))).congr_deriv
      (by simp)
  · simp only [if_neg hi]
    have e : eta1 d k (P 0) i = dotN k (d.B1 i) (P 0) := by rw [eta1, ho (by simpa using hi), add_zero]
    rw [e] at g1
    exact (g1.const_mul (d.B1 i j)).fun_sub (g2.const_mul (d.B2 i j))

/-- The derivative of the gradient: as the code's Hessian, but with the weights in all three terms. -/
noncomputable def hessTrue (l : CLink) (d : ClmData) (n k : ℕ) (th : ℕ → ℝ) (j c : ℕ) : ℝ :=
  -∑ i ∈ Finset.range n, d.w i *
    ((d.B1 i j * (if d.o1ix i then 0 else l.F2 (dotN k (d.B1 i) th)) * d.B1 i c -
        d.B2 i j * l.F2 (eta2 d k th i) * d.B2 i c) / clmProb l d k th i -
      clmDprob l d k th i j * clmDprob l d k th i c / clmProb l d k th i ^ 2)

theorem hessTrue_deriv (hl : GoodC l) (ho : ∀ i, d.o1ix i = false → d.o1 i = 0) (hP : PathN k P v)
    (hp : ∀ i, i < n → 0 < clmProb l d k (P 0) i) (j : ℕ) :
    HasDerivAt (fun t => clmGrad l d n k (P t) j) (dotN k (hessTrue l d n k (P 0) j) v) 0 := by
  have h := (HasDerivAt.fun_sum (u := Finset.range n)
    (A := fun i t => clmDprob l d k (P t) i j * (d.w i / clmProb l d k (P t) i)) (x := 0) fun i hi =>
      (dprob_path hl hP (ho i) j).fun_mul
        ((hasDerivAt_const (0 : ℝ) (d.w i)).fun_div (prob_path hl hP i) (hp i (Finset.mem_range.1 hi)).ne')).fun_neg
  refine h.congr_deriv ?_
  simp only [dotN, hessTrue, neg_mul, Finset.sum_neg_distrib, Finset.sum_mul]
  conv_rhs => rw [Finset.sum_comm]
  congr 1
  refine Finset.sum_congr rfl fun i hi => ?_
  have hp' := (hp i (Finset.mem_range.1 hi)).ne'
  have e : ∀ c, d.w i * ((d.B1 i j * (if d.o1ix i then 0 else l.F2 (∑ q ∈ Finset.range k, d.B1 i q * P 0 q)) * d.B1 i c -
        d.B2 i j * l.F2 (eta2 d k (P 0) i) * d.B2 i c) / clmProb l d k (P 0) i -
      clmDprob l d k (P 0) i j * clmDprob l d k (P 0) i c / clmProb l d k (P 0) i ^ 2) * v c =
      d.w i * d.B1 i j * (if d.o1ix i then 0 else l.F2 (∑ q ∈ Finset.range k, d.B1 i q * P 0 q)) /
          clmProb l d k (P 0) i * (d.B1 i c * v c) -
        d.w i * d.B2 i j * l.F2 (eta2 d k (P 0) i) / clmProb l d k (P 0) i * (d.B2 i c * v c) -
        d.w i * clmDprob l d k (P 0) i j / clmProb l d k (P 0) i ^ 2 * (clmDprob l d k (P 0) i c * v c) := by
    intro c; field_simp
  simp only [e, Finset.sum_sub_distrib, ← Finset.mul_sum]
  field_simp
  ring

/-- The Hessian of the code in general: the weights are missing from the terms with second derivatives. -/
theorem hess_eq (th : ℕ → ℝ) (j c : ℕ) : clmHess l d n k th j c =
    -∑ i ∈ Finset.range n,
      ((d.B1 i j * (if d.o1ix i then 0 else l.F2 (dotN k (d.B1 i) th)) * d.B1 i c -
          d.B2 i j * l.F2 (eta2 d k th i) * d.B2 i c) / clmProb l d k th i -
        d.w i * (clmDprob l d k th i j * clmDprob l d k th i c / clmProb l d k th i ^ 2)) := by
  simp only [clmHess, ← Finset.sum_sub_distrib]
  congr 1
  exact Finset.sum_congr rfl fun i _ => by ring

/-- `hessian` is the derivative of `gradient` for unit weights. -/
theorem C99_hessian_partial (hl : GoodC l) (ho : ∀ i, d.o1ix i = false → d.o1 i = 0) (hw : ∀ i, i < n → d.w i = 1)
    (hP : PathN k P v) (hp : ∀ i, i < n → 0 < clmProb l d k (P 0) i) (j : ℕ) :
    HasDerivAt (fun t => clmGrad l d n k (P t) j) (dotN k (clmHess l d n k (P 0) j) v) 0 := by
  refine (hessTrue_deriv hl ho hP hp j).congr_deriv ?_
  refine Finset.sum_congr rfl fun c _ => ?_
  rw [hess_eq, hessTrue]
  congr 2
  exact Finset.sum_congr rfl fun i hi => by rw [hw i (Finset.mem_range.1 hi), one_mul, one_mul]

/-- It is always symmetric. -/
theorem C99_hessian_symm (th : ℕ → ℝ) (j c : ℕ) : clmHess l d n k th j c = clmHess l d n k th c j := by
  rw [hess_eq, hess_eq]
  congr 1
  exact Finset.sum_congr rfl fun i _ => by ring

/-- The offsets built by `OrdinalModelData` meet the hypothesis of the Hessian theorems. -/
theorem ordinal_offsets (cat : ℕ → ℕ) (X : ℕ → ℕ → ℝ) (w : ℕ → ℝ) (i : ℕ) :
    (ordinalData q cat X w).o1ix i = false → (ordinalData q cat X w).o1 i = 0 := by
  simp only [ordinalData, decide_eq_false_iff_not, not_not]
  exact id

/-- With weights it is not: one observation of weight two in the top category of a binary logit without predictors. -/
theorem C99_hessian_violated : ∃ (cat : ℕ → ℕ) (w th : ℕ → ℝ),
    let d := ordinalData 1 cat (fun _ _ => 0) w
    0 < clmProb logitC d 1 th 0 ∧
      ¬ HasDerivAt (fun t => clmGrad logitC d 1 1 (fun j => th j + t) 0) (clmHess logitC d 1 1 th 0 0) 0 := by
  refine ⟨fun _ => 1, fun _ => 2, fun _ => -1, ?_⟩
  intro d
  have hpr := C99_prob (l := logitC) (q := 1) (p := 0) (fun _ => 1) (fun _ _ => 0) (fun _ => 2) (fun _ => -1) 0 le_rfl
  have hpr' : clmProb logitC d 1 (fun _ => -1) 0 = 1 - logitC.F (-1) := by
    refine hpr.trans ?_
    simp [catP, cumP, lin, dotN]
  have hF := logit_neg (x := -1) (by norm_num)
  have hpos : 0 < clmProb logitC d 1 (fun _ => -1) 0 := by rw [hpr']; linarith
  refine ⟨hpos, fun h => ?_⟩
  have hP : PathN 1 (fun t (j : ℕ) => (-1 : ℝ) + t) fun _ => 1 := fun j _ => by
    simpa using (hasDerivAt_id (0 : ℝ)).const_add (-1)
  have h0 : (fun (_ : ℕ) => (-1 : ℝ) + 0) = fun _ => -1 := by norm_num
  have h2 := hessTrue_deriv (l := logitC) (d := d) (n := 1) good_logit (fun i => ordinal_offsets _ _ _ i) hP
    (fun i hi => by
      have : i = 0 := by omega
      subst this
      change 0 < clmProb logitC d 1 (fun _ => (-1 : ℝ) + 0) 0
      rw [h0]; exact hpos) 0
  have h3 := h.unique h2
  change clmHess logitC d 1 1 (fun _ => -1) 0 0 = dotN 1 (hessTrue logitC d 1 1 (fun _ => (-1 : ℝ) + 0) 0) _ at h3
  rw [h0, dotN, Finset.sum_range_one, mul_one, hess_eq, hessTrue, Finset.sum_range_one, Finset.sum_range_one] at h3
  have hw : d.w 0 = 2 := rfl
  have ho : d.o1ix 0 = true := (o1ix_iff _ _ _ 0).2 rfl
  have hB : d.B2 0 0 = 1 := by simp [d, ordinalData, ordY]
  have he : eta2 d 1 (fun _ => -1) 0 = -1 := by
    have := (C99_eta (q := 1) (p := 0) (fun _ => 1) (fun _ _ => 0) (fun _ => 2) (fun _ => -1) 0 le_rfl).2
    refine this.trans ?_
    simp [lin, dotN]
  rw [hw, ho, hB, he] at h3
  have hF2 : 0 < logitC.F2 (-1) := by
    have h1 : exp (-1) < 1 := exp_lt_one_iff.2 (by norm_num)
    have h2 := exp_pos (-1)
    simp only [logitC, Glm.logitLink]
    refine div_pos ?_ (by positivity)
    nlinarith
  have h4 : logitC.F2 (-1) / clmProb logitC d 1 (fun _ => -1) 0 = 0 := by
    simp only [if_true, mul_zero, zero_mul, one_mul, mul_one, zero_sub, neg_div] at h3
    linarith
  exact (div_pos hF2 hpos).ne' h4

/-! ## The unconstrained parametrisation -/

theorem ordRvs_tail (th : ℕ → ℝ) {j : ℕ} (h : q ≤ j) : ordRvs q th j = th j := by
  unfold ordRvs
  rw [if_neg (by omega)]

/-- The Jacobian of the whole reparametrisation is `D1`. -/
theorem rvs_path (hq : 0 < q) (hk : q ≤ k) (hP : PathN k P v) :
    PathN k (fun t => ordRvs q (P t)) fun a => dotN k (clmD1 q (P 0) a) v := by
  intro a ha
  by_cases haq : a < q
  · have h := C78_ord_jac_rvs (P 0) P v (fun j hj => hP j (by omega)) rfl a haq
    refine h.congr_deriv ?_
    obtain ⟨m, rfl⟩ : ∃ m, k = q + m := ⟨k - q, by omega⟩
    change dotN q (ordJacRvs q (P 0) a) v = dotN (q + m) (clmD1 q (P 0) a) v
    rw [dot_split]
    have e0 : ∑ j ∈ Finset.range m, clmD1 q (P 0) a (q + j) * v (q + j) = 0 :=
      Finset.sum_eq_zero fun j _ => by
        rw [clmD1, if_neg (by omega), if_neg (by omega), zero_mul]
    rw [e0, add_zero]
    exact Finset.sum_congr rfl fun j hj => by rw [clmD1, if_pos ⟨haq, Finset.mem_range.1 hj⟩]
  · simp only [fun t => ordRvs_tail (P t) (not_lt.1 haq)]
    refine (hP a ha).congr_deriv ?_
    rw [dotN, Finset.sum_eq_single a]
    · rw [clmD1, if_neg (by omega), if_pos rfl, one_mul]
    · intro b _ hb
      rw [clmD1, if_neg (by omega), if_neg (Ne.symm hb), zero_mul]
    · intro h; exact absurd (Finset.mem_range.2 ha) h

theorem gradU_eq (hk : q ≤ k) (th : ℕ → ℝ) {j : ℕ} (hj : j < k) : clmGradU l d n k q th j =
    ∑ a ∈ Finset.range k, clmGrad l d n k (ordRvs q th) a * clmD1 q th a j := by
  obtain ⟨m, rfl⟩ : ∃ m, k = q + m := ⟨k - q, by omega⟩
  simp only [clmGradU]
  rw [Finset.sum_range_add]
  by_cases hjq : j < q
  · rw [if_pos hjq]
    have e0 : ∑ b ∈ Finset.range m, clmGrad l d n (q + m) (ordRvs q th) (q + b) * clmD1 q th (q + b) j = 0 :=
      Finset.sum_eq_zero fun b _ => by rw [clmD1, if_neg (by omega), if_neg (by omega), mul_zero]
    rw [e0, add_zero]
    exact Finset.sum_congr rfl fun a ha => by rw [clmD1, if_pos ⟨Finset.mem_range.1 ha, hjq⟩]
  · rw [if_neg hjq]
    have e0 : ∑ a ∈ Finset.range q, clmGrad l d n (q + m) (ordRvs q th) a * clmD1 q th a j = 0 :=
      Finset.sum_eq_zero fun a ha => by
        have := Finset.mem_range.1 ha
        rw [clmD1, if_neg (by omega), if_neg (by omega), mul_zero]
    rw [e0, zero_add, Finset.sum_eq_single (j - q)]
    · rw [clmD1, if_neg (by omega), if_pos (by omega), mul_one, show q + (j - q) = j by omega]
    · intro b _ hb
      rw [clmD1, if_neg (by omega), if_neg (by omega), mul_zero]
    · intro h; exact absurd (Finset.mem_range.2 (by omega)) h

/-- `loglike_unconstrained` is the likelihood at the transformed parameters. -/
theorem C99_loglike_unconstrained (th : ℕ → ℝ) : clmLoglikeU l d n k q th = clmLoglike l d n k (ordRvs q th) := rfl

/-- `gradient_unconstrained` is the gradient of the objective in the unconstrained parameters, and the rows of
`gradient_unconstrained_i` add up to it. -/
theorem C99_gradient_unconstrained (hl : GoodC l) (hq : 0 < q) (hk : q ≤ k) (hP : PathN k P v)
    (hp : ∀ i, i < n → 0 < clmProb l d k (ordRvs q (P 0)) i) :
    HasDerivAt (fun t => clmObj l d n k (ordRvs q (P t))) (dotN k (clmGradU l d n k q (P 0)) v) 0 ∧
      ∀ j, ∑ i ∈ Finset.range n, clmGradUI l d k q (P 0) i j = clmGradU l d n k q (P 0) j := by
  refine ⟨?_, fun j => ?_⟩
  · refine (C99_gradient hl (rvs_path hq hk hP) hp).1.congr_deriv ?_
    have e : dotN k (clmGradU l d n k q (P 0)) v = ∑ j ∈ Finset.range k, ∑ a ∈ Finset.range k,
        clmGrad l d n k (ordRvs q (P 0)) a * clmD1 q (P 0) a j * v j :=
      Finset.sum_congr rfl fun j hj => by rw [gradU_eq hk _ (Finset.mem_range.1 hj), Finset.sum_mul]
    rw [e, Finset.sum_comm]
    refine Finset.sum_congr rfl fun a _ => ?_
    simp only [dotN]
    rw [Finset.mul_sum]
    exact Finset.sum_congr rfl fun j _ => by ring
  · have h' : ∀ a, ∑ i ∈ Finset.range n, clmGradI l d k (ordRvs q (P 0)) i a = clmGrad l d n k (ordRvs q (P 0)) a := by
      intro a; simp only [clmGradI, clmGrad, neg_mul, Finset.sum_neg_distrib]
    simp only [clmGradUI, clmGradU]
    by_cases hj : j < q
    · simp only [if_pos hj]
      rw [Finset.sum_comm]
      exact Finset.sum_congr rfl fun a _ => by rw [← Finset.sum_mul, h']
    · simp only [if_neg hj, h']

/-- `hessian_unconstrained` is the derivative of `gradient_unconstrained` for unit weights. -/
theorem C99_hessian_unconstrained_partial (hl : GoodC l) (ho : ∀ i, d.o1ix i = false → d.o1 i = 0)
    (hw : ∀ i, i < n → d.w i = 1) (hq : 0 < q) (hk : q ≤ k) (hP : PathN k P v)
    (hp : ∀ i, i < n → 0 < clmProb l d k (ordRvs q (P 0)) i) {j : ℕ} (hj : j < k) :
    HasDerivAt (fun t => clmGradU l d n k q (P t) j) (dotN k (clmHessU l d n k q (P 0) j) v) 0 := by
  have hD : ∀ a, HasDerivAt (fun t => clmD1 q (P t) a j)
      (if a < q ∧ j < q then dotN q (ordHessRvs q (P 0) a j) v else 0) 0 := by
    intro a
    simp only [clmD1]
    by_cases h : a < q ∧ j < q
    · simp only [if_pos h]
      exact C78_ord_hess_rvs (P 0) P v (fun b hb => hP b (by omega)) rfl j h.2 a h.1
    · simp only [if_neg h]
      exact hasDerivAt_const _ _
  have hg := HasDerivAt.fun_sum (u := Finset.range k)
    (A := fun a t => clmGrad l d n k (ordRvs q (P t)) a * clmD1 q (P t) a j) (x := 0) fun a _ =>
      (C99_hessian_partial hl ho hw (rvs_path hq hk hP) hp a).fun_mul (hD a)
  simp only [fun t => gradU_eq (l := l) (d := d) (n := n) hk (P t) hj]
  refine hg.congr_deriv ?_
  set H := clmHess l d n k (ordRvs q (P 0)) with hH
  set g := clmGrad l d n k (ordRvs q (P 0)) with hgd
  set D := clmD1 q (P 0) with hDd
  have eU : ∀ c, clmHessU l d n k q (P 0) j c = (∑ b ∈ Finset.range k, (∑ a ∈ Finset.range k, D a j * H a b) * D b c) +
      if j < q ∧ c < q then ∑ a ∈ Finset.range q, g a * ordHessRvs q (P 0) a j c else 0 := by
    intro c
    simp only [clmHessU]
    by_cases h : j < q ∧ c < q
    · rw [if_pos h, if_pos h]; rfl
    · rw [if_neg h, if_neg h, add_zero]
  rw [Finset.sum_add_distrib]
  have e1 : dotN k (clmHessU l d n k q (P 0) j) v =
      (∑ c ∈ Finset.range k, (∑ b ∈ Finset.range k, (∑ a ∈ Finset.range k, D a j * H a b) * D b c) * v c) +
        ∑ c ∈ Finset.range k, (if j < q ∧ c < q then ∑ a ∈ Finset.range q, g a * ordHessRvs q (P 0) a j c else 0) * v c := by
    rw [dotN, ← Finset.sum_add_distrib]
    exact Finset.sum_congr rfl fun c _ => by rw [eU, add_mul]
  rw [e1]
  congr 1
  · simp only [dotN, Finset.sum_mul, Finset.mul_sum]
    rw [Finset.sum_comm]
    conv_rhs => rw [Finset.sum_comm]
    refine Finset.sum_congr rfl fun b _ => ?_
    conv_rhs => rw [Finset.sum_comm]
    exact Finset.sum_congr rfl fun a _ => Finset.sum_congr rfl fun c _ => by ring
  · obtain ⟨m, rfl⟩ : ∃ m, k = q + m := ⟨k - q, by omega⟩
    rw [Finset.sum_range_add, Finset.sum_range_add]
    have z1 : ∑ x ∈ Finset.range m, g (q + x) *
        (if q + x < q ∧ j < q then dotN q (ordHessRvs q (P 0) (q + x) j) v else 0) = 0 :=
      Finset.sum_eq_zero fun x _ => by rw [if_neg (by omega), mul_zero]
    have z2 : ∑ x ∈ Finset.range m, (if j < q ∧ q + x < q then
        ∑ a ∈ Finset.range q, g a * ordHessRvs q (P 0) a j (q + x) else 0) * v (q + x) = 0 :=
      Finset.sum_eq_zero fun x _ => by rw [if_neg (by omega), zero_mul]
    rw [z1, z2, add_zero, add_zero]
    by_cases hjq : j < q
    · have l1 : ∀ a ∈ Finset.range q, g a * (if a < q ∧ j < q then dotN q (ordHessRvs q (P 0) a j) v else 0) =
          ∑ c ∈ Finset.range q, g a * ordHessRvs q (P 0) a j c * v c := by
        intro a ha
        rw [if_pos ⟨Finset.mem_range.1 ha, hjq⟩, dotN, Finset.mul_sum]
        exact Finset.sum_congr rfl fun c _ => by ring
      rw [Finset.sum_congr rfl l1, Finset.sum_comm]
      refine Finset.sum_congr rfl fun c hc => ?_
      rw [if_pos ⟨hjq, Finset.mem_range.1 hc⟩, Finset.sum_mul]
    · rw [Finset.sum_eq_zero fun a _ => by rw [if_neg (by omega), mul_zero],
        Finset.sum_eq_zero fun a _ => by rw [if_neg (by omega), zero_mul]]

example : GoodC logitC := good_logit

end Verif.Like
