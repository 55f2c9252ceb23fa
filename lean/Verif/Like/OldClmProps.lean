import Verif.Like.OldClm
import Verif.Like.ClmPredProps
import Mathlib.Analysis.Complex.ExponentialBounds
/-!
# C227, C228: the older cumulative link model
-/
namespace Verif.Like
open Real Verif.Transf
variable {l : CLink} {d : ClmData} {n k q p : ℕ}

/-- The arrays are those of the newer class with unit weights. -/
theorem C227_data (q : ℕ) (cat : ℕ → ℕ) (X : ℕ → ℕ → ℝ) :
    oclmData q cat X = ordinalData q cat X fun _ => 1 := rfl

/-- So are the likelihood and, wherever the offset of the first predictor vanishes outside `ix`, the derivatives. -/
theorem C227_loglike (th : ℕ → ℝ) : oclmLoglike l d n k th = clmLoglike l d n k th := rfl

theorem opi_eq (ho : ∀ i, d.o1ix i = false → d.o1 i = 0) (th : ℕ → ℝ) (i : ℕ) :
    oclmPi l d k th i = clmProb l d k th i := by
  simp only [oclmPi, clmProb, eta1, eta2]
  cases h : d.o1ix i with
  | true => simp
  | false => simp [ho i h]

theorem odpi_eq (ho : ∀ i, d.o1ix i = false → d.o1 i = 0) (th : ℕ → ℝ) (i j : ℕ) :
    oclmDpi l d k th i j = clmDprob l d k th i j := by
  simp only [oclmDpi, clmDprob, eta1, eta2]
  cases h : d.o1ix i with
  | true => simp
  | false => simp [ho i h]

theorem ograd_eq (ho : ∀ i, d.o1ix i = false → d.o1 i = 0) (th : ℕ → ℝ) (j : ℕ) :
    oclmGrad l d n k th j = clmGrad l d n k th j := by
  simp only [oclmGrad, clmGrad, opi_eq ho, odpi_eq ho]

theorem ohess_eq (ho : ∀ i, d.o1ix i = false → d.o1 i = 0) (th : ℕ → ℝ) (j c : ℕ) :
    oclmHess l d n k th j c = clmHess l d n k th j c := by
  simp only [oclmHess, clmHess, opi_eq ho, odpi_eq ho, eta2]
  congr 2
  · congr 1 <;> exact Finset.sum_congr rfl fun i _ => by rw [mul_div_assoc]
  · exact Finset.sum_congr rfl fun i _ => by ring

/-- The probabilities used by the derivatives are those of the model, up to the finite lowest threshold. -/
theorem C227_prob (cat : ℕ → ℕ) (X : ℕ → ℕ → ℝ) (th : ℕ → ℝ) (i : ℕ) (hc : cat i ≤ q) :
    oclmPi l (oclmData q cat X) (q + p) th i = catP l.F q th (lin q p X th i) (cat i) := by
  rw [C227_data, opi_eq (ordinal_offsets cat X _)]
  exact C99_prob cat X _ th i hc

variable {P : ℝ → ℕ → ℝ} {v : ℕ → ℝ}

/-- `gradient` is the derivative of minus the log-likelihood of the model and `hessian` the derivative of `gradient`. -/
theorem C227_derivatives (hl : GoodC l) (cat : ℕ → ℕ) (X : ℕ → ℕ → ℝ) (hP : PathN k P v)
    (hp : ∀ i, i < n → 0 < oclmPi l (oclmData q cat X) k (P 0) i) :
    HasDerivAt (fun t => -∑ i ∈ Finset.range n, log (oclmPi l (oclmData q cat X) k (P t) i))
        (dotN k (oclmGrad l (oclmData q cat X) n k (P 0)) v) 0 ∧
      ∀ j, HasDerivAt (fun t => oclmGrad l (oclmData q cat X) n k (P t) j)
        (dotN k (oclmHess l (oclmData q cat X) n k (P 0) j) v) 0 := by
  have ho : ∀ i, (oclmData q cat X).o1ix i = false → (oclmData q cat X).o1 i = 0 :=
    ordinal_offsets (q := q) cat X fun _ => 1
  have hp' : ∀ i, i < n → 0 < clmProb l (oclmData q cat X) k (P 0) i := fun i hi => by
    rw [← opi_eq ho]; exact hp i hi
  refine ⟨?_, fun j => ?_⟩
  · have h := (C99_gradient (n := n) hl hP hp').1
    have e1 : (fun t => -∑ i ∈ Finset.range n, log (oclmPi l (oclmData q cat X) k (P t) i)) =
        fun t => clmObj l (oclmData q cat X) n k (P t) := by
      funext t
      simp only [clmObj, one_mul, opi_eq ho, show ∀ i, (oclmData q cat X).w i = 1 from fun _ => rfl]
    have e2 : oclmGrad l (oclmData q cat X) n k (P 0) = clmGrad l (oclmData q cat X) n k (P 0) :=
      funext fun j => ograd_eq ho _ j
    rw [e1, e2]; exact h
  · have h := C99_hessian_partial (n := n) hl ho (fun _ _ => rfl) hP hp' j
    have e1 : (fun t => oclmGrad l (oclmData q cat X) n k (P t) j) =
        fun t => clmGrad l (oclmData q cat X) n k (P t) j := funext fun t => ograd_eq ho _ j
    have e2 : oclmHess l (oclmData q cat X) n k (P 0) j = clmHess l (oclmData q cat X) n k (P 0) j :=
      funext fun c => ohess_eq ho _ j c
    rw [e1, e2]; exact h

/-- The likelihood itself has an artificial top threshold of 300: with one observation in the top category of a binary
logit, and linear predictor 1000, its value exceeds 690, while the objective whose gradient is used is below 1. -/
theorem C227_objective_violated : ∃ (cat : ℕ → ℕ) (X : ℕ → ℕ → ℝ) (th : ℕ → ℝ),
    690 < oclmLoglike logitC (oclmData 1 cat X) 1 2 th ∧
      -log (oclmPi logitC (oclmData 1 cat X) 2 th 0) < 1 := by
  refine ⟨fun _ => 1, fun _ _ => 1000, fun j => j, ?_, ?_⟩
  · have hl : lin 1 1 (fun _ _ => 1000) (fun j => (j : ℝ)) 0 = 1000 := by simp [lin, dotN]
    have h1 := C99_loglike (l := logitC) (n := 1) (q := 1) (p := 1) (fun _ => 1) (fun _ _ => 1000) (fun _ => 1)
      (fun j => (j : ℝ)) fun _ _ => le_rfl
    rw [C227_loglike, C227_data, h1, Finset.sum_range_one, hl, one_mul]
    have hlt : likP logitC.F 1 (fun j => (j : ℝ)) 1000 1 ≤ exp (-700) := by
      have hn := logit_neg (x := -1000) (by norm_num)
      have hF : logitC.F (-700) ≤ exp (-700) := by
        simp only [logitC, Glm.logitLink]
        have := exp_pos (-700)
        rw [div_le_iff₀ (by positivity)]
        nlinarith
      simp only [likP]
      norm_num
      linarith
    have hpos : 0 < likP logitC.F 1 (fun j => (j : ℝ)) 1000 1 := by
      simp only [likP]
      norm_num
      exact logit_strictMono (by norm_num)
    have := log_le_log hpos hlt
    rw [log_exp] at this
    linarith
  · have h2 := C227_prob (l := logitC) (q := 1) (p := 1) (fun _ => 1) (fun _ _ => 1000)
      (fun j => (j : ℝ)) 0 le_rfl
    have hl : lin 1 1 (fun _ _ => 1000) (fun j => (j : ℝ)) 0 = 1000 := by simp [lin, dotN]
    rw [show (2 : ℕ) = 1 + 1 from rfl, h2, hl]
    have hn := logit_neg (x := -1000) (by norm_num)
    have e : catP logitC.F 1 (fun j => (j : ℝ)) 1000 1 = 1 - logitC.F (-1000) := by
      simp only [catP, cumP]; norm_num
    rw [e]
    have h3 : log (1 / 2) < log (1 - logitC.F (-1000)) := log_lt_log (by norm_num) (by linarith [hn.2])
    have h4 : log (1 / 2) = -log 2 := by rw [one_div, log_inv]
    have h5 := log_two_lt_d9
    rw [h4] at h3
    norm_num at h5 ⊢
    linarith

/-! ## The order of the thresholds -/

/-- Every constraint is the one on the last two thresholds. -/
theorem C227_constraints (q : ℕ) (th : ℕ → ℝ) :
    (∀ f ∈ oclmConstraints q, 0 ≤ f th) ↔ (2 ≤ q → th (q - 2) ≤ th (q - 1)) := by
  simp only [oclmConstraints, List.mem_map, List.mem_range, forall_exists_index, and_imp, forall_apply_eq_imp_iff₂]
  constructor
  · intro h hq
    have := h 0 (by omega)
    rw [show q - 1 - 1 + 1 = q - 1 by omega, show q - 1 - 1 = q - 2 by omega] at this
    linarith
  · intro h a ha
    have := h (by omega)
    rw [show q - 1 - 1 + 1 = q - 1 by omega, show q - 1 - 1 = q - 2 by omega]
    linarith

/-- With at most three categories the constraints are the order of the thresholds. -/
theorem C227_order_partial (hq : q ≤ 2) (th : ℕ → ℝ) :
    (∀ f ∈ oclmConstraints q, 0 ≤ f th) ↔ ∀ c, c + 1 < q → th c ≤ th (c + 1) := by
  rw [C227_constraints]
  constructor
  · intro h c hc
    have : q = 2 := by omega
    subst this
    have : c = 0 := by omega
    subst this
    exact h le_rfl
  · intro h h2
    have : q = 2 := by omega
    subst this
    exact h 0 (by omega)

/-- With four they are not: thresholds out of order meet all of them, and give a category a negative probability. -/
theorem C227_order_violated : ∃ (th : ℕ → ℝ), (∀ f ∈ oclmConstraints 3, 0 ≤ f th) ∧ ¬ th 0 ≤ th 1 ∧
    oclmPi logitC (oclmData 3 (fun _ => 1) fun _ _ => 0) 3 th 0 < 0 := by
  refine ⟨fun c => if c = 0 then 5 else c, (C227_constraints _ _).2 fun _ => by norm_num, by norm_num, ?_⟩
  have h := C227_prob (l := logitC) (q := 3) (p := 0) (fun _ => 1) (fun _ _ => 0)
    (fun c => if c = 0 then 5 else (c : ℝ)) 0 (by norm_num)
  refine h.trans_lt ?_
  have e : lin 3 0 (fun _ _ => 0) (fun c => if c = 0 then 5 else (c : ℝ)) 0 = 0 := by simp [lin, dotN]
  rw [e]
  simp only [catP, cumP]
  norm_num
  exact logit_strictMono (by norm_num)

/-! ## Starting values -/

theorem col_sum (n q : ℕ) (cat : ℕ → ℕ) (hc : ∀ i, i < n → cat i ≤ q) :
    ∑ i ∈ Finset.range n, ∑ j ∈ Finset.range (q + 1), (if cat i = j then (1 : ℝ) else 0) = n := by
  rw [Finset.sum_congr rfl fun i hi => by
    rw [Finset.sum_ite_eq, if_pos (Finset.mem_range.2 (by have := hc i (Finset.mem_range.1 hi); omega))]]
  simp

/-- When every category occurs, the cumulative proportions lie strictly between zero and one and increase strictly, so
the starting thresholds are in order. -/
theorem C227_start {ppf : ℝ → ℝ} (hm : StrictMonoOn ppf (Set.Ioo 0 1)) (n q : ℕ) (cat : ℕ → ℕ)
    (hc : ∀ i, i < n → cat i ≤ q) (hs : ∀ c, c ≤ q → ∃ i, i < n ∧ cat i = c) {c e : ℕ} (hce : c < e) (he : e < q) :
    0 < oclmProps n q cat c ∧ oclmProps n q cat e < 1 ∧ oclmInit ppf n q cat c < oclmInit ppf n q cat e := by
  have hn : (0 : ℝ) < n := by
    obtain ⟨i, hi, _⟩ := hs 0 (Nat.zero_le _)
    exact_mod_cast (by omega : 0 < n)
  set col : ℕ → ℝ := fun c => ∑ i ∈ Finset.range n, if cat i = c then (1 : ℝ) else 0 with hcol
  have hpos : ∀ c, c ≤ q → 0 < col c := by
    intro c hc'
    obtain ⟨i, hi, h⟩ := hs c hc'
    exact Finset.sum_pos' (fun i _ => by positivity) ⟨i, Finset.mem_range.2 hi, by rw [if_pos h]; norm_num⟩
  have hp : ∀ c, oclmProps n q cat c = (∑ j ∈ Finset.range (c + 1), col j) / n := fun c => by
    simp only [oclmProps, col_sum n q cat hc, hcol]
  have htot : ∑ j ∈ Finset.range (q + 1), col j = n := by
    rw [hcol, Finset.sum_comm]; exact col_sum n q cat hc
  have hlt : ∀ a b, a < b → b ≤ q → ∑ j ∈ Finset.range (a + 1), col j < ∑ j ∈ Finset.range (b + 1), col j := by
    intro a b hab hb
    refine Finset.sum_lt_sum_of_subset (i := b) (Finset.range_subset_range.2 (by omega)) (by simp) (by simp; omega)
      (hpos b hb) fun j _ _ => Finset.sum_nonneg fun i _ => by positivity
  have h0 : ∀ c, c < q → 0 < oclmProps n q cat c := fun c hc' => by
    rw [hp]
    exact div_pos (Finset.sum_pos (fun j hj => hpos j (by have := Finset.mem_range.1 hj; omega)) (by simp)) hn
  have h1 : ∀ c, c < q → oclmProps n q cat c < 1 := fun c hc' => by
    rw [hp, div_lt_one hn, ← htot]; exact hlt c q hc' le_rfl
  refine ⟨h0 c (by omega), h1 e he, hm ⟨h0 c (by omega), h1 c (by omega)⟩ ⟨h0 e he, h1 e he⟩ ?_⟩
  rw [hp, hp]
  exact div_lt_div_of_pos_right (hlt c e hce (by omega)) hn

/-! ## The null model and a formula with an intercept -/

/-- Moving all thresholds and the coefficient of a constant predictor by the same amount leaves the probability of every
category but the lowest unchanged; and of the lowest too once the link has reached zero at the artificial threshold. -/
theorem C227_redundant (cat : ℕ → ℕ) (X : ℕ → ℕ → ℝ) (th : ℕ → ℝ) (δ : ℝ) (i : ℕ) (hc : cat i ≤ q)
    (h1 : ∀ i, X i 0 = 1) (hp : 0 < p)
    (hz : cat i = 0 → l.F (-1000000 - lin q p X th i) = l.F (-1000000 - (lin q p X th i + δ))) :
    oclmPi l (oclmData q cat X) (q + p) (fun j => if j ≤ q then th j + δ else th j) i =
      oclmPi l (oclmData q cat X) (q + p) th i := by
  rw [C227_prob _ _ _ _ hc, C227_prob _ _ _ _ hc]
  have e : lin q p X (fun j => if j ≤ q then th j + δ else th j) i = lin q p X th i + δ := by
    obtain ⟨m, rfl⟩ : ∃ m, p = m + 1 := ⟨p - 1, by omega⟩
    simp only [lin, dotN]
    rw [Finset.sum_range_succ', Finset.sum_range_succ' (fun x => X i x * th (q + x)), h1]
    simp only [add_zero, le_refl, if_true, one_mul]
    rw [Finset.sum_congr rfl fun x _ => by rw [if_neg (by omega)]]
    ring
  rw [e]
  have ec : ∀ c, cumP l.F q (fun j => if j ≤ q then th j + δ else th j) (lin q p X th i + δ) c =
      cumP l.F q th (lin q p X th i) c := by
    intro c
    simp only [cumP]
    by_cases h : c < q
    · rw [if_pos h, if_pos h, if_pos h.le]; congr 1; ring
    · rw [if_neg h, if_neg h]
  simp only [catP, ec]
  by_cases h0 : cat i = 0
  · rw [if_pos h0, if_pos h0, hz h0]
  · rw [if_neg h0, if_neg h0]

/-- Hence the null model, whose only predictor is constant, never identifies its parameters. -/
theorem C227_null_redundant (cat : ℕ → ℕ) (th : ℕ → ℝ) (δ : ℝ) (i : ℕ) (hc : cat i ≤ q)
    (hz : cat i = 0 → l.F (-1000000 - th q) = l.F (-1000000 - (th q + δ))) :
    oclmPi l (oclmNull q cat) (q + 1) (fun j => if j ≤ q then th j + δ else th j) i =
      oclmPi l (oclmNull q cat) (q + 1) th i := by
  refine C227_redundant (p := 1) cat (fun _ _ => 1) th δ i hc (fun _ => rfl) one_pos ?_
  have : lin q 1 (fun _ _ => 1) th i = th q := by simp [lin, dotN]
  rw [this]; exact hz

example : ∃ th : ℕ → ℝ, 0 < oclmPi logitC (oclmData 1 (fun _ => 1) fun _ _ => 0) 1 th 0 := by
  refine ⟨fun _ => -1, ?_⟩
  have h := C227_prob (l := logitC) (q := 1) (p := 0) (fun _ => 1) (fun _ _ => 0) (fun _ => -1) 0 le_rfl
  refine lt_of_lt_of_eq ?_ h.symm
  have := (logit_neg (x := -1) (by norm_num)).2
  simp [catP, cumP, lin, dotN]
  linarith

end Verif.Like
