import Verif.Glm.WeightDeriv
import Verif.Glm.FamiliesProps
/-!
# C69: derivatives of the working weights
-/
namespace Verif.Glm
open Real Set

/-- Every one of the four methods raises. -/
theorem C69_raises_violated (F : Family) (l : LinkFns) (y mu k : ℝ) :
    daDmu false F l y mu k = none ∧ d2aDmu2 false F l y mu k = none ∧
    dwDeta false F l y mu k = none ∧ d2wDeta2 false F l y mu k = none :=
  ⟨rfl, rfl, rfl, rfl⟩

/-- What is needed of family and link at `mu`: variance and link derivatives up to the third and
fourth order. -/
structure WOK (F : Family) (l : LinkFns) (M : Set ℝ) (k : ℝ) : Prop where
  isOpen : IsOpen M
  V0 : ∀ mu ∈ M, F.V0 mu k ≠ 0 ∧ F.var mu k = F.V0 mu k
  V1 : ∀ mu ∈ M, HasDerivAt (fun m => F.V0 m k) (F.V1 mu k) mu
  V2 : ∀ mu ∈ M, HasDerivAt (fun m => F.V1 m k) (F.V2 mu k) mu
  V3 : ∀ mu ∈ M, HasDerivAt (fun m => F.V2 m k) (F.V3 mu k) mu
  g1 : ∀ mu ∈ M, l.d1 mu ≠ 0
  g2 : ∀ mu ∈ M, HasDerivAt l.d1 (l.d2 mu) mu
  g3 : ∀ mu ∈ M, HasDerivAt l.d2 (l.d3 mu) mu
  g4 : ∀ mu ∈ M, ∃ x, l.d4 mu = some x ∧ HasDerivAt l.d3 x mu

theorem getA_deriv {F : Family} {l : LinkFns} {M : Set ℝ} {k : ℝ} (h : WOK F l M k) (y : ℝ)
    {mu : ℝ} (hm : mu ∈ M) : HasDerivAt (fun m => getA F l y m k)
      ((y - mu) * (F.V2 mu k / F.V0 mu k - (F.V1 mu k / F.V0 mu k) ^ 2 + l.d3 mu / l.d1 mu -
        (l.d2 mu / l.d1 mu) ^ 2) - (F.V1 mu k / F.V0 mu k + l.d2 mu / l.d1 mu)) mu := by
  have h0 := (h.V0 mu hm).1
  have hg := h.g1 mu hm
  refine ((((hasDerivAt_id mu).const_sub y).fun_mul
    (((h.V2 mu hm).fun_div (h.V1 mu hm) h0).fun_add
      ((h.g3 mu hm).fun_div (h.g2 mu hm) hg))).const_add 1).congr_deriv ?_
  simp only [id]
  field_simp
  ring

/-- If the missing attributes existed, `da_dmu` and `d2a_dmu2` would be the derivatives in `mu` of
`get_a`. -/
theorem C69_a_partial {F : Family} {l : LinkFns} {M : Set ℝ} {k : ℝ} (h : WOK F l M k) (y : ℝ) :
    ∃ a1 : ℝ → ℝ, (∀ mu, daDmu true F l y mu k = some (a1 mu)) ∧
      ∀ mu ∈ M, HasDerivAt (fun m => getA F l y m k) (a1 mu) mu ∧
        ∃ a2, d2aDmu2 true F l y mu k = some a2 ∧ HasDerivAt a1 a2 mu := by
  refine ⟨_, fun mu => rfl, fun mu hm => ⟨getA_deriv h y hm, ?_⟩⟩
  obtain ⟨g4, e4, h4⟩ := h.g4 mu hm
  refine ⟨_, by simp only [d2aDmu2, e4]; rfl, ?_⟩
  have h0 := (h.V0 mu hm).1
  have hg := h.g1 mu hm
  have q := (h.V2 mu hm).fun_div (h.V1 mu hm) h0
  have r := (h.g3 mu hm).fun_div (h.g2 mu hm) hg
  refine ((((hasDerivAt_id mu).const_sub y).fun_mul
    (((((h.V3 mu hm).fun_div (h.V1 mu hm) h0).fun_sub (q.fun_pow 2)).fun_add
      (h4.fun_div (h.g2 mu hm) hg)).fun_sub (r.fun_pow 2))).fun_sub
      (q.fun_add r)).congr_deriv ?_
  simp only [id, Nat.reduceSub, pow_one, Nat.cast_ofNat]
  field_simp
  ring

/-- If the missing attributes existed, `dw_deta` and `d2w_deta2` would be the derivatives in the
linear predictor of `get_w` (wherever `get_a` does not vanish). -/
theorem C69_w_partial {F : Family} {l : LinkFns} {M E : Set ℝ} {k : ℝ} (h : WOK F l M k)
    (hl : GoodLink l M E) (y : ℝ) :
    ∃ w w1 : ℝ → ℝ,
      (∀ mu, getW (some fun y mu => getA F l y mu k) F l y mu k = some (w mu)) ∧
      (∀ mu, dwDeta true F l y mu k = some (w1 mu)) ∧
      ∀ eta ∈ E, getA F l y (l.inv eta) k ≠ 0 →
        HasDerivAt (fun e => w (l.inv e)) (w1 (l.inv eta)) eta ∧
        ∃ w2, d2wDeta2 true F l y (l.inv eta) k = some w2 ∧
          HasDerivAt (fun e => w1 (l.inv e)) w2 eta := by
  refine ⟨_, _, fun mu => rfl, fun mu => rfl, fun eta he ha => ?_⟩
  obtain ⟨hg, hinv⟩ := hl.inv_deriv he
  have hm : l.inv eta ∈ M := (hl.inverse.2 eta he).1
  have hA := getA_deriv h y hm
  obtain ⟨a1f, ea1, hA2⟩ := C69_a_partial h y
  obtain ⟨g4, e4, h4⟩ := h.g4 _ hm
  obtain ⟨-, a2, ea2, hA2⟩ := hA2 _ hm
  have h0 := (h.V0 _ hm).1
  have ev := (h.V0 _ hm).2
  have hev : (fun m => F.var m k) =ᶠ[nhds (l.inv eta)] fun m => F.V0 m k := by
    filter_upwards [h.isOpen.mem_nhds hm] with m hm'
    exact (h.V0 m hm').2
  have hvar := (h.V1 _ hm).congr_of_eventuallyEq hev
  have hw : HasDerivAt (fun m => getA F l y m k / (l.d1 m ^ 2 * F.var m k))
      (getA F l y (l.inv eta) k / (l.d1 (l.inv eta) ^ 2 * F.V0 (l.inv eta) k) *
        (a1f (l.inv eta) / getA F l y (l.inv eta) k - F.V1 (l.inv eta) k / F.V0 (l.inv eta) k -
          2 * l.d2 (l.inv eta) / l.d1 (l.inv eta))) (l.inv eta) := by
    have e1 : a1f (l.inv eta) = _ := (Option.some.inj (ea1 (l.inv eta))).symm
    rw [← e1] at hA
    refine (hA.fun_div (((h.g2 _ hm).fun_pow 2).fun_mul hvar)
      (by rw [ev]; exact mul_ne_zero (pow_ne_zero 2 hg) h0)).congr_deriv ?_
    rw [ev]
    generalize a1f (l.inv eta) = A1 at *
    generalize getA F l y (l.inv eta) k = A0 at *
    simp only [Nat.reduceSub, pow_one, Nat.cast_ofNat]
    field_simp
    ring
  have e1 : ∀ m, (y - m) * (F.V2 m k / F.V0 m k - (F.V1 m k / F.V0 m k) ^ 2 + l.d3 m / l.d1 m -
        (l.d2 m / l.d1 m) ^ 2) - (F.V1 m k / F.V0 m k + l.d2 m / l.d1 m) = a1f m :=
    fun m => Option.some.inj (ea1 m)
  constructor
  · refine (hw.comp eta hinv).congr_deriv ?_
    simp only [e1, ev]
    generalize a1f (l.inv eta) = A1 at *
    generalize getA F l y (l.inv eta) k = A0 at *
    field_simp
  · refine ⟨_, by simp only [d2wDeta2, e4]; rfl, ?_⟩
    simp only [d2aDmu2, e4] at ea2
    have e2 := (Option.some.inj (show some _ = some a2 from ea2)).symm
    have eA : getA F l y (l.inv eta) k = 1 + (y - l.inv eta) *
      (F.V1 (l.inv eta) k / F.V0 (l.inv eta) k + l.d2 (l.inv eta) / l.d1 (l.inv eta)) := rfl
    have q := (h.V2 _ hm).fun_div (h.V1 _ hm) h0
    have r := ((h.g3 _ hm).const_mul 2).fun_div (h.g2 _ hm) hg
    have hA' : HasDerivAt (fun m => getA F l y m k) (a1f (l.inv eta)) (l.inv eta) := by
      rw [← e1]; exact hA
    have hs := ((hA2.fun_div hA' ha).fun_sub q).fun_sub r
    have hprod := (hw.fun_div (h.g2 _ hm) hg).fun_mul hs
    simp only [e1]
    have := hprod.comp eta hinv
    refine this.congr_deriv ?_
    rw [← eA, ← e1, ev]
    have e3 : (y - l.inv eta) * (F.V3 (l.inv eta) k / F.V0 (l.inv eta) k -
        3 * (F.V1 (l.inv eta) k * F.V2 (l.inv eta) k) / F.V0 (l.inv eta) k ^ 2 +
        2 * (F.V1 (l.inv eta) k / F.V0 (l.inv eta) k *
          (F.V1 (l.inv eta) k / F.V0 (l.inv eta) k) ^ 2) +
        (g4 / l.d1 (l.inv eta) - 3 * (l.d3 (l.inv eta) * l.d2 (l.inv eta)) / l.d1 (l.inv eta) ^ 2 +
        2 * (l.d2 (l.inv eta) / l.d1 (l.inv eta) * (l.d2 (l.inv eta) / l.d1 (l.inv eta)) ^ 2))) -
        2 * (F.V2 (l.inv eta) k / F.V0 (l.inv eta) k -
          (F.V1 (l.inv eta) k / F.V0 (l.inv eta) k) ^ 2 +
          l.d3 (l.inv eta) / l.d1 (l.inv eta) - (l.d2 (l.inv eta) / l.d1 (l.inv eta)) ^ 2) = a2 := by
      rw [e2]; ring
    rw [e3, e1]
    generalize a1f (l.inv eta) = A1 at *
    generalize getA F l y (l.inv eta) k = A0 at *
    generalize F.V0 (l.inv eta) k = v0 at *
    generalize F.V1 (l.inv eta) k = v1 at *
    generalize F.V2 (l.inv eta) k = v2 at *
    generalize l.d1 (l.inv eta) = g1 at *
    generalize l.d2 (l.inv eta) = g2 at *
    generalize l.d3 (l.inv eta) = g3 at *
    clear hs hprod this hw hA hA' hA2 q r e3 e2
    field_simp
    ring

/-- The hypotheses hold, for instance, for the Poisson family with log link. -/
example (sp : Sp) : WOK (poisson sp) logLink (Ioi 0) 1 where
  isOpen := isOpen_Ioi
  V0 := fun mu hm => ⟨((C36_var_poisson sp mu hm 1 one_pos).1).ne', rfl⟩
  V1 := fun mu _ => hasDerivAt_id mu
  V2 := fun mu _ => hasDerivAt_const mu _
  V3 := fun mu _ => hasDerivAt_const mu _
  g1 := fun mu hm => one_div_ne_zero (ne_of_gt hm)
  g2 := fun mu hm => (C35_log.1 mu hm).2.1
  g3 := fun mu hm => (C35_log.1 mu hm).2.2
  g4 := fun mu hm => C35_log.2.1 mu hm

end Verif.Glm
