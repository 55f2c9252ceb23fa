import Verif.Misc.ShashLemmas

/-!
# The log density itself and its first derivatives
-/

namespace Verif.Misc.Sym

open Filter Topology

/-- The log density up to the constant. -/
noncomputable def logL (s t d v : ℝ) : ℝ :=
  Real.log t - 1 / 2 * Real.log (s ^ 2 + d ^ 2) + Real.log (aC s t d v) - 1 / 2 * aS s t d v ^ 2

theorem hasDeriv_L {s t d v : ℝ → ℝ} {s' t' d' v' x₀ : ℝ} (hs0 : s x₀ ≠ 0) (ht0 : t x₀ ≠ 0)
    (hs : HasDerivAt s s' x₀) (hd : HasDerivAt d d' x₀)
    (ht : HasDerivAt t t' x₀) (hv : HasDerivAt v v' x₀) :
    HasDerivAt (fun x => logL (s x) (t x) (d x) (v x))
      (t' / t x₀ - (s x₀ * s' + d x₀ * d') * ((s x₀)⁻¹ ^ 2 * aW (s x₀) (d x₀) ^ 2) +
        (aS (s x₀) (t x₀) (d x₀) (v x₀) * (aC (s x₀) (t x₀) (d x₀) (v x₀))⁻¹ -
          aS (s x₀) (t x₀) (d x₀) (v x₀) * aC (s x₀) (t x₀) (d x₀) (v x₀)) *
        (t' * aU (s x₀) (d x₀) +
          t x₀ * (aW (s x₀) (d x₀) * ((d' * s x₀ - d x₀ * s') / s x₀ ^ 2)) + v')) x₀ := by
  have hq : s x₀ ^ 2 + d x₀ ^ 2 ≠ 0 := by positivity
  have h1 := ht.log ht0
  have h2 := (((hs.fun_pow 2).fun_add (hd.fun_pow 2)).log hq).const_mul (1 / 2 : ℝ)
  have h3 := (hasDeriv_C hs0 hs hd ht hv).log (aC_pos _ _ _ _).ne'
  have h4 := ((hasDeriv_S hs0 hs hd ht hv).fun_pow 2).const_mul (1 / 2 : ℝ)
  refine (((h1.fun_sub h2).fun_add h3).fun_sub h4).congr_deriv ?_
  have hw : (s x₀)⁻¹ ^ 2 * aW (s x₀) (d x₀) ^ 2 = 1 / (s x₀ ^ 2 + d x₀ ^ 2) := by
    rw [aW_sq]
    field_simp
  rw [hw]
  generalize (t' * aU (s x₀) (d x₀) +
          t x₀ * (aW (s x₀) (d x₀) * ((d' * s x₀ - d x₀ * s') / s x₀ ^ 2)) + v') = X'
  have hC := (aC_pos (s x₀) (t x₀) (d x₀) (v x₀)).ne'
  generalize aC (s x₀) (t x₀) (d x₀) (v x₀) = C at hC
  generalize aS (s x₀) (t x₀) (d x₀) (v x₀) = S
  push_cast
  field_simp
  ring

/-- The first derivatives. -/
def g1 : Poly := sub (mo 1 0 0 (-1) 0 0 0 1) (mo 1 0 0 1 0 0 0 1)
def bM : Poly := sub (mul g1 (mo 1 (-1) 1 0 1 0 0 0)) (mo 1 (-2) 0 0 2 1 0 0)
def bS (k : ℤ) : Poly := sub (mul g1 (mo (-1) (k - 2) 1 0 1 1 0 0)) (mo 1 (k - 1) 0 0 2 0 0 0)
def bT (k : ℤ) : Poly := add (mul g1 (mo 1 0 k 0 0 0 1 0)) (mo 1 0 (k - 1) 0 0 0 0 0)
def bV : Poly := g1

section
variable {σ τ : ℝ → ℝ} {y m s t v : ℝ} (hs : σ s ≠ 0) (ht : τ t ≠ 0)
include hs ht

theorem base_m : HasDerivAt (fun x => logL (σ s) (τ t) (x - y) v) (ev (shA σ τ y m s t v) bM) m := by
  have c0 : ∀ c : ℝ, HasDerivAt (fun _ : ℝ => c) 0 m := fun c => hasDerivAt_const m c
  have hA := shAtoms_ne (σ s) (τ t) (m - y) v y s t hs ht
  refine (hasDeriv_L (s := fun _ => σ s) (t := fun _ => τ t) (d := fun x => x - y) (v := fun _ => v) hs ht
    (c0 _) ((hasDerivAt_id m).sub_const y) (c0 _) (c0 _)).congr_deriv ?_
  rw [bM, g1, shA, ev_sub hA, ev_mul hA, ev_sub hA, ev_mo, ev_mo, ev_mo, ev_mo]
  norm_num [zpow_neg, zpow_ofNat]
  field_simp
  ring

theorem base_s (k : ℤ) (hσ : HasDerivAt σ (σ s ^ k) s) :
    HasDerivAt (fun x => logL (σ x) (τ t) (m - y) v) (ev (shA σ τ y m s t v) (bS k)) s := by
  have c0 : ∀ c : ℝ, HasDerivAt (fun _ : ℝ => c) 0 s := fun c => hasDerivAt_const s c
  have hA := shAtoms_ne (σ s) (τ t) (m - y) v y s t hs ht
  have k2 : σ s ^ (k - 2) = σ s ^ k / σ s ^ 2 := by rw [zpow_sub₀ hs]; norm_cast
  have k1 : σ s ^ (k - 1) = σ s ^ k / σ s := by rw [zpow_sub₀ hs]; norm_num
  refine (hasDeriv_L (s := σ) (t := fun _ => τ t) (d := fun _ => m - y) (v := fun _ => v) hs ht
    hσ (c0 _) (c0 _) (c0 _)).congr_deriv ?_
  rw [bS, g1, shA, ev_sub hA, ev_mul hA, ev_sub hA, ev_mo, ev_mo, ev_mo, ev_mo, k1, k2]
  norm_num [zpow_neg, zpow_ofNat]
  field_simp
  ring

theorem base_t (k : ℤ) (hτ : HasDerivAt τ (τ t ^ k) t) :
    HasDerivAt (fun x => logL (σ s) (τ x) (m - y) v) (ev (shA σ τ y m s t v) (bT k)) t := by
  have c0 : ∀ c : ℝ, HasDerivAt (fun _ : ℝ => c) 0 t := fun c => hasDerivAt_const t c
  have hA := shAtoms_ne (σ s) (τ t) (m - y) v y s t hs ht
  have k1 : τ t ^ (k - 1) = τ t ^ k / τ t := by rw [zpow_sub₀ ht]; norm_num
  refine (hasDeriv_L (s := fun _ => σ s) (t := τ) (d := fun _ => m - y) (v := fun _ => v) hs ht
    (c0 _) (c0 _) hτ (c0 _)).congr_deriv ?_
  rw [bT, g1, shA, ev_add, ev_mul hA, ev_sub hA, ev_mo, ev_mo, ev_mo, ev_mo, k1]
  norm_num [zpow_neg, zpow_ofNat]
  ring

theorem base_v : HasDerivAt (fun x => logL (σ s) (τ t) (m - y) x) (ev (shA σ τ y m s t v) bV) v := by
  have c0 : ∀ c : ℝ, HasDerivAt (fun _ : ℝ => c) 0 v := fun c => hasDerivAt_const v c
  have hA := shAtoms_ne (σ s) (τ t) (m - y) v y s t hs ht
  refine (hasDeriv_L (s := fun _ => σ s) (t := fun _ => τ t) (d := fun _ => m - y) (v := fun x => x) hs ht
    (c0 _) (c0 _) (c0 _) (hasDerivAt_id v)).congr_deriv ?_
  rw [bV, g1, shA, ev_sub hA, ev_mo, ev_mo]
  norm_num [zpow_neg, zpow_ofNat]
  ring

end

/-- One assignment read off by a check. -/
theorem run_x {S : Setup} {dom : (ℕ → ℝ) → Prop} {A : (ℕ → ℝ) → Atoms} {inp : (ℕ → ℝ) → List ℝ}
    (h : SetupOk S dom A inp) {body : List Expr} {i : ℕ} {p : Poly}
    (hc : check1 S [p] ⟨body, [[Expr.x i]]⟩ 0 = true) (θ : ℕ → ℝ) (hθ : dom θ) :
    ∃ env, run (inp θ) body [] = some env ∧ env[i]? = some (ev (A θ) p) := by
  have := block_of_check1 h hc θ hθ
  simp only [Prog.block, List.getD_cons_zero] at this
  rw [Option.bind_eq_bind, Option.bind_eq_some_iff] at this
  obtain ⟨env, he, h2⟩ := this
  refine ⟨env, he, ?_⟩
  simp only [evalAll, Expr.eval, List.map_cons, List.map_nil] at h2
  cases hh : env[i]? with
  | none => rw [hh] at h2; simp at h2
  | some a =>
    rw [hh] at h2
    have : [a] = [ev (A θ) p] := by simpa using h2
    simpa using this

end Verif.Misc.Sym
