import Verif.Misc.ShashBaseLemmas
import Verif.Misc.Shash
import Verif.Misc.ShashSpec
import Verif.Misc.ExprLemmas

/-!
# The setup for the sinh-arcsinh functions
-/

namespace Verif.Misc.Shash

open Verif.Misc Verif.Misc.Sym Filter Topology

theorem logDens_eq (y m s t v : ℝ) (hs : 0 < s) (ht : 0 < t) :
    logDens y m s t v = logL s t (m - y) v - 1 / 2 * Real.log (2 * Real.pi) := by
  have hX : t * Real.arsinh ((y - m) / s) - v = -aX s t (m - y) v := by
    rw [aX, aU, show (y - m) / s = -((m - y) / s) by ring, Real.arsinh_neg]; ring
  have hz : ((y - m) / s) ^ 2 = ((m - y) / s) ^ 2 := by ring
  have hq := q_pos s (m - y)
  have hC := aC_pos s t (m - y) v
  have h2p : 0 < 2 * Real.pi := by positivity
  unfold logDens logL
  rw [hX, hz, Real.cosh_neg, Real.sinh_neg, ← aC, ← aS]
  have e : s ^ 2 + (m - y) ^ 2 = s ^ 2 * (1 + ((m - y) / s) ^ 2) := by field_simp
  rw [e, Real.log_mul (by positivity) hq.ne', Real.log_mul (by positivity) (Real.exp_pos _).ne',
    Real.log_exp, Real.log_div (by positivity) (by positivity), Real.log_mul ht.ne' hC.ne',
    Real.log_mul hs.ne' (by positivity), Real.log_sqrt (by positivity), Real.log_mul h2p.ne' hq.ne',
    Real.log_pow]
  push_cast
  ring

theorem update_val (θ : ℕ → ℝ) (l k : ℕ) (x : ℝ) :
    Function.update θ l x k = if k = l then x else θ k := by
  rw [Function.update_apply]

/-- The setup is right. -/
theorem setup_ok (y : ℝ) : SetupOk shSetup Dom
    (fun θ => shA id id y (θ 0) (θ 1) (θ 2) (θ 3)) (args y) where
  near := by
    rintro θ ⟨h1, h2⟩ l
    by_cases l1 : l = 1
    · subst l1
      filter_upwards [lt_mem_nhds h1] with x hx
      exact ⟨by simpa using hx, by simpa [Function.update_apply] using h2⟩
    · by_cases l2 : l = 2
      · subst l2
        filter_upwards [lt_mem_nhds h2] with x hx
        exact ⟨by simpa [Function.update_apply] using h1, by simpa using hx⟩
      · refine Filter.Eventually.of_forall fun x => ⟨?_, ?_⟩
        · rw [update_val, if_neg (Ne.symm l1)]; exact h1
        · rw [update_val, if_neg (Ne.symm l2)]; exact h2
  ne := fun θ h => shAtoms_ne _ _ _ _ _ _ _ h.1.ne' h.2.ne'
  table := fun θ h => shT_ok _ _ _ _ _ _ _ h.1.ne' h.2.ne'
  pi := fun θ h p hp => by simp [shSetup] at hp
  inps := fun θ h => by
    simp only [shSetup, List.map_cons, List.map_nil, args, pM, pY]
    rw [shA, ev_add, ev_mo, ev_mo, ev_mo, ev_mo, ev_mo]
    norm_num
  rules := fun θ h => shR_ok _ _ _ _ _ _ _ h.1.ne'
  curve := by
    intro θ h l
    rcases l with _ | _ | _ | _ | l
    · exact curve_m h.1.ne'
    · exact curve_s 0 h.1.ne' (by simpa using hasDerivAt_id (θ 1))
    · exact curve_t 0 h.1.ne' (by simpa using hasDerivAt_id (θ 2))
    · exact curve_v h.1.ne'
    · exact curve_0 _ id id y (θ 0) (θ 1) (θ 2) (θ 3) _ fun x => by
        simp [Function.update_apply]

/-- The first derivatives as polynomials. -/
def base : List Poly := [bM, bS 0, bT 0, bV]

/-- Evaluating `lnp`. -/
theorem lnp_eval (y : ℝ) (θ : ℕ → ℝ) (h : Dom θ) (env : List ℝ)
    (h0 : env[0]? = some (aX (θ 1) (θ 2) (θ 0 - y) (θ 3))) :
    lnp.eval (args y θ) env = some (logDens y (θ 0) (θ 1) (θ 2) (θ 3)) := by
  have hq : 0 < θ 0 ^ 2 - 2 * θ 0 * y + θ 1 ^ 2 + y ^ 2 := by
    have := h.1
    nlinarith [sq_nonneg (θ 0 - y), pow_pos h.1 2]
  have hC := aC_pos (θ 1) (θ 2) (θ 0 - y) (θ 3)
  have e : lnp.eval (args y θ) env = some (Real.log (θ 2) -
      1 / 2 * Real.log (θ 0 ^ 2 - 2 * θ 0 * y + θ 1 ^ 2 + y ^ 2) +
      Real.log (aC (θ 1) (θ 2) (θ 0 - y) (θ 3)) - 1 / 2 * aS (θ 1) (θ 2) (θ 0 - y) (θ 3) ^ 2 +
      (-(1 / 2) * Real.log Real.pi - 1 / 2 * Real.log 2)) :=
    E_add (E_sub (E_add (E_sub (E_log rfl h.2) (E_mul E_half (E_log (E_add (E_add (E_sub (E_pow 2 rfl)
      (E_mul (E_mul E_two rfl) rfl)) (E_pow 2 rfl)) (E_pow 2 rfl)) hq)))
      (E_log (E_fn h0 rfl) hC)) (E_mul E_half (E_pow 2 (E_fn h0 rfl)))) (E_sub (E_mul (E_neg E_half)
      (E_log rfl Real.pi_pos)) (E_mul E_half (E_log E_two (by norm_num))))
  rw [e, logDens_eq _ _ _ _ _ h.1 h.2, logL, Real.log_mul (by norm_num) Real.pi_pos.ne']
  rw [show θ 0 ^ 2 - 2 * θ 0 * y + θ 1 ^ 2 + y ^ 2 = θ 1 ^ 2 + (θ 0 - y) ^ 2 by ring]
  congr 1
  ring

theorem lnp_block {P : Prog} (hP : P.outs.getD 0 [] = [lnp])
    (hc : check1 shSetup [xx] ⟨P.body, [[Expr.x 0]]⟩ 0 = true) (y : ℝ) (θ : ℕ → ℝ) (h : Dom θ) :
    P.block 0 (args y θ) = some [logDens y (θ 0) (θ 1) (θ 2) (θ 3)] := by
  obtain ⟨env, he, h0⟩ := run_x (setup_ok y) hc θ h
  have hx : ev (shA id id y (θ 0) (θ 1) (θ 2) (θ 3)) xx = aX (θ 1) (θ 2) (θ 0 - y) (θ 3) :=
    ev_xx _ _ _ _ _ _ _ h.1.ne' h.2.ne'
  rw [hx] at h0
  simp only [Prog.block, he, hP, Option.bind_eq_bind, Option.bind_some, evalAll,
    lnp_eval y θ h env h0]
  rfl

theorem first_block {P : Prog} (hP : P.outs.getD 0 [] = [lnp])
    (hc : check1 shSetup [xx] ⟨P.body, [[Expr.x 0]]⟩ 0 = true)
    (h1 : check1 shSetup base P 1 = true) (y : ℝ) (θ : ℕ → ℝ) (h : Dom θ) :
    IsNext 4 1 (fun θ => P.block 0 (args y θ)) (fun θ => P.block 1 (args y θ)) θ := by
  have hs := h.1.ne'
  have ht := h.2.ne'
  refine isNext_base (setup_ok y) rfl (fun θ => logDens y (θ 0) (θ 1) (θ 2) (θ 3))
    (fun θ h => lnp_block hP hc y θ h) h1 θ h ?_ ?_ ?_ ?_
  · refine ((base_m (σ := id) (τ := id) (y := y) (m := θ 0) (v := θ 3) hs ht).sub_const
      (1 / 2 * Real.log (2 * Real.pi))).congr_of_eventuallyEq ?_
    filter_upwards [(setup_ok y).near θ h 0] with x hx
    rw [logDens_eq _ _ _ _ _ hx.1 hx.2]
    simp
  · refine ((base_s (σ := id) (τ := id) (y := y) (m := θ 0) (v := θ 3) hs ht 0
      (by simpa using hasDerivAt_id (θ 1))).sub_const
      (1 / 2 * Real.log (2 * Real.pi))).congr_of_eventuallyEq ?_
    filter_upwards [(setup_ok y).near θ h 1] with x hx
    rw [logDens_eq _ _ _ _ _ hx.1 hx.2]
    simp
  · refine ((base_t (σ := id) (τ := id) (y := y) (m := θ 0) (v := θ 3) hs ht 0
      (by simpa using hasDerivAt_id (θ 2))).sub_const
      (1 / 2 * Real.log (2 * Real.pi))).congr_of_eventuallyEq ?_
    filter_upwards [(setup_ok y).near θ h 2] with x hx
    rw [logDens_eq _ _ _ _ _ hx.1 hx.2]
    simp
  · refine ((base_v (σ := id) (τ := id) (y := y) (m := θ 0) (v := θ 3) hs ht).sub_const
      (1 / 2 * Real.log (2 * Real.pi))).congr_of_eventuallyEq ?_
    filter_upwards [(setup_ok y).near θ h 3] with x hx
    rw [logDens_eq _ _ _ _ _ hx.1 hx.2]
    simp

end Verif.Misc.Shash
