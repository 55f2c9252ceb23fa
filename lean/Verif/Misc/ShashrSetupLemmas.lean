import Verif.Misc.ShashSetupLemmas
import Verif.Misc.Shashr

/-!
# The setup with logarithmic scale and tail parameters
-/

namespace Verif.Misc.Shashr

open Verif.Misc Verif.Misc.Sym Filter Topology
open Verif.Misc.Shash (args logDens logDens_eq)

def eS (k : ℤ) : Fn × Poly × Poly := (.exp, mo k 0 0 0 0 0 0 0 0 0 1 0, mo 1 k 0 0 0 0 0 0)
def eT (k : ℤ) : Fn × Poly × Poly := (.exp, mo k 0 0 0 0 0 0 0 0 0 0 1, mo 1 0 k 0 0 0 0 0)

def srT : Table := shT ++ ([-8, -7, -6, -5, -4, -3, -2, -1, 1, 2, 3, 4, 6, 8].map eS ++ [1, 2, 3, 4].map eT)

/-- The setup with parameters `m, log s, log t, v`. -/
def srSetup : Setup where
  T := srT
  spi := none
  inp := [pY, pM, mo 1 0 0 0 0 0 0 0 0 0 1 0, mo 1 0 0 0 0 0 0 0 0 0 0 1, mo 1 0 0 0 0 0 0 0 1]
  R := shR
  D := fun l => match l with | 0 => dM | 1 => dS 1 | 2 => dT 1 | 3 => dV | _ => d0
  p := 4

theorem exp_int (k : ℤ) (x : ℝ) : Real.exp (k * x) = Real.exp x ^ k := by
  rw [← Real.rpow_intCast, ← Real.exp_mul, mul_comm]

theorem srT_ok (y m s t v : ℝ) : TableOk (shA Real.exp Real.exp y m s t v) srT := by
  intro e he
  rw [srT, List.mem_append, List.mem_append, List.mem_map, List.mem_map] at he
  rcases he with he | ⟨k, -, rfl⟩ | ⟨k, -, rfl⟩
  · exact shT_ok _ _ _ _ _ _ _ (Real.exp_pos _).ne' (Real.exp_pos _).ne' e he
  · simp only [eS, Fn.eval]
    rw [shA, ev_mo, ev_mo]
    norm_num
    exact exp_int _ _
  · simp only [eT, Fn.eval]
    rw [shA, ev_mo, ev_mo]
    norm_num
    exact exp_int _ _

/-- The setup is right, for all parameters. -/
theorem setup_ok (y : ℝ) : SetupOk srSetup (fun _ => True)
    (fun θ => shA Real.exp Real.exp y (θ 0) (θ 1) (θ 2) (θ 3)) (args y) where
  near := fun _ _ _ => Filter.Eventually.of_forall fun _ => trivial
  ne := fun θ _ => shAtoms_ne _ _ _ _ _ _ _ (Real.exp_pos _).ne' (Real.exp_pos _).ne'
  table := fun θ _ => srT_ok _ _ _ _ _
  pi := fun θ h p hp => by simp [srSetup] at hp
  inps := fun θ h => by
    simp only [srSetup, List.map_cons, List.map_nil, args, pM, pY]
    rw [shA, ev_add, ev_mo, ev_mo, ev_mo, ev_mo, ev_mo]
    norm_num
  rules := fun θ h => shR_ok _ _ _ _ _ _ _ (Real.exp_pos _).ne'
  curve := by
    intro θ h l
    rcases l with _ | _ | _ | _ | l
    · exact curve_m (Real.exp_pos _).ne'
    · exact curve_s 1 (Real.exp_pos _).ne' (by simpa using Real.hasDerivAt_exp (θ 1))
    · exact curve_t 1 (Real.exp_pos _).ne' (by simpa using Real.hasDerivAt_exp (θ 2))
    · exact curve_v (Real.exp_pos _).ne'
    · exact curve_0 _ Real.exp Real.exp y (θ 0) (θ 1) (θ 2) (θ 3) _ fun x => by
        simp [Function.update_apply]

/-- The first derivatives as polynomials. -/
def base : List Poly := [bM, bS 1, bT 1, bV]

/-- Evaluating `lnp`. -/
theorem lnp_eval (y : ℝ) (θ : ℕ → ℝ) (env : List ℝ)
    (h0 : env[0]? = some (aX (Real.exp (θ 1)) (Real.exp (θ 2)) (θ 0 - y) (θ 3))) :
    lnp.eval (args y θ) env =
      some (logDens y (θ 0) (Real.exp (θ 1)) (Real.exp (θ 2)) (θ 3)) := by
  have h1 := Real.exp_pos (θ 1)
  have h2 := Real.exp_pos (θ 2)
  have e2 : Real.exp (2 * θ 1) = Real.exp (θ 1) ^ 2 := by rw [← Real.exp_nat_mul]; norm_num
  have hq : 0 < θ 0 ^ 2 - 2 * θ 0 * y + y ^ 2 + Real.exp (2 * θ 1) := by
    nlinarith [sq_nonneg (θ 0 - y), Real.exp_pos (2 * θ 1)]
  have hC := aC_pos (Real.exp (θ 1)) (Real.exp (θ 2)) (θ 0 - y) (θ 3)
  have e : lnp.eval (args y θ) env = some (θ 2 -
      1 / 2 * Real.log (θ 0 ^ 2 - 2 * θ 0 * y + y ^ 2 + Real.exp (2 * θ 1)) +
      Real.log (aC (Real.exp (θ 1)) (Real.exp (θ 2)) (θ 0 - y) (θ 3)) -
      1 / 2 * aS (Real.exp (θ 1)) (Real.exp (θ 2)) (θ 0 - y) (θ 3) ^ 2 +
      (-(1 / 2) * Real.log Real.pi - 1 / 2 * Real.log 2)) :=
    E_add (E_sub (E_add (E_sub rfl (E_mul E_half (E_log (E_add (E_add (E_sub (E_pow 2 rfl)
      (E_mul (E_mul E_two rfl) rfl)) (E_pow 2 rfl)) (E_fn (E_mul E_two rfl) rfl)) hq)))
      (E_log (E_fn h0 rfl) hC)) (E_mul E_half (E_pow 2 (E_fn h0 rfl)))) (E_sub (E_mul (E_neg E_half)
      (E_log rfl Real.pi_pos)) (E_mul E_half (E_log E_two (by norm_num))))
  rw [e, logDens_eq _ _ _ _ _ h1 h2, logL, Real.log_mul (by norm_num) Real.pi_pos.ne', Real.log_exp, e2]
  rw [show θ 0 ^ 2 - 2 * θ 0 * y + y ^ 2 + Real.exp (θ 1) ^ 2 = Real.exp (θ 1) ^ 2 + (θ 0 - y) ^ 2 by ring]
  congr 1
  ring

theorem lnp_block {P : Prog} (hP : P.outs.getD 0 [] = [lnp])
    (hc : check1 srSetup [xx] ⟨P.body, [[Expr.x 0]]⟩ 0 = true) (y : ℝ) (θ : ℕ → ℝ) :
    P.block 0 (args y θ) = some [logDens y (θ 0) (Real.exp (θ 1)) (Real.exp (θ 2)) (θ 3)] := by
  obtain ⟨env, he, h0⟩ := run_x (setup_ok y) hc θ trivial
  have hx : ev (shA Real.exp Real.exp y (θ 0) (θ 1) (θ 2) (θ 3)) xx =
      aX (Real.exp (θ 1)) (Real.exp (θ 2)) (θ 0 - y) (θ 3) :=
    ev_xx _ _ _ _ _ _ _ (Real.exp_pos _).ne' (Real.exp_pos _).ne'
  rw [hx] at h0
  simp only [Prog.block, he, hP, Option.bind_eq_bind, Option.bind_some, evalAll,
    lnp_eval y θ env h0]
  rfl

theorem first_block {P : Prog} (hP : P.outs.getD 0 [] = [lnp])
    (hc : check1 srSetup [xx] ⟨P.body, [[Expr.x 0]]⟩ 0 = true)
    (h1 : check1 srSetup base P 1 = true) (y : ℝ) (θ : ℕ → ℝ) :
    IsNext 4 1 (fun θ => P.block 0 (args y θ)) (fun θ => P.block 1 (args y θ)) θ := by
  have hs := (Real.exp_pos (θ 1)).ne'
  have ht := (Real.exp_pos (θ 2)).ne'
  refine isNext_base (setup_ok y) rfl
    (fun θ => logDens y (θ 0) (Real.exp (θ 1)) (Real.exp (θ 2)) (θ 3))
    (fun θ _ => lnp_block hP hc y θ) h1 θ trivial ?_ ?_ ?_ ?_
  · refine ((base_m (σ := Real.exp) (τ := Real.exp) (y := y) (m := θ 0) (v := θ 3) hs ht).sub_const
      (1 / 2 * Real.log (2 * Real.pi))).congr_of_eventuallyEq (Eventually.of_forall fun x => ?_)
    simp only [logDens_eq _ _ _ _ _ (Real.exp_pos _) (Real.exp_pos _)]
    simp
  · refine ((base_s (σ := Real.exp) (τ := Real.exp) (y := y) (m := θ 0) (v := θ 3) hs ht 1
      (by simpa using Real.hasDerivAt_exp (θ 1))).sub_const
      (1 / 2 * Real.log (2 * Real.pi))).congr_of_eventuallyEq (Eventually.of_forall fun x => ?_)
    simp only [logDens_eq _ _ _ _ _ (Real.exp_pos _) (Real.exp_pos _)]
    simp
  · refine ((base_t (σ := Real.exp) (τ := Real.exp) (y := y) (m := θ 0) (v := θ 3) hs ht 1
      (by simpa using Real.hasDerivAt_exp (θ 2))).sub_const
      (1 / 2 * Real.log (2 * Real.pi))).congr_of_eventuallyEq (Eventually.of_forall fun x => ?_)
    simp only [logDens_eq _ _ _ _ _ (Real.exp_pos _) (Real.exp_pos _)]
    simp
  · refine ((base_v (σ := Real.exp) (τ := Real.exp) (y := y) (m := θ 0) (v := θ 3) hs ht).sub_const
      (1 / 2 * Real.log (2 * Real.pi))).congr_of_eventuallyEq (Eventually.of_forall fun x => ?_)
    simp only [logDens_eq _ _ _ _ _ (Real.exp_pos _) (Real.exp_pos _)]
    simp

end Verif.Misc.Shashr
