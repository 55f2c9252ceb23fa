import Verif.Vec.Jax
import Verif.Vec.Props
/-!
# C239: vectorisation under `jax.jit`
-/
namespace Verif.Vec
open Verif.Np Verif.Index
variable {R : Type}

/-- **C239.** `jax_vec` is `vec` and `jax_vech` is `vech`. -/
theorem C239_vec [Zero R] (X : ℕ → ℕ → R) (m n : ℕ) : jaxVec X m n = vec X m n ∧ jaxVech X m = vech X m := by
  refine ⟨rfl, ?_⟩
  unfold jaxVech vech
  refine List.map_congr_left fun p hp => ?_
  obtain ⟨h1, h2, -⟩ := mem_npTriu.1 (show (p.1, p.2) ∈ npTriu m 0 from hp)
  have : flattenC (transpose X) m m = vec X m m := rfl
  rw [this, List.getD_eq_getElem?_getD, Nat.add_comm, Nat.mul_comm]
  have h := vec_getElem? X m m p.2 p.1 h2 h1
  rw [Nat.mul_comm] at h
  first
    | rw [h]; rfl
    | rw [Nat.add_comm, h]; rfl

/-- **C239, violated.** `jax_invec` and `jax_invech` raise on every input. -/
theorem C239_inverse_violated [AddGroup R] (x : List R) (m n : ℕ) (u : Bool) : jaxInvec true x m n = none ∧ jaxInvech true u x = none :=
  ⟨rfl, rfl⟩

/-- **C239, violated.** Without `jit`, `jax_invech` still raises where `index_update` has been removed. -/
theorem C239_update_violated [AddGroup R] (x : List R) : jaxInvech false false x = none := by
  simp [jaxInvech, jVal, jInt]

/-- **C239, partial.** Without `jit`, and with `index_update`, they are the inverses. -/
theorem C239_inverse_partial [AddGroup R] (x : List R) (m n : ℕ) (v : ℕ × ℕ → R) :
    jaxInvec false x m n = invec x m n ∧
    ∃ Y Z, jaxInvech false true ((npTriu m 0).map v) = some (m, Y) ∧ invech ((npTriu m 0).map v) = some (m, Z) ∧ Agree m m Y Z := by
  refine ⟨rfl, ?_⟩
  have hl : (Nat.sqrt (1 + 8 * ((npTriu m 0).map v).length) - 1) / 2 = m := by
    rw [List.length_map, length_npTriu_zero, Nat.add_comm]; exact hvSize_roundtrip m
  refine ⟨fun i j => scatter2 (fun _ _ => 0) (npTriu m 0) ((npTriu m 0).map v) i j +
      scatter2 (fun _ _ => 0) (npTriu m 0) ((npTriu m 0).map v) j i -
        if i = j then scatter2 (fun _ _ => 0) (npTriu m 0) ((npTriu m 0).map v) i j else 0, _, ?_, invech_map m v, ?_⟩
  · unfold jaxInvech jVal
    rw [hl]
    simp only [Bool.false_eq_true, if_false, jInt, Option.bind_eq_bind, Option.bind_some, List.length_map, and_self, if_true]
  · intro i j hi hj
    simp only [scatter2_map, mem_npTriu, hi, hj, true_and, and_self, if_true]
    rcases Nat.lt_trichotomy i j with h | h | h
    · rw [if_pos (by omega), if_neg (by omega), if_neg (by omega), if_pos (by omega), add_zero, sub_zero]
    · subst h
      simp
    · rw [if_neg (by omega), if_pos (by omega), if_neg (by omega), if_neg (by omega), zero_add, sub_zero]

end Verif.Vec
