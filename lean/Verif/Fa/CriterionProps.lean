import Verif.Fa.Criterion
import Verif.Fa.CayleyProps
import Verif.Calc.Matrix
import Mathlib.Tactic.LinearCombination
import Mathlib.Algebra.BigOperators.Field
/-! # C82, C83: rotation criteria and their derivatives -/
namespace Verif.Fa
open Matrix Verif.Calc

variable {p m : ℕ}

/-! ## flat arrays -/

theorem flat_div {i j : ℕ} (hi : i < p) : (i + p * j) % p = i ∧ (i + p * j) / p = j := by
  constructor
  · rw [Nat.add_mul_mod_self_left, Nat.mod_eq_of_lt hi]
  · rw [Nat.add_mul_div_left _ _ (by omega), Nat.div_eq_of_lt hi, Nat.zero_add]

theorem flatF_at (X : Matrix (Fin p) (Fin m) ℝ) (i : Fin p) (j : Fin m) :
    flatF X (i + p * j) = X i j := by
  rw [flatF, (flat_div i.2).1, (flat_div i.2).2, entry_fin]

theorem unflat_flat (X : Matrix (Fin p) (Fin m) ℝ) : unflatF p m (flatF X) = X := by
  ext i j; exact flatF_at X i j

theorem flat_lt (i : Fin p) (j : Fin m) : (i : ℕ) + p * j < p * m := by
  calc (i : ℕ) + p * j < p + p * j := by have := i.2; omega
    _ = p * (j + 1) := by ring
    _ ≤ p * m := Nat.mul_le_mul_left _ j.2

theorem flat_surj {f : ℕ} (hf : f < p * m) : ∃ (i : Fin p) (j : Fin m), f = i + p * j := by
  have hp : 0 < p := Nat.pos_of_ne_zero fun h => by simp [h] at hf
  exact ⟨⟨f % p, Nat.mod_lt _ hp⟩, ⟨f / p, Nat.div_lt_of_lt_mul hf⟩, (Nat.mod_add_div f p).symm⟩

theorem flat_inj {i i' : Fin p} {j j' : Fin m} (h : (i : ℕ) + p * j = i' + p * j') : i = i' ∧ j = j' := by
  have a := flat_div (p := p) (j := (j : ℕ)) i.2
  have b := flat_div (p := p) (j := (j' : ℕ)) i'.2
  rw [h] at a
  exact ⟨Fin.ext (a.1.symm.trans b.1), Fin.ext (a.2.symm.trans b.2)⟩

theorem sum_flat (g : ℕ → ℝ) :
    ∑ f ∈ Finset.range (p * m), g f = ∑ i : Fin p, ∑ j : Fin m, g (i + p * j) := by
  rw [← Finset.sum_product']
  symm
  refine Finset.sum_bij (fun (q : Fin p × Fin m) _ => (q.1 : ℕ) + p * q.2) ?_ ?_ ?_ ?_
  · intro q _; exact Finset.mem_range.2 (flat_lt _ _)
  · intro a _ b _ h
    have := flat_inj h
    exact Prod.ext this.1 this.2
  · intro f hf
    obtain ⟨i, j, rfl⟩ := flat_surj (Finset.mem_range.1 hf)
    exact ⟨(i, j), by simp, rfl⟩
  · intro q _; rfl

/-! ## what a criterion must satisfy -/

/-- Frobenius inner product. -/
def fro (A B : Matrix (Fin p) (Fin m) ℝ) : ℝ := ∑ i, ∑ j, A i j * B i j

/-- `dQ` is the gradient of `Q`, `d2Q_apply` multiplies flattened directions by the (symmetric)
second derivative. -/
structure CritOk (c : Crit p m) : Prop where
  grad : ∀ (L : ℝ → Matrix (Fin p) (Fin m) ℝ) (D), MD L D →
    HasDerivAt (fun t => c.Q (L t)) (fro (c.dQ (L 0)) D) 0
  hess : ∀ (L : ℝ → Matrix (Fin p) (Fin m) ℝ) (D), MD L D → ∀ (Y : ℕ → ℕ → ℝ) (k : ℕ),
    (∀ i j, Y ((i : Fin p) + p * (j : Fin m)) k = D i j) →
    MD (fun t => c.dQ (L t)) (unflatF p m fun f => c.app (L 0) Y f k)
  symm : ∀ L (Y Z : ℕ → ℕ → ℝ) (k l : ℕ),
    fro (unflatF p m fun f => c.app L Y f k) (unflatF p m fun f => Z f l) =
      fro (unflatF p m fun f => Y f k) (unflatF p m fun f => c.app L Z f l)

theorem sqM_md {L : ℝ → Matrix (Fin p) (Fin m) ℝ} {D : Matrix (Fin p) (Fin m) ℝ} (h : MD L D) :
    MD (fun t => sqM (L t)) (Matrix.of fun i j => 2 * (L 0 i j * D i j)) := fun i j => by
  simp only [sqM, Matrix.of_apply]
  exact ((h i j).fun_mul (h i j)).congr_deriv (by ring)

theorem rowS_md {B : ℝ → Matrix (Fin p) (Fin m) ℝ} {D : Matrix (Fin p) (Fin m) ℝ} (h : MD B D) (i : Fin p) :
    HasDerivAt (fun t => rowS (B t) i) (rowS D i) 0 := HasDerivAt.fun_sum fun j _ => h i j

theorem colS_md {B : ℝ → Matrix (Fin p) (Fin m) ℝ} {D : Matrix (Fin p) (Fin m) ℝ} (h : MD B D) (j : Fin m) :
    HasDerivAt (fun t => colS (B t) j) (colS D j) 0 := HasDerivAt.fun_sum fun i _ => h i j

theorem gcfW_md (k : ℝ × ℝ × ℝ × ℝ) {L : ℝ → Matrix (Fin p) (Fin m) ℝ} {D : Matrix (Fin p) (Fin m) ℝ}
    (h : MD L D) : MD (fun t => gcfW k (L t)) (Matrix.of fun i j =>
      k.1 * (∑ j, colS (Matrix.of fun i j => 2 * (L 0 i j * D i j)) j) +
      k.2.1 * rowS (Matrix.of fun i j => 2 * (L 0 i j * D i j)) i +
      k.2.2.1 * colS (Matrix.of fun i j => 2 * (L 0 i j * D i j)) j +
      k.2.2.2 * (2 * (L 0 i j * D i j))) := fun i j => by
  have hB := sqM_md h
  simp only [gcfW, Matrix.of_apply]
  exact ((((HasDerivAt.fun_sum fun j _ => colS_md hB j).const_mul _).fun_add
    ((rowS_md hB i).const_mul _)).fun_add ((colS_md hB j).const_mul _)).fun_add ((hB i j).const_mul _)

/-- Value of `d2Q_apply` without the zero tests. -/
theorem gcfApply_at (k : ℝ × ℝ × ℝ × ℝ) (L : Matrix (Fin p) (Fin m) ℝ) (Y : ℕ → ℕ → ℝ) (c : ℕ)
    (i : Fin p) (j : Fin m) :
    gcfApply k L Y (i + p * j) c = L i j * (2 * (k.1 * ∑ a, ∑ b, L a b * Y (a + p * b) c +
      k.2.1 * ∑ b, L i b * Y (i + p * b) c + k.2.2.1 * ∑ a, L a j * Y (a + p * j) c) +
      2 * k.2.2.2 * (L i j * Y (i + p * j) c)) + gcfW k L i j * Y (i + p * j) c := by
  have e1 : ∑ g ∈ Finset.range (p * m), flatF L g * Y g c = ∑ a, ∑ b, L a b * Y (a + p * b) c := by
    rw [sum_flat]; simp only [flatF_at]
  unfold gcfApply
  simp only [flatF_at]
  congr 3
  congr 1
  have z1 : ∀ (x y : ℝ) (_ : ¬ x ≠ 0), x * y = 0 := fun x y h => by rw [not_not.1 h, zero_mul]
  by_cases h1 : k.1 ≠ 0 <;> by_cases h2 : k.2.1 ≠ 0 <;> by_cases h3 : k.2.2.1 ≠ 0 <;>
    simp only [h1, h2, h3, if_true, if_false, flatF_at, Matrix.of_apply, rowS, colS, unflatF, e1,
      ne_eq, not_true_eq_false, not_false_eq_true] <;>
    simp_all

/-- C82: `GCFCriterion.dQ` is the gradient of `Q`, `d2Q_apply` its symmetric second derivative, for
all constants. -/
theorem C82_gcf (k : ℝ × ℝ × ℝ × ℝ) : CritOk (gcf k p m) where
  grad L D h := by
    have hB := sqM_md h
    have h1 := HasDerivAt.fun_sum (u := Finset.univ) fun (j : Fin m) _ => colS_md hB j
    have h2 := HasDerivAt.fun_sum (u := Finset.univ) fun (i : Fin p) _ =>
      (rowS_md hB i).fun_mul (rowS_md hB i)
    have h3 := HasDerivAt.fun_sum (u := Finset.univ) fun (j : Fin m) _ =>
      (colS_md hB j).fun_mul (colS_md hB j)
    have h4 := HasDerivAt.fun_sum (u := Finset.univ) fun (i : Fin p) _ =>
      HasDerivAt.fun_sum (u := Finset.univ) fun (j : Fin m) _ => (hB i j).fun_mul (hB i j)
    refine (((((h1.fun_mul h1).const_mul k.1).fun_add (h2.const_mul k.2.1)).fun_add
      (h3.const_mul k.2.2.1)).fun_add (h4.const_mul k.2.2.2)).const_mul (1 / 4) |>.congr_deriv ?_
    simp only [fro, gcf, gcfdQ, gcfW, Matrix.of_apply]
    have e1 : ∀ A : Matrix (Fin p) (Fin m) ℝ, ∑ j, colS A j = ∑ i, ∑ j, A i j := fun A => by
      simp only [colS]; rw [Finset.sum_comm]
    have e2 : ∑ i, (rowS (Matrix.of fun i j => 2 * (L 0 i j * D i j)) i * rowS (sqM (L 0)) i +
        rowS (sqM (L 0)) i * rowS (Matrix.of fun i j => 2 * (L 0 i j * D i j)) i) =
        ∑ i, ∑ j, 4 * (rowS (sqM (L 0)) i * (L 0 i j * D i j)) := by
      refine Finset.sum_congr rfl fun i _ => ?_
      rw [rowS, ← Finset.mul_sum, ← Finset.mul_sum]
      simp only [Matrix.of_apply, ← Finset.mul_sum]
      ring
    have e3 : ∑ j, (colS (Matrix.of fun i j => 2 * (L 0 i j * D i j)) j * colS (sqM (L 0)) j +
        colS (sqM (L 0)) j * colS (Matrix.of fun i j => 2 * (L 0 i j * D i j)) j) =
        ∑ i, ∑ j, 4 * (colS (sqM (L 0)) j * (L 0 i j * D i j)) := by
      rw [Finset.sum_comm]
      refine Finset.sum_congr rfl fun j _ => ?_
      rw [colS, ← Finset.mul_sum, ← Finset.mul_sum]
      simp only [Matrix.of_apply, ← Finset.mul_sum]
      ring
    have e4 : (∑ i, ∑ j, (Matrix.of fun i j => 2 * (L 0 i j * D i j)) i j) *
        (∑ j, colS (sqM (L 0)) j) + (∑ j, colS (sqM (L 0)) j) *
        (∑ i, ∑ j, (Matrix.of fun i j => 2 * (L 0 i j * D i j)) i j) =
        ∑ i, ∑ j, 4 * ((∑ j, colS (sqM (L 0)) j) * (L 0 i j * D i j)) := by
      simp only [Matrix.of_apply, ← Finset.mul_sum]
      ring
    rw [e2, e3]
    rw [e1 (Matrix.of fun i j => 2 * (L 0 i j * D i j)), e4]
    have e5 : ∀ (x : ℝ) (F : Fin p → Fin m → ℝ), x * ∑ i, ∑ j, F i j = ∑ i, ∑ j, x * F i j := fun x F => by
      simp only [Finset.mul_sum]
    simp only [e5, ← Finset.sum_add_distrib]
    refine Finset.sum_congr rfl fun i _ => Finset.sum_congr rfl fun j _ => ?_
    simp only [sqM, Matrix.of_apply]
    ring
  hess L D h Y c hY i j := by
    have hW := gcfW_md k h
    refine (((h i j).fun_mul (hW i j))).congr_deriv ?_
    simp only [unflatF, Matrix.of_apply]
    change _ = gcfApply k (L 0) Y (i + p * j) c
    rw [gcfApply_at]
    simp only [hY, Matrix.of_apply]
    have e1 : ∑ j, colS (Matrix.of fun i j => 2 * (L 0 i j * D i j)) j =
        2 * ∑ i, ∑ j, L 0 i j * D i j := by
      simp only [colS, Matrix.of_apply]; rw [Finset.sum_comm]; simp only [Finset.mul_sum]
    rw [e1]
    simp only [rowS, colS, Matrix.of_apply, ← Finset.mul_sum]
    ring
  symm L Y Z c d := by
    simp only [fro, unflatF, Matrix.of_apply]
    change ∑ i : Fin p, ∑ j : Fin m, gcfApply k L Y (i + p * j) c * Z (i + p * j) d =
      ∑ i : Fin p, ∑ j : Fin m, Y (i + p * j) c * gcfApply k L Z (i + p * j) d
    simp only [gcfApply_at]
    generalize hA : (∑ a : Fin p, ∑ b : Fin m, L a b * Y (a + p * b) c) = SY
    generalize hB : (∑ a : Fin p, ∑ b : Fin m, L a b * Z (a + p * b) d) = SZ
    have row : ∀ i : Fin p, ∑ j : Fin m, (L i j * (∑ b : Fin m, L i b * Y (i + p * b) c) * Z (i + p * j) d) =
        ∑ j : Fin m, (Y (i + p * j) c * (L i j * (∑ b : Fin m, L i b * Z (i + p * b) d))) := fun i => by
      rw [Finset.sum_congr rfl fun j _ => show L i j * (∑ b : Fin m, L i b * Y (i + p * b) c) * Z (i + p * j) d =
        (∑ b : Fin m, L i b * Y (i + p * b) c) * (L i j * Z (i + p * j) d) by ring, ← Finset.mul_sum,
        Finset.sum_congr rfl fun (j : Fin m) _ => show Y (i + p * j) c * (L i j * (∑ b : Fin m, L i b * Z (i + p * b) d)) =
        (L i j * Y (i + p * j) c) * (∑ b : Fin m, L i b * Z (i + p * b) d) by ring, ← Finset.sum_mul]
    have col : ∀ j : Fin m, ∑ i : Fin p, (L i j * (∑ a : Fin p, L a j * Y (a + p * j) c) * Z (i + p * j) d) =
        ∑ i : Fin p, (Y (i + p * j) c * (L i j * (∑ a : Fin p, L a j * Z (a + p * j) d))) := fun j => by
      rw [Finset.sum_congr rfl fun i _ => show L i j * (∑ a : Fin p, L a j * Y (a + p * j) c) * Z (i + p * j) d =
        (∑ a : Fin p, L a j * Y (a + p * j) c) * (L i j * Z (i + p * j) d) by ring, ← Finset.mul_sum,
        Finset.sum_congr rfl fun (i : Fin p) _ => show Y (i + p * j) c * (L i j * (∑ a : Fin p, L a j * Z (a + p * j) d)) =
        (L i j * Y (i + p * j) c) * (∑ a : Fin p, L a j * Z (a + p * j) d) by ring, ← Finset.sum_mul]
    have all : ∑ i : Fin p, ∑ j : Fin m, L i j * SY * Z (i + p * j) d =
        ∑ i : Fin p, ∑ j : Fin m, Y (i + p * j) c * (L i j * SZ) := by
      rw [Finset.sum_congr rfl fun i _ => Finset.sum_congr rfl fun j _ =>
        show L i j * SY * Z (i + p * j) d = SY * (L i j * Z (i + p * j) d) by ring]
      rw [Finset.sum_congr rfl fun (i : Fin p) _ => Finset.sum_congr rfl fun (j : Fin m) _ =>
        show Y (i + p * j) c * (L i j * SZ) = (L i j * Y (i + p * j) c) * SZ by ring]
      simp only [← Finset.mul_sum, ← Finset.sum_mul, hA, hB]
    have rows := Finset.sum_congr rfl fun (i : Fin p) (_ : i ∈ Finset.univ) => row i
    have cols := Finset.sum_congr rfl fun (j : Fin m) (_ : j ∈ Finset.univ) => col j
    rw [Finset.sum_comm] at cols
    rw [Finset.sum_comm (s := Finset.univ) (t := Finset.univ)
      (f := fun (j : Fin m) (i : Fin p) => Y (i + p * j) c * (L i j * ∑ a : Fin p, L a j * Z (a + p * j) d))] at cols
    have lhs : ∀ i : Fin p, ∀ j : Fin m, (L i j * (2 * (k.1 * SY + k.2.1 * ∑ b, L i b * Y (i + p * b) c +
        k.2.2.1 * ∑ a, L a j * Y (a + p * j) c) + 2 * k.2.2.2 * (L i j * Y (i + p * j) c)) +
        gcfW k L i j * Y (i + p * j) c) * Z (i + p * j) d =
        2 * k.1 * (L i j * SY * Z (i + p * j) d) +
        2 * k.2.1 * (L i j * (∑ b : Fin m, L i b * Y (i + p * b) c) * Z (i + p * j) d) +
        2 * k.2.2.1 * (L i j * (∑ a : Fin p, L a j * Y (a + p * j) c) * Z (i + p * j) d) +
        (2 * k.2.2.2 * L i j ^ 2 + gcfW k L i j) * Y (i + p * j) c * Z (i + p * j) d := fun i j => by ring
    have rhs : ∀ i : Fin p, ∀ j : Fin m, Y (i + p * j) c * (L i j * (2 * (k.1 * SZ + k.2.1 * ∑ b, L i b * Z (i + p * b) d +
        k.2.2.1 * ∑ a, L a j * Z (a + p * j) d) + 2 * k.2.2.2 * (L i j * Z (i + p * j) d)) +
        gcfW k L i j * Z (i + p * j) d) =
        2 * k.1 * (Y (i + p * j) c * (L i j * SZ)) +
        2 * k.2.1 * (Y (i + p * j) c * (L i j * (∑ b : Fin m, L i b * Z (i + p * b) d))) +
        2 * k.2.2.1 * (Y (i + p * j) c * (L i j * (∑ a : Fin p, L a j * Z (a + p * j) d))) +
        (2 * k.2.2.2 * L i j ^ 2 + gcfW k L i j) * Y (i + p * j) c * Z (i + p * j) d := fun i j => by ring
    rw [Finset.sum_congr rfl fun i _ => Finset.sum_congr rfl fun j _ => lhs i j,
      Finset.sum_congr rfl fun i _ => Finset.sum_congr rfl fun j _ => rhs i j]
    simp only [Finset.sum_add_distrib, ← Finset.mul_sum]
    rw [all, rows, cols]

/-- C82: the same for `TargetCriterion`. -/
theorem C82_target (H W : Matrix (Fin p) (Fin m) ℝ) : CritOk (target H W) where
  grad L D h := by
    have := (HasDerivAt.fun_sum (u := Finset.univ) fun (i : Fin p) _ =>
      HasDerivAt.fun_sum (u := Finset.univ) fun (j : Fin m) _ =>
        ((((h i j).sub_const (H i j)).fun_pow 2).const_mul (W i j))).const_mul (1 / 2)
    refine this.congr_deriv ?_
    simp only [fro, target, targetdQ, Matrix.of_apply, Finset.mul_sum]
    refine Finset.sum_congr rfl fun i _ => Finset.sum_congr rfl fun j _ => ?_
    simp; ring
  hess L D h Y c hY i j := by
    refine (((h i j).sub_const (H i j)).const_mul (W i j)).congr_deriv ?_
    simp only [unflatF, target, targetApply, Matrix.of_apply, flatF_at, hY]
  symm L Y Z c d := by
    simp only [fro, unflatF, target, targetApply, Matrix.of_apply, flatF_at]
    exact Finset.sum_congr rfl fun i _ => Finset.sum_congr rfl fun j _ => by ring

/-- C82: `d2Q` holds the second derivatives: column `g` is the derivative of `dQ` along cell `g`. -/
theorem C82_d2Q (c : Crit p m) (hc : CritOk c) (L : Matrix (Fin p) (Fin m) ℝ) (a : Fin p) (b : Fin m) :
    MD (fun t => c.dQ (L + t • Matrix.single a b 1)) (unflatF p m fun f => c.d2Q L f (a + p * b)) := by
  have := hc.hess _ _ (MD.line L (Matrix.single a b (1 : ℝ))) (fun f g => if f = g then 1 else 0) (a + p * b)
    (fun i j => by
      rw [Matrix.single_apply]
      refine if_congr ⟨fun h => ?_, fun h => ?_⟩ rfl rfl
      · obtain ⟨rfl, rfl⟩ := flat_inj h; exact ⟨rfl, rfl⟩
      · rw [h.1, h.2])
  simp only [zero_smul, add_zero] at this
  exact this

/-- C82: the diagonal matrix returned by `TargetCriterion.d2Q` agrees with `d2Q_apply`. -/
theorem C82_target_d2Q (H W : Matrix (Fin p) (Fin m) ℝ) (L) :
    (target H W).d2Q L = targetD2Q W := by
  funext f g
  simp only [Crit.d2Q, target, targetApply, targetD2Q]
  by_cases h : f = g <;> simp [h]

/-! ## the named members of the family -/

/-- Crawford–Ferguson complexity with weight `κ`: the independent definition. -/
noncomputable def crawfordFerguson (κ : ℝ) (L : Matrix (Fin p) (Fin m) ℝ) : ℝ :=
  (1 - κ) * (∑ i, ∑ j, ∑ l, if j = l then 0 else L i j ^ 2 * L i l ^ 2) +
    κ * ∑ j, ∑ i, ∑ k, if i = k then 0 else L i j ^ 2 * L k j ^ 2

theorem off_sum {n : ℕ} (b : Fin n → ℝ) : (∑ j, ∑ l, if j = l then 0 else b j * b l) =
    (∑ j, b j) * (∑ j, b j) - ∑ j, b j * b j := by
  have : ∀ j, (∑ l, if j = l then 0 else b j * b l) = b j * (∑ l, b l) - b j * b j := fun j => by
    rw [Finset.mul_sum, ← Finset.add_sum_erase _ _ (Finset.mem_univ j),
      ← Finset.add_sum_erase (a := j) _ (fun l => b j * b l) (Finset.mem_univ j)]
    rw [if_pos rfl, zero_add, add_sub_cancel_left]
    refine Finset.sum_congr rfl fun l hl => if_neg ?_
    exact fun h => (Finset.ne_of_mem_erase hl) h.symm
  rw [Finset.sum_congr rfl fun j _ => this j, Finset.sum_sub_distrib, ← Finset.sum_mul]

theorem gcf_cf (κ : ℝ) (L : Matrix (Fin p) (Fin m) ℝ) :
    gcfQ (0, 1 - κ, κ, -1) L = 1 / 4 * crawfordFerguson κ L := by
  unfold crawfordFerguson gcfQ
  rw [Finset.sum_congr rfl fun i _ => off_sum fun j => L i j ^ 2,
    Finset.sum_congr rfl fun j _ => off_sum fun i => L i j ^ 2]
  simp only [Finset.sum_sub_distrib, rowS, colS, sqM, Matrix.of_apply, ← sq]
  rw [Finset.sum_comm (f := fun (j : Fin m) (i : Fin p) => (L i j ^ 2) ^ 2)]
  ring

/-- The weight of each named member. -/
noncomputable def kappa (method : String) (p m : ℕ) : ℝ :=
  if method = "varimax" then 1 / p
  else if method = "quartimax" then 0
  else if method = "equamax" then m / (2 * p)
  else ((m : ℝ) - 1) / (p + m - 2)

/-- C83: varimax, equamax and parsimax are the Crawford–Ferguson criteria with their weights. -/
theorem C83_named_partial (hp : 0 < p) (method : String)
    (h : method = "varimax" ∨ method = "equamax" ∨ method = "parsimax") :
    ∃ k, gcfConstants method p m = some k ∧
      ∀ L : Matrix (Fin p) (Fin m) ℝ, gcfQ k L = 1 / 4 * crawfordFerguson (kappa method p m) L := by
  rcases h with rfl | rfl | rfl
  · refine ⟨_, rfl, fun L => ?_⟩
    rw [← gcf_cf]
    have : ((p : ℝ) - 1) / p = 1 - 1 / p := by
      have : (p : ℝ) ≠ 0 := by exact_mod_cast hp.ne'
      field_simp
    simp [kappa, this]
  · refine ⟨_, rfl, fun L => ?_⟩
    rw [← gcf_cf]; simp [kappa]
  · refine ⟨_, rfl, fun L => ?_⟩
    rw [← gcf_cf]; simp [kappa]

/-- C83: an unknown name raises. -/
theorem C83_unknown (method : String) (h : method ∉ ["varimax", "quartimax", "equamax", "parsimax"]) :
    gcfConstants method p m = none := by
  simp only [List.mem_cons, not_or] at h
  simp [gcfConstants, h]

/-- Row sums of squares are unchanged by an orthogonal rotation. -/
theorem rowS_rot (A : Matrix (Fin p) (Fin m) ℝ) (T : Matrix (Fin m) (Fin m) ℝ) (hT : T * Tᵀ = 1)
    (i : Fin p) : rowS (sqM (A * T)) i = rowS (sqM A) i := by
  have h : ((A * T) * (A * T)ᵀ) i i = (A * Aᵀ) i i := by
    rw [Matrix.transpose_mul, Matrix.mul_assoc, ← Matrix.mul_assoc T, hT, Matrix.one_mul]
  simpa only [Matrix.mul_apply, rowS, sqM, Matrix.transpose_apply, Matrix.of_apply] using h

/-- C83: over orthogonal rotations the varimax criterion decreases exactly as the sum of the column
variances of the squared loadings increases. -/
theorem C83_varimax (_hp : 0 < p) (A : Matrix (Fin p) (Fin m) ℝ) (T : Matrix (Fin m) (Fin m) ℝ)
    (hT : T * Tᵀ = 1) :
    ∃ k, gcfConstants "varimax" p m = some k ∧
      4 * (gcfQ k (A * T) - gcfQ k A) =
        (∑ j, (∑ i, sqM A i j ^ 2 - (∑ i, sqM A i j) ^ 2 / p)) -
        ∑ j, (∑ i, sqM (A * T) i j ^ 2 - (∑ i, sqM (A * T) i j) ^ 2 / p) := by
  refine ⟨_, rfl, ?_⟩
  simp only [gcfQ, rowS_rot A T hT, Finset.sum_sub_distrib, ← Finset.sum_div, colS, ← sq]
  rw [Finset.sum_comm (f := fun (j : Fin m) (i : Fin p) => sqM A i j ^ 2),
    Finset.sum_comm (f := fun (j : Fin m) (i : Fin p) => sqM (A * T) i j ^ 2)]
  ring

/-- Two variables on one factor. -/
def exA : Matrix (Fin 2) (Fin 2) ℝ := !![1, 0; 1, 0]

/-- A rotation. -/
noncomputable def exT : Matrix (Fin 2) (Fin 2) ℝ := !![3/5, 4/5; -4/5, 3/5]

/-- C83: the quartimax constants are wrong: the criterion is not the Crawford–Ferguson member with
weight zero (nor four times a multiple), and it prefers a rotation with a smaller sum of fourth powers of
the loadings, which quartimax is to maximise. -/
theorem C83_quartimax_violated :
    ∃ k, gcfConstants "quartimax" 2 2 = some k ∧ exT * exTᵀ = 1 ∧
      gcfQ k (exA * exT) < gcfQ k exA ∧
      ∑ i, ∑ j, (exA * exT) i j ^ 4 < ∑ i, ∑ j, exA i j ^ 4 ∧
      gcfQ k exA ≠ 1 / 4 * crawfordFerguson (kappa "quartimax" 2 2) exA := by
  refine ⟨_, rfl, ?_, ?_, ?_, ?_⟩
  · ext i j
    fin_cases i <;> fin_cases j <;> norm_num [exT, Matrix.mul_apply, Fin.sum_univ_two]
  · norm_num [gcfQ, rowS, colS, sqM, exA, exT, Matrix.mul_apply, Fin.sum_univ_two]
  · norm_num [exA, exT, Matrix.mul_apply, Fin.sum_univ_two]
  · norm_num [gcfQ, rowS, colS, sqM, exA, show kappa "quartimax" 2 2 = 0 by simp [kappa], crawfordFerguson, Fin.sum_univ_two]

end Verif.Fa
