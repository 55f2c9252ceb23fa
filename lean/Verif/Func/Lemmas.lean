import Verif.Func.Model
import Mathlib.Algebra.BigOperators.Intervals
import Mathlib.Algebra.Order.Ring.Abs
import Mathlib.Order.Interval.Finset.Nat
import Mathlib.Data.Int.Interval
import Mathlib.Tactic.Linarith
import Mathlib.Tactic.Ring
import Mathlib.Tactic.FieldSimp
import Mathlib.Tactic.Positivity
/-!
# Lemmas on harmonic numbers, soft thresholding, dictionaries
-/
namespace Verif.Func

/-! ## Harmonic numbers -/

theorem harmonic_spec (d : ℕ) : ∀ a b : ℤ, 1 ≤ a → a < b → b - a ≤ 2 ^ d →
    ∃ p q : ℤ, harmonic (d + 1) a b = some (p, q) ∧ 0 < q ∧
      (p : ℚ) / q = ∑ i ∈ Finset.Ico a b, (1 : ℚ) / i := by
  induction d with
  | zero =>
    intro a b ha hab hd
    have : b = a + 1 := by simp at hd; omega
    subst this
    refine ⟨1, a, by simp [harmonic], by omega, ?_⟩
    have : Finset.Ico a (a + 1) = {a} := by ext x; simp; omega
    simp [this]
  | succ d ih =>
    intro a b ha hab hd
    by_cases h1 : b - a = 1
    · have : b = a + 1 := by omega
      subst this
      refine ⟨1, a, by simp [harmonic], by omega, ?_⟩
      have : Finset.Ico a (a + 1) = {a} := by ext x; simp; omega
      simp [this]
    · have hp : (2 : ℤ) ^ (d + 1) = 2 * 2 ^ d := by ring
      obtain ⟨p, q, h2, hq, hs⟩ := ih a ((a + b) / 2) ha (by omega) (by omega)
      obtain ⟨r, s, h3, hs', ht⟩ := ih ((a + b) / 2) b (by omega) (by omega) (by omega)
      refine ⟨p * s + q * r, q * s, ?_, by positivity, ?_⟩
      · rw [harmonic, if_neg h1]
        simp [h2, h3]
      · have hu : Finset.Ico a b = Finset.Ico a ((a + b) / 2) ∪ Finset.Ico ((a + b) / 2) b := by
          ext x; simp; omega
        have hdj : Disjoint (Finset.Ico a ((a + b) / 2)) (Finset.Ico ((a + b) / 2) b) := by
          rw [Finset.disjoint_left]; intro x; simp; omega
        rw [hu, Finset.sum_union hdj, ← hs, ← ht]
        have h4 : (q : ℚ) ≠ 0 := by exact_mod_cast hq.ne'
        have h5 : (s : ℚ) ≠ 0 := by exact_mod_cast hs'.ne'
        push_cast
        field_simp

theorem harmonic_fuel_mono (f : ℕ) : ∀ (a b : ℤ) (r : ℤ × ℤ), harmonic f a b = some r →
    harmonic (f + 1) a b = some r := by
  induction f with
  | zero => intro a b r h; simp [harmonic] at h
  | succ f ih =>
    intro a b r h
    rw [harmonic] at h ⊢
    split_ifs at h ⊢ with h1
    · exact h
    · dsimp only at h ⊢
      rw [Option.bind_eq_some_iff] at h
      obtain ⟨pq, h2, h3⟩ := h
      rw [Option.map_eq_some_iff] at h3
      obtain ⟨rs, h4, h5⟩ := h3
      rw [ih _ _ _ h2, ih _ _ _ h4, ← h5]
      simp

theorem harmonic_fuel_le {f g : ℕ} (hfg : f ≤ g) {a b : ℤ} {r : ℤ × ℤ}
    (h : harmonic f a b = some r) : harmonic g a b = some r := by
  induction hfg with
  | refl => exact h
  | step _ ih => exact harmonic_fuel_mono _ _ _ _ ih

theorem harmonic_diverges (f : ℕ) : ∀ a b : ℤ, b ≤ a → harmonic f a b = none := by
  induction f with
  | zero => intros; rfl
  | succ f ih =>
    intro a b h
    rw [harmonic, if_neg (by omega)]
    dsimp only
    rw [ih a ((a + b) / 2) (by omega)]
    rfl

/-! ## Soft thresholding -/

theorem prox_gap {α : Type*} [Field α] [LinearOrder α] [IsStrictOrderedRing α] (x t z : α)
    (ht : 0 ≤ t) (hz : z ≠ softThreshold x t) :
    (softThreshold x t - x) ^ 2 / 2 + t * |softThreshold x t| < (z - x) ^ 2 / 2 + t * |z| := by
  have hpos : 0 < (z - softThreshold x t) ^ 2 := by
    have : z - softThreshold x t ≠ 0 := sub_ne_zero.2 hz
    positivity
  have h1 := le_abs_self z
  have h2 := neg_abs_le z
  have h3 := abs_nonneg z
  unfold softThreshold npSign at *
  rcases lt_trichotomy x 0 with hx | hx | hx
  · rw [if_pos hx, abs_of_neg hx] at hpos ⊢
    rcases le_total (-x - t) 0 with h | h
    · rw [max_eq_right h] at hpos ⊢
      simp only [zero_mul, sub_zero, abs_zero, mul_zero, zero_sub] at hpos ⊢
      nlinarith
    · rw [max_eq_left h] at hpos ⊢
      rw [abs_of_nonpos (by linarith : (-x - t) * -1 ≤ 0)]
      nlinarith
  · subst hx
    simp only [lt_irrefl, if_false, if_true, mul_zero, sub_zero, abs_zero] at hpos ⊢
    nlinarith [mul_nonneg ht h3]
  · rw [if_neg hx.le.not_gt, if_neg hx.ne', abs_of_pos hx] at hpos ⊢
    rcases le_total (x - t) 0 with h | h
    · rw [max_eq_right h] at hpos ⊢
      simp only [zero_mul, sub_zero, abs_zero, mul_zero, zero_sub] at hpos ⊢
      nlinarith
    · rw [max_eq_left h] at hpos ⊢
      rw [abs_of_nonneg (by linarith : 0 ≤ (x - t) * 1)]
      nlinarith

/-! ## Dictionaries -/

variable {κ υ : Type*} [DecidableEq κ]

/-- Value stored under a key. -/
def Dict.get (d : Dict κ υ) (k : κ) : Option υ := (d.find? fun e => e.1 = k).map Prod.snd

theorem Dict.get_cons (e : κ × υ) (d : Dict κ υ) (k : κ) :
    Dict.get (e :: d) k = if e.1 = k then some e.2 else Dict.get d k := by
  unfold Dict.get
  rw [List.find?_cons]
  by_cases h : e.1 = k <;> simp [h]

theorem Dict.get_map_put (d : Dict κ υ) (k k' : κ) (v : υ) :
    Dict.get (d.map (fun e => if e.1 = k then (k, v) else e)) k' =
      if k' = k ∧ (d.any fun e => e.1 = k) then some v else Dict.get d k' := by
  induction d with
  | nil => simp [Dict.get]
  | cons e d ih =>
    rw [List.map_cons, Dict.get_cons, Dict.get_cons, ih, List.any_cons]
    by_cases h1 : e.1 = k
    · by_cases h2 : k' = k
      · simp [h1, h2]
      · have : ¬ k = k' := fun h => h2 h.symm
        simp [h1, h2, this]
    · by_cases h3 : e.1 = k'
      · have h4 : ¬ k' = k := fun h => h1 (h3.trans h)
        simp [h3, h4]
      · simp only [h1, h3, if_false, decide_false, Bool.false_or]

theorem Dict.get_append (d1 d2 : Dict κ υ) (k : κ) :
    Dict.get (d1 ++ d2) k = (Dict.get d1 k).or (Dict.get d2 k) := by
  unfold Dict.get
  rw [List.find?_append]
  cases (d1.find? fun e => e.1 = k) <;> simp

theorem Dict.get_none (d : Dict κ υ) (k : κ) (h : (d.any fun e => e.1 = k) = false) :
    Dict.get d k = none := by
  unfold Dict.get
  rw [List.find?_eq_none.2]
  · rfl
  · intro e he
    have := List.any_eq_false.1 h e he
    simpa using this

theorem Dict.get_put (d : Dict κ υ) (k k' : κ) (v : υ) :
    Dict.get (Dict.put d k v) k' = if k' = k then some v else Dict.get d k' := by
  unfold Dict.put
  split_ifs with h1 h2 h2
  · rw [Dict.get_map_put, if_pos ⟨h2, h1⟩]
  · rw [Dict.get_map_put, if_neg (fun h => h2 h.1)]
  · subst h2
    rw [Dict.get_append, Dict.get_none d k' (Bool.eq_false_iff.2 h1)]
    simp [Dict.get]
  · rw [Dict.get_append]
    have : ¬ k = k' := fun h => h2 h.symm
    simp [Dict.get, this]

theorem Dict.get_foldl (l : Dict κ υ) (hl : (l.map Prod.fst).Nodup) : ∀ (d : Dict κ υ) (k : κ),
    Dict.get (l.foldl (fun d e => Dict.put d e.1 e.2) d) k = (Dict.get l k).or (Dict.get d k) := by
  induction l with
  | nil => intro d k; simp [Dict.get]
  | cons e l ih =>
    intro d k
    rw [List.foldl_cons, ih (List.nodup_cons.1 hl).2, Dict.get_put, Dict.get_cons]
    by_cases h : e.1 = k
    · subst h
      have : Dict.get l e.1 = none := by
        apply Dict.get_none
        rw [List.any_eq_false]
        intro x hx
        simp only [decide_eq_true_eq]
        intro h'
        exact (List.nodup_cons.1 hl).1 (h' ▸ List.mem_map_of_mem hx)
      simp [this]
    · have : ¬ k = e.1 := fun h' => h h'.symm
      simp [h, this]

theorem Dict.put_keys (d : Dict κ υ) (k : κ) (v : υ) (hd : (d.map Prod.fst).Nodup) :
    ((Dict.put d k v).map Prod.fst).Nodup := by
  unfold Dict.put
  split_ifs with h
  · have : (d.map fun e => if e.1 = k then (k, v) else e).map Prod.fst = d.map Prod.fst := by
      rw [List.map_map]
      apply List.map_congr_left
      intro e _
      by_cases h : e.1 = k <;> simp [h]
    rwa [this]
  · rw [List.map_append, List.nodup_append]
    refine ⟨hd, by simp, ?_⟩
    intro a ha b hb hab
    simp only [List.map_cons, List.map_nil, List.mem_singleton] at hb
    subst hb; subst hab
    obtain ⟨e, he, rfl⟩ := List.mem_map.1 ha
    exact h (List.any_eq_true.2 ⟨e, he, by simp⟩)

theorem Dict.foldl_keys (l : Dict κ υ) : ∀ d : Dict κ υ, (d.map Prod.fst).Nodup →
    ((l.foldl (fun d e => Dict.put d e.1 e.2) d).map Prod.fst).Nodup := by
  induction l with
  | nil => intro d h; exact h
  | cons e l ih => intro d h; exact ih _ (Dict.put_keys d e.1 e.2 h)

end Verif.Func
