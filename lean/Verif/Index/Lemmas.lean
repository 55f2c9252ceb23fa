import Verif.Index.Model
import Verif.Np.Lemmas
import Mathlib.Algebra.Ring.Int.Parity
/-! Helper lemmas for the index-arithmetic properties. -/
namespace Verif.Index
open Verif.Np

theorem two_tri (x : ℤ) : 2 * (x * (x + 1) / 2) = x * (x + 1) :=
  Int.mul_ediv_cancel' (Int.even_mul_succ_self x).two_dvd

theorem two_tri' (x : ℤ) : 2 * (x * (x - 1) / 2) = x * (x - 1) := by
  have := two_tri (x - 1)
  have h : (x - 1) * (x - 1 + 1) = x * (x - 1) := by ring
  rwa [h] at this

theorem largestTriangular_spec (n : ℤ) (hn : 0 ≤ n) :
    0 ≤ largestTriangular n ∧
      largestTriangular n * (largestTriangular n + 1) ≤ 2 * n ∧
      2 * n < (largestTriangular n + 1) * (largestTriangular n + 2) := by
  obtain ⟨k, rfl⟩ := Int.eq_ofNat_of_zero_le hn
  have e : (8 * (k : ℤ) + 1).toNat = 8 * k + 1 := by omega
  simp only [largestTriangular, e]
  have h1 : Nat.sqrt (8 * k + 1) * Nat.sqrt (8 * k + 1) ≤ 8 * k + 1 := Nat.sqrt_le _
  have h2 : 8 * k + 1 < (Nat.sqrt (8 * k + 1) + 1) * (Nat.sqrt (8 * k + 1) + 1) :=
    Nat.lt_succ_sqrt _
  generalize Nat.sqrt (8 * k + 1) = q at h1 h2
  have hq : 1 ≤ q := by
    rcases Nat.eq_zero_or_pos q with h | h
    · subst h; omega
    · exact h
  obtain ⟨d, hd⟩ : ∃ d : ℤ, ((q : ℤ) - 1) / 2 = d := ⟨_, rfl⟩
  rw [hd]
  have hd1 : (q : ℤ) = 2 * d + 1 ∨ (q : ℤ) = 2 * d + 2 := by omega
  zify at h1 h2
  refine ⟨by omega, ?_, ?_⟩ <;> rcases hd1 with h | h <;> rw [h] at h1 h2 <;> nlinarith

theorem largestTriangular_unique (n k : ℤ) (hk : 0 ≤ k) (h1 : k * (k + 1) ≤ 2 * n)
    (h2 : 2 * n < (k + 1) * (k + 2)) : largestTriangular n = k := by
  have hn : 0 ≤ n := by nlinarith
  obtain ⟨h0, h3, h4⟩ := largestTriangular_spec n hn
  generalize largestTriangular n = x at *
  rcases lt_trichotomy x k with h | h | h
  · nlinarith
  · exact h
  · nlinarith

theorem trilF_getElem? (m k r s : ℕ) (h1 : s + k ≤ r) (h2 : r < m) :
    (trilIndices m (-(k : ℤ)) true)[(∑ t ∈ Finset.range s, (m - (t + k))) + (r - (s + k))]? =
      some (r, s) := by
  have e : (-(k : ℤ)) * -1 = (k : ℤ) := by ring
  simp only [trilIndices, if_true, e, npTriu_eq]
  rw [List.getElem?_map]
  have := getElem?_flatMap_range
    (fun i => (List.range' (i + k) (m - (i + k))).map fun j => (i, j)) m s (r - (s + k))
    (by omega) (by simp; omega)
  simp only [List.length_map, List.length_range'] at this
  rw [this]
  rw [List.getElem?_map, List.getElem?_range' (by omega)]
  simp
  omega

theorem trilF_length (m k : ℕ) :
    (trilIndices m (-(k : ℤ)) true).length = ∑ t ∈ Finset.range m, (m - (t + k)) := by
  have e : (-(k : ℤ)) * -1 = (k : ℤ) := by ring
  simp only [trilIndices, if_true, e, npTriu_eq, List.length_map, length_flatMap_range,
    List.length_range']

theorem mem_npTriu {n : ℕ} {k : ℤ} {i j : ℕ} :
    (i, j) ∈ npTriu n k ↔ i < n ∧ j < n ∧ (i : ℤ) + k ≤ j := by
  simp [npTriu]

theorem mem_npTril {n : ℕ} {k : ℤ} {i j : ℕ} :
    (i, j) ∈ npTril n k ↔ i < n ∧ j < n ∧ (j : ℤ) ≤ i + k := by
  simp [npTril]

theorem sum_len_k (m k s : ℕ) (hs : s + k ≤ m) :
    (2 * (∑ t ∈ Finset.range s, (m - (t + k)) : ℕ) : ℤ) = 2 * (s * (m - k)) - s * (s - 1) := by
  have := sum_len_zero (m - k) s (by omega)
  have e : ∑ t ∈ Finset.range s, (m - (t + k)) = ∑ t ∈ Finset.range s, (m - k - t) :=
    Finset.sum_congr rfl fun t _ => by omega
  rw [e]
  obtain ⟨d, rfl⟩ : ∃ d, m = k + d := ⟨m - k, by omega⟩
  have h : k + d - k = d := by omega
  rw [h] at this ⊢
  zify at this ⊢
  linarith

end Verif.Index
