import Verif.Rank.Lemmas
import Mathlib.Data.List.Forall2
import Mathlib.Algebra.BigOperators.Group.List.Basic
/-! Lemmas for ravel/unravel and `unique`. -/
namespace Verif.Rank

/-- Mixed-radix value, least significant digit first. -/
def colexRank : List ℕ → List ℕ → ℕ
  | i :: is, s :: ss => i + s * colexRank is ss
  | _, _ => 0

/-- Mixed-radix value, most significant digit first. -/
def lexRank : List ℕ → List ℕ → ℕ
  | i :: is, _ :: ss => i * ss.prod + lexRank is ss
  | _, _ => 0

theorem zipWith_map_mul (c : ℕ) (xs ps : List ℕ) :
    (List.zipWith (· * ·) xs (ps.map (c * ·))).sum = c * (List.zipWith (· * ·) xs ps).sum := by
  induction xs generalizing ps with
  | nil => simp
  | cons x xs ih =>
    cases ps with
    | nil => simp
    | cons p ps => simp [ih]; ring

theorem colex_sum (i0 : ℕ) (rest : List ℕ) (s : ℕ) (ss : List ℕ) (h : rest.length = ss.length) :
    (List.zipWith (· * ·) rest (cumprod (s :: ss)).dropLast).sum + i0 =
      colexRank (i0 :: rest) (s :: ss) := by
  induction ss generalizing i0 rest s with
  | nil =>
    have : rest = [] := List.length_eq_zero_iff.1 h
    subst this; simp [colexRank]
  | cons t ts ih =>
    cases rest with
    | nil => simp at h
    | cons i1 rest =>
      have h' : rest.length = ts.length := by simpa using h
      have hne : cumprod (t :: ts) ≠ [] := by simp [cumprod]
      have e : (cumprod (s :: t :: ts)).dropLast =
          s :: ((cumprod (t :: ts)).dropLast).map (s * ·) := by
        rw [cumprod, List.dropLast_cons_of_ne_nil (by simpa using hne), List.map_dropLast]
      rw [e, List.zipWith_cons_cons, List.sum_cons, zipWith_map_mul]
      have := ih i1 rest t h'
      rw [colexRank, ← this]
      ring

theorem colexForward_eq (index shape : List ℕ) (hne : index ≠ [])
    (hl : index.length = shape.length) : colexForward index shape = some (colexRank index shape) := by
  cases index with
  | nil => exact absurd rfl hne
  | cons i0 rest =>
    cases shape with
    | nil => simp at hl
    | cons s ss =>
      simp only [colexForward, hl, if_true]
      rw [colex_sum i0 rest s ss (by simpa using hl)]

theorem colexRank_append (y t : List ℕ) (w z : ℕ) (h : y.length = t.length) :
    colexRank (y ++ [w]) (t ++ [z]) = colexRank y t + t.prod * w := by
  induction y generalizing t with
  | nil =>
    have : t = [] := List.length_eq_zero_iff.1 h.symm
    subst this; simp [colexRank]
  | cons i is ih =>
    cases t with
    | nil => simp at h
    | cons s ss =>
      simp only [List.cons_append, colexRank, List.prod_cons]
      rw [ih ss (by simpa using h)]; ring

/-- In range: `index[j] < shape[j]` for all `j`, equal lengths. -/
def InRange (index shape : List ℕ) : Prop := List.Forall₂ (· < ·) index shape

theorem colexRank_lt (y t : List ℕ) (h : InRange y t) : colexRank y t < t.prod := by
  unfold InRange at h
  induction h with
  | nil => simp [colexRank]
  | cons h1 _ ih =>
    simp only [colexRank, List.prod_cons]
    nlinarith

theorem cumprod_append (t : List ℕ) (z : ℕ) : cumprod (t ++ [z]) = cumprod t ++ [t.prod * z] := by
  induction t with
  | nil => simp [cumprod]
  | cons x xs ih => simp [cumprod, ih, Nat.mul_assoc]

theorem cumprod_dropLast (t : List ℕ) (h : t ≠ []) : cumprod t = (cumprod t).dropLast ++ [t.prod] := by
  induction t using List.reverseRecOn with
  | nil => exact absurd rfl h
  | append_singleton t z _ => rw [cumprod_append]; simp

theorem colexReverse_append (t : List ℕ) (ht : t ≠ []) (z i : ℕ) (acc : List ℕ) :
    colexReverseLoop ((cumprod (t ++ [z])).dropLast.reverse) i acc =
      colexReverseLoop ((cumprod t).dropLast.reverse) (i % t.prod) (i / t.prod :: acc) := by
  rw [cumprod_append, List.dropLast_concat]
  conv_lhs => rw [cumprod_dropLast t ht]
  rw [List.reverse_append]
  simp [colexReverseLoop]

theorem InRange_append {y t : List ℕ} {w z : ℕ} (hl : y.length = t.length) :
    InRange (y ++ [w]) (t ++ [z]) ↔ InRange y t ∧ w < z := by
  unfold InRange
  constructor
  · intro h
    have h1 := List.forall₂_iff_get.1 h
    obtain ⟨h2, h3⟩ := h1
    constructor
    · rw [List.forall₂_iff_get]
      refine ⟨hl, fun i a b => ?_⟩
      have := h3 i (by simp; omega) (by simp; omega)
      simpa [List.getElem_append_left a, List.getElem_append_left b] using this
    · have := h3 y.length (by simp) (by simp [hl])
      simpa [hl] using this
  · rintro ⟨h1, h2⟩
    exact List.rel_append h1 (List.Forall₂.cons h2 List.Forall₂.nil)

theorem colexReverse_rank (shape x acc : List ℕ) (hne : shape ≠ []) (h : InRange x shape) :
    colexReverseLoop ((cumprod shape).dropLast.reverse) (colexRank x shape) acc = x ++ acc := by
  induction shape using List.reverseRecOn generalizing x acc with
  | nil => exact absurd rfl hne
  | append_singleton t z ih =>
    have hl := List.Forall₂.length_eq h
    rcases List.eq_nil_or_concat x with rfl | ⟨y, w, rfl⟩
    · simp at hl
    · rw [List.concat_eq_append] at *
      have hl' : y.length = t.length := by simpa using hl
      rw [InRange_append hl'] at h
      rw [colexRank_append y t w z hl']
      by_cases ht : t = []
      · subst ht
        have : y = [] := List.length_eq_zero_iff.1 (by simpa using hl')
        subst this
        simp [cumprod, colexReverseLoop, colexRank]
      · have hlt := colexRank_lt y t h.1
        have hpos : 0 < t.prod := by omega
        rw [colexReverse_append t ht, Nat.add_mul_mod_self_left, Nat.mod_eq_of_lt hlt,
          Nat.add_mul_div_left _ _ hpos, Nat.div_eq_of_lt hlt, ih y _ ht h.1]
        simp

theorem colexReverse_spec (shape acc : List ℕ) (i : ℕ) (hne : shape ≠ []) (hi : i < shape.prod) :
    ∃ x, colexReverseLoop ((cumprod shape).dropLast.reverse) i acc = x ++ acc ∧
      InRange x shape ∧ colexRank x shape = i := by
  induction shape using List.reverseRecOn generalizing i acc with
  | nil => exact absurd rfl hne
  | append_singleton t z ih =>
    by_cases ht : t = []
    · subst ht
      refine ⟨[i], by simp [cumprod, colexReverseLoop], ?_, by simp [colexRank]⟩
      simp at hi
      exact List.Forall₂.cons hi List.Forall₂.nil
    · simp only [List.prod_append, List.prod_singleton] at hi
      have hpos : 0 < t.prod := by
        rcases Nat.eq_zero_or_pos t.prod with h | h
        · rw [h] at hi; simp at hi
        · exact h
      obtain ⟨y, h1, h2, h3⟩ := ih (i / t.prod :: acc) (i % t.prod) ht (Nat.mod_lt _ hpos)
      have hl := List.Forall₂.length_eq h2
      refine ⟨y ++ [i / t.prod], ?_, ?_, ?_⟩
      · rw [colexReverse_append t ht, h1]; simp
      · rw [InRange_append hl]
        exact ⟨h2, Nat.div_lt_of_lt_mul hi⟩
      · rw [colexRank_append _ _ _ _ hl, h3]; exact Nat.mod_add_div i t.prod

theorem lexRank_eq (x s : List ℕ) (h : x.length = s.length) :
    colexRank x.reverse s.reverse = lexRank x s := by
  induction x generalizing s with
  | nil =>
    have : s = [] := List.length_eq_zero_iff.1 h.symm
    subst this; simp [colexRank, lexRank]
  | cons i is ih =>
    cases s with
    | nil => simp at h
    | cons t ts =>
      have h' : is.length = ts.length := by simpa using h
      simp only [List.reverse_cons]
      rw [colexRank_append _ _ _ _ (by simpa using h'), ih ts h', List.prod_reverse, lexRank]
      ring

theorem lexRank_lt (y t : List ℕ) (h : InRange y t) : lexRank y t < t.prod := by
  rw [← lexRank_eq y t (List.Forall₂.length_eq h), ← List.prod_reverse]
  apply colexRank_lt
  exact List.rel_reverse h

theorem lexRank_order (x y t : List ℕ) (hx : InRange x t) (hy : InRange y t) :
    lexRank x t < lexRank y t ↔ x < y := by
  induction t generalizing x y with
  | nil =>
    cases hx; cases hy; simp [lexRank]
  | cons s ss ih =>
    cases hx with
    | cons hi hxs =>
      cases hy with
      | cons hj hys =>
        rename_i i xs j ys
        have a := lexRank_lt xs ss hxs
        have b := lexRank_lt ys ss hys
        simp only [lexRank, List.cons_lt_cons_iff]
        rw [← ih xs ys hxs hys]
        rcases Nat.lt_trichotomy i j with h | h | h
        · simp only [h, true_or, iff_true]
          nlinarith
        · subst h; simp
        · have h1 : ¬ (i * ss.prod + lexRank xs ss < j * ss.prod + lexRank ys ss) := by nlinarith
          have h2 : ¬ i < j := by omega
          have h3 : i ≠ j := by omega
          simp [h1, h2, h3]

theorem lexReverseLoop_eq (qs : List ℕ) (a : ℕ) (acc : List ℕ) :
    colexReverseLoop qs a acc = (lexReverseLoop qs a).reverse ++ acc := by
  induction qs generalizing a acc with
  | nil => simp [colexReverseLoop, lexReverseLoop]
  | cons q qs ih => simp [colexReverseLoop, lexReverseLoop, ih]

theorem lexReverse_eq (i : ℕ) (shape : List ℕ) :
    lexReverse i shape = (colexReverse i shape.reverse).reverse := by
  unfold lexReverse colexReverse
  rw [lexReverseLoop_eq, List.append_nil, List.reverse_reverse]
  congr 1
  rw [List.drop_one, List.tail_reverse]

end Verif.Rank
