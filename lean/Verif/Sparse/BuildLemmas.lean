import Verif.Sparse.Model
import Mathlib.Algebra.BigOperators.Ring.Finset
import Mathlib.Algebra.BigOperators.Intervals
import Mathlib.Algebra.BigOperators.Fin
import Mathlib.Tactic.Ring
import Mathlib.Tactic.Linarith
/-! Lemmas for kernels that append entries column by column. -/
namespace Verif.Sparse

variable {R : Type*}

@[simp] theorem store_same {α : Type*} (a : ℕ → α) (i : ℕ) (v : α) : store a i v i = v := by
  simp [store]

theorem store_ne {α : Type*} (a : ℕ → α) (i k : ℕ) (v : α) (h : k ≠ i) : store a i v k = a k := by
  simp [store, h]

theorem sum_loopRange [AddCommMonoid R] (lo hi : ℕ) (f : ℕ → R) :
    ((loopRange lo hi).map f).sum = ∑ k ∈ Finset.Ico lo hi, f k := by
  rfl

theorem sum_flatMap' {α β : Type*} [AddCommMonoid R] (l : List α) (f : α → List β) (g : β → R) :
    ((l.flatMap f).map g).sum = (l.map fun a => ((f a).map g).sum).sum := by
  induction l with
  | nil => simp
  | cons a l ih => simp [ih]

theorem nested_fold {σ : Type*} (f : ℕ → ℕ → σ → σ) (m n : ℕ) (o : σ) :
    (List.range m).foldl (fun o a => (List.range n).foldl (fun o b => f a b o) o) o =
      (List.range (m * n)).foldl (fun o c => f (c / n) (c % n) o) o := by
  induction m generalizing o with
  | zero => simp
  | succ m ih =>
    rw [List.range_succ, List.foldl_append, ih, Nat.succ_mul, List.range_add, List.foldl_append,
      List.foldl_map]
    simp only [List.foldl_cons, List.foldl_nil]
    apply List.foldl_ext
    intro o b hb
    rw [List.mem_range] at hb
    have hn : 0 < n := by omega
    rw [Nat.add_comm, Nat.add_mul_div_right _ _ hn, Nat.div_eq_of_lt hb,
      Nat.add_mul_mod_self_right, Nat.mod_eq_of_lt hb, Nat.zero_add]

/-- Pushing a list of entries. -/
def pushAll (o : Out R) (L : List (ℕ × R)) : Out R := L.foldl Out.push o

theorem pushAll_cnt (o : Out R) (L : List (ℕ × R)) : (pushAll o L).cnt = o.cnt + L.length := by
  unfold pushAll
  induction L generalizing o with
  | nil => simp
  | cons a L ih => simp only [List.foldl_cons, ih, List.length_cons, Out.push]; omega

theorem pushAll_p (o : Out R) (L : List (ℕ × R)) : (pushAll o L).C.p = o.C.p := by
  unfold pushAll
  induction L generalizing o with
  | nil => simp
  | cons a L ih => simp only [List.foldl_cons, ih, Out.push]

theorem pushAll_lt (o : Out R) (L : List (ℕ × R)) (k : ℕ) (hk : k < o.cnt) :
    (pushAll o L).C.i k = o.C.i k ∧ (pushAll o L).C.x k = o.C.x k := by
  unfold pushAll
  induction L generalizing o with
  | nil => simp
  | cons a L ih =>
    simp only [List.foldl_cons]
    have h := ih (o.push a) (by simp only [Out.push]; omega)
    rw [h.1, h.2]
    simp only [Out.push]
    exact ⟨store_ne _ _ _ _ (by omega), store_ne _ _ _ _ (by omega)⟩

theorem pushAll_get (o : Out R) (L : List (ℕ × R)) (t : ℕ) (ht : t < L.length) :
    (pushAll o L).C.i (o.cnt + t) = L[t].1 ∧ (pushAll o L).C.x (o.cnt + t) = L[t].2 := by
  induction L generalizing o t with
  | nil => simp at ht
  | cons a L ih =>
    have e : pushAll o (a :: L) = pushAll (o.push a) L := rfl
    rw [e]
    rcases t with _ | t
    · have h := pushAll_lt (o.push a) L o.cnt (by simp [Out.push])
      rw [Nat.add_zero, h.1, h.2]
      simp [Out.push]
    · have h := ih (o.push a) t (by simpa using ht)
      have e2 : o.cnt + (t + 1) = (o.push a).cnt + t := by simp only [Out.push]; omega
      rw [e2, h.1, h.2]
      simp

/-- Column-by-column construction. -/
def buildCols (colf : ℕ → List (ℕ × R)) (N : ℕ) (o : Out R) : Out R :=
  (List.range N).foldl (fun o c => (pushAll o (colf c)).setP (c + 1)) o

/-- Number of entries in the columns before `c`. -/
def offs (colf : ℕ → List (ℕ × R)) (c : ℕ) : ℕ := ∑ c' ∈ Finset.range c, (colf c').length

theorem offs_succ (colf : ℕ → List (ℕ × R)) (c : ℕ) :
    offs colf (c + 1) = offs colf c + (colf c).length := Finset.sum_range_succ _ _

theorem offs_mono (colf : ℕ → List (ℕ × R)) {a b : ℕ} (h : a ≤ b) : offs colf a ≤ offs colf b := by
  induction b with
  | zero => have : a = 0 := by omega
            subst this; exact le_rfl
  | succ b ih =>
    rcases Nat.lt_or_ge a (b + 1) with h1 | h1
    · rw [offs_succ]; have := ih (by omega); omega
    · have : a = b + 1 := by omega
      subst this; exact le_rfl

theorem buildCols_spec (colf : ℕ → List (ℕ × R)) (N : ℕ) (o : Out R) (h0 : o.cnt = 0)
    (hp : o.C.p 0 = 0) :
    (buildCols colf N o).cnt = offs colf N ∧
    (∀ c ≤ N, (buildCols colf N o).C.p c = offs colf c) ∧
    (∀ c < N, ∀ t, ∀ h : t < (colf c).length,
      (buildCols colf N o).C.i (offs colf c + t) = ((colf c)[t]).1 ∧
      (buildCols colf N o).C.x (offs colf c + t) = ((colf c)[t]).2) := by
  induction N with
  | zero =>
    refine ⟨by simp [buildCols, offs, h0], ?_, fun c hc => by omega⟩
    intro c hc
    have : c = 0 := by omega
    subst this
    simpa [buildCols, offs] using hp
  | succ N ih =>
    obtain ⟨i1, i2, i3⟩ := ih
    have e : buildCols colf (N + 1) o =
        (pushAll (buildCols colf N o) (colf N)).setP (N + 1) := by
      simp [buildCols, List.range_succ]
    rw [e]
    refine ⟨?_, ?_, ?_⟩
    · simp only [Out.setP]
      rw [pushAll_cnt, i1, offs_succ]
    · intro c hc
      simp only [Out.setP]
      by_cases h : c = N + 1
      · subst h; rw [store_same, pushAll_cnt, i1, offs_succ]
      · rw [store_ne _ _ _ _ h, pushAll_p, i2 c (by omega)]
    · intro c hc t ht
      simp only [Out.setP]
      by_cases h : c = N
      · subst h
        have := pushAll_get (buildCols colf c o) (colf c) t ht
        rwa [i1] at this
      · have hlt : offs colf c + t < (buildCols colf N o).cnt := by
          rw [i1]
          have : offs colf (c + 1) ≤ offs colf N := offs_mono colf (by omega)
          rw [offs_succ] at this
          omega
        have := pushAll_lt (buildCols colf N o) (colf N) _ hlt
        rw [this.1, this.2]
        exact i3 c (by omega) t ht

theorem buildCols_entry [AddCommMonoid R] (colf : ℕ → List (ℕ × R)) (N : ℕ) (o : Out R)
    (h0 : o.cnt = 0) (hp : o.C.p 0 = 0) (r c : ℕ) (hc : c < N) :
    (buildCols colf N o).C.entry r c =
      ((colf c).map fun rv => if rv.1 = r then rv.2 else 0).sum := by
  obtain ⟨i1, i2, i3⟩ := buildCols_spec colf N o h0 hp
  unfold Csc.entry
  rw [i2 c (by omega), i2 (c + 1) (by omega), offs_succ, Finset.sum_Ico_eq_sum_range]
  have : offs colf c + (colf c).length - offs colf c = (colf c).length := by omega
  rw [this]
  have e : ((colf c).map fun rv => if rv.1 = r then rv.2 else 0).sum =
      ∑ t ∈ Finset.range (colf c).length,
        (if h : t < (colf c).length then (if ((colf c)[t]).1 = r then ((colf c)[t]).2 else 0) else 0) := by
    rw [Finset.sum_range, ← List.sum_ofFn]
    congr 1
    apply List.ext_getElem
    · simp
    · intro n h1 h2
      have : n < (colf c).length := by simpa using h1
      simp [this]
  rw [e]
  apply Finset.sum_congr rfl
  intro t ht
  rw [Finset.mem_range] at ht
  obtain ⟨a, b⟩ := i3 c hc t ht
  rw [a, b, dif_pos ht]

/-- The set of stored rows of a built column. -/
theorem buildCols_rows (colf : ℕ → List (ℕ × R)) (N : ℕ) (o : Out R)
    (h0 : o.cnt = 0) (hp : o.C.p 0 = 0) (c : ℕ) (hc : c < N) :
    (loopRange ((buildCols colf N o).C.p c) ((buildCols colf N o).C.p (c + 1))).map
      (fun k => ((buildCols colf N o).C.i k, (buildCols colf N o).C.x k)) = colf c := by
  obtain ⟨i1, i2, i3⟩ := buildCols_spec colf N o h0 hp
  rw [i2 c (by omega), i2 (c + 1) (by omega), offs_succ, loopRange]
  have : offs colf c + (colf c).length - offs colf c = (colf c).length := by omega
  rw [this]
  apply List.ext_getElem
  · simp
  · intro n h1 h2
    obtain ⟨a, b⟩ := i3 c hc n h2
    simp [a, b]

end Verif.Sparse
