import Verif.Func.Model
import Mathlib.Data.List.Nodup
import Mathlib.Data.List.GetD
import Mathlib.Data.List.OfFn
import Mathlib.Data.List.Basic
import Mathlib.Data.Set.Function
import Mathlib.Data.Setoid.Basic
import Mathlib.SetTheory.Cardinal.Finite
import Mathlib.Tactic.Ring
import Mathlib.Data.List.Flatten
/-!
# Lemmas on `partition_set`: the loop enumerates restricted growth strings, and these are
in bijection with equivalence relations
-/
namespace Verif.Func

/-- Restricted growth strings of length `k` continuing a prefix whose largest label is `m`. -/
def rgs : ℕ → ℕ → List (List ℕ)
  | 0, _ => [[]]
  | k + 1, m =>
    (List.range m).flatMap (fun v => (rgs k m).map ((v + 1) :: ·)) ++
      (rgs k (m + 1)).map ((m + 1) :: ·)

theorem rgs_length {k m : ℕ} {l : List ℕ} (h : l ∈ rgs k m) : l.length = k := by
  induction k generalizing m l with
  | zero => simp [rgs] at h; simp [h]
  | succ k ih =>
    simp only [rgs, List.mem_append, List.mem_flatMap, List.mem_map, List.mem_range] at h
    rcases h with ⟨v, _, l', h', rfl⟩ | ⟨l', h', rfl⟩ <;> simp [ih h']

theorem mem_rgs_cons {k m v : ℕ} {l : List ℕ} :
    v :: l ∈ rgs (k + 1) m ↔ (1 ≤ v ∧ v ≤ m ∧ l ∈ rgs k m) ∨ (v = m + 1 ∧ l ∈ rgs k (m + 1)) := by
  simp only [rgs, List.mem_append, List.mem_flatMap, List.mem_map, List.mem_range,
    List.cons.injEq]
  constructor
  · rintro (⟨w, hw, l', h', rfl, rfl⟩ | ⟨l', h', rfl, rfl⟩)
    · exact Or.inl ⟨by omega, by omega, h'⟩
    · exact Or.inr ⟨rfl, h'⟩
  · rintro (⟨h1, h2, h3⟩ | ⟨rfl, h3⟩)
    · exact Or.inl ⟨v - 1, by omega, l, h3, by omega, rfl⟩
    · exact Or.inr ⟨l, h3, rfl, rfl⟩

theorem rgs_nodup (k m : ℕ) : (rgs k m).Nodup := by
  induction k generalizing m with
  | zero => simp [rgs]
  | succ k ih =>
    rw [rgs, List.nodup_append]
    refine ⟨?_, (ih (m + 1)).map (fun a b h => by simpa using h), ?_⟩
    · rw [List.nodup_flatMap]
      refine ⟨fun v _ => (ih m).map (fun a b h => by simpa using h), ?_⟩
      refine List.Pairwise.imp ?_ (List.nodup_range (n := m))
      intro a b hab l h1 h2
      simp only [List.mem_map] at h1 h2
      obtain ⟨l1, _, rfl⟩ := h1
      obtain ⟨l2, _, h⟩ := h2
      simp only [List.cons.injEq] at h
      omega
    · intro a ha b hb hab
      subst hab
      simp only [List.mem_flatMap, List.mem_map, List.mem_range] at ha hb
      obtain ⟨v, hv, l1, _, rfl⟩ := ha
      obtain ⟨l2, _, h⟩ := hb
      simp only [List.cons.injEq] at h
      omega

/-! ## The loop produces `rgs` -/

theorem take_set_self (l : List ℕ) (i v : ℕ) (hi : i < l.length) :
    (l.set i v).take (i + 1) = l.take i ++ [v] := by
  rw [List.take_add_one, List.take_set_of_le (by omega)]
  simp [hi]

/-- What a call does to its state: positions before `step` are unchanged and the results are
the continuations `suf` of that prefix. -/
def Extends (step : ℕ) (suf : List (List ℕ))
    (st st' : List ℕ × List (List ℕ)) : Prop :=
  st'.1.length = st.1.length ∧ st'.1.take step = st.1.take step ∧
    st'.2 = st.2 ++ suf.map (st.1.take step ++ ·)

theorem partLoop_spec (step maximum N : ℕ) (hN : step < N) (suf : List (List ℕ))
    (body : List ℕ × List (List ℕ) → List ℕ × List (List ℕ))
    (hbody : ∀ st : List ℕ × List (List ℕ), st.1.length = N →
      Extends (step + 1) suf st (body st)) :
    ∀ (d fuel : ℕ) (st : List ℕ × List (List ℕ)), d < fuel → st.1.length = N →
      st.1.getD step 0 + d = maximum + 1 →
      (partLoop step maximum body fuel st).1.length = st.1.length ∧
      (partLoop step maximum body fuel st).1.take (step + 1) = st.1.take step ++ [maximum + 1] ∧
      (partLoop step maximum body fuel st).2 = st.2 ++
        (List.range' (st.1.getD step 0) d).flatMap
          (fun v => suf.map (fun l => st.1.take step ++ v :: l)) := by
  intro d
  induction d with
  | zero =>
    intro fuel st hf hlN hd
    have hl : step < st.1.length := by omega
    obtain ⟨fuel, rfl⟩ : ∃ f, fuel = f + 1 := ⟨fuel - 1, by omega⟩
    rw [partLoop, if_neg (by omega)]
    refine ⟨rfl, ?_, by simp⟩
    rw [List.take_add_one]
    have : st.1[step]? = some (maximum + 1) := by
      rw [List.getElem?_eq_getElem hl]
      rw [List.getD_eq_getElem _ _ hl] at hd
      simp; omega
    simp [this]
  | succ d ih =>
    intro fuel st hf hlN hd
    have hl : step < st.1.length := by omega
    obtain ⟨fuel, rfl⟩ : ∃ f, fuel = f + 1 := ⟨fuel - 1, by omega⟩
    rw [partLoop, if_pos (by omega)]
    dsimp only
    obtain ⟨hb1, hb2, hb3⟩ := hbody st hlN
    have hl' : step < (body st).1.length := by omega
    have hstep : (body st).1.getD step 0 = st.1.getD step 0 := by
      have h := congrArg (fun l => l.getD step 0) hb2
      simpa [List.getD_eq_getElem?_getD, List.getElem?_take] using h
    have htake : (body st).1.take step = st.1.take step := by
      have h := congrArg (List.take step) hb2
      simpa [List.take_take] using h
    have hpre : st.1.take (step + 1) = st.1.take step ++ [st.1.getD step 0] := by
      rw [List.take_add_one, List.getElem?_eq_getElem hl, List.getD_eq_getElem _ _ hl]; rfl
    have := ih fuel ((body st).1.set step ((body st).1.getD step 0 + 1), (body st).2)
      (by omega) (by simpa using hb1.trans hlN)
      (by rw [List.getD_eq_getElem _ _ (by simpa using hl')]; simp only [List.getElem_set_self]; omega)
    simp only [List.length_set, List.take_set_of_le (le_refl step)] at this
    obtain ⟨h1, h2, h3⟩ := this
    refine ⟨by omega, by rw [h2, htake], ?_⟩
    rw [h3, hb3, htake, hpre]
    have hg : ((body st).1.set step ((body st).1.getD step 0 + 1)).getD step 0
        = st.1.getD step 0 + 1 := by
      rw [List.getD_eq_getElem _ _ (by simpa using hl')]
      simp only [List.getElem_set_self]; omega
    rw [hg, List.range'_succ, List.flatMap_cons, List.append_assoc]
    simp [List.append_assoc]

theorem getPart_spec (k : ℕ) : ∀ (step maximum : ℕ) (st : List ℕ × List (List ℕ)),
    st.1.length = step + k → Extends step (rgs k maximum) st (getPart k step maximum st) := by
  induction k with
  | zero =>
    intro step maximum st h
    refine ⟨rfl, rfl, ?_⟩
    simp [getPart, rgs, List.take_of_length_le (by omega : st.1.length ≤ step)]
  | succ k ih =>
    intro step maximum st h
    have hl : step < st.1.length := by omega
    have hl1 : step < (st.1.set step 1).length := by simpa using hl
    have hg : (st.1.set step 1).getD step 0 = 1 := by
      rw [List.getD_eq_getElem _ _ hl1]; simp
    obtain ⟨h1, h2, h3⟩ := partLoop_spec step maximum (step + (k + 1)) (by omega)
      (rgs k maximum) (getPart k (step + 1) maximum)
      (fun s hs => ih (step + 1) maximum s (by omega)) maximum (maximum + 1)
      (st.1.set step 1, st.2) (by omega) (by simpa using h) (by rw [hg]; omega)
    dsimp only at h1 h2 h3
    rw [hg] at h3
    rw [List.take_set_of_le (le_refl step)] at h2 h3
    rw [List.length_set] at h1
    obtain ⟨g1, g2, g3⟩ := ih (step + 1) (maximum + 1) _ (h1.trans (by omega))
    refine ⟨g1.trans h1, ?_, ?_⟩
    · have h := congrArg (List.take step) (g2.trans h2)
      rw [List.take_take, Nat.min_eq_left (by omega : step ≤ step + 1)] at h
      rw [getPart]
      refine h.trans ?_
      rw [List.take_append_of_le_length (by simp; omega), List.take_take]
      simp
    · rw [getPart]
      refine g3.trans ?_
      rw [h2, h3, rgs, List.map_append, List.append_assoc, List.range'_eq_map_range]
      simp [List.flatMap_map, List.map_flatMap, Function.comp_def, add_comm]

/-- `partition_set` is the list of restricted growth strings. -/
theorem partitionSet_eq (n : ℕ) : partitionSet n = rgs n 0 := by
  have h := (getPart_spec n 0 0 (List.replicate n 0, []) (by simp)).2.2
  simpa [partitionSet] using h

/-! ## Restricted growth strings and equivalence relations -/

/-- Labels in order of first occurrence, `seen` being the values met so far. -/
def canon {α : Type*} [DecidableEq α] : List α → List α → List ℕ
  | _, [] => []
  | seen, x :: xs =>
    if x ∈ seen then (seen.idxOf x + 1) :: canon seen xs
    else (seen.length + 1) :: canon (seen ++ [x]) xs

theorem canon_mem_rgs {α : Type*} [DecidableEq α] (xs : List α) : ∀ seen : List α,
    canon seen xs ∈ rgs xs.length seen.length := by
  induction xs with
  | nil => intro seen; simp [canon, rgs]
  | cons x xs ih =>
    intro seen
    rw [canon]
    split_ifs with hx
    · rw [List.length_cons, mem_rgs_cons]
      exact Or.inl ⟨by omega, List.idxOf_lt_length_iff.2 hx, ih seen⟩
    · rw [List.length_cons, mem_rgs_cons]
      refine Or.inr ⟨rfl, ?_⟩
      simpa using ih (seen ++ [x])

theorem canon_map {α β : Type*} [DecidableEq α] [DecidableEq β] (f : α → β) (xs : List α) :
    ∀ seen : List α, (∀ a ∈ seen ++ xs, ∀ b ∈ seen ++ xs, f a = f b → a = b) →
      canon (seen.map f) (xs.map f) = canon seen xs := by
  induction xs with
  | nil => intro seen _; simp [canon]
  | cons x xs ih =>
    intro seen hinj
    have hmem : f x ∈ seen.map f ↔ x ∈ seen := by
      constructor
      · intro h
        obtain ⟨y, hy, hxy⟩ := List.mem_map.1 h
        rwa [← hinj y (by simp [hy]) x (by simp) hxy]
      · exact List.mem_map_of_mem
    have hidx : ∀ l : List α, (∀ a ∈ l, a ∈ seen) → (l.map f).idxOf (f x) = l.idxOf x := by
      intro l
      induction l with
      | nil => intro _; rfl
      | cons a l ihl =>
        intro hl
        rw [List.map_cons, List.idxOf_cons, List.idxOf_cons, ihl (fun b hb => hl b (by simp [hb]))]
        by_cases hax : a = x
        · simp [hax]
        · have : f a ≠ f x := fun h => hax (hinj a (by simp [hl a]) x (by simp) h)
          rw [beq_false_of_ne hax, beq_false_of_ne this]
    rw [List.map_cons, canon, canon]
    by_cases hx : x ∈ seen
    · rw [if_pos hx, if_pos (hmem.2 hx), hidx seen (fun _ h => h),
        ih seen (fun a ha b hb => hinj a (by simp at ha ⊢; tauto) b (by simp at hb ⊢; tauto))]
    · rw [if_neg hx, if_neg (fun h => hx (hmem.1 h)), List.length_map]
      have := ih (seen ++ [x])
        (fun a ha b hb => hinj a (by simpa using ha) b (by simpa using hb))
      simpa using this

theorem canon_rgs_self (k : ℕ) : ∀ (m : ℕ) (l : List ℕ), l ∈ rgs k m →
    canon (List.range' 1 m) l = l := by
  induction k with
  | zero => intro m l h; simp [rgs] at h; simp [h, canon]
  | succ k ih =>
    intro m l h
    obtain ⟨v, l, rfl⟩ : ∃ v l', l = v :: l' := by
      cases l with
      | nil => exact absurd (rgs_length h) (by simp)
      | cons v l => exact ⟨v, l, rfl⟩
    rw [canon]
    rcases mem_rgs_cons.1 h with ⟨h1, h2, h3⟩ | ⟨rfl, h3⟩
    · rw [if_pos (by simp; omega), ih m l h3]
      congr 1
      have : (List.range' 1 m)[v - 1]'(by simp; omega) = v := by simp; omega
      conv_lhs => rw [← this]
      rw [List.Nodup.idxOf_getElem (List.nodup_range' ..)]
      omega
    · rw [if_neg (by simp; omega), List.length_range']
      congr 1
      have := ih (m + 1) l h3
      rwa [List.range'_concat, Nat.one_mul, Nat.add_comm 1 m] at this

theorem canon_length {α : Type*} [DecidableEq α] (xs seen : List α) :
    (canon seen xs).length = xs.length := rgs_length (canon_mem_rgs xs seen)

/-- Two lists with the same pattern of equal positions have the same canonical labels. -/
theorem canon_congr {α β : Type*} [DecidableEq α] [DecidableEq β] [Nonempty β]
    (xs : List α) (ys : List β) (hlen : xs.length = ys.length)
    (hk : ∀ i j (hi : i < xs.length) (hj : j < xs.length),
      xs[i] = xs[j] ↔ ys[i]'(hlen ▸ hi) = ys[j]'(hlen ▸ hj)) :
    canon [] xs = canon [] ys := by
  obtain ⟨b0⟩ := ‹Nonempty β›
  let f : α → β := fun a => ys.getD (xs.idxOf a) b0
  have hf : ∀ i (hi : i < xs.length), f xs[i] = ys[i]'(hlen ▸ hi) := by
    intro i hi
    have h1 : xs.idxOf xs[i] < xs.length := List.idxOf_lt_length_iff.2 (List.getElem_mem hi)
    have h2 : xs[xs.idxOf xs[i]] = xs[i] := List.getElem_idxOf h1
    show ys.getD _ _ = _
    rw [List.getD_eq_getElem _ _ (hlen ▸ h1)]
    exact (hk _ _ h1 hi).1 h2
  have hys : ys = xs.map f := by
    apply List.ext_getElem
    · simp [hlen]
    · intro i h1 h2
      rw [List.getElem_map, hf]
  rw [hys]
  refine (canon_map f xs [] ?_).symm
  intro a ha b hb hab
  simp only [List.nil_append] at ha hb
  obtain ⟨i, hi, rfl⟩ := List.getElem_of_mem ha
  obtain ⟨j, hj, rfl⟩ := List.getElem_of_mem hb
  rw [hf, hf] at hab
  exact (hk i j hi hj).2 hab

/-- Canonical labels have the pattern of the original list: invariant form. -/
theorem canon_pattern_aux {α : Type*} [DecidableEq α] (xs : List α) : ∀ seen : List α,
    seen.Nodup → ∃ S : List α, S.Nodup ∧ seen <+: S ∧ (∀ x ∈ xs, x ∈ S) ∧
      canon seen xs = xs.map (fun x => S.idxOf x + 1) := by
  induction xs with
  | nil => intro seen h; exact ⟨seen, h, List.prefix_refl _, by simp, by simp [canon]⟩
  | cons x xs ih =>
    intro seen h
    rw [canon]
    split_ifs with hx
    · obtain ⟨S, hS, hp, hm, he⟩ := ih seen h
      refine ⟨S, hS, hp, ?_, ?_⟩
      · intro y hy
        rcases List.mem_cons.1 hy with rfl | hy
        · exact hp.subset hx
        · exact hm y hy
      · rw [he, List.map_cons]
        congr 2
        obtain ⟨t, rfl⟩ := hp
        rw [List.idxOf_append_of_mem hx]
    · obtain ⟨S, hS, hp, hm, he⟩ := ih (seen ++ [x])
        (by rw [List.nodup_append]; simp [h]; rintro a ha rfl; exact hx ha)
      refine ⟨S, hS, (List.prefix_append _ _).trans hp, ?_, ?_⟩
      · intro y hy
        rcases List.mem_cons.1 hy with rfl | hy
        · exact hp.subset (by simp)
        · exact hm y hy
      · rw [he, List.map_cons]
        congr 2
        obtain ⟨t, rfl⟩ := hp
        rw [List.idxOf_append_of_mem (by simp), List.idxOf_append_of_notMem hx]
        simp

theorem canon_pattern {α : Type*} [DecidableEq α] (xs : List α) (i j : ℕ)
    (hi : i < xs.length) (hj : j < xs.length) :
    (canon [] xs)[i]'((canon_length xs []).symm ▸ hi) =
      (canon [] xs)[j]'((canon_length xs []).symm ▸ hj) ↔ xs[i] = xs[j] := by
  obtain ⟨S, hS, -, hm, he⟩ := canon_pattern_aux xs [] List.nodup_nil
  simp only [he, List.getElem_map, Nat.add_right_cancel_iff]
  exact List.idxOf_inj (hm _ (List.getElem_mem hi))

end Verif.Func
