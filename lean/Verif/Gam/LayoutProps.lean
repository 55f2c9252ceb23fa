import Verif.Gam.Setup
import Mathlib.Algebra.BigOperators.Intervals
import Mathlib.Algebra.BigOperators.Ring.Finset
import Mathlib.Tactic.Ring
import Mathlib.Tactic.Linarith

namespace Verif.Gam
open Finset

/-! ### Designs and penalties of the whole model -/

/-- Number of columns of the smooths. -/
def width (bs : List Block) : ℕ := (bs.map Block.p).sum

/-- Fitted values of the smooths, each with its own run of coefficients from `start`. -/
def fitOf : ℕ → List Block → (ℕ → ℝ) → ℕ → ℝ
  | _, [], _, _ => 0
  | start, b :: bs, β, i => ∑ c ∈ range b.p, b.X i c * β (start + c) + fitOf (start + b.p) bs β i

/-- Penalties of the smooths, each on its own run of coefficients. -/
def penOf : ℕ → ℕ → List Block → (ℕ → ℝ) → (ℕ → ℝ) → ℝ
  | _, _, [], _, _ => 0
  | idx, start, b :: bs, lam, β => lam idx * ∑ c ∈ range b.p, ∑ d ∈ range b.p, β (start + c) * b.S c d * β (start + d) +
      penOf (idx + 1) (start + b.p) bs lam β

theorem design_sum (bs : List Block) : ∀ start (β : ℕ → ℝ) (i : ℕ),
    ∑ c ∈ range (width bs), design start bs i (start + c) * β (start + c) = fitOf start bs β i := by
  induction bs with
  | nil => intro _ _ _; simp [width, fitOf]
  | cons b bs ih =>
    intro start β i
    have hw : width (b :: bs) = b.p + width bs := by simp [width]
    rw [hw, Finset.sum_range_add, fitOf, ← ih (start + b.p) β i]
    congr 1
    · refine Finset.sum_congr rfl fun c hc => ?_
      have := mem_range.1 hc
      simp only [design]
      rw [if_pos (by omega), Nat.add_sub_cancel_left]
    · refine Finset.sum_congr rfl fun c hc => ?_
      simp only [design]
      rw [if_neg (by omega), add_assoc]

/-- **C124** The columns of the design are the parametric ones and those of the smooths in order. -/
theorem C124_design (p0 : ℕ) (Xp : ℕ → ℕ → ℝ) (bs : List Block) (β : ℕ → ℝ) (i : ℕ) :
    ∑ c ∈ range (p0 + width bs), fullDesign p0 Xp bs i c * β c = ∑ c ∈ range p0, Xp i c * β c + fitOf p0 bs β i := by
  rw [Finset.sum_range_add, ← design_sum bs p0 β i]
  congr 1
  · refine Finset.sum_congr rfl fun c hc => ?_
    rw [fullDesign, if_pos (mem_range.1 hc)]
  · refine Finset.sum_congr rfl fun c _ => ?_
    rw [fullDesign, if_neg (by omega)]

theorem block_form (N start : ℕ) (b : Block) (hN : start + b.p ≤ N) (hs : ∀ c d, b.S c d = b.S d c) (β : ℕ → ℝ) :
    ∑ i ∈ range N, ∑ j ∈ range N, β i * blockPen start b i j * β j = ∑ c ∈ range b.p, ∑ d ∈ range b.p, β (start + c) * b.S c d * β (start + d) := by
  obtain ⟨m, rfl⟩ : ∃ m, N = start + (b.p + m) := ⟨N - start - b.p, by omega⟩
  have inner : ∀ i, ∑ j ∈ range (start + (b.p + m)), β i * blockPen start b i j * β j =
      if start ≤ i ∧ i < start + b.p then ∑ d ∈ range b.p, β i * b.S d (i - start) * β (start + d) else 0 := by
    intro i
    split_ifs with hi
    · rw [Finset.sum_range_add, Finset.sum_range_add]
      have z1 : ∑ x ∈ range start, β i * blockPen start b i x * β x = 0 := by
        refine Finset.sum_eq_zero fun x hx => ?_
        have := mem_range.1 hx
        rw [blockPen, if_neg (by omega)]; ring
      have z2 : ∑ x ∈ range m, β i * blockPen start b i (start + (b.p + x)) * β (start + (b.p + x)) = 0 := by
        refine Finset.sum_eq_zero fun x hx => ?_
        rw [blockPen, if_neg (by omega)]; ring
      rw [z1, z2, zero_add, add_zero]
      refine Finset.sum_congr rfl fun d hd => ?_
      have := mem_range.1 hd
      rw [blockPen, if_pos (by omega), Nat.add_sub_cancel_left]
    · refine Finset.sum_eq_zero fun j _ => ?_
      rw [blockPen, if_neg (by omega)]; ring
  simp only [inner]
  rw [Finset.sum_range_add, Finset.sum_range_add]
  rw [Finset.sum_eq_zero (fun x hx => if_neg (by have := mem_range.1 hx; omega)), zero_add]
  rw [Finset.sum_eq_zero (s := range m) (fun x hx => if_neg (by omega)), add_zero]
  refine Finset.sum_congr rfl fun c hc => ?_
  have := mem_range.1 hc
  rw [if_pos (by omega)]
  refine Finset.sum_congr rfl fun d _ => ?_
  rw [Nat.add_sub_cancel_left, hs]

theorem penOf_eq (bs : List Block) (hs : ∀ b ∈ bs, ∀ c d, b.S c d = b.S d c) (lam β : ℕ → ℝ) (N : ℕ) : ∀ start idx, start + width bs ≤ N →
    ∑ j ∈ range N, ∑ k ∈ range N, β j * (((penalties start bs).zipIdx idx).map fun e => lam e.2 * e.1 j k).sum * β k = penOf idx start bs lam β := by
  induction bs with
  | nil => intro start idx _; simp [penalties, penOf]
  | cons b bs ih =>
    intro start idx hN
    have hw : width (b :: bs) = b.p + width bs := by simp [width]
    rw [hw] at hN
    simp only [penalties, List.zipIdx_cons, List.map_cons, List.sum_cons, penOf]
    rw [← ih (fun b h => hs b (List.mem_cons_of_mem _ h)) (start + b.p) (idx + 1) (by omega), ← block_form N start b (by omega) (hs b List.mem_cons_self),
      Finset.mul_sum, ← Finset.sum_add_distrib]
    refine Finset.sum_congr rfl fun j _ => ?_
    rw [Finset.mul_sum, ← Finset.sum_add_distrib]
    refine Finset.sum_congr rfl fun k _ => ?_
    ring

/-- **C124** The quadratic form of the penalty matrix is the sum of the penalties of the smooths, each on the
coefficients of its own columns. -/
theorem C124_penalty (p0 : ℕ) (bs : List Block) (hs : ∀ b ∈ bs, ∀ c d, b.S c d = b.S d c) (lam β : ℕ → ℝ) :
    ∑ j ∈ range (p0 + width bs), ∑ k ∈ range (p0 + width bs), β j * penaltyMat lam (penalties p0 bs) j k * β k = penOf 0 p0 bs lam β :=
  penOf_eq bs hs lam β _ p0 0 le_rfl

/-- **C124** Parametric coefficients are not penalised, and coefficients of different smooths do not meet. -/
theorem C124_blocks (bs : List Block) : ∀ start, ∀ S ∈ penalties start bs, ∀ i j, (i < start ∨ j < start) → S i j = 0 := by
  induction bs with
  | nil => intro _ _ h; simp [penalties] at h
  | cons b bs ih =>
    intro start S hS i j h
    rcases List.mem_cons.1 hS with rfl | hS
    · rw [blockPen, if_neg (by omega)]
    · exact ih _ S hS i j (by omega)

/-! ### Bookkeeping of names -/

theorem dset_new {α : Type} (d : List (String × α)) (k : String) (v : α) (h : k ∉ d.map Prod.fst) : dset d k v = d ++ [(k, v)] := by
  rw [dset, if_neg]
  intro hc
  obtain ⟨e, he, hk⟩ := List.any_eq_true.1 hc
  exact h (List.mem_map.2 ⟨e, he, by simpa using hk⟩)

/-- The keys that a term adds. -/
def keysOf (key : String) : List Term → List String
  | [_] => [key]
  | l => l.map fun s => key ++ "_" ++ s.cat

/-- What holds of the state after distinct keys. -/
structure Good (xp : ℕ) (keys : List String) (st : Terms) : Prop where
  keys : st.smooths.map Prod.fst = keys
  ns : st.ns = st.smooths.length
  total : st.total = xp + (st.smooths.map Prod.snd).sum
  names : st.names.length = st.total

theorem colNames_length (s : String) (p : ℕ) : (colNames s p).length = p := by simp [colNames]

theorem good_step {xp : ℕ} {ks : List String} {st : Terms} (h : Good xp ks st) (key pre : String) (p : ℕ) (hk : key ∉ ks) :
    Good xp (ks ++ [key]) ⟨dset st.smooths key p, st.ns + 1, st.total + p, st.names ++ colNames pre p⟩ := by
  have e := dset_new st.smooths key p (by rw [h.keys]; exact hk)
  refine ⟨?_, ?_, ?_, ?_⟩
  · simp [e, h.keys]
  · simp [e, h.ns]
  · simp [e, h.total, add_assoc]
  · simp [h.names, colNames_length]

theorem good_term {xp : ℕ} {ks : List String} {st : Terms} (h : Good xp ks st) (key : String) (l : List Term) (hk : (ks ++ keysOf key l).Nodup) :
    Good xp (ks ++ keysOf key l) (addTerm st key l) := by
  have fold : ∀ (l : List Term) (ks : List String) (st : Terms), Good xp ks st → (ks ++ l.map fun s => key ++ "_" ++ s.cat).Nodup →
      Good xp (ks ++ l.map fun s => key ++ "_" ++ s.cat) (l.foldl (fun st s =>
        let byKey := key ++ "_" ++ s.cat
        ⟨dset st.smooths byKey s.p, st.ns + 1, st.total + s.p, st.names ++ colNames (byKey ++ "_") s.p⟩) st) := by
    intro l
    induction l with
    | nil => intro ks st h _; simpa using h
    | cons s l ih =>
      intro ks st h hk
      have e : ks ++ ((s :: l).map fun s => key ++ "_" ++ s.cat) = (ks ++ [key ++ "_" ++ s.cat]) ++ l.map fun s => key ++ "_" ++ s.cat := by simp
      rw [e] at hk ⊢
      have hn : key ++ "_" ++ s.cat ∉ ks := by
        have h1 := (List.nodup_append.1 hk).1
        have h2 := (List.nodup_append.1 h1).2.2
        intro hm
        exact h2 _ hm _ (List.mem_singleton.2 rfl) rfl
      rw [List.foldl_cons]
      exact ih _ _ (good_step h _ _ _ hn) hk
  unfold addTerm
  split
  · rename_i s
    have hn : key ∉ ks := by
      intro hm
      exact (List.nodup_append.1 hk).2.2 _ hm _ (List.mem_singleton.2 rfl) rfl
    exact good_step h _ _ _ hn
  · rename_i hne
    have e : keysOf key l = l.map fun s => key ++ "_" ++ s.cat := by
      unfold keysOf
      split
      · rename_i s; exact absurd rfl (hne s)
      · rfl
    rw [e] at hk ⊢
    exact fold l ks st h hk

/-- **C124** When the keys are distinct there is one smooth for each, the number of parameters is the number of
columns, and every column has a name. -/
theorem C124_terms_partial (xp : List String) (info : List (String × List Term)) (hk : (info.flatMap fun e => keysOf e.1 e.2).Nodup) :
    let st := smoothTerms xp info
    st.smooths.map Prod.fst = (info.flatMap fun e => keysOf e.1 e.2) ∧ st.ns = st.smooths.length ∧
      st.total = xp.length + (st.smooths.map Prod.snd).sum ∧ st.names.length = st.total := by
  have key : ∀ (info : List (String × List Term)) (ks : List String) (st : Terms), Good xp.length ks st → (ks ++ info.flatMap fun e => keysOf e.1 e.2).Nodup →
      Good xp.length (ks ++ info.flatMap fun e => keysOf e.1 e.2) (info.foldl (fun st e => addTerm st e.1 e.2) st) := by
    intro info
    induction info with
    | nil => intro ks st h _; simpa using h
    | cons e info ih =>
      intro ks st h hk
      have e1 : ks ++ ((e :: info).flatMap fun e => keysOf e.1 e.2) = (ks ++ keysOf e.1 e.2) ++ info.flatMap fun e => keysOf e.1 e.2 := by simp
      rw [e1] at hk ⊢
      rw [List.foldl_cons]
      exact ih _ _ (good_term h _ _ (List.nodup_append.1 hk).1) hk
  have h0 : Good xp.length [] ⟨[], 0, xp.length, xp⟩ := ⟨rfl, rfl, rfl, rfl⟩
  have := key info [] _ h0 (by simpa using hk)
  rw [List.nil_append] at this
  exact ⟨this.keys, this.ns, this.total, this.names⟩

/-- **C124** A smooth of `x` by a factor with a category `a` and a smooth of a variable `x_a` share a key: one is
lost, but its columns are counted, so the penalties are larger than the design. -/
theorem C124_key_violated : smoothTerms ["1"] [("x", [⟨"a", 2⟩, ⟨"b", 2⟩]), ("x_a", [⟨"", 2⟩])] =
    ⟨[("x_a", 2), ("x_b", 2)], 3, 7, ["1", "x_a_1", "x_a_2", "x_b_1", "x_b_2", "x_a1", "x_a2"]⟩ := by decide +kernel

/-- **C124** Names of columns can repeat: the eleventh column of `x` and the first of `x1`. -/
theorem C124_name_violated : ¬ (smoothTerms [] [("x", [⟨"", 11⟩]), ("x1", [⟨"", 1⟩])]).names.Nodup := by decide +kernel

end Verif.Gam
