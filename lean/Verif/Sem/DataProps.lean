import Verif.Sem.Data
import Mathlib.Algebra.BigOperators.Field
import Mathlib.Algebra.Order.BigOperators.Group.Finset
import Mathlib.Tactic
/-!
# C237: the data of a structural equation model
-/
namespace Verif.Sem

section
variable {α : Type} [LinearOrder α]

theorem mdIds_mem (n : ℕ) (grp : ℕ → α) (x : α) : x ∈ mdIds n grp ↔ ∃ r, r < n ∧ grp r = x := by
  unfold mdIds
  rw [List.mem_insertionSort, List.mem_dedup, List.mem_map]
  simp [List.mem_range]

theorem mdIds_nodup (n : ℕ) (grp : ℕ → α) : (mdIds n grp).Nodup :=
  (List.perm_insertionSort _ _).nodup_iff.2 (List.nodup_dedup _)

theorem mdIds_sorted (n : ℕ) (grp : ℕ → α) : (mdIds n grp).Pairwise (· ≤ ·) :=
  List.pairwise_insertionSort _ _

theorem mdNum_lt (n : ℕ) (grp : ℕ → α) {r : ℕ} (hr : r < n) : mdNum n grp r < mdGroups n grp :=
  List.idxOf_lt_length_of_mem ((mdIds_mem n grp _).2 ⟨r, hr, rfl⟩)

/-- **C237.** Every row is in exactly one group, no group is empty, and two rows are in the same group just if they
have the same label. -/
theorem C237_groups (n : ℕ) (grp : ℕ → α) :
    (∀ r, r < n → ∃! i, i < mdGroups n grp ∧ r ∈ mdRows n grp i) ∧
    (∀ i, i < mdGroups n grp → (mdRows n grp i).Nonempty) ∧
    (∀ r s, r < n → s < n → (mdNum n grp r = mdNum n grp s ↔ grp r = grp s)) := by
  refine ⟨fun r hr => ⟨mdNum n grp r, ⟨mdNum_lt n grp hr, by simp [mdRows, hr]⟩, ?_⟩, fun i hi => ?_, fun r s hr hs => ?_⟩
  · rintro i ⟨-, h⟩
    exact (Finset.mem_filter.1 h).2.symm
  · have hi : i < (mdIds n grp).length := hi
    obtain ⟨r, hr, hx⟩ := (mdIds_mem n grp _).1 (List.getElem_mem hi)
    refine ⟨r, Finset.mem_filter.2 ⟨Finset.mem_range.2 hr, ?_⟩⟩
    unfold mdNum
    rw [hx, (mdIds_nodup n grp).idxOf_getElem]
  · unfold mdNum
    exact List.idxOf_inj ((mdIds_mem n grp _).2 ⟨r, hr, rfl⟩)

/-- **C237.** Groups are numbered in the order of their labels. -/
theorem C237_order (n : ℕ) (grp : ℕ → α) (r s : ℕ) (hr : r < n) (hs : s < n) (h : grp r < grp s) :
    mdNum n grp r < mdNum n grp s := by
  by_contra hc
  have hr' := (mdIds_mem n grp _).2 ⟨r, hr, rfl⟩
  have hs' := (mdIds_mem n grp _).2 ⟨s, hs, rfl⟩
  have hle : mdNum n grp s ≤ mdNum n grp r := not_lt.1 hc
  have h1 : (mdIds n grp)[mdNum n grp r]'(mdNum_lt n grp hr) = grp r := List.getElem_idxOf _
  have h2 : (mdIds n grp)[mdNum n grp s]'(mdNum_lt n grp hs) = grp s := List.getElem_idxOf _
  rcases hle.lt_or_eq with hlt | heq
  · have := List.pairwise_iff_getElem.1 (mdIds_sorted n grp) _ _ (mdNum_lt n grp hs) (mdNum_lt n grp hr) hlt
    rw [h1, h2] at this
    exact absurd h (not_lt.2 this)
  · have : grp s = grp r := by rw [← h1, ← h2]; congr 1
    exact absurd h (by rw [this]; exact lt_irrefl _)

theorem mdRows_sum (n : ℕ) (grp : ℕ → α) (f : ℕ → ℝ) :
    ∑ i ∈ Finset.range (mdGroups n grp), ∑ r ∈ mdRows n grp i, f r = ∑ r ∈ Finset.range n, f r := by
  unfold mdRows
  exact Finset.sum_fiberwise_of_maps_to (fun r hr => Finset.mem_range.2 (mdNum_lt n grp (Finset.mem_range.1 hr))) f

/-- **C237.** The numbers of observations add up, and the means of the groups, weighted by them, to the mean of all. -/
theorem C237_total (n : ℕ) (grp : ℕ → α) (X : ℕ → ℕ → Option ℝ) (j : ℕ) :
    ∑ i ∈ Finset.range (mdGroups n grp), ((mdRows n grp i).card : ℝ) = n ∧
    (0 < n → (∑ i ∈ Finset.range (mdGroups n grp), (mdRows n grp i).card * mdMeanOver (mdRows n grp i) X j) / n =
      mdMeanOver (Finset.range n) X j) := by
  constructor
  · have := mdRows_sum n grp fun _ => 1
    simpa using this
  · intro hn
    unfold mdMeanOver
    rw [Finset.card_range, ← mdRows_sum n grp]
    congr 1
    refine Finset.sum_congr rfl fun i hi => ?_
    have : ((mdRows n grp i).card : ℝ) ≠ 0 := by
      exact_mod_cast (Finset.card_pos.2 ((C237_groups n grp).2.1 i (Finset.mem_range.1 hi))).ne'
    field_simp

end

/-! ## Moments -/

/-- No value missing. -/
def Complete (p : ℕ) (rows : Finset ℕ) (X : ℕ → ℕ → Option ℝ) : Prop := ∀ i ∈ rows, ∀ c < p, (X i c).isSome = true

/-- **C237, partial.** Without missing values the mean is over all rows, and the covariance of two variables has the
divisor asked for and does not depend on the other columns. -/
theorem C237_complete_partial (p ddof : ℕ) (rows : Finset ℕ) (X : ℕ → ℕ → Option ℝ) (h : Complete p rows X) (j k : ℕ) (hj : j < p) :
    mdMean rows X j = mdMeanOver rows X j ∧ mdCov p ddof rows X j k = mdSscp rows X j k / ((rows.card : ℝ) - ddof) := by
  constructor
  · unfold mdMean
    congr 1
    exact Finset.filter_true_of_mem fun i hi => h i hi j hj
  · unfold mdCov
    exact if_pos h

theorem mdSscp_quad (p : ℕ) (rows : Finset ℕ) (X : ℕ → ℕ → Option ℝ) (a : ℕ → ℝ) :
    ∑ j ∈ Finset.range p, ∑ k ∈ Finset.range p, a j * a k * mdSscp rows X j k =
      ∑ i ∈ rows, (∑ j ∈ Finset.range p, a j * ((X i j).getD 0 - mdMeanOver rows X j)) ^ 2 := by
  unfold mdSscp
  simp_rw [Finset.mul_sum]
  rw [Finset.sum_congr rfl fun j _ => Finset.sum_comm, Finset.sum_comm]
  refine Finset.sum_congr rfl fun i _ => ?_
  rw [sq, Finset.sum_mul_sum]
  refine Finset.sum_congr rfl fun j _ => Finset.sum_congr rfl fun k _ => by ring

/-- **C237, partial.** It is then positive semidefinite. -/
theorem C237_psd_partial (p ddof : ℕ) (rows : Finset ℕ) (X : ℕ → ℕ → Option ℝ) (h : Complete p rows X) (hd : ddof ≤ rows.card) (a : ℕ → ℝ) :
    0 ≤ ∑ j ∈ Finset.range p, ∑ k ∈ Finset.range p, a j * a k * mdCov p ddof rows X j k := by
  have : ∑ j ∈ Finset.range p, ∑ k ∈ Finset.range p, a j * a k * mdCov p ddof rows X j k =
      (∑ j ∈ Finset.range p, ∑ k ∈ Finset.range p, a j * a k * mdSscp rows X j k) / ((rows.card : ℝ) - ddof) := by
    rw [Finset.sum_div]
    refine Finset.sum_congr rfl fun j hj => ?_
    rw [Finset.sum_div]
    refine Finset.sum_congr rfl fun k _ => ?_
    rw [(C237_complete_partial p ddof rows X h j k (Finset.mem_range.1 hj)).2, mul_div_assoc]
  rw [this, mdSscp_quad]
  refine div_nonneg (Finset.sum_nonneg fun i _ => sq_nonneg _) ?_
  rw [sub_nonneg]
  exact_mod_cast hd

/-- Six rows of two variables, of which only two rows are complete. -/
def gapX : ℕ → ℕ → Option ℝ
  | 0, 0 => some 1
  | 0, 1 => some 1
  | 1, 0 => some (-1)
  | 1, 1 => some (-1)
  | 2, 0 => some 0
  | 3, 0 => some 0
  | 4, 1 => some 0
  | 5, 1 => some 0
  | _, _ => none

/-- **C237, violated.** With missing values the covariance matrix need not be positive semidefinite. -/
theorem C237_psd_violated : ∃ a : ℕ → ℝ,
    ∑ j ∈ Finset.range 2, ∑ k ∈ Finset.range 2, a j * a k * mdCov 2 0 (Finset.range 6) gapX j k < 0 := by
  refine ⟨fun j => if j = 0 then 1 else -1, ?_⟩
  have hn : ¬ ∀ i ∈ Finset.range 6, ∀ c < 2, (gapX i c).isSome = true := by
    intro h
    have := h 2 (by decide) 1 (by decide)
    simp [gapX] at this
  have h00 : mdHas (mdHas (Finset.range 6) gapX 0) gapX 0 = {0, 1, 2, 3} := by
    ext i; simp only [mdHas, Finset.mem_filter, Finset.mem_range, Finset.mem_insert, Finset.mem_singleton]
    constructor
    · rintro ⟨⟨h1, h2⟩, -⟩; interval_cases i <;> simp_all [gapX]
    · rintro (rfl | rfl | rfl | rfl) <;> simp [gapX]
  have h11 : mdHas (mdHas (Finset.range 6) gapX 1) gapX 1 = {0, 1, 4, 5} := by
    ext i; simp only [mdHas, Finset.mem_filter, Finset.mem_range, Finset.mem_insert, Finset.mem_singleton]
    constructor
    · rintro ⟨⟨h1, h2⟩, -⟩; interval_cases i <;> simp_all [gapX]
    · rintro (rfl | rfl | rfl | rfl) <;> simp [gapX]
  have h01 : mdHas (mdHas (Finset.range 6) gapX 0) gapX 1 = {0, 1} := by
    ext i; simp only [mdHas, Finset.mem_filter, Finset.mem_range, Finset.mem_insert, Finset.mem_singleton]
    constructor
    · rintro ⟨⟨h1, h2⟩, h3⟩; interval_cases i <;> simp_all [gapX]
    · rintro (rfl | rfl) <;> simp [gapX]
  have h10 : mdHas (mdHas (Finset.range 6) gapX 1) gapX 0 = {0, 1} := by
    ext i; simp only [mdHas, Finset.mem_filter, Finset.mem_range, Finset.mem_insert, Finset.mem_singleton]
    constructor
    · rintro ⟨⟨h1, h2⟩, h3⟩; interval_cases i <;> simp_all [gapX]
    · rintro (rfl | rfl) <;> simp [gapX]
  simp only [Finset.sum_range_succ, Finset.sum_range_zero, mdCov, if_neg hn, h00, h11, h01, h10, mdSscp, mdMeanOver]
  norm_num [gapX]

/-- A variable which is not in the model, with one value missing. -/
def extraX : ℕ → ℕ → Option ℝ
  | 0, 0 => some 1
  | 1, 0 => some (-1)
  | 0, 1 => some 0
  | _, _ => none

/-- **C237, violated.** A missing value in a variable which is not in the model changes the covariances of those
which are: here the divisor `n` asked for becomes `n - 1`. -/
theorem C237_unused_violated : mdCov 1 0 (Finset.range 2) extraX 0 0 = 1 ∧ mdCov 2 0 (Finset.range 2) extraX 0 0 = 2 := by
  have h1 : ∀ i ∈ Finset.range 2, ∀ c < 1, (extraX i c).isSome = true := by
    intro i hi c hc
    have := Finset.mem_range.1 hi
    interval_cases i <;> interval_cases c <;> simp [extraX]
  have hn : ¬ ∀ i ∈ Finset.range 2, ∀ c < 2, (extraX i c).isSome = true := by
    intro h
    have := h 1 (by decide) 1 (by decide)
    simp [extraX] at this
  have h00 : mdHas (mdHas (Finset.range 2) extraX 0) extraX 0 = {0, 1} := by
    ext i; simp only [mdHas, Finset.mem_filter, Finset.mem_range, Finset.mem_insert, Finset.mem_singleton]
    constructor
    · rintro ⟨⟨h1, h2⟩, -⟩; omega
    · rintro (rfl | rfl) <;> simp [extraX]
  constructor
  · simp only [mdCov, if_pos h1, mdSscp, mdMeanOver, Finset.sum_range_succ, Finset.sum_range_zero]
    norm_num [extraX]
  · simp only [mdCov, if_neg hn, h00, mdSscp, mdMeanOver]
    norm_num [extraX]

/-! ## Subsets and sample statistics -/

/-- **C237.** In the newer class the data have the columns of the covariances. -/
theorem C237_subset_partial (p k : ℕ) : (mdSubset true p k).1 = (mdSubset true p k).2 := rfl

/-- **C237, violated.** In the older they keep the columns which are not in the model. -/
theorem C237_subset_violated (p k : ℕ) (h : k < p) : (mdSubset false p k).1 ≠ (mdSubset false p k).2 := by
  show p ≠ k
  omega

theorem mdToArr_ne_frame {k l : MdKind} (h : mdToArr k = some l) : l ≠ .frame := by
  cases k <;> simp [mdToArr] at h <;> subst h <;> simp

/-- **C237, violated.** No sample statistics are accepted. -/
theorem C237_stats_violated (cov mean : MdArg) (n : MdN) : mdFromStats cov mean n = none := by
  unfold mdFromStats
  cases hd : mdDicts cov mean n with
  | none => rfl
  | some x =>
    obtain ⟨c, m⟩ := x
    simp only [Option.bind_eq_bind, Option.bind_some]
    cases hc : c.mapM mdToArr with
    | none => rfl
    | some c' =>
      simp only [Option.bind_some]
      cases (m.take c'.length).mapM mdToArr with
      | none => rfl
      | some m' =>
        simp only [Option.bind_some]
        cases c with
        | nil => simp at hc; subst hc; rfl
        | cons a c =>
          rw [List.mapM_cons] at hc
          simp only [Option.bind_eq_bind, Option.bind_eq_some_iff, Option.pure_def, Option.some.injEq] at hc
          obtain ⟨b, hb, t, -, rfl⟩ := hc
          have := mdToArr_ne_frame hb
          cases b <;> first | exact absurd rfl this | rfl

/-- **C237.** Single statistics are taken as those of one group exactly when they are arrays or frames and no dictionary of sizes is given. -/
theorem C237_single (c m : MdKind) (n : MdN) (x : List MdKind × List MdKind) :
    mdDicts (.one c) (.one m) n = some x ↔ x = ([c], [m]) ∧ (n = .absent ∨ n = .int) ∧ (c = .frame ∨ c = .array1 ∨ c = .array2) ∧ m ≠ .other := by
  cases n <;> simp [mdDicts, and_assoc, eq_comm, and_comm, and_left_comm]

/-- **C237.** Frames passed straight to the constructor, as `from_dataframe` does, are. -/
theorem C237_init (n : ℕ) : mdInit (List.replicate (n + 1) .frame) (List.replicate (n + 1) .series) = some () := by
  have h : ∀ (k : MdKind) m, mdToArr k = some .array2 → (List.replicate m k).mapM mdToArr = some (List.replicate m .array2) := by
    intro k m hk
    induction m with
    | zero => rfl
    | succ m ih => rw [List.replicate_succ, List.mapM_cons, hk, ih]; rfl
  rw [List.replicate_succ]
  unfold mdInit
  simp only
  rw [← List.replicate_succ, h _ _ rfl, List.length_replicate, List.take_of_length_le (by simp), h _ _ rfl]
  rfl

end Verif.Sem
