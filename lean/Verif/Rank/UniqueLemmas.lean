import Verif.Rank.Lemmas
import Mathlib.Data.List.Nodup
import Mathlib.Data.List.Perm.Basic
/-! Lemmas for `unique`. -/
namespace Verif.Rank

variable {α : Type*} [LinearOrder α]

theorem foldl_zipWith {β : Type*} (f : ℕ → β → ℕ → ℕ) (d : List β) (old inverse : List ℕ)
    (hl : old.length = inverse.length) :
    d.foldl (fun inv kv => List.zipWith (fun o i => f o kv i) inv inverse) old =
      List.zipWith (fun o i => d.foldl (fun o kv => f o kv i) o) old inverse := by
  induction d generalizing old with
  | nil =>
    simp only [List.foldl_nil]
    induction old generalizing inverse with
    | nil => simp
    | cons x xs ih =>
      cases inverse with
      | nil => simp at hl
      | cons y ys => simp [← ih ys (by simpa using hl)]
  | cons kv d ih =>
    simp only [List.foldl_cons]
    rw [ih _ (by simp [hl])]
    apply List.ext_getElem?
    intro i
    simp only [List.getElem?_zipWith]
    rcases old[i]? with _ | a
    · simp
    · rcases inverse[i]? with _ | b <;> simp

theorem zipWith_self {β γ : Type*} (f : β → β → γ) (l : List β) :
    List.zipWith f l l = l.map fun x => f x x := by
  induction l with
  | nil => rfl
  | cons x xs ih => simp [ih]

theorem inner_fold (as : List ℕ) (k o : ℕ) :
    ((List.range as.length).zip as).foldl (fun o kv => if k = kv.1 then kv.2 else o) o =
      if k < as.length then as.getD k 0 else o := by
  induction as using List.reverseRecOn with
  | nil => simp
  | append_singleton as x ih =>
    rw [List.length_append, List.length_singleton, List.range_succ,
      List.zip_append (by simp), List.foldl_append, ih]
    simp only [List.zip_cons_cons, List.zip_nil_right, List.foldl_cons, List.foldl_nil]
    rcases Nat.lt_trichotomy k as.length with h | h | h
    · have h1 : k ≠ as.length := by omega
      have h2 : k < as.length + 1 := by omega
      simp [h, h1, h2, List.getElem?_append_left h]
    · subst h; simp
    · have h1 : k ≠ as.length := by omega
      have h2 : ¬ k < as.length + 1 := by omega
      have h3 : ¬ k < as.length := by omega
      simp [h1, h2, h3]

theorem sort_sorted (l : List α) :
    (l.mergeSort (fun a b => decide (a ≤ b))).Pairwise (· ≤ ·) := by
  have := List.pairwise_mergeSort (le := fun a b : α => decide (a ≤ b))
    (by intro a b c h1 h2; simp at *; exact h1.trans h2) (by intro a b; simpa using le_total a b) l
  simpa using this

variable [Inhabited α]

theorem argsort_perm (u : List α) : (argsort u).Perm (List.range u.length) :=
  List.mergeSort_perm _ _

theorem argsort_length (u : List α) : (argsort u).length = u.length := by
  rw [(argsort_perm u).length_eq, List.length_range]

theorem map_getD_range (u : List α) : (List.range u.length).map (fun i => u.getD i default) = u := by
  apply List.ext_getElem?
  intro i
  rw [List.getElem?_map]
  rcases Nat.lt_or_ge i u.length with h | h
  · rw [List.getElem?_range h]
    simp [h]
  · rw [List.getElem?_eq_none (by simpa using h), List.getElem?_eq_none h]; rfl

theorem argsort_sorts (u : List α) :
    (argsort u).map (fun i => u.getD i default) = u.mergeSort (fun a b => decide (a ≤ b)) := by
  have hp : ((argsort u).map (fun i => u.getD i default)).Perm
      (u.mergeSort (fun a b => decide (a ≤ b))) := by
    have h1 := (argsort_perm u).map (fun i => u.getD i default)
    rw [map_getD_range] at h1
    exact h1.trans (List.mergeSort_perm _ _).symm
  refine hp.eq_of_pairwise' (r := (· ≤ ·)) ?_ (sort_sorted u)
  rw [List.pairwise_map]
  have := List.pairwise_mergeSort
    (le := fun i j : ℕ => decide (u.getD i default ≤ u.getD j default))
    (by intro a b c h1 h2; simp only [decide_eq_true_eq] at *; exact h1.trans h2)
    (by intro a b; simp [le_total]) (List.range u.length)
  simpa [argsort] using this

/-- All the facts about `unique` in terms of the intermediate values. -/
theorem unique_facts (arr : List α) :
    (unique arr).2.2.Pairwise (· < ·) ∧
    (unique arr).2.2 = (unique arr).1.map (fun x => arr.idxOf x) ∧
    (unique arr).1.Nodup ∧ (∀ x, x ∈ (unique arr).1 ↔ x ∈ arr) ∧
    (unique arr).2.1.length = arr.length ∧
    (∀ i, i < arr.length → (unique arr).1[(unique arr).2.1.getD i 0]? = arr[i]?) := by
  set us := arr.dedup.mergeSort (fun a b => decide (a ≤ b)) with hus
  set ind := npSort (us.map fun x => arr.idxOf x) with hind
  set u := ind.map fun i => arr.getD i default with hu
  have husp : us.Perm arr.dedup := List.mergeSort_perm _ _
  have husn : us.Nodup := husp.nodup_iff.2 (List.nodup_dedup arr)
  have husm : ∀ x, x ∈ us ↔ x ∈ arr := by intro x; rw [husp.mem_iff, List.mem_dedup]
  have hindp : ind.Perm (us.map fun x => arr.idxOf x) := npSort_perm _
  have hget : ∀ x ∈ arr, arr.getD (arr.idxOf x) default = x := by
    intro x hx
    rw [List.getD_eq_getElem?_getD, List.getElem?_eq_getElem (List.idxOf_lt_length_of_mem hx)]
    simp
  have hindm : ∀ i ∈ ind, ∃ x ∈ arr, i = arr.idxOf x := by
    intro i hi
    rw [hindp.mem_iff, List.mem_map] at hi
    obtain ⟨x, hx, rfl⟩ := hi
    exact ⟨x, (husm x).1 hx, rfl⟩
  have hindn : ind.Nodup := by
    rw [hindp.nodup_iff]
    apply husn.map_on
    intro x hx y hy h
    rw [← hget x ((husm x).1 hx), ← hget y ((husm y).1 hy), h]
  have hupm : u.Perm us := by
    have h1 := hindp.map (fun i => arr.getD i default)
    rw [List.map_map] at h1
    have h2 : us.map ((fun i => arr.getD i default) ∘ fun x => arr.idxOf x) = us := by
      conv_rhs => rw [← List.map_id us]
      apply List.map_congr_left
      intro x hx
      exact hget x ((husm x).1 hx)
    rw [h2] at h1
    exact h1
  have hun : u.Nodup := hupm.nodup_iff.2 husn
  have hlen : u.length = us.length := hupm.length_eq
  have hsort : u.mergeSort (fun a b => decide (a ≤ b)) = us :=
    ((List.mergeSort_perm _ _).trans hupm).eq_of_pairwise' (r := (· ≤ ·)) (sort_sorted _) (sort_sorted _)
  have hinv : (unique arr).2.1 = arr.map fun x => (argsort u).getD (us.idxOf x) 0 := by
    show ((List.range u.length).zip (argsort u)).foldl
      (fun inv kv => List.zipWith (fun old invr => if invr = kv.1 then kv.2 else old) inv
        (arr.map fun x => us.idxOf x)) (arr.map fun x => us.idxOf x) = _
    rw [foldl_zipWith (fun o (kv : ℕ × ℕ) i => if i = kv.1 then kv.2 else o) _ _ _ rfl, zipWith_self,
      List.map_map]
    apply List.map_congr_left
    intro x hx
    simp only [Function.comp]
    rw [← argsort_length u, inner_fold, if_pos]
    rw [argsort_length, hlen]
    exact List.idxOf_lt_length_of_mem ((husm x).2 hx)
  refine ⟨?_, ?_, hun, ?_, ?_, ?_⟩
  · have h1 := npSort_sorted (us.map fun x => arr.idxOf x)
    have h2 : ind.Pairwise (· ≠ ·) := hindn
    have h3 := h1.and h2
    exact h3.imp (fun ⟨a, b⟩ => lt_of_le_of_ne a b)
  · show ind = u.map (fun x => arr.idxOf x)
    rw [hu, List.map_map]
    conv_lhs => rw [← List.map_id ind]
    apply List.map_congr_left
    intro i hi
    obtain ⟨x, hx, rfl⟩ := hindm i hi
    simp only [Function.comp, hget x hx, id]
  · intro x
    show x ∈ u ↔ _
    rw [hupm.mem_iff, husm]
  · rw [hinv]; simp
  · intro i hi
    rw [hinv]
    show u[_]? = _
    have hx : arr[i] ∈ arr := List.getElem_mem hi
    have hk : us.idxOf arr[i] < us.length := List.idxOf_lt_length_of_mem ((husm _).2 hx)
    have e0 : ((arr.map fun x => (argsort u).getD (us.idxOf x) 0).getD i 0) =
        (argsort u).getD (us.idxOf arr[i]) 0 := by
      rw [List.getD_eq_getElem?_getD, List.getElem?_map, List.getElem?_eq_getElem hi]; rfl
    rw [e0, List.getElem?_eq_getElem hi]
    have hs := argsort_sorts u
    rw [hsort] at hs
    have h1 : (us)[us.idxOf arr[i]]? = some arr[i] := by
      rw [List.getElem?_eq_getElem hk]; simp
    have h1 : ((argsort u).map (fun i => u.getD i default))[us.idxOf arr[i]]? = some arr[i] := by
      rw [hs]; exact h1
    rw [List.getElem?_map] at h1
    have hka : us.idxOf arr[i] < (argsort u).length := by rw [argsort_length, hlen]; exact hk
    rw [List.getElem?_eq_getElem hka] at h1
    simp only [Option.map_some, Option.some.injEq] at h1
    rw [List.getD_eq_getElem?_getD, List.getElem?_eq_getElem hka]
    simp only [Option.getD_some]
    have hm : (argsort u)[us.idxOf arr[i]] < u.length := by
      have := List.getElem_mem hka
      rw [(argsort_perm u).mem_iff, List.mem_range] at this
      exact this
    rw [List.getD_eq_getElem?_getD, List.getElem?_eq_getElem hm] at h1
    rw [List.getElem?_eq_getElem hm]
    simpa using h1

end Verif.Rank
