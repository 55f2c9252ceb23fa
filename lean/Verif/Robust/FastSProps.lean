import Verif.Robust.FastS
import Mathlib.Data.List.Perm.Basic
import Mathlib.Tactic
/-!
# C276: the search of the S-estimator keeps the subsamples with the smallest scales

The test at a scale is negative just when the scale of the candidate is smaller, as `np.mean(rho(r / s))` decreases in `s`.
-/
namespace Verif.Robust
variable {β : Type*}

/-- The test decides whether the candidate's scale is smaller. -/
def FsCand.Ok (c : FsCand β) : Prop := ∀ s, c.neg s = true ↔ c.scale < s

theorem fsMax_spec {l : List (ℝ × β)} (h : l ≠ []) : fsMax l ∈ l.map Prod.fst ∧ ∀ x ∈ l, x.1 ≤ fsMax l := by
  unfold fsMax
  cases hm : (l.map Prod.fst).max? with
  | none => rw [List.max?_eq_none_iff, List.map_eq_nil_iff] at hm; exact absurd hm h
  | some m =>
    rw [List.max?_eq_some_iff] at hm
    exact ⟨hm.1, fun x hx => hm.2 _ (List.mem_map_of_mem hx)⟩

/-- The position found holds the largest scale. -/
theorem fsArg_spec {l : List (ℝ × β)} (h : l ≠ []) : ∃ hi : fsArg l < l.length, (l[fsArg l]).1 = fsMax l := by
  obtain ⟨x, hx, hxm⟩ := List.mem_map.mp (fsMax_spec h).1
  have hlen : 0 < l.length := List.length_pos_iff.mpr h
  have hlt : l.reverse.findIdx (fun x => decide (x.1 = fsMax l)) < l.reverse.length :=
    List.findIdx_lt_length_of_exists ⟨x, List.mem_reverse.mpr hx, by simpa using hxm⟩
  have hg := List.findIdx_getElem (w := hlt)
  rw [List.getElem_reverse] at hg
  exact ⟨by unfold fsArg; omega, by simpa [fsArg] using hg⟩

/-- Everything offered is either kept or dropped, and nothing dropped is smaller than anything kept. -/
def FsInv (l : List (ℝ × β)) (all : List (ℝ × β)) : Prop :=
  ∃ D, (l ++ D).Perm all ∧ ∀ d ∈ D, ∀ k ∈ l, k.1 ≤ d.1

theorem fsInv_replace {l all : List (ℝ × β)} (h : FsInv l all) (hl : l ≠ []) (c : ℝ × β) (hc : c.1 ≤ fsMax l) :
    FsInv (l.set (fsArg l) c) (c :: all) := by
  obtain ⟨D, hp, hD⟩ := h
  obtain ⟨hi, hm⟩ := fsArg_spec hl
  have p1 := List.set_perm_cons_eraseIdx hi c
  have p2 := List.getElem_cons_eraseIdx_perm hi
  refine ⟨l[fsArg l] :: D, ?_, ?_⟩
  · refine (p1.append_right _).trans ?_
    rw [List.cons_append]
    refine List.Perm.cons c ?_
    exact List.perm_middle.trans ((p2.append_right D).trans hp)
  · intro d hd k hk
    have hk' : k = c ∨ k ∈ l := by
      rcases List.mem_cons.mp (p1.mem_iff.mp hk) with h | h
      · exact .inl h
      · exact .inr (List.mem_of_mem_eraseIdx h)
    have hkm : k.1 ≤ fsMax l := by
      rcases hk' with rfl | h
      · exact hc
      · exact (fsMax_spec hl).2 k h
    rcases List.mem_cons.mp hd with rfl | hd
    · rw [hm]; exact hkm
    · obtain ⟨x, hx, hxm⟩ := List.mem_map.mp (fsMax_spec hl).1
      exact hkm.trans (hxm ▸ hD d hd x hx)

theorem fsInv_drop {l all : List (ℝ × β)} (h : FsInv l all) (hl : l ≠ []) (c : ℝ × β) (hc : fsMax l ≤ c.1) : FsInv l (c :: all) := by
  obtain ⟨D, hp, hD⟩ := h
  refine ⟨c :: D, List.perm_middle.trans (hp.cons c), ?_⟩
  intro d hd k hk
  rcases List.mem_cons.mp hd with rfl | hd
  · exact ((fsMax_spec hl).2 k hk).trans hc
  · exact hD d hd k hk

theorem set_ne_nil {l : List (ℝ × β)} (h : l ≠ []) (i : ℕ) (c : ℝ × β) : l.set i c ≠ [] := by
  rw [← List.length_pos_iff, List.length_set, List.length_pos_iff]; exact h

theorem fsFold {cs : List (FsCand β)} (hc : ∀ c ∈ cs, c.Ok) {l all : List (ℝ × β)} (hl : l ≠ []) (h : FsInv l all) :
    FsInv (cs.foldl fsStep (l, some (fsMax l))).1 (cs.reverse.map (fun c => (c.scale, c.coef)) ++ all) := by
  induction cs generalizing l all with
  | nil => simpa using h
  | cons c cs ih =>
    have hcs := fun c' h' => hc c' (List.mem_cons_of_mem _ h')
    rw [List.foldl_cons, List.reverse_cons, List.map_append, List.append_assoc]
    by_cases hn : c.neg (fsMax l) = true
    · have e : fsStep (l, some (fsMax l)) c = (l.set (fsArg l) (c.scale, c.coef), some (fsMax (l.set (fsArg l) (c.scale, c.coef)))) := by
        simp [fsStep, hn]
      rw [e]
      exact ih hcs (set_ne_nil hl _ _) (fsInv_replace h hl _ ((hc c List.mem_cons_self _).mp hn).le)
    · have e : fsStep (l, some (fsMax l)) c = (l, some (fsMax l)) := by simp [fsStep, hn]
      rw [e]
      exact ih hcs hl (fsInv_drop h hl _ (not_lt.mp fun h' => hn ((hc c List.mem_cons_self _).mpr h')))

theorem fsFirst (n : ℕ) (z : β) (c : FsCand β) :
    ((List.replicate (n + 1) ((10 : ℝ) ^ 12, z)).set n (c.scale, c.coef)) = List.replicate n ((10 : ℝ) ^ 12, z) ++ [(c.scale, c.coef)] := by
  rw [List.replicate_succ', List.set_append]
  simp

/-- With at least two entries to keep, the entries after the loop are the smallest of all candidates and the starting entries. -/
theorem C276_kept_partial {n : ℕ} (hn : 2 ≤ n) (z : β) (cs : List (FsCand β)) (hc : ∀ c ∈ cs, c.Ok ∧ c.scale ≤ 10 ^ 12) :
    ∃ l, fsLoop n z cs = some l ∧ FsInv l (cs.reverse.map (fun c => (c.scale, c.coef)) ++ List.replicate n ((10 : ℝ) ^ 12, z)) := by
  cases cs with
  | nil =>
    refine ⟨_, rfl, [], ?_, by simp⟩
    simp
  | cons c cs =>
    rw [fsLoop, if_neg (by omega)]
    refine ⟨_, rfl, ?_⟩
    obtain ⟨m, rfl⟩ : ∃ m, n = m + 2 := ⟨n - 2, by omega⟩
    rw [show m + 2 - 1 = m + 1 by omega, fsFirst (m + 1)]
    have h1 : FsInv (List.replicate (m + 1) ((10 : ℝ) ^ 12, z) ++ [(c.scale, c.coef)])
        ((c.scale, c.coef) :: List.replicate (m + 2) ((10 : ℝ) ^ 12, z)) := by
      refine ⟨[(10 ^ 12, z)], ?_, ?_⟩
      · rw [List.append_assoc, List.replicate_succ' (n := m + 1)]
        exact List.perm_middle
      · intro d hd k hk
        obtain rfl := List.mem_singleton.mp hd
        rcases List.mem_append.mp hk with h | h
        · rw [List.eq_of_mem_replicate h]
        · rw [List.mem_singleton.mp h]; exact (hc c List.mem_cons_self).2
    cases cs with
    | nil => simpa using h1
    | cons d cs =>
      rw [List.foldl_cons]
      set l := List.replicate (m + 1) ((10 : ℝ) ^ 12, z) ++ [(c.scale, c.coef)] with hl
      have hne : l ≠ [] := by simp [hl]
      have hmax : (10 : ℝ) ^ 12 ≤ fsMax l := (fsMax_spec hne).2 (10 ^ 12, z) (by simp [hl])
      have e : fsStep (l, none) d = (l.set (fsArg l) (d.scale, d.coef), some (fsMax (l.set (fsArg l) (d.scale, d.coef)))) := by
        simp [fsStep]
      rw [e]
      have h2 := fsInv_replace h1 hne (d.scale, d.coef) ((hc d (by simp)).2.trans hmax)
      have h3 := fsFold (cs := cs) (fun c' h' => (hc c' (by simp [h'])).1) (set_ne_nil hne _ _) h2
      simpa using h3

/-- So with enough subsamples the one with the smallest scale is kept. -/
theorem C276_best_partial {n : ℕ} (hn : 2 ≤ n) (z : β) (cs : List (FsCand β)) (hc : ∀ c ∈ cs, c.Ok ∧ c.scale ≤ 10 ^ 12) {c : FsCand β}
    (hm : c ∈ cs) : ∃ l, fsLoop n z cs = some l ∧ ∃ k ∈ l, k.1 ≤ c.scale := by
  obtain ⟨l, hl, D, hp, hD⟩ := C276_kept_partial hn z cs hc
  refine ⟨l, hl, ?_⟩
  have hlen : l ≠ [] := by
    intro h
    subst h
    cases cs with
    | nil => simp at hm
    | cons d cs =>
      rw [fsLoop, if_neg (by omega)] at hl
      have hk : ∀ (cs : List (FsCand β)) (st : List (ℝ × β) × Option ℝ), (cs.foldl fsStep st).1.length = st.1.length := by
        intro cs
        induction cs with
        | nil => intro st; rfl
        | cons c cs ih =>
          intro st
          rw [List.foldl_cons, ih]
          unfold fsStep
          split
          · simp
          · split <;> simp
      have := congrArg List.length (Option.some.inj hl)
      rw [hk] at this
      simp at this; omega
  have hin : (c.scale, c.coef) ∈ l ++ D := hp.mem_iff.mpr (by
    refine List.mem_append_left _ (List.mem_map.mpr ⟨c, by simpa using hm, rfl⟩))
  rcases List.mem_append.mp hin with h | h
  · exact ⟨_, h, le_rfl⟩
  · obtain ⟨k, hk⟩ := List.exists_mem_of_ne_nil l hlen
    exact ⟨k, hk, hD _ h k hk⟩

/-- With one entry to keep, the second subsample replaces the first whatever their scales, as `s_max` is still infinite. -/
theorem C276_single_violated (z : β) (c d : FsCand β) : fsLoop 1 z [c, d] = some [(d.scale, d.coef)] := by
  have hm : fsMax [(c.scale, c.coef)] = c.scale := by simp [fsMax]
  simp [fsLoop, fsStep, fsArg, hm]

theorem fsBest_fold (refine : ℝ × β → ℝ × β) (l : List (ℝ × β)) (a : ℝ × β) :
    ∃ b, l.foldl (fun acc x =>
      match acc with
      | none => some (refine x)
      | some a => if (refine x).1 < a.1 then some (refine x) else some a) (some a) = some b ∧ b.1 ≤ a.1 ∧
        (∀ x ∈ l, b.1 ≤ (refine x).1) ∧ (b = a ∨ ∃ x ∈ l, b = refine x) := by
  induction l generalizing a with
  | nil => exact ⟨a, rfl, le_rfl, by simp, .inl rfl⟩
  | cons x l ih =>
    rw [List.foldl_cons]
    simp only
    split
    · rename_i h
      obtain ⟨b, h1, h2, h3, h4⟩ := ih (refine x)
      refine ⟨b, h1, h2.trans h.le, ?_, ?_⟩
      · intro y hy
        rcases List.mem_cons.mp hy with rfl | hy
        · exact h2
        · exact h3 y hy
      · rcases h4 with rfl | ⟨y, hy, rfl⟩
        · exact .inr ⟨x, List.mem_cons_self, rfl⟩
        · exact .inr ⟨y, List.mem_cons_of_mem _ hy, rfl⟩
    · rename_i h
      obtain ⟨b, h1, h2, h3, h4⟩ := ih a
      refine ⟨b, h1, h2, ?_, ?_⟩
      · intro y hy
        rcases List.mem_cons.mp hy with rfl | hy
        · exact h2.trans (not_lt.mp h)
        · exact h3 y hy
      · rcases h4 with rfl | ⟨y, hy, rfl⟩
        · exact .inl rfl
        · exact .inr ⟨y, List.mem_cons_of_mem _ hy, rfl⟩

/-- The result is the smallest of the refined entries, with its coefficients. -/
theorem C276_result (refine : ℝ × β → ℝ × β) {l : List (ℝ × β)} (h : l ≠ []) :
    ∃ b, fsBest refine l = some b ∧ (∃ x ∈ l, b = refine x) ∧ ∀ x ∈ l, b.1 ≤ (refine x).1 := by
  have hr : l.reverse ≠ [] := by simpa using h
  obtain ⟨x, r, hx⟩ := List.exists_cons_of_ne_nil hr
  obtain ⟨b, h1, h2, h3, h4⟩ := fsBest_fold refine r (refine x)
  have hmem : ∀ y, y ∈ l ↔ y = x ∨ y ∈ r := by
    intro y; rw [← List.mem_reverse, hx, List.mem_cons]
  refine ⟨b, ?_, ?_, ?_⟩
  · unfold fsBest
    rw [hx, List.foldl_cons]
    exact h1
  · rcases h4 with rfl | ⟨y, hy, rfl⟩
    · exact ⟨x, (hmem x).mpr (.inl rfl), rfl⟩
    · exact ⟨y, (hmem y).mpr (.inr hy), rfl⟩
  · intro y hy
    rcases (hmem y).mp hy with rfl | hy
    · exact h2
    · exact h3 y hy

/-- Candidates as assumed exist for every scale. -/
example (s : ℝ) (b : β) : (⟨b, fun t => decide (s < t), s⟩ : FsCand β).Ok := fun t => by simp

end Verif.Robust
