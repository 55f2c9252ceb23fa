import Verif.Sem.Builder
import Mathlib.Tactic.Ring
import Mathlib.Tactic.SplitIfs
import Mathlib.Data.List.Nodup
/-! # Lemmas on the builder of default parameters -/
namespace Verif.Sem
variable {N R : Type*} [DecidableEq N] [DecidableEq R] [Field R]

/-! ### Changing the first row -/

/-- `f` keeps the columns `lhs`, `rel`, `rhs`. -/
def KeepsKey (f : BRow N R → BRow N R) : Prop :=
  ∀ r, (f r).lhs = r.lhs ∧ (f r).rel = r.rel ∧ (f r).rhs = r.rhs

/-- The columns that name a parameter. -/
def key (r : BRow N R) : N × R3 × N := (r.lhs, r.rel, r.rhs)

theorem keeps_setFixed : KeepsKey (setFixed : BRow N R → BRow N R) := fun _ => ⟨rfl, rfl, rfl⟩
theorem keeps_setStart : KeepsKey (setStart : BRow N R → BRow N R) := fun _ => ⟨rfl, rfl, rfl⟩

theorem map_key_modFirst (p : BRow N R → Bool) {f : BRow N R → BRow N R} (hf : KeepsKey f)
    (t : List (BRow N R)) : (modFirst p f t).map key = t.map key := by
  induction t with
  | nil => rfl
  | cons r rs ih =>
    unfold modFirst
    split_ifs
    · simp [key, hf r]
    · simp [ih]

theorem isLoad_keep {f : BRow N R → BRow N R} (hf : KeepsKey f) (v : N) (r : BRow N R) :
    isLoad v (f r) = isLoad v r := by
  unfold isLoad
  rw [(hf r).1, (hf r).2.1]

theorem isLoad_ne {v w : N} (h : v ≠ w) {r : BRow N R} (hr : isLoad v r = true) :
    isLoad w r = false := by
  unfold isLoad at *
  simp only [decide_eq_true_eq, decide_eq_false_iff_not, not_and] at *
  intro _ h2
  exact h (hr.2.symm.trans h2)

/-- Change the head of a list. -/
def onHead (f : BRow N R → BRow N R) : List (BRow N R) → List (BRow N R)
  | [] => []
  | r :: rs => f r :: rs

theorem filter_modFirst_same {f : BRow N R → BRow N R} (hf : KeepsKey f) (v : N)
    (t : List (BRow N R)) :
    (modFirst (isLoad v) f t).filter (isLoad v) = onHead f (t.filter (isLoad v)) := by
  induction t with
  | nil => rfl
  | cons r rs ih =>
    unfold modFirst
    split_ifs with h
    · simp [h, isLoad_keep hf, onHead]
    · simp [h, ih]

theorem filter_modFirst_other {f : BRow N R → BRow N R} (hf : KeepsKey f) {v w : N} (hvw : v ≠ w)
    (t : List (BRow N R)) :
    (modFirst (isLoad v) f t).filter (isLoad w) = t.filter (isLoad w) := by
  induction t with
  | nil => rfl
  | cons r rs ih =>
    unfold modFirst
    split_ifs with h
    · have h1 := isLoad_ne hvw h
      have h2 : isLoad w (f r) = false := by rw [isLoad_keep hf, h1]
      rw [List.filter_cons_of_neg (by simp [h2]), List.filter_cons_of_neg (by simp [h1])]
    · by_cases h1 : isLoad w r = true
      · rw [List.filter_cons_of_pos h1, List.filter_cons_of_pos h1, ih]
      · rw [List.filter_cons_of_neg h1, List.filter_cons_of_neg h1, ih]

/-- Rows that are not loadings are not touched. -/
theorem filter_modFirst_rest {f : BRow N R → BRow N R} (hf : KeepsKey f) (v : N)
    (t : List (BRow N R)) :
    (modFirst (isLoad v) f t).filter (fun r => r.rel ≠ R3.mes) =
      t.filter (fun r => r.rel ≠ R3.mes) := by
  induction t with
  | nil => rfl
  | cons r rs ih =>
    unfold modFirst
    split_ifs with h
    · have h1 : r.rel = R3.mes := by
        unfold isLoad at h
        simpa using (of_decide_eq_true h).1
      rw [List.filter_cons_of_neg (by simp [(hf r).2.1, h1]), List.filter_cons_of_neg (by simp [h1])]
    · by_cases h1 : r.rel ≠ R3.mes
      · rw [List.filter_cons_of_pos (by simpa using h1), List.filter_cons_of_pos (by simpa using h1), ih]
      · rw [List.filter_cons_of_neg (by simpa using h1), List.filter_cons_of_neg (by simpa using h1), ih]

/-- The loop over the latent variables. -/
def loopFirst (c : N → Prop) [DecidablePred c] (f : BRow N R → BRow N R) (vs : List N)
    (t : List (BRow N R)) : List (BRow N R) :=
  vs.foldl (fun t v => if c v then modFirst (isLoad v) f t else t) t

variable {c : N → Prop} [DecidablePred c] {f : BRow N R → BRow N R}

theorem map_key_loop (hf : KeepsKey f) (vs : List N) (t : List (BRow N R)) :
    (loopFirst c f vs t).map key = t.map key := by
  unfold loopFirst
  induction vs generalizing t with
  | nil => rfl
  | cons v vs ih =>
    rw [List.foldl_cons, ih]
    split_ifs
    · exact map_key_modFirst _ hf t
    · rfl

theorem rest_loop (hf : KeepsKey f) (vs : List N) (t : List (BRow N R)) :
    (loopFirst c f vs t).filter (fun r => r.rel ≠ R3.mes) = t.filter (fun r => r.rel ≠ R3.mes) := by
  unfold loopFirst
  induction vs generalizing t with
  | nil => rfl
  | cons v vs ih =>
    rw [List.foldl_cons, ih]
    split_ifs
    · exact filter_modFirst_rest hf v t
    · rfl

theorem loads_loop (hf : KeepsKey f) {vs : List N} (hvs : vs.Nodup) (t : List (BRow N R)) (w : N) :
    (loopFirst c f vs t).filter (isLoad w) =
      if w ∈ vs ∧ c w then onHead f (t.filter (isLoad w)) else t.filter (isLoad w) := by
  unfold loopFirst
  induction vs generalizing t with
  | nil => simp
  | cons v vs ih =>
    rw [List.foldl_cons, ih (List.nodup_cons.1 hvs).2]
    have hv := (List.nodup_cons.1 hvs).1
    by_cases hw : w = v
    · subst hw
      simp only [hv, false_and, if_false, List.mem_cons, true_or, true_and]
      split_ifs
      · exact filter_modFirst_same hf w t
      · rfl
    · have h1 : ((if c v then modFirst (isLoad v) f t else t)).filter (isLoad w) =
          t.filter (isLoad w) := by
        split_ifs
        · exact filter_modFirst_other hf (fun h => hw h.symm) t
        · rfl
      rw [h1]
      simp [hw]

/-! ### Counting -/

theorem countP_key {p : N × R3 × N → Bool} {q : BRow N R → Bool} (h : ∀ r, q r = p (key r))
    (t : List (BRow N R)) : t.countP q = (t.map key).countP p := by
  rw [List.countP_map]
  congr 1
  funext r
  exact h r

theorem any_key {p : N × R3 × N → Bool} {q : BRow N R → Bool} (h : ∀ r, q r = p (key r))
    (t : List (BRow N R)) : t.any q = (t.map key).any p := by
  rw [List.any_map]
  congr 1
  funext r
  exact h r

/-- The kinds of parameters, as a function of the naming columns. -/
def kVar (v : N) (k : N × R3 × N) : Bool := decide (k.2.1 = R3.cov ∧ k.1 = v ∧ k.2.2 = v)
def kCov (v w : N) (k : N × R3 × N) : Bool :=
  decide (k.2.1 = R3.cov ∧ ((k.1 = v ∧ k.2.2 = w) ∨ (k.1 = w ∧ k.2.2 = v)))
def kMean (one v : N) (k : N × R3 × N) : Bool :=
  decide (k.2.1 = R3.reg ∧ k.2.2 = one ∧ k.1 = v)
def kLoad (v : N) (k : N × R3 × N) : Bool := decide (k.2.1 = R3.mes ∧ k.1 = v)

theorem isVar_key (v : N) (r : BRow N R) : isVar v r = kVar v (key r) := rfl
theorem isCov_key (v w : N) (r : BRow N R) : isCov v w r = kCov v w (key r) := rfl
theorem isMean_key (one v : N) (r : BRow N R) : isMean one v r = kMean one v (key r) := rfl
theorem isLoad_key (v : N) (r : BRow N R) : isLoad v r = kLoad v (key r) := rfl

theorem countP_eq_nodup {β : Type*} {l : List N} (hl : l.Nodup) (g : N → β) (p : β → Bool) (v : N)
    (h : ∀ w, p (g w) = true ↔ w = v) : (l.map g).countP p = if v ∈ l then 1 else 0 := by
  rw [List.countP_map]
  have h1 : (p ∘ g) = fun w => w == v := by
    funext w
    have := h w
    by_cases hw : w = v
    · simp [hw, (h v).2 rfl]
    · simp only [Function.comp, beq_eq_false_iff_ne.2 hw]
      by_contra h2
      exact hw ((h w).1 (by simpa using h2))
  rw [h1]
  have : List.countP (fun w => w == v) l = l.count v := rfl
  rw [this]
  split_ifs with h2
  · exact List.count_eq_one_of_mem hl h2
  · exact List.count_eq_zero.2 h2

theorem countP_zero {β : Type*} (l : List N) (g : N → β) (p : β → Bool) (h : ∀ w ∈ l, p (g w) = false) :
    (l.map g).countP p = 0 := by
  rw [List.countP_eq_zero]
  intro b hb
  obtain ⟨w, hw, rfl⟩ := List.mem_map.1 hb
  simp [h w hw]

/-! ### Pairs -/

/-- The unordered pair `{v, w}`. -/
def samePair (v w : N) (p : N × N) : Bool := decide (p = (v, w) ∨ p = (w, v))

theorem lowPairs_ne {l : List N} (hl : l.Nodup) : ∀ p ∈ lowPairs l, p.1 ≠ p.2 := by
  induction l with
  | nil => simp [lowPairs]
  | cons v vs ih =>
    intro p hp
    unfold lowPairs at hp
    rcases List.mem_append.1 hp with h | h
    · obtain ⟨w, hw, rfl⟩ := List.mem_map.1 h
      intro h2
      exact (List.nodup_cons.1 hl).1 (by simpa using (show w = v from h2) ▸ hw)
    · exact ih (List.nodup_cons.1 hl).2 p h

theorem lowPairs_mem {l : List N} : ∀ p ∈ lowPairs l, p.1 ∈ l ∧ p.2 ∈ l := by
  induction l with
  | nil => simp [lowPairs]
  | cons v vs ih =>
    intro p hp
    unfold lowPairs at hp
    rcases List.mem_append.1 hp with h | h
    · obtain ⟨w, hw, rfl⟩ := List.mem_map.1 h
      exact ⟨List.mem_cons_of_mem _ hw, List.mem_cons_self⟩
    · exact ⟨List.mem_cons_of_mem _ (ih p h).1, List.mem_cons_of_mem _ (ih p h).2⟩

theorem samePair_iff {v w : N} {p : N × N} :
    samePair v w p = true ↔ (p.1 = v ∧ p.2 = w) ∨ (p.1 = w ∧ p.2 = v) := by
  unfold samePair
  rw [decide_eq_true_eq, Prod.ext_iff, Prod.ext_iff]

theorem countP_lowPairs {l : List N} (hl : l.Nodup) {v w : N} (hvw : v ≠ w) :
    (lowPairs l).countP (samePair v w) = if v ∈ l ∧ w ∈ l then 1 else 0 := by
  induction l with
  | nil => simp [lowPairs]
  | cons a vs ih =>
    have ha := (List.nodup_cons.1 hl).1
    have hn := (List.nodup_cons.1 hl).2
    unfold lowPairs
    rw [List.countP_append, ih hn]
    by_cases h1 : a = v
    · subst h1
      rw [countP_eq_nodup hn _ _ w]
      · simp [ha, Ne.symm hvw]
      · intro u
        rw [samePair_iff]
        constructor
        · rintro (⟨-, h⟩ | ⟨h, -⟩)
          · exact absurd h hvw
          · exact h
        · exact fun h => Or.inr ⟨h, rfl⟩
    · by_cases h2 : a = w
      · subst h2
        rw [countP_eq_nodup hn _ _ v]
        · simp [ha, hvw]
        · intro u
          rw [samePair_iff]
          constructor
          · rintro (⟨h, -⟩ | ⟨-, h⟩)
            · exact h
            · exact absurd h h1
          · exact fun h => Or.inl ⟨h, rfl⟩
      · rw [countP_zero]
        · simp [Ne.symm h1, Ne.symm h2]
        · intro u _
          by_contra h
          rcases samePair_iff.1 (by simpa using h) with ⟨-, h3⟩ | ⟨-, h3⟩
          · exact h2 h3
          · exact h1 h3

theorem kCov_swap (v w : N) : (kCov v w : N × R3 × N → Bool) = kCov w v := by
  funext k
  unfold kCov
  congr 1
  rw [or_comm]

theorem countP_missCovs {srt : Finset N → List N} (hs : Arr srt) (t : List (BRow N R)) (b : Bool)
    (s : Finset N) {v w : N} (hvw : v ≠ w) :
    ((missCovs srt t s).map (covRow b : N × N → BRow N R)).countP (isCov v w) =
      if v ∈ s ∧ w ∈ s ∧ t.any (isCov v w) = false then 1 else 0 := by
  unfold missCovs
  rw [List.countP_map, List.countP_filter]
  have h1 : ∀ p : N × N, ((isCov v w ∘ (covRow b : N × N → BRow N R)) p && !(t.any (isCov p.1 p.2))) =
      (samePair v w p && !(t.any (isCov v w))) := by
    intro p
    have h2 : (isCov v w ∘ (covRow b : N × N → BRow N R)) p = samePair v w p := by
      rw [Bool.eq_iff_iff, samePair_iff]
      simp [isCov, covRow]
    rw [h2]
    by_cases h3 : samePair v w p = true
    · rcases samePair_iff.1 h3 with ⟨h4, h5⟩ | ⟨h4, h5⟩
      · rw [h4, h5]
      · rw [h4, h5]
        have : (isCov w v : BRow N R → Bool) = isCov v w := by
          funext r
          rw [isCov_key, isCov_key, kCov_swap]
        rw [this]
    · simp [h3]
  simp only [h1]
  cases h : t.any (isCov v w)
  · simp only [Bool.not_false, Bool.and_true, and_true]
    rw [countP_lowPairs (hs s).1 hvw]
    simp [(hs s).2]
  · simp

/-! ### The missing parameters as functions of the naming columns -/

theorem mem_missVars {t : List (BRow N R)} {s : Finset N} {v : N} :
    v ∈ missVars t s ↔ v ∈ s ∧ t.countP (isVar v) = 0 := by
  unfold missVars
  rw [Finset.mem_sdiff, List.countP_eq_zero]
  refine and_congr_right fun _ => ?_
  simp only [Finset.mem_union, List.mem_toFinset, List.mem_map, List.mem_filter, isVar,
    decide_eq_true_eq]
  constructor
  · rintro h r hr ⟨h1, h2, h3⟩
    exact h (Or.inl ⟨r, ⟨hr, h1, h2.trans h3.symm⟩, h2⟩)
  · rintro h (⟨r, ⟨hr, h1, h2⟩, h3⟩ | ⟨r, ⟨hr, h1, h2⟩, h3⟩)
    · exact h r hr ⟨h1, h3, h2 ▸ h3⟩
    · exact h r hr ⟨h1, h2.trans h3, h3⟩

theorem mem_missMeans {one : N} {t : List (BRow N R)} {s : Finset N} {v : N} :
    v ∈ missMeans one t s ↔ v ∈ s ∧ t.countP (isMean one v) = 0 := by
  unfold missMeans
  rw [Finset.mem_sdiff, List.countP_eq_zero]
  refine and_congr_right fun _ => ?_
  simp only [List.mem_toFinset, List.mem_map, List.mem_filter, isMean, decide_eq_true_eq]
  constructor
  · rintro h r hr ⟨h1, h2, h3⟩
    exact h ⟨r, ⟨hr, h1, h2⟩, h3⟩
  · rintro h ⟨r, ⟨hr, h1, h2⟩, h3⟩
    exact h r hr ⟨h1, h2, h3⟩

/-! ### The classes -/

section cls
variable (one : N) (t : List (BRow N R))

theorem lvo_not_nob {v : N} (h : v ∈ (classify one t).lvo) : v ∉ (classify one t).nob :=
  (Finset.mem_sdiff.1 h).2

theorem nob_iff {v : N} : v ∈ (classify one t).nob ↔ t.any (isLoad v) = true := by
  simp only [classify, List.mem_toFinset, List.mem_map, List.mem_filter, decide_eq_true_eq,
    List.any_eq_true, isLoad]
  constructor
  · rintro ⟨r, ⟨hr, h1⟩, h2⟩
    exact ⟨r, hr, h1, h2⟩
  · rintro ⟨r, hr, h1, h2⟩
    exact ⟨r, ⟨hr, h1⟩, h2⟩

theorem lox_not_nob {v : N} (h : v ∈ (classify one t).lox) : v ∉ (classify one t).nob := by
  simp only [classify, Finset.mem_sdiff, Finset.mem_union] at h ⊢
  tauto

theorem lvx_nob {v : N} (h : v ∈ (classify one t).lvx) : v ∈ (classify one t).nob := by
  simp only [classify, Finset.mem_sdiff] at h ⊢
  exact h.1

theorem lox_lvx {v : N} (h : v ∈ (classify one t).lox) : v ∉ (classify one t).lvx :=
  fun h2 => lox_not_nob one t h (lvx_nob one t h2)

theorem lox_enx {v : N} (h : v ∈ (classify one t).lox) : v ∉ (classify one t).enx := by
  simp only [classify, Finset.mem_sdiff, Finset.mem_union] at h ⊢
  tauto

theorem lvx_enx {v : N} (h : v ∈ (classify one t).lvx) : v ∉ (classify one t).enx := by
  simp only [classify, Finset.mem_sdiff, Finset.mem_union] at h ⊢
  tauto

end cls

end Verif.Sem
