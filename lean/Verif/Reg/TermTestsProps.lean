import Verif.Reg.TermTests
import Mathlib.Tactic
/-!
# C272: each termwise test constrains exactly the parameters of its term

The specification lays the columns of the designs side by side and tags each with its design and its term.
-/
namespace Verif.Reg

/-- The tags of the columns of one design. -/
def ttTag (i : ℕ) (d : TtInfo) : List (ℕ × String) := d.flatMap fun t => List.replicate t.2 (i, t.1)

/-- The tags of the columns of the designs side by side. -/
def ttLayout : ℕ → List TtInfo → List (ℕ × String)
  | _, [] => []
  | i, d :: ds => ttTag i d ++ ttLayout (i + 1) ds

theorem ttTag_length (i : ℕ) (d : TtInfo) : (ttTag i d).length = ttCols d := by
  simp [ttTag, ttCols, List.length_flatMap]

theorem ttTag_cons (i : ℕ) (t : String × ℕ) (d : TtInfo) : ttTag i (t :: d) = List.replicate t.2 (i, t.1) ++ ttTag i d := by
  simp [ttTag]

theorem ttLayout_fst {i : ℕ} {ds : List TtInfo} {x : ℕ × String} (h : x ∈ ttLayout i ds) : i ≤ x.1 := by
  induction ds generalizing i with
  | nil => simp [ttLayout] at h
  | cons d ds ih =>
    rw [ttLayout, List.mem_append] at h
    rcases h with h | h
    · simp only [ttTag, List.mem_flatMap, List.mem_replicate] at h
      obtain ⟨t, -, -, rfl⟩ := h
      exact le_rfl
    · have := ih h; omega

theorem mem_ttSlice_range {n a b j : ℕ} : j ∈ ttSlice (List.range n) a b ↔ a ≤ j ∧ j < b ∧ j < n := by
  rw [ttSlice, List.mem_iff_getElem?]
  simp only [List.getElem?_drop, List.getElem?_take]
  constructor
  · rintro ⟨k, hk⟩
    split at hk
    · obtain ⟨h1, h2⟩ := List.getElem?_eq_some_iff.mp hk
      simp at h1 h2; omega
    · simp at hk
  · rintro ⟨h1, h2, h3⟩
    refine ⟨j - a, ?_⟩
    rw [if_pos (by omega), Nat.add_sub_cancel' h1, List.getElem?_range h3]

/-- The keys of one design. -/
theorem ttTerms_keys (ii : List ℕ) (o : ℕ) (d : TtInfo) (c : ℕ) :
    (ttTerms ii o d c).map Prod.fst = (d.map Prod.fst).filter (· ≠ "Intercept") := by
  induction d generalizing c with
  | nil => rfl
  | cons t d ih =>
    obtain ⟨s, w⟩ := t
    unfold ttTerms
    split
    · rename_i h; rw [ih]; simp [h]
    · rename_i h; rw [List.map_cons, ih]; simp [h]

theorem tag_mem {i : ℕ} {d : TtInfo} {x : ℕ × String} (h : x ∈ ttTag i d) : x.1 = i ∧ x.2 ∈ d.map Prod.fst := by
  simp only [ttTag, List.mem_flatMap, List.mem_replicate] at h
  obtain ⟨t, ht, -, rfl⟩ := h
  exact ⟨rfl, List.mem_map_of_mem ht⟩

/-- The indices of one design. -/
theorem ttTerms_spec {n o i : ℕ} {d : TtInfo} {c : ℕ} (hd : (d.map Prod.fst).Nodup) (hn : c + o + ttCols d ≤ n)
    {s : String} {z : List ℕ} (hz : (s, z) ∈ ttTerms (List.range n) o d c) (j : ℕ) :
    j ∈ z ↔ c + o ≤ j ∧ (ttTag i d)[j - (c + o)]? = some (i, s) := by
  induction d generalizing c with
  | nil => simp [ttTerms] at hz
  | cons t d ih =>
    obtain ⟨t, w⟩ := t
    simp only [List.map_cons, List.nodup_cons] at hd
    have hc : ttCols ((t, w) :: d) = w + ttCols d := by simp [ttCols]
    rw [hc] at hn
    have later : (s, z) ∈ ttTerms (List.range n) o d (c + w) → (j ∈ z ↔ c + o ≤ j ∧
        (ttTag i ((t, w) :: d))[j - (c + o)]? = some (i, s)) := by
      intro hz
      have hs : s ∈ d.map Prod.fst := by
        have := List.mem_map_of_mem (f := Prod.fst) hz
        rw [ttTerms_keys] at this
        exact (List.mem_filter.mp this).1
      have hne : t ≠ s := fun h => hd.1 (h ▸ hs)
      rw [ih hd.2 (by omega) hz, ttTag_cons]
      by_cases hj : c + o ≤ j
      · by_cases hw : j - (c + o) < w
        · rw [List.getElem?_append_left (by simpa using hw), List.getElem?_replicate, if_pos hw]
          simp only [Option.some.injEq, Prod.mk.injEq, true_and, hne, and_false, iff_false, not_and]
          intro h; omega
        · rw [List.getElem?_append_right (by simpa using hw), List.length_replicate,
            show j - (c + o) - w = j - (c + w + o) by omega]
          constructor
          · exact fun h => ⟨hj, h.2⟩
          · exact fun h => ⟨by omega, h.2⟩
      · constructor <;> rintro ⟨h, -⟩ <;> omega
    unfold ttTerms at hz
    split at hz
    · exact later hz
    · rcases List.mem_cons.mp hz with h | h
      · simp only [Prod.mk.injEq] at h
        obtain ⟨rfl, rfl⟩ := h
        rw [mem_ttSlice_range, ttTag_cons]
        by_cases hj : c + o ≤ j
        · by_cases hw : j - (c + o) < w
          · rw [List.getElem?_append_left (by simpa using hw), List.getElem?_replicate, if_pos hw]
            simp only [and_true]; omega
          · rw [List.getElem?_append_right (by simpa using hw)]
            constructor
            · intro h; omega
            · rintro ⟨-, h⟩
              exact absurd (tag_mem (List.mem_of_getElem? h)).2 hd.1
        · constructor <;> rintro ⟨h, -⟩ <;> omega
      · exact later h

theorem ttLoop_some (ii : List ℕ) (ds : List TtInfo) (i o : ℕ) : ∃ r, ttLoop ii (ds.map some) i o = some r := by
  induction ds generalizing i o with
  | nil => exact ⟨_, rfl⟩
  | cons d ds ih =>
    obtain ⟨r, hr⟩ := ih (i + 1) (o + ttCols d)
    exact ⟨_, by rw [List.map_cons, ttLoop, hr, Option.map_some]⟩

theorem ttLoop_cons {ii : List ℕ} {d : TtInfo} {ds : List TtInfo} {i o : ℕ} {r} (h : ttLoop ii ((d :: ds).map some) i o = some r) :
    ∃ r', ttLoop ii (ds.map some) (i + 1) (o + ttCols d) = some r' ∧
      r = (ttTerms ii o d 0).map (fun t => ((i, t.1), t.2)) ++ r' := by
  rw [List.map_cons, ttLoop, Option.map_eq_some_iff] at h
  obtain ⟨r', h1, h2⟩ := h
  exact ⟨r', h1, h2.symm⟩

theorem ttLayout_length (i : ℕ) (ds : List TtInfo) : (ttLayout i ds).length = (ds.map ttCols).sum := by
  induction ds generalizing i with
  | nil => rfl
  | cons d ds ih => simp [ttLayout, ttTag_length, ih]

theorem loop_key_ge {ii : List ℕ} {ds : List TtInfo} {i o : ℕ} {r} (h : ttLoop ii (ds.map some) i o = some r) {k : ℕ × String}
    {z : List ℕ} (hk : (k, z) ∈ r) : i ≤ k.1 := by
  induction ds generalizing i o r with
  | nil => simp [ttLoop] at h; subst h; simp at hk
  | cons d ds ih =>
    obtain ⟨r', h1, rfl⟩ := ttLoop_cons h
    rcases List.mem_append.mp hk with h | h
    · obtain ⟨t, -, ht⟩ := List.mem_map.mp h
      simp only [Prod.mk.injEq] at ht
      exact (congrArg Prod.fst ht.1).le
    · have := ih h1 h; omega

theorem ttLoop_spec {n : ℕ} {ds : List TtInfo} {i o : ℕ} {r} (hd : ∀ d ∈ ds, (d.map Prod.fst).Nodup)
    (hn : o + (ds.map ttCols).sum ≤ n) (h : ttLoop (List.range n) (ds.map some) i o = some r) {k : ℕ × String} {z : List ℕ}
    (hk : (k, z) ∈ r) (j : ℕ) : j ∈ z ↔ o ≤ j ∧ (ttLayout i ds)[j - o]? = some k := by
  induction ds generalizing i o r with
  | nil => simp [ttLoop] at h; subst h; simp at hk
  | cons d ds ih =>
    simp only [List.map_cons, List.sum_cons] at hn
    obtain ⟨r', h1, rfl⟩ := ttLoop_cons h
    rw [ttLayout]
    rcases List.mem_append.mp hk with h | h
    · obtain ⟨⟨s, z'⟩, ht, he⟩ := List.mem_map.mp h
      simp only [Prod.mk.injEq] at he
      obtain ⟨rfl, rfl⟩ := he
      rw [ttTerms_spec (i := i) (hd d List.mem_cons_self) (by omega) ht]
      simp only [zero_add]
      refine and_congr_right fun hj => ?_
      by_cases hc : j - o < ttCols d
      · rw [List.getElem?_append_left (by rwa [ttTag_length])]
      · rw [List.getElem?_append_right (by rw [ttTag_length]; omega), List.getElem?_eq_none (by rw [ttTag_length]; omega)]
        constructor
        · intro h; exact absurd h (by simp)
        · intro h
          have := ttLayout_fst (List.mem_of_getElem? h)
          simp only at this; omega
    · rw [ih (fun d hd' => hd d (List.mem_cons_of_mem _ hd')) (by omega) h1 h]
      have hge := loop_key_ge h1 h
      by_cases hj : o ≤ j
      · by_cases hc : j - o < ttCols d
        · rw [List.getElem?_append_left (by rwa [ttTag_length])]
          constructor
          · rintro ⟨h, -⟩; omega
          · rintro ⟨-, h⟩
            have := (tag_mem (List.mem_of_getElem? h)).1
            omega
        · rw [List.getElem?_append_right (by rw [ttTag_length]; omega), ttTag_length, show j - o - ttCols d = j - (o + ttCols d) by omega]
          constructor
          · exact fun h => ⟨hj, h.2⟩
          · exact fun h => ⟨by omega, h.2⟩
      · constructor <;> rintro ⟨h, -⟩ <;> omega

theorem dropLast_range (n : ℕ) : (List.range n).dropLast = List.range (n - 1) := by
  cases n with
  | zero => rfl
  | succ n => rw [List.range_succ, List.dropLast_concat]; rfl

theorem store_frames (ds : List TtInfo) (y : TtArg) :
    (((ds.map TtArg.frame ++ [y]).map ttStore).flatten) = ds.map some ++ ttStore y := by
  induction ds with
  | nil => simp
  | cons d ds ih => simpa [ttStore] using ih

/-- With a response that is a data frame or an array, as built from formulas, each test constrains exactly the
parameters at the columns of its own term, and there is room for the scale. -/
theorem C272_tests_partial {ds : List TtInfo} (hd : ∀ d ∈ ds, (d.map Prod.fst).Nodup) {y : TtArg} (hy : y ≠ .series) {n o : ℕ}
    {scale : Bool} (hn : o + (ds.map ttCols).sum + scale.toNat ≤ n) :
    ∃ r, ttTests (ds.map .frame ++ [y]) n scale o = some r ∧
      ∀ k z, (k, z) ∈ r → ∀ j, j ∈ z ↔ o ≤ j ∧ (ttLayout 0 ds)[j - o]? = some k := by
  have hs : ∃ a, ttStore y = [a] := by cases y <;> simp_all [ttStore]
  obtain ⟨a, ha⟩ := hs
  have he : ttTests (ds.map .frame ++ [y]) n scale o = ttLoop (List.range (n - scale.toNat)) (ds.map some) 0 o := by
    unfold ttTests
    simp only [store_frames, ha, List.dropLast_concat]
    cases scale
    · simp
    · simp [dropLast_range]
  obtain ⟨r, hr⟩ := ttLoop_some (List.range (n - scale.toNat)) ds 0 o
  exact ⟨r, he.trans hr, fun k z hk j => ttLoop_spec hd (by omega) hr hk j⟩

theorem ttLoop_keys {ii : List ℕ} {ds : List TtInfo} {i o : ℕ} {r} (h : ttLoop ii (ds.map some) i o = some r) (a : ℕ) (s : String) :
    (a, s) ∈ r.map Prod.fst ↔ i ≤ a ∧ ∃ d, ds[a - i]? = some d ∧ s ∈ d.map Prod.fst ∧ s ≠ "Intercept" := by
  induction ds generalizing i o r with
  | nil => simp [ttLoop] at h; subst h; simp
  | cons d ds ih =>
    obtain ⟨r', h1, rfl⟩ := ttLoop_cons h
    have hk : (a, s) ∈ ((ttTerms ii o d 0).map (fun t => ((i, t.1), t.2))).map Prod.fst ↔ a = i ∧ s ∈ d.map Prod.fst ∧ s ≠ "Intercept" := by
      have e : ((ttTerms ii o d 0).map (fun t => ((i, t.1), t.2))).map Prod.fst = ((ttTerms ii o d 0).map Prod.fst).map (Prod.mk i) := by
        simp
      rw [e, ttTerms_keys, List.mem_map]
      constructor
      · rintro ⟨x, hx, hxe⟩
        obtain ⟨rfl, rfl⟩ := Prod.mk.inj hxe
        obtain ⟨h1, h2⟩ := List.mem_filter.mp hx
        exact ⟨rfl, h1, by simpa using h2⟩
      · rintro ⟨rfl, h1, h2⟩
        exact ⟨s, List.mem_filter.mpr ⟨h1, by simpa using h2⟩, rfl⟩
    rw [List.map_append, List.mem_append, hk, ih h1]
    rcases lt_trichotomy a i with hlt | rfl | hgt
    · constructor
      · rintro (h | h) <;> omega
      · rintro ⟨h, -⟩; omega
    · simp
    · rw [show a - i = (a - (i + 1)) + 1 by omega, List.getElem?_cons_succ]
      constructor
      · rintro (h | h)
        · omega
        · exact ⟨hgt.le, h.2⟩
      · exact fun h => Or.inr ⟨hgt, h.2⟩

/-- Every term except the intercepts is tested, and nothing else. -/
theorem C272_keys_partial (ds : List TtInfo) {y : TtArg} (hy : y ≠ .series) (n o : ℕ) (scale : Bool) :
    ∃ r, ttTests (ds.map .frame ++ [y]) n scale o = some r ∧ ∀ a s, (a, s) ∈ r.map Prod.fst ↔
      ∃ d, ds[a]? = some d ∧ s ∈ d.map Prod.fst ∧ s ≠ "Intercept" := by
  have hs : ∃ a, ttStore y = [a] := by cases y <;> simp_all [ttStore]
  obtain ⟨a, ha⟩ := hs
  obtain ⟨r, hr⟩ := ttLoop_some (if scale then (List.range n).dropLast else List.range n) ds 0 o
  refine ⟨r, ?_, fun a s => ?_⟩
  · unfold ttTests
    simp only [store_frames, ha, List.dropLast_concat]
    exact hr
  · simpa using ttLoop_keys hr a s

/-- A series as the response leaves no design information behind, so that the last design takes its place: the tests are
those without the last design. -/
theorem C272_series (ds : List TtInfo) (d : TtInfo) (n o : ℕ) (scale : Bool) :
    ttTests ((ds ++ [d]).map .frame ++ [.series]) n scale o = ttTests (ds.map .frame ++ [.array]) n scale o := by
  unfold ttTests
  simp [store_frames, ttStore]

theorem C272_series_violated : ttTests [.frame [("Intercept", 1), ("x", 2)], .series] 3 false 0 = some [] ∧
    ttTests [.frame [("Intercept", 1), ("x", 2)], .array] 3 false 0 = some [((0, "x"), [1, 2])] := by
  decide +kernel

/-- A design given as an array, or as a data frame without design information, raises. -/
theorem C272_no_info (ds : List TtInfo) (x : TtArg) (hx : x = .plain ∨ x = .array) (y : TtArg) (hy : y ≠ .series) (n o : ℕ)
    (scale : Bool) : ttTests (ds.map .frame ++ [x, y]) n scale o = none := by
  have hs : ∃ a, ttStore y = [a] := by cases y <;> simp_all [ttStore]
  obtain ⟨a, ha⟩ := hs
  have hx' : ttStore x = [none] := by rcases hx with rfl | rfl <;> rfl
  have hl : ∀ ii i o, ttLoop ii (ds.map some ++ [none]) i o = none := by
    intro ii
    induction ds with
    | nil => intro i o; rfl
    | cons d ds ih => intro i o; rw [List.map_cons, List.cons_append, ttLoop, ih]; rfl
  have e : ((ds.map TtArg.frame ++ [x, y]).map ttStore).flatten = ds.map some ++ [none] ++ [a] := by
    have := store_frames ds x
    rw [hx'] at this
    rw [show ds.map TtArg.frame ++ [x, y] = (ds.map TtArg.frame ++ [x]) ++ [y] by simp, List.map_append, List.flatten_append, this]
    simp [ha]
  unfold ttTests
  simp only [e, List.dropLast_concat]
  exact hl _ _ _

example : ttTests [.frame [("Intercept", 1), ("x", 2)], .frame [("z", 1), ("w", 2)], .frame [("y", 1)]] 8 true 1 =
    some [((0, "x"), [2, 3]), ((1, "z"), [4]), ((1, "w"), [5, 6])] := by decide +kernel

end Verif.Reg
