import Verif.Sem.Formula
/-!
# Strings: splitting, stripping, comments
-/
namespace Verif.Sem

/-- `sep.join(parts)`. -/
def joinWith (sep : List Char) : List (List Char) → List Char
  | [] => []
  | [x] => x
  | x :: y :: xs => x ++ sep ++ joinWith sep (y :: xs)

theorem joinWith_cons (sep x : List Char) (xs : List (List Char)) (h : xs ≠ []) :
    joinWith sep (x :: xs) = x ++ sep ++ joinWith sep xs := by
  cases xs with
  | nil => exact absurd rfl h
  | cons y ys => rfl

theorem joinWith_concat (sep x : List Char) (xs : List (List Char)) (h : xs ≠ []) :
    joinWith sep (xs ++ [x]) = joinWith sep xs ++ sep ++ x := by
  induction xs with
  | nil => exact absurd rfl h
  | cons y ys ih =>
    by_cases hy : ys = []
    · subst hy; rfl
    · rw [List.cons_append, joinWith_cons _ _ _ (by simp), ih hy, joinWith_cons _ _ _ hy]
      simp

/-! ### split on one character -/

theorem splitAux_skip (c : Char) (u rest acc : List Char) (hu : c ∉ u) :
    splitAux [c] (u ++ rest) 0 acc = splitAux [c] rest 0 (u.reverse ++ acc) := by
  induction u generalizing acc with
  | nil => rfl
  | cons a u ih =>
    have ha : c ≠ a := fun h => hu (by simp [h])
    have h1 : ([c] : List Char).isPrefixOf (a :: (u ++ rest)) = false := by
      simp [List.isPrefixOf, ha]
    rw [List.cons_append, splitAux, h1]
    simp only [Bool.false_eq_true, if_false]
    rw [ih _ (fun h => hu (List.mem_cons_of_mem _ h))]
    simp

theorem splitAux_sep (c : Char) (rest acc : List Char) :
    splitAux [c] (c :: rest) 0 acc = acc.reverse :: splitAux [c] rest 0 [] := by
  rw [splitAux]
  simp [List.isPrefixOf]

theorem splitOn_join (c : Char) (parts : List (List Char)) (hne : parts ≠ [])
    (h : ∀ p ∈ parts, c ∉ p) : splitOn [c] (joinWith [c] parts) = parts := by
  unfold splitOn
  induction parts with
  | nil => exact absurd rfl hne
  | cons p ps ih =>
    by_cases hp : ps = []
    · subst hp
      have := splitAux_skip c p [] [] (h p (by simp))
      rw [List.append_nil] at this
      simp only [joinWith]
      rw [this, splitAux]
      simp
    · rw [joinWith_cons _ _ _ hp, List.append_assoc, splitAux_skip c p _ _ (h p (by simp)),
        List.singleton_append, splitAux_sep, ih hp (fun q hq => h q (List.mem_cons_of_mem _ hq))]
      simp

/-! ### split on a relation -/

theorem splitAux_skip' (sep : List Char) (b : Char) (bs : List Char) (hs : sep = b :: bs)
    (u rest acc : List Char) (hu : b ∉ u) :
    splitAux sep (u ++ rest) 0 acc = splitAux sep rest 0 (u.reverse ++ acc) := by
  induction u generalizing acc with
  | nil => rfl
  | cons a u ih =>
    have ha : b ≠ a := fun h => hu (by simp [h])
    have h1 : sep.isPrefixOf (a :: (u ++ rest)) = false := by
      rw [hs]; simp [List.isPrefixOf, ha]
    rw [List.cons_append, splitAux, h1]
    simp only [Bool.false_eq_true, if_false]
    rw [ih _ (fun h => hu (List.mem_cons_of_mem _ h))]
    simp

theorem splitAux_over (sep : List Char) (d rest acc : List Char) :
    splitAux sep (d ++ rest) d.length acc = splitAux sep rest 0 acc := by
  induction d with
  | nil => rfl
  | cons a d ih => rw [List.cons_append, List.length_cons, splitAux, ih]

theorem splitOn_two (sep : List Char) (b : Char) (bs : List Char) (hs : sep = b :: bs)
    (u v : List Char) (hu : b ∉ u) (hv : b ∉ v) :
    splitOn sep (u ++ sep ++ v) = [u, v] := by
  unfold splitOn
  have hpre : sep.isPrefixOf (b :: (bs ++ v)) = true := by
    rw [List.isPrefixOf_iff_prefix, hs]; exact ⟨v, by simp⟩
  rw [List.append_assoc, splitAux_skip' sep b bs hs u _ _ hu]
  conv_lhs => rw [show sep ++ v = b :: (bs ++ v) by rw [hs]; rfl]
  rw [splitAux, hpre]
  have hl : sep.length - 1 = bs.length := by rw [hs]; simp
  rw [hl, splitAux_over]
  have := splitAux_skip' sep b bs hs v [] [] hv
  rw [List.append_nil] at this
  rw [this, splitAux]
  simp

theorem contains_mid (sub u v : List Char) : containsStr sub (u ++ sub ++ v) = true := by
  rw [containsStr, List.any_eq_true]
  refine ⟨sub ++ v, ?_, by rw [List.isPrefixOf_iff_prefix]; exact ⟨v, rfl⟩⟩
  rw [List.mem_tails]
  exact ⟨u, by simp⟩

theorem contains_false (a : Char) (as s : List Char) (h : a ∉ s) :
    containsStr (a :: as) s = false := by
  rw [containsStr, List.any_eq_false]
  intro t ht hp
  rw [List.isPrefixOf_iff_prefix] at hp
  obtain ⟨w, rfl⟩ := hp
  rw [List.mem_tails] at ht
  exact h (ht.subset (by simp))

/-- A text with one tilde does not contain two in a row. -/
theorem contains_tilde_false (u v : List Char) (hu : '~' ∉ u) (hv : '~' ∉ v) :
    containsStr ['~', '~'] (u ++ ['~'] ++ v) = false := by
  rw [containsStr, List.any_eq_false]
  intro t ht hp
  rw [List.isPrefixOf_iff_prefix] at hp
  obtain ⟨w, rfl⟩ := hp
  rw [List.mem_tails] at ht
  have h1 := ht.sublist.count_le '~'
  simp only [List.count_append, List.count_eq_zero.2 hu, List.count_eq_zero.2 hv,
    List.cons_append, List.nil_append, List.count_cons_self, List.count_nil] at h1
  omega

/-! ### strip -/

theorem dropWhile_pad (w s : List Char) (hw : ∀ c ∈ w, isWs c = true) :
    (w ++ s).dropWhile isWs = s.dropWhile isWs := by
  induction w with
  | nil => rfl
  | cons a w ih =>
    rw [List.cons_append, List.dropWhile_cons, if_pos (hw a (by simp)),
      ih (fun c hc => hw c (List.mem_cons_of_mem _ hc))]

theorem dropWhile_body (b s : List Char) (hne : b ≠ []) (hb : ∀ c ∈ b, isWs c = false) :
    (b ++ s).dropWhile isWs = b ++ s := by
  cases b with
  | nil => exact absurd rfl hne
  | cons a b =>
    rw [List.cons_append, List.dropWhile_cons, if_neg (by rw [hb a (by simp)]; simp)]

theorem dropWhile_all (w : List Char) (hw : ∀ c ∈ w, isWs c = true) : w.dropWhile isWs = [] := by
  have := dropWhile_pad w [] hw
  simpa using this

theorem strip_pad (l b r : List Char) (hl : ∀ c ∈ l, isWs c = true) (hr : ∀ c ∈ r, isWs c = true)
    (hne : b ≠ []) (hb : ∀ c ∈ b, isWs c = false) : strip (l ++ b ++ r) = b := by
  unfold strip
  rw [List.append_assoc, dropWhile_pad l _ hl, dropWhile_body b _ hne hb, List.reverse_append,
    dropWhile_pad _ _ (by intro c hc; exact hr c (List.mem_reverse.1 hc))]
  have h2 := dropWhile_body b.reverse [] (by simpa using hne)
    (by intro c hc; exact hb c (List.mem_reverse.1 hc))
  rw [List.append_nil] at h2
  rw [h2, List.reverse_reverse]

theorem strip_blank (w : List Char) (hw : ∀ c ∈ w, isWs c = true) : strip w = [] := by
  unfold strip
  rw [dropWhile_all w hw]
  rfl

/-! ### comments -/

theorem stripAux_over (d rest : List Char) :
    stripCommentsAux (d ++ rest) d.length = stripCommentsAux rest 0 := by
  induction d with
  | nil => rfl
  | cons a d ih => rw [List.cons_append, List.length_cons, stripCommentsAux, ih]

theorem takeWhile_pad (w s : List Char) (hw : ∀ c ∈ w, isWs c = true) :
    (w ++ s).takeWhile isWs = w ++ s.takeWhile isWs := by
  induction w with
  | nil => rfl
  | cons a w ih =>
    rw [List.cons_append, List.takeWhile_cons, if_pos (hw a (by simp)),
      ih (fun c hc => hw c (List.mem_cons_of_mem _ hc))]
    rfl

/-- A comment (whitespace, `#`, anything up to the end of the line) is removed. -/
theorem strip_comment (w t rest : List Char) (hw : ∀ c ∈ w, isWs c = true)
    (ht : '\n' ∉ t) (hr : rest = [] ∨ ∃ r, rest = '\n' :: r) :
    stripComments (w ++ '#' :: t ++ rest) = stripComments rest := by
  unfold stripComments
  have hh : isWs '#' = false := by decide
  have h1 : (w ++ '#' :: t ++ rest).takeWhile isWs = w := by
    rw [List.append_assoc, takeWhile_pad w _ hw]
    simp [List.takeWhile_cons, hh]
  have h2 : (w ++ '#' :: t ++ rest).dropWhile isWs = '#' :: t ++ rest := by
    rw [List.append_assoc, dropWhile_pad w _ hw]
    simp [List.dropWhile_cons, hh]
  have h3 : ('#' :: t ++ rest).takeWhile (fun d => d != '\n') = '#' :: t := by
    have : ∀ u : List Char, '\n' ∉ u → (u ++ rest).takeWhile (fun d => d != '\n') = u := by
      intro u hu
      induction u with
      | nil =>
        rcases hr with rfl | ⟨r, rfl⟩
        · rfl
        · simp
      | cons a u ih =>
        have ha : a ≠ '\n' := fun h => hu (by simp [h])
        rw [List.cons_append, List.takeWhile_cons, if_pos (by simpa using ha),
          ih (fun h => hu (List.mem_cons_of_mem _ h))]
    exact this ('#' :: t) (by simp [ht])
  have hlen : (w ++ '#' :: t).length = w.length + ('#' :: t).length := by simp
  obtain ⟨c, cs, hc⟩ : ∃ c cs, w ++ '#' :: t = c :: cs := by
    cases w with
    | nil => exact ⟨_, _, rfl⟩
    | cons a w => exact ⟨_, _, rfl⟩
  have hcs : cs.length = w.length + ('#' :: t).length - 1 := by
    rw [← hlen, hc]; simp
  rw [hc, List.cons_append] at h1 h2 ⊢
  rw [stripCommentsAux]
  simp only [h1, h2, h3]
  rw [if_pos (by simp [List.isPrefixOf]), ← hcs, stripAux_over]

/-- Text without `#` that does not end in whitespace is kept. -/
theorem strip_keep (e rest : List Char) (he : '#' ∉ e)
    (hlast : ∀ c, e.getLast? = some c → isWs c = false) :
    stripComments (e ++ rest) = e ++ stripComments rest := by
  unfold stripComments
  induction e with
  | nil => rfl
  | cons a e ih =>
    rw [List.cons_append, stripCommentsAux]
    have hno : (['#'] : List Char).isPrefixOf ((a :: (e ++ rest)).dropWhile isWs) = false := by
      -- the first non-blank character lies in `a :: e`
      have : ∀ u : List Char, u ≠ [] → '#' ∉ u →
          (∀ c, u.getLast? = some c → isWs c = false) →
          (['#'] : List Char).isPrefixOf ((u ++ rest).dropWhile isWs) = false := by
        intro u
        induction u with
        | nil => intro h; exact absurd rfl h
        | cons x u ihu =>
          intro _ hx hl
          rw [List.cons_append, List.dropWhile_cons]
          by_cases hw : isWs x = true
          · rw [if_pos hw]
            have hne : u ≠ [] := by
              rintro rfl
              have := hl x (by simp)
              rw [this] at hw; exact absurd hw (by simp)
            apply ihu hne (fun h => hx (List.mem_cons_of_mem _ h))
            intro c hc
            apply hl c
            obtain ⟨y, ys, rfl⟩ := List.exists_cons_of_ne_nil hne
            rw [List.getLast?_cons_cons]; exact hc
          · rw [if_neg hw]
            have hx' : '#' ≠ x := fun h => hx (List.mem_cons.2 (Or.inl h))
            simp [List.isPrefixOf, hx']
      exact this (a :: e) (by simp) he hlast
    simp only [hno, Bool.false_eq_true, if_false]
    by_cases hne : e = []
    · subst hne; rfl
    · rw [ih (fun h => he (List.mem_cons_of_mem _ h))]
      · rfl
      · intro c hc
        apply hlast c
        obtain ⟨y, ys, rfl⟩ := List.exists_cons_of_ne_nil hne
        rw [List.getLast?_cons_cons]; exact hc

/-- Text without any `#` is unchanged. -/
theorem strip_none (e : List Char) (he : '#' ∉ e) : stripComments e = e := by
  unfold stripComments
  induction e with
  | nil => rfl
  | cons a e ih =>
    rw [stripCommentsAux]
    have hno : (['#'] : List Char).isPrefixOf ((a :: e).dropWhile isWs) = false := by
      rw [Bool.eq_false_iff]
      intro h
      rw [List.isPrefixOf_iff_prefix] at h
      have h1 : '#' ∈ (a :: e).dropWhile isWs := h.subset (by simp)
      exact he ((List.dropWhile_suffix _).subset h1)
    simp only [hno, Bool.false_eq_true, if_false]
    rw [ih (fun h => he (List.mem_cons_of_mem _ h))]

end Verif.Sem
