import Verif.Gam.Formula
import Mathlib.Data.List.Basic

namespace Verif.Gam

/-! ### Terms -/

/-- A term of a formula: a parametric term or a smooth with its arguments. -/
inductive Tok where
  | plain (w : List Char)
  | smooth (i : List Char)

def Tok.text : Tok → List Char
  | plain w => w
  | smooth i => 's' :: '(' :: (i ++ [')'])

/-- A parametric term: a nonempty word without parentheses, operators or tildes. -/
def Word (w : List Char) : Prop := w ≠ [] ∧ ∀ c ∈ w, inner c = true ∧ isOp c = false ∧ c ≠ '~' ∧ c.isWhitespace = false

def Tok.ok : Tok → Prop
  | plain w => Word w
  | smooth i => ∀ c ∈ i, inner c = true ∧ c.isWhitespace = false

def Tok.kept : Tok → List Char
  | plain w => w
  | smooth _ => []

/-- Terms joined by `+`. -/
def joined : List (List Char) → List Char
  | [] => []
  | [w] => w
  | w :: v :: ws => w ++ '+' :: joined (v :: ws)

/-- The words each preceded by `+`. -/
def plus (ws : List (List Char)) : List Char := ws.flatMap fun w => '+' :: w

theorem joined_cons (w : List Char) (ws : List (List Char)) : joined (w :: ws) = w ++ plus ws := by
  induction ws generalizing w with
  | nil => simp [joined, plus]
  | cons v ws ih => rw [joined, ih]; simp [plus]

/-! ### Search and removal -/

theorem findS_skip (u l : List Char) : findS u.length (u ++ l) = findS 0 l := by
  induction u with
  | nil => rfl
  | cons c u ih => exact ih

theorem remove_skip (x u l : List Char) : remove x u.length (u ++ l) = remove x 0 l := by
  induction u with
  | nil => rfl
  | cons c u ih => exact ih

theorem matchS_none {c : Char} {l : List Char} (h : c ≠ 's' ∨ l.head? ≠ some '(') : matchS (c :: l) = none := by
  unfold matchS
  split
  · rename_i l' heq
    obtain ⟨rfl, rfl⟩ := List.cons.inj heq
    simp at h
  · rfl

theorem findS_word (u l : List Char) (hu : '(' ∉ u) (hl : l.head? ≠ some '(') : findS 0 (u ++ l) = findS 0 l := by
  induction u with
  | nil => rfl
  | cons c u ih =>
    have hm : matchS (c :: (u ++ l)) = none := by
      refine matchS_none (Or.inr ?_)
      cases u with
      | nil => exact hl
      | cons d u => simp only [List.cons_append, List.head?_cons]; intro h; exact hu (by simp [Option.some.inj h])
    simp only [List.cons_append, findS, hm]
    exact ih fun h => hu (List.mem_cons_of_mem _ h)

theorem take_inner (i l : List Char) (hi : ∀ c ∈ i, inner c = true) : (i ++ ')' :: l).takeWhile inner = i ∧ (i ++ ')' :: l).dropWhile inner = ')' :: l := by
  rw [List.takeWhile_append_of_pos hi, List.dropWhile_append_of_pos hi]
  have : inner ')' = false := rfl
  simp [List.takeWhile_cons, List.dropWhile_cons, this]

theorem findS_smooth (i l : List Char) (hi : ∀ c ∈ i, inner c = true) :
    findS 0 ('s' :: '(' :: (i ++ [')']) ++ l) = ('s' :: '(' :: (i ++ [')'])) :: findS 0 l := by
  have hm : matchS ('s' :: '(' :: (i ++ [')'] ++ l)) = some ('s' :: '(' :: (i ++ [')'])) := by
    obtain ⟨h1, h2⟩ := take_inner i l hi
    simp only [List.append_assoc, List.cons_append, List.nil_append, matchS, h1, h2]
  simp only [List.cons_append, findS, hm]
  have := findS_skip ('(' :: (i ++ [')'])) l
  simp only [List.cons_append] at this
  simpa using this

theorem remove_word (x u l : List Char) (hx : ∃ y, x = 's' :: '(' :: y) (hu : '(' ∉ u) (hl : l.head? ≠ some '(') : remove x 0 (u ++ l) = u ++ remove x 0 l := by
  induction u with
  | nil => rfl
  | cons c u ih =>
    have hm : ¬ x.isPrefixOf (c :: (u ++ l)) = true := by
      obtain ⟨y, rfl⟩ := hx
      intro h
      rw [List.isPrefixOf_iff_prefix] at h
      obtain ⟨t, ht⟩ := h
      have h2 := (List.cons.inj ht).2
      cases u with
      | nil => exact hl (by rw [← List.nil_append l, ← h2]; rfl)
      | cons d u => exact hu (by simp [← (List.cons.inj h2).1])
    simp only [List.cons_append, remove, hm]
    rw [ih fun h => hu (List.mem_cons_of_mem _ h)]
    simp

theorem remove_same (i l : List Char) : remove ('s' :: '(' :: (i ++ [')'])) 0 ('s' :: '(' :: (i ++ [')']) ++ l) = remove ('s' :: '(' :: (i ++ [')'])) 0 l := by
  have hm : ('s' :: '(' :: (i ++ [')'])).isPrefixOf ('s' :: '(' :: (i ++ [')'] ++ l)) = true := by
    rw [List.isPrefixOf_iff_prefix]; exact ⟨l, by simp⟩
  simp only [List.cons_append, remove, hm, if_true]
  have := remove_skip ('s' :: '(' :: (i ++ [')'])) ('(' :: (i ++ [')'])) l
  simp only [List.cons_append] at this
  simpa using this

theorem inner_cancel : ∀ (i j : List Char), (∀ c ∈ i, inner c = true) → (∀ c ∈ j, inner c = true) → ∀ a b, i ++ ')' :: a = j ++ ')' :: b → i = j
  | [], [], _, _, _, _, _ => rfl
  | [], d :: j, _, hj, a, b, h => by
    have := hj d List.mem_cons_self
    rw [← (List.cons.inj h).1] at this
    exact absurd this (by decide)
  | c :: i, [], hi, _, a, b, h => by
    have := hi c List.mem_cons_self
    rw [(List.cons.inj h).1] at this
    exact absurd this (by decide)
  | c :: i, d :: j, hi, hj, a, b, h => by
    obtain ⟨h1, h2⟩ := List.cons.inj h
    rw [h1, inner_cancel i j (fun c hc => hi c (List.mem_cons_of_mem _ hc)) (fun c hc => hj c (List.mem_cons_of_mem _ hc)) a b h2]

theorem remove_other {i j l : List Char} (hi : ∀ c ∈ i, inner c = true) (hj : ∀ c ∈ j, inner c = true) (hij : i ≠ j) (hl : l.head? ≠ some '(') :
    remove ('s' :: '(' :: (i ++ [')'])) 0 ('s' :: '(' :: (j ++ [')']) ++ l) = 's' :: '(' :: (j ++ [')']) ++ remove ('s' :: '(' :: (i ++ [')'])) 0 l := by
  have hm : ¬ ('s' :: '(' :: (i ++ [')'])).isPrefixOf ('s' :: '(' :: (j ++ [')'] ++ l)) = true := by
    rw [List.isPrefixOf_iff_prefix]
    rintro ⟨t, ht⟩
    simp only [List.cons_append, List.cons.injEq, true_and, List.append_assoc, List.nil_append] at ht
    exact hij (inner_cancel i j hi hj _ _ ht)
  have hm2 : ¬ ('s' :: '(' :: (i ++ [')'])).isPrefixOf ('(' :: (j ++ [')'] ++ l)) = true := by
    rw [List.isPrefixOf_iff_prefix]
    rintro ⟨t, ht⟩
    exact absurd (List.cons.inj ht).1 (by decide)
  simp only [List.cons_append, remove, hm, hm2]
  have hp : '(' ∉ j ++ [')'] := by
    intro h
    rcases List.mem_append.1 h with h | h
    · exact absurd (hj _ h) (by decide)
    · exact absurd (List.mem_singleton.1 h) (by decide)
  rw [remove_word _ (j ++ [')']) l ⟨_, rfl⟩ hp hl]
  simp

/-! ### A formula -/

/-- The text of a term in which some smooths have been removed. -/
def Tok.after (gone : List (List Char)) : Tok → List Char
  | plain w => w
  | smooth i => if ('s' :: '(' :: (i ++ [')'])) ∈ gone then [] else 's' :: '(' :: (i ++ [')'])

theorem after_nil (t : Tok) : t.after [] = t.text := by cases t <;> simp [Tok.after, Tok.text]

theorem plus_head (ws : List (List Char)) : (plus ws).head? ≠ some '(' := by cases ws <;> simp [plus]

theorem word_paren {w : List Char} (h : Word w) : '(' ∉ w := fun hm => absurd (h.2 _ hm).1 (by decide)

theorem findS_plus (ts : List Tok) (ht : ∀ t ∈ ts, t.ok) : findS 0 (plus (ts.map Tok.text)) =
    ts.filterMap fun t => match t with | .plain _ => none | .smooth i => some ('s' :: '(' :: (i ++ [')'])) := by
  induction ts with
  | nil => rfl
  | cons t ts ih =>
    have e : plus ((t :: ts).map Tok.text) = ['+'] ++ (t.text ++ plus (ts.map Tok.text)) := by simp [plus]
    have h1 := ih fun t h => ht t (List.mem_cons_of_mem _ h)
    have h0 := ht t List.mem_cons_self
    cases t with
    | plain w =>
      rw [e, findS_word _ _ (by decide) (by
        have hne := (h0 : Word w).1
        cases w with
        | nil => exact absurd rfl hne
        | cons c w => simp only [Tok.text, List.cons_append, List.head?_cons]; intro h; exact word_paren h0 (by simp [Option.some.inj h]))]
      simp only [Tok.text]
      rw [findS_word _ _ (word_paren h0) (plus_head _), h1]
      rfl
    | smooth i =>
      rw [e, findS_word _ _ (by decide) (by simp [Tok.text])]
      simp only [Tok.text]
      rw [findS_smooth _ _ fun c hc => (h0 c hc).1, h1]
      rfl

theorem remove_plus (gone : List (List Char)) {i : List Char} (hi : ∀ c ∈ i, inner c = true) (ts : List Tok) (ht : ∀ t ∈ ts, t.ok) :
    remove ('s' :: '(' :: (i ++ [')'])) 0 (plus (ts.map (Tok.after gone))) = plus (ts.map (Tok.after (gone ++ [('s' :: '(' :: (i ++ [')']))]))) := by
  induction ts with
  | nil => rfl
  | cons t ts ih =>
    have e : ∀ g, plus ((t :: ts).map (Tok.after g)) = ['+'] ++ (t.after g ++ plus (ts.map (Tok.after g))) := fun g => by simp [plus]
    have h1 := ih fun t h => ht t (List.mem_cons_of_mem _ h)
    have h0 := ht t List.mem_cons_self
    have hhead : (t.after gone ++ plus (ts.map (Tok.after gone))).head? ≠ some '(' := by
      cases t with
      | plain w =>
        have hne := (h0 : Word w).1
        cases w with
        | nil => exact absurd rfl hne
        | cons c w => simp only [Tok.after, List.cons_append, List.head?_cons]; intro h; exact word_paren h0 (by simp [Option.some.inj h])
      | smooth j =>
        simp only [Tok.after]
        split_ifs
        · simpa using plus_head _
        · simp
    rw [e, e, remove_word _ _ _ ⟨_, rfl⟩ (by decide) hhead]
    congr 1
    cases t with
    | plain w =>
      simp only [Tok.after]
      rw [remove_word _ _ _ ⟨_, rfl⟩ (word_paren h0) (plus_head _), h1]
    | smooth j =>
      simp only [Tok.after]
      by_cases hg : ('s' :: '(' :: (j ++ [')'])) ∈ gone
      · rw [if_pos hg, if_pos (List.mem_append_left _ hg), List.nil_append, List.nil_append, h1]
      · rw [if_neg hg]
        by_cases hij : i = j
        · subst hij
          rw [if_pos (by simp), remove_same, h1, List.nil_append]
        · rw [if_neg, remove_other hi (fun c hc => (h0 c hc).1) hij (plus_head _), h1]
          intro h
          rcases List.mem_append.1 h with h | h
          · exact hg h
          · have h2 := List.mem_singleton.1 h
            simp only [List.cons.injEq, true_and] at h2
            exact hij (List.append_cancel_right h2).symm

theorem remove_fold (is : List (List Char)) (his : ∀ i ∈ is, ∀ c ∈ i, inner c = true) (ts : List Tok) (ht : ∀ t ∈ ts, t.ok) : ∀ gone,
    (is.map fun i => 's' :: '(' :: (i ++ [')'])).foldl (fun f x => remove x 0 f) (plus (ts.map (Tok.after gone))) =
      plus (ts.map (Tok.after (gone ++ is.map fun i => 's' :: '(' :: (i ++ [')'])))) := by
  induction is with
  | nil => intro gone; simp
  | cons i is ih =>
    intro gone
    simp only [List.map_cons, List.foldl_cons]
    rw [remove_plus gone (his i List.mem_cons_self) ts ht, ih fun i h => his i (List.mem_cons_of_mem _ h)]
    simp

theorem text_head {t : Tok} (h : t.ok) (l : List Char) : (t.text ++ l).head? ≠ some '(' := by
  cases t with
  | plain w =>
    have hne := (h : Word w).1
    cases w with
    | nil => exact absurd rfl hne
    | cons c w => simp only [Tok.text, List.cons_append, List.head?_cons]; intro h'; exact word_paren h (by simp [Option.some.inj h'])
  | smooth i => simp [Tok.text]

theorem after_head {t : Tok} (h : t.ok) (g : List (List Char)) (ws : List (List Char)) : (t.after g ++ plus ws).head? ≠ some '(' := by
  cases t with
  | plain w => exact text_head (t := .plain w) h _
  | smooth i =>
    simp only [Tok.after]
    split_ifs
    · simpa using plus_head _
    · simp

/-- The smooths of a list of terms. -/
def smooths (ts : List Tok) : List (List Char) := ts.filterMap fun t => match t with | .plain _ => none | .smooth i => some i

theorem smooths_text (ts : List Tok) : (ts.filterMap fun t => match t with | .plain _ => none | .smooth i => some ('s' :: '(' :: (i ++ [')']))) =
    (smooths ts).map fun i => 's' :: '(' :: (i ++ [')']) := by
  induction ts with
  | nil => rfl
  | cons t ts ih => cases t <;> simp_all [smooths]

theorem smooths_ok (ts : List Tok) (ht : ∀ t ∈ ts, t.ok) : ∀ i ∈ smooths ts, ∀ c ∈ i, inner c = true := by
  intro i hi c hc
  simp only [smooths, List.mem_filterMap] at hi
  obtain ⟨t, hm, he⟩ := hi
  cases t with
  | plain w => simp at he
  | smooth j => obtain rfl := Option.some.inj he; exact (ht _ hm c hc).1

/-- All smooths removed. -/
theorem removed (u : List Char) (hu : '(' ∉ u) (t : Tok) (ts : List Tok) (ht : ∀ s ∈ t :: ts, s.ok) :
    (findS 0 (u ++ (t.text ++ plus (ts.map Tok.text)))).foldl (fun f x => remove x 0 f) (u ++ (t.text ++ plus (ts.map Tok.text))) =
      u ++ (t.kept ++ plus (ts.map Tok.kept)) := by
  have h0 := ht t List.mem_cons_self
  have hf : findS 0 (u ++ (t.text ++ plus (ts.map Tok.text))) = (smooths (t :: ts)).map fun i => 's' :: '(' :: (i ++ [')']) := by
    rw [findS_word _ _ hu (text_head h0 _), ← smooths_text, ← findS_plus (t :: ts) ht]
    have e : plus ((t :: ts).map Tok.text) = ['+'] ++ (t.text ++ plus (ts.map Tok.text)) := by simp [plus]
    rw [e, findS_word _ _ (by decide) (text_head h0 _)]
  have step : ∀ (is : List (List Char)), (∀ i ∈ is, ∀ c ∈ i, inner c = true) → ∀ gone,
      (is.map fun i => 's' :: '(' :: (i ++ [')'])).foldl (fun f x => remove x 0 f) (u ++ (t.after gone ++ plus (ts.map (Tok.after gone)))) =
        u ++ (t.after (gone ++ is.map fun i => 's' :: '(' :: (i ++ [')'])) ++ plus (ts.map (Tok.after (gone ++ is.map fun i => 's' :: '(' :: (i ++ [')']))))) := by
    intro is
    induction is with
    | nil => intro _ gone; simp
    | cons i is ih =>
      intro his gone
      simp only [List.map_cons, List.foldl_cons]
      have hi := his i List.mem_cons_self
      have h1 := remove_plus gone hi (t :: ts) ht
      have e : ∀ g, plus ((t :: ts).map (Tok.after g)) = ['+'] ++ (t.after g ++ plus (ts.map (Tok.after g))) := fun g => by simp [plus]
      rw [e, e, remove_word _ _ _ ⟨_, rfl⟩ (by decide) (after_head h0 _ _)] at h1
      rw [remove_word _ _ _ ⟨_, rfl⟩ hu (after_head h0 _ _), List.append_cancel_left h1, ih fun i h => his i (List.mem_cons_of_mem _ h)]
      simp
  have h1 := step (smooths (t :: ts)) (smooths_ok _ ht) []
  rw [hf]
  simp only [after_nil, List.nil_append, List.map_congr_left (fun s (_ : s ∈ ts) => after_nil s)] at h1
  rw [h1]
  have hk : ∀ s ∈ t :: ts, s.after ((smooths (t :: ts)).map fun i => 's' :: '(' :: (i ++ [')'])) = s.kept := by
    intro s hs
    cases s with
    | plain w => rfl
    | smooth i =>
      simp only [Tok.after, Tok.kept]
      rw [if_pos]
      exact List.mem_map.2 ⟨i, List.mem_filterMap.2 ⟨.smooth i, hs, rfl⟩, rfl⟩
  rw [hk t List.mem_cons_self, List.map_congr_left fun s hs => hk s (List.mem_cons_of_mem _ hs)]

/-! ### Operators -/

theorem collapse_word (u l : List Char) (hu : ∀ c ∈ u, isOp c = false) : collapse (u ++ l) = u ++ collapse l := by
  induction u with
  | nil => rfl
  | cons c u ih =>
    have hc := hu c List.mem_cons_self
    have h1 := ih fun c h => hu c (List.mem_cons_of_mem _ h)
    cases h : u ++ l with
    | nil =>
      obtain ⟨rfl, rfl⟩ := List.append_eq_nil_iff.1 h
      rfl
    | cons d v =>
      rw [List.cons_append, h, collapse, hc]
      simp only [Bool.false_and, Bool.false_eq_true, if_false]
      rw [← h, h1, List.cons_append]

/-- A word, or nothing. -/
def Word0 (w : List Char) : Prop := w = [] ∨ Word w

theorem word0_op {w : List Char} (h : Word0 w) : ∀ c ∈ w, isOp c = false := by
  rcases h with rfl | h
  · simp
  · exact fun c hc => (h.2 c hc).2.1

theorem collapse_plus (ws : List (List Char)) (hw : ∀ w ∈ ws, Word0 w) :
    collapse (plus ws) = plus (ws.filter (· ≠ [])) ++ if ws.getLast? = some [] then ['+'] else [] := by
  induction ws with
  | nil => rfl
  | cons w ws ih =>
    have h1 := ih fun w h => hw w (List.mem_cons_of_mem _ h)
    have e : plus (w :: ws) = '+' :: (w ++ plus ws) := by simp [plus]
    rcases hw w List.mem_cons_self with rfl | h0
    · cases ws with
      | nil => rfl
      | cons v ws =>
        rw [e, List.nil_append]
        have e2 : plus (v :: ws) = '+' :: (v ++ plus ws) := by simp [plus]
        rw [e2] at h1 ⊢
        rw [collapse]
        simp only [show isOp '+' = true from rfl, Bool.and_self, if_true]
        rw [h1]
        simp [List.getLast?_cons_cons]
    · obtain ⟨hne, hc⟩ := h0
      cases w with
      | nil => exact absurd rfl hne
      | cons c w =>
        rw [e, List.cons_append, collapse, (hc c List.mem_cons_self).2.1]
        simp only [Bool.and_false, Bool.false_eq_true, if_false]
        rw [← List.cons_append, collapse_word _ _ fun d hd => (hc d hd).2.1, h1]
        have e3 : ((c :: w) :: ws).filter (· ≠ []) = (c :: w) :: ws.filter (· ≠ []) := by simp
        rw [e3]
        have e4 : plus ((c :: w) :: ws.filter (· ≠ [])) = '+' :: ((c :: w) ++ plus (ws.filter (· ≠ []))) := by simp [plus]
        rw [e4]
        cases ws with
        | nil => simp [plus]
        | cons v ws => simp [List.getLast?_cons_cons]

theorem tilde_word (b : Bool) (u l : List Char) (hu : ∀ c ∈ u, isOp c = false ∧ c ≠ '~') (hne : u ≠ []) : afterTilde b (u ++ l) = u ++ afterTilde false l := by
  induction u generalizing b with
  | nil => exact absurd rfl hne
  | cons c u ih =>
    obtain ⟨h1, h2⟩ := hu c List.mem_cons_self
    rw [List.cons_append, afterTilde, h1]
    simp only [Bool.and_false, Bool.false_eq_true, if_false]
    rw [show (c == '~') = false from by simpa using h2]
    by_cases hu0 : u = []
    · subst hu0; rfl
    · rw [ih false (fun c h => hu c (List.mem_cons_of_mem _ h)) hu0, List.cons_append]

theorem tilde_plus (ws : List (List Char)) (hw : ∀ w ∈ ws, Word w) (e : List Char) (he : e = ['+'] ∨ e = []) :
    afterTilde false (plus ws ++ e) = plus ws ++ e := by
  induction ws with
  | nil => rcases he with rfl | rfl <;> rfl
  | cons w ws ih =>
    have e2 : plus (w :: ws) ++ e = '+' :: (w ++ (plus ws ++ e)) := by simp [plus]
    obtain ⟨hne, hc⟩ := hw w List.mem_cons_self
    rw [e2, afterTilde]
    simp only [Bool.false_and, Bool.false_eq_true, if_false]
    rw [tilde_word _ _ _ (fun c h => ⟨(hc c h).2.1, (hc c h).2.2.1⟩) hne, ih fun w h => hw w (List.mem_cons_of_mem _ h)]

theorem trim_word (u e : List Char) (he : e = ['+'] ∨ e = []) (hu : ∀ c, u.getLast? = some c → isOp c = false) : trimEnd (u ++ e) = u := by
  have h1 : (u.reverse).dropWhile isOp = u.reverse := by
    cases h : u.reverse with
    | nil => rfl
    | cons c v =>
      have : u.getLast? = some c := by rw [← List.head?_reverse, h]; rfl
      rw [List.dropWhile_cons_of_neg (by simp [hu c this])]
  rcases he with rfl | rfl
  · rw [trimEnd, List.reverse_append]
    simp only [List.reverse_cons, List.reverse_nil, List.nil_append, List.singleton_append]
    rw [List.dropWhile_cons_of_pos (by rfl), h1, List.reverse_reverse]
  · rw [trimEnd, List.append_nil, h1, List.reverse_reverse]

theorem last_joined (ws : List (List Char)) (hw : ∀ w ∈ ws, Word w) (hne : ws ≠ []) : ∃ c, (joined ws).getLast? = some c ∧ isOp c = false ∧ c ≠ '~' := by
  induction ws with
  | nil => exact absurd rfl hne
  | cons w ws ih =>
    cases ws with
    | nil =>
      obtain ⟨h1, h2⟩ := hw w List.mem_cons_self
      have := List.getLast_mem h1
      exact ⟨w.getLast h1, List.getLast?_eq_some_getLast h1, (h2 _ this).2.1, (h2 _ this).2.2.1⟩
    | cons v ws =>
      obtain ⟨c, h1, h2⟩ := ih (fun w h => hw w (List.mem_cons_of_mem _ h)) (by simp)
      refine ⟨c, ?_, h2⟩
      rw [joined, List.getLast?_append, List.getLast?_cons, h1]
      rfl

/-- **C124** The parametric part of a formula of parametric terms and smooths joined by `+`: the response, and the
parametric terms in order, or `1` when there are none. -/
theorem C124_formula_partial (resp : List Char) (hr : Word resp) (t : Tok) (ts : List Tok) (ht : ∀ s ∈ t :: ts, s.ok) :
    parametric (resp ++ '~' :: joined ((t :: ts).map Tok.text)) =
      resp ++ '~' :: (if ((t :: ts).map Tok.kept).filter (· ≠ []) = [] then ['1'] else joined (((t :: ts).map Tok.kept).filter (· ≠ []))) := by
  have hws : (resp ++ '~' :: joined ((t :: ts).map Tok.text)).filter (fun c => !c.isWhitespace) = resp ++ '~' :: joined ((t :: ts).map Tok.text) := by
    rw [List.filter_eq_self]
    intro c hc
    have hpl : ∀ (ts : List Tok), (∀ s ∈ ts, s.ok) → ∀ c ∈ plus (ts.map Tok.text), (!c.isWhitespace) = true := by
      intro ts hts c hc
      simp only [plus, List.mem_flatMap, List.mem_map, List.mem_cons] at hc
      obtain ⟨w, ⟨s, hs, rfl⟩, hc⟩ := hc
      rcases hc with rfl | hc
      · rfl
      · have hk := hts s hs
        cases s with
        | plain w => simp [(hk.2 c hc).2.2.2]
        | smooth i =>
          simp only [Tok.text, List.mem_cons, List.mem_append, List.not_mem_nil, or_false] at hc
          rcases hc with rfl | rfl | hc | rfl
          · rfl
          · rfl
          · simp [(hk c hc).2]
          · rfl
    simp only [List.mem_append, List.mem_cons] at hc
    rcases hc with hc | rfl | hc
    · simp [(hr.2 c hc).2.2.2]
    · rfl
    · refine hpl (t :: ts) ht c ?_
      rw [List.map_cons, joined_cons] at hc
      have e : plus ((t :: ts).map Tok.text) = '+' :: (t.text ++ plus (ts.map Tok.text)) := by simp [plus]
      rw [e]
      exact List.mem_cons_of_mem _ hc
  have hk0 : ∀ s : Tok, s.ok → Word0 s.kept := fun s hs => by cases s; exacts [Or.inr hs, Or.inl rfl]
  have hrm := removed (resp ++ ['~']) (by
    intro h
    rcases List.mem_append.1 h with h | h
    · exact word_paren hr h
    · exact absurd (List.mem_singleton.1 h) (by decide)) t ts ht
  unfold parametric
  rw [hws]
  have e1 : resp ++ '~' :: joined ((t :: ts).map Tok.text) = (resp ++ ['~']) ++ (t.text ++ plus (ts.map Tok.text)) := by
    rw [List.map_cons, joined_cons]; simp
  rw [e1]
  simp only
  rw [hrm]
  have hrt : ∀ c ∈ resp ++ ['~'], isOp c = false := by
    intro c hc
    rcases List.mem_append.1 hc with hc | hc
    · exact (hr.2 c hc).2.1
    · rw [List.mem_singleton.1 hc]; rfl
  rw [collapse_word _ _ hrt, collapse_word _ _ (word0_op (hk0 t (ht t List.mem_cons_self))),
    collapse_plus _ fun w hw => by
      obtain ⟨s, hs, rfl⟩ := List.mem_map.1 hw
      exact hk0 s (ht s (List.mem_cons_of_mem _ hs))]
  obtain ⟨e, he⟩ : ∃ e, e = (if (ts.map Tok.kept).getLast? = some [] then ['+'] else []) := ⟨_, rfl⟩
  have he' : e = ['+'] ∨ e = [] := by rw [he]; split_ifs <;> simp
  rw [← he]
  obtain ⟨ws, hws'⟩ : ∃ ws, ws = (ts.map Tok.kept).filter (· ≠ []) := ⟨_, rfl⟩
  have hW : ∀ w ∈ ws, Word w := by
    intro w hw
    rw [hws'] at hw
    obtain ⟨h1, h2⟩ := List.mem_filter.1 hw
    obtain ⟨s, hs, rfl⟩ := List.mem_map.1 h1
    exact (hk0 s (ht s (List.mem_cons_of_mem _ hs))).resolve_left (by simpa using h2)
  rw [← hws']
  have e2 : afterTilde false (resp ++ ['~'] ++ (t.kept ++ (plus ws ++ e))) = resp ++ '~' :: afterTilde true (t.kept ++ (plus ws ++ e)) := by
    rw [List.append_assoc, tilde_word _ _ _ (fun c h => ⟨(hr.2 c h).2.1, (hr.2 c h).2.2.1⟩) hr.1]
    rfl
  rw [e2]
  -- the text after the tilde
  have body : ∃ b, resp ++ '~' :: afterTilde true (t.kept ++ (plus ws ++ e)) = (resp ++ '~' :: joined (((t :: ts).map Tok.kept).filter (· ≠ []))) ++ b ∧ (b = ['+'] ∨ b = []) := by
    rcases hk0 t (ht t List.mem_cons_self) with h0 | h0
    · rw [List.map_cons, h0]
      have e3 : ([] :: ts.map Tok.kept).filter (· ≠ []) = ws := by rw [hws']; rfl
      rw [e3, List.nil_append]
      cases ws with
      | nil =>
        refine ⟨[], ?_, Or.inr rfl⟩
        rcases he' with h | h <;> simp [h, plus, joined, afterTilde, isOp]
      | cons w ws =>
        refine ⟨e, ?_, he'⟩
        have e4 : plus (w :: ws) ++ e = '+' :: (w ++ (plus ws ++ e)) := by simp [plus]
        obtain ⟨hne, hc⟩ := hW w List.mem_cons_self
        rw [e4, afterTilde]
        simp only [show isOp '+' = true from rfl, Bool.and_self, if_true]
        rw [tilde_word _ _ _ (fun c h => ⟨(hc c h).2.1, (hc c h).2.2.1⟩) hne, tilde_plus _ (fun w h => hW w (List.mem_cons_of_mem _ h)) _ he', joined_cons]
        simp
    · refine ⟨e, ?_, he'⟩
      have e3 : ((t :: ts).map Tok.kept).filter (· ≠ []) = t.kept :: ws := by rw [hws', List.map_cons, List.filter_cons_of_pos (by simpa using h0.1)]
      rw [e3, joined_cons, tilde_word _ _ _ (fun c h => ⟨(h0.2 c h).2.1, (h0.2 c h).2.2.1⟩) h0.1, tilde_plus _ hW _ he']
      simp
  obtain ⟨b, hb, hb'⟩ := body
  have hall : ∀ w ∈ ((t :: ts).map Tok.kept).filter (· ≠ []), Word w := by
    intro w hw
    obtain ⟨h1, h2⟩ := List.mem_filter.1 hw
    obtain ⟨s, hs, rfl⟩ := List.mem_map.1 h1
    exact (hk0 s (ht s hs)).resolve_left (by simpa using h2)
  obtain ⟨vs, hvs⟩ : ∃ vs, vs = ((t :: ts).map Tok.kept).filter (· ≠ []) := ⟨_, rfl⟩
  rw [hb]
  rw [← hvs] at hall ⊢
  by_cases hv : vs = []
  · rw [if_pos hv, hv]
    have hlast : (resp ++ '~' :: joined []).getLast? = some '~' := by simp [joined]
    rw [trim_word _ _ hb' (by intro c hc; rw [hlast] at hc; rw [← Option.some.inj hc]; rfl), finish, if_pos hlast]
    simp [joined]
  · rw [if_neg hv]
    obtain ⟨c, h1, h2, h3⟩ := last_joined vs hall hv
    have hlast : (resp ++ '~' :: joined vs).getLast? = some c := by
      rw [List.getLast?_append, List.getLast?_cons, h1]; rfl
    rw [trim_word _ _ hb' (by intro d hd; rw [hlast] at hd; rw [← Option.some.inj hd]; exact h2), finish, if_neg]
    rw [hlast]
    intro h; exact h3 (Option.some.inj h)

/-- An instance with smooths first, last and repeated. -/
example : parametric "y ~ s(x) + a + s(z, df=5) + s(x) + b + s(w)".toList = "y~a+b".toList := by decide +kernel

/-- **C124** Removal of the intercept is lost when only smooths remain. -/
theorem C124_intercept_violated : parametric "y ~ s(x) - 1".toList = "y~1".toList ∧ parametric "y ~ -1 + s(x)".toList = "y~1".toList ∧
    parametric "y ~ z + s(x) - 1".toList = "y~z-1".toList := by decide +kernel

/-- **C124** A call of a function whose name ends in `s` is taken for a smooth, here `cos(z)`. -/
theorem C124_function_violated : parametric "y ~ s(x) + cos(z)".toList = "y~co".toList ∧
    findArgs 0 ' ' ' ' "y ~ s(x) + cos(z)".toList = ["x".toList, "z".toList] := by decide +kernel

/-- **C124** Of two smooths of a variable only the last is kept. -/
theorem C124_same_variable_violated : smoothDict [("x", "df=5"), ("x", "by=g")] = [("x", "by=g")] := by decide +kernel

end Verif.Gam
