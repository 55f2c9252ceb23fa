import Verif.Sem.OldSemSetup
import Mathlib.Algebra.Order.Ring.Rat
import Mathlib.Data.List.Pairwise
import Mathlib.Data.List.Nodup
import Mathlib.Data.List.Perm.Basic
import Mathlib.Tactic.Linarith
/-!
# C206: free parameters, starting values and labels of the older structural equation model
-/
namespace Verif.Sem.OldSetup

variable {R : Type} [Zero R] [DecidableEq R]

/-! ### Cells in the order of the stacked vector -/

/-- Cells of a matrix column by column; of a lower triangle column by column. -/
def vecCells (p q : ℕ) : List (ℕ × ℕ) := (List.range q).flatMap fun j => (List.range p).map fun i => (i, j)
def vechCells (m : ℕ) : List (ℕ × ℕ) := (List.range m).flatMap fun j => (List.range (m - j)).map fun d => (j + d, j)

theorem vecL_eq (p q : ℕ) (X : ℕ → ℕ → R) : vecL p q X = (vecCells p q).map fun a => X a.1 a.2 := by
  simp only [vecL, vecCells, List.map_flatMap, List.map_map]; rfl

theorem vechL_eq (m : ℕ) (X : ℕ → ℕ → R) : vechL m X = (vechCells m).map fun a => X a.1 a.2 := by
  simp only [vechL, vechCells, List.map_flatMap, List.map_map]; rfl

theorem triuIx_eq (m : ℕ) : triuIx m = (vechCells m).map fun a => (a.2, a.1) := by
  simp only [triuIx, vechCells, List.map_flatMap, List.map_map]; rfl

/-- A cell of one of the four matrices. -/
inductive Cell
  | la (i j : ℕ) | be (i j : ℕ) | ph (i j : ℕ) | ps (i j : ℕ)
deriving DecidableEq

def allCells (p q : ℕ) : List Cell :=
  (vecCells p q).map (fun a => Cell.la a.1 a.2) ++ (vecCells q q).map (fun a => Cell.be a.1 a.2) ++
    (vechCells q).map (fun a => Cell.ph a.1 a.2) ++ (vechCells p).map (fun a => Cell.ps a.1 a.2)

/-- The value in a cell. -/
def cellVal (LA BE PH PS : ℕ → ℕ → R) : Cell → R
  | .la i j => LA i j | .be i j => BE i j | .ph i j => PH i j | .ps i j => PS i j

/-- The free cells in the order of `theta`. -/
def freeCells (p q : ℕ) (LAf BEf PHf PSf : ℕ → ℕ → R) : List Cell :=
  (allCells p q).filter fun c => cellVal LAf BEf PHf PSf c ≠ 0

/-- A label names a cell; a covariance is named in either order. -/
def Names : Lab → Cell → Prop
  | .load x y, .la i j => x = i ∧ y = j
  | .reg x y, .be i j => x = i ∧ y = j
  | .cov x y, .ph i j => (x = i ∧ y = j) ∨ (x = j ∧ y = i)
  | .res x y, .ps i j => (x = i ∧ y = j) ∨ (x = j ∧ y = i)
  | _, _ => False

instance : ∀ l c, Decidable (Names l c) := fun l c => by cases l <;> cases c <;> unfold Names <;> infer_instance

theorem template_eq (p q : ℕ) (LA BE PH PS : ℕ → ℕ → R) :
    paramsTemplate p q LA BE PH PS = (allCells p q).map (cellVal LA BE PH PS) := by
  simp only [paramsTemplate, allCells, List.map_append, List.map_map, vecL_eq, vechL_eq]; rfl

theorem mask_eq (p q : ℕ) (LAf BEf PHf PSf : ℕ → ℕ → R) :
    thetaIndices p q LAf BEf PHf PSf = (allCells p q).map fun c => decide (cellVal LAf BEf PHf PSf c ≠ 0) := by
  have := template_eq p q LAf BEf PHf PSf
  unfold paramsTemplate at this
  rw [thetaIndices, this, List.map_map]; rfl

theorem pick_map {α β : Type} (cs : List α) (f : α → Bool) (g : α → β) : pick (cs.map f) (cs.map g) = (cs.filter f).map g := by
  induction cs with
  | nil => rfl
  | cons c cs ih =>
    simp only [pick, List.map_cons, List.zip_cons_cons, List.filter_cons] at ih ⊢
    by_cases h : f c <;> simp [h, ih]

/-- C206: `theta` starts at the given values of the free cells, in their order. -/
theorem C206_start (p q : ℕ) (LA BE PH PS LAf : ℕ → ℕ → R) :
    theta0 p q LA BE PH PS LAf = (freeCells p q LAf BE PH PS).map (cellVal LA BE PH PS) := by
  rw [theta0, mask_eq, template_eq, pick_map]; rfl

theorem putMask_map {α β : Type} (cs : List α) (f : α → Bool) (g : α → β) (h : α → β) :
    putMask (cs.map f) (cs.map g) ((cs.filter f).map h) = cs.map fun c => if f c then h c else g c := by
  induction cs with
  | nil => rfl
  | cons c cs ih =>
    by_cases hc : f c
    · simp only [List.map_cons, List.filter_cons, hc, if_true, putMask, ih]
    · simp only [List.map_cons, List.filter_cons, hc, if_false, putMask, ih, Bool.false_eq_true]

/-- C206: a vector of parameters goes to the free cells in their order; every other cell keeps its given value. -/
theorem C206_matrices (p q : ℕ) (LA BE PH PS LAf : ℕ → ℕ → R) (h : Cell → R) :
    putMask (thetaIndices p q LAf BE PH PS) (paramsTemplate p q LA BE PH PS) ((freeCells p q LAf BE PH PS).map h) =
      (allCells p q).map fun c => if cellVal LAf BE PH PS c ≠ 0 then h c else cellVal LA BE PH PS c := by
  rw [mask_eq, template_eq]
  have := putMask_map (allCells p q) (fun c => decide (cellVal LAf BE PH PS c ≠ 0)) (cellVal LA BE PH PS) h
  rw [freeCells, this]
  simp only [decide_eq_true_eq]

/-! ### Labels -/

/-- Free cells do not run against each other: further down means not further left. -/
def Mono (p q : ℕ) (X : ℕ → ℕ → R) : Prop :=
  ∀ i i' j j', i < p → i' < p → j < q → j' < q → X i j ≠ 0 → X i' j' ≠ 0 → i < i' → j ≤ j'

theorem mem_whereIx {p q : ℕ} {X : ℕ → ℕ → R} {a : ℕ × ℕ} : a ∈ whereIx p q X ↔ a.1 < p ∧ a.2 < q ∧ X a.1 a.2 ≠ 0 := by
  obtain ⟨i, j⟩ := a
  simp [whereIx]

theorem mem_vecCells {p q : ℕ} {a : ℕ × ℕ} : a ∈ vecCells p q ↔ a.1 < p ∧ a.2 < q := by
  obtain ⟨i, j⟩ := a
  simp [vecCells, and_comm]

/-- Order of the stacked vector. -/
def colLt (a b : ℕ × ℕ) : Prop := a.2 < b.2 ∨ (a.2 = b.2 ∧ a.1 < b.1)
def rowLt (a b : ℕ × ℕ) : Prop := a.1 < b.1 ∨ (a.1 = b.1 ∧ a.2 < b.2)

theorem range_pw (n : ℕ) : (List.range n).Pairwise (· < ·) := List.pairwise_lt_range

theorem vecCells_sorted (p q : ℕ) : (vecCells p q).Pairwise colLt := by
  rw [vecCells, List.pairwise_flatMap]
  refine ⟨fun j _ => ?_, (range_pw q).imp fun {j j'} h a ha b hb => ?_⟩
  · rw [List.pairwise_map]; exact (range_pw p).imp fun h => .inr ⟨rfl, h⟩
  · obtain ⟨_, _, rfl⟩ := List.mem_map.1 ha
    obtain ⟨_, _, rfl⟩ := List.mem_map.1 hb
    exact .inl h

theorem whereIx_sorted (p q : ℕ) (X : ℕ → ℕ → R) : (whereIx p q X).Pairwise rowLt := by
  rw [whereIx, List.pairwise_flatMap]
  refine ⟨fun j _ => ?_, (range_pw p).imp fun {j j'} h a ha b hb => ?_⟩
  · rw [List.pairwise_map]; exact ((range_pw q).sublist List.filter_sublist).imp fun h => .inr ⟨rfl, h⟩
  · obtain ⟨_, _, rfl⟩ := List.mem_map.1 ha
    obtain ⟨_, _, rfl⟩ := List.mem_map.1 hb
    exact .inl h

theorem colLt_asymm {a b : ℕ × ℕ} (h : colLt a b) (h' : colLt b a) : False := by
  unfold colLt at h h'; omega

theorem where_perm (p q : ℕ) (X : ℕ → ℕ → R) : (whereIx p q X).Perm ((vecCells p q).filter fun a => X a.1 a.2 ≠ 0) := by
  have n1 : (whereIx p q X).Nodup := (whereIx_sorted p q X).imp fun h e => by subst e; unfold rowLt at h; omega
  have n2 : ((vecCells p q).filter fun a => X a.1 a.2 ≠ 0).Nodup :=
    List.Nodup.filter _ ((vecCells_sorted p q).imp fun h e => by subst e; unfold colLt at h; omega)
  rw [List.perm_ext_iff_of_nodup n1 n2]
  intro a
  rw [mem_whereIx, List.mem_filter, mem_vecCells]
  simp [and_assoc]

theorem where_eq {p q : ℕ} {X : ℕ → ℕ → R} (h : Mono p q X) : whereIx p q X = (vecCells p q).filter fun a => X a.1 a.2 ≠ 0 := by
  refine List.Perm.eq_of_pairwise (le := colLt) (fun a b _ _ h3 h4 => (colLt_asymm h3 h4).elim) ?_
    ((vecCells_sorted p q).sublist List.filter_sublist) (where_perm p q X)
  refine (whereIx_sorted p q X).imp_of_mem fun {a b} ha hb hab => ?_
  rw [mem_whereIx] at ha hb
  rcases hab with h1 | h1
  · have := h _ _ _ _ ha.1 hb.1 ha.2.1 hb.2.1 ha.2.2 hb.2.2 h1
    unfold colLt; omega
  · unfold colLt; omega

theorem triuLabels_eq (m : ℕ) (X : ℕ → ℕ → R) :
    triuLabels m X = ((vechCells m).filter fun a => X a.1 a.2 ≠ 0).map fun a => (a.2, a.1) := by
  have := pick_map (vechCells m) (fun a => decide (X a.1 a.2 ≠ 0)) (fun a => (a.2, a.1))
  rw [← this]
  simp only [triuLabels, vechL_eq, triuIx_eq, pick, List.map_map]; rfl

theorem filter_all (p q : ℕ) (LAf BEf PHf PSf : ℕ → ℕ → R) : freeCells p q LAf BEf PHf PSf =
    ((vecCells p q).filter fun a => LAf a.1 a.2 ≠ 0).map (fun a => Cell.la a.1 a.2) ++
    ((vecCells q q).filter fun a => BEf a.1 a.2 ≠ 0).map (fun a => Cell.be a.1 a.2) ++
    ((vechCells q).filter fun a => PHf a.1 a.2 ≠ 0).map (fun a => Cell.ph a.1 a.2) ++
    ((vechCells p).filter fun a => PSf a.1 a.2 ≠ 0).map (fun a => Cell.ps a.1 a.2) := by
  simp only [freeCells, allCells, List.filter_append, List.filter_map]; rfl

/-- The label the cell should have. -/
def labOf : Cell → Lab
  | .la i j => .load i j | .be i j => .reg i j | .ph i j => .cov j i | .ps i j => .res j i

theorem names_labOf (c : Cell) : Names (labOf c) c := by cases c <;> simp [labOf, Names]

theorem labels_split (p q : ℕ) (LAf BEf PHf PSf : ℕ → ℕ → R) : labels p q LAf BEf PHf PSf =
    (whereIx p q LAf).map (fun a => Lab.load a.1 a.2) ++ (whereIx q q BEf).map (fun a => Lab.reg a.1 a.2) ++
    (((vechCells q).filter fun a => PHf a.1 a.2 ≠ 0).map (fun a => Cell.ph a.1 a.2)).map labOf ++
    (((vechCells p).filter fun a => PSf a.1 a.2 ≠ 0).map (fun a => Cell.ps a.1 a.2)).map labOf := by
  rw [labels, triuLabels_eq, triuLabels_eq]
  simp only [List.map_map]; rfl

/-- C206: every free parameter has exactly one label, in some order. -/
theorem C206_label_set (p q : ℕ) (LAf BEf PHf PSf : ℕ → ℕ → R) :
    (labels p q LAf BEf PHf PSf).Perm ((freeCells p q LAf BEf PHf PSf).map labOf) := by
  rw [labels_split, filter_all, List.map_append, List.map_append, List.map_append]
  refine List.Perm.append (List.Perm.append (List.Perm.append ?_ ?_) (.refl _)) (.refl _)
  · rw [List.map_map]; exact (where_perm p q LAf).map _
  · rw [List.map_map]; exact (where_perm q q BEf).map _

/-- C206: where the free loadings and the free regressions do not run against each other, the label at every position names
the parameter at that position. -/
theorem C206_labels_partial {p q : ℕ} {LAf BEf : ℕ → ℕ → R} (PHf PSf : ℕ → ℕ → R) (hL : Mono p q LAf) (hB : Mono q q BEf) :
    labels p q LAf BEf PHf PSf = (freeCells p q LAf BEf PHf PSf).map labOf ∧
      List.Forall₂ Names (labels p q LAf BEf PHf PSf) (freeCells p q LAf BEf PHf PSf) := by
  have e : labels p q LAf BEf PHf PSf = (freeCells p q LAf BEf PHf PSf).map labOf := by
    rw [labels_split, filter_all, where_eq hL, where_eq hB]
    simp only [List.map_append, List.map_map]; rfl
  refine ⟨e, ?_⟩
  rw [e, List.forall₂_map_left_iff]
  exact List.forall₂_same.2 fun c _ => names_labOf c

/-- Blocks of indicators, each on its own latent variable, satisfy the hypothesis. -/
example : Mono 4 2 (fun i j => if (i < 2 ↔ j = 0) then (1 : ℚ) else 0) := by
  intro i i' j j' h1 h2 h3 h4 h5 h6 h7
  have h5 : (i < 2 ↔ j = 0) := by by_contra h; exact h5 (if_neg h)
  have h6 : (i' < 2 ↔ j' = 0) := by by_contra h; exact h6 (if_neg h)
  omega

/-- C206 fails: with a loading on the second latent variable above one on the first, the estimates of the two loadings
carry each other's labels; so do two regressions that run against each other. -/
theorem C206_labels_violated :
    (let LAf : ℕ → ℕ → ℚ := fun i j => if (i, j) ∈ [(0, 1), (1, 0)] then 1 else 0
     (labels 2 2 LAf (fun _ _ => 0) (fun _ _ => 0) fun _ _ => 0) = [.load 0 1, .load 1 0] ∧
      freeCells 2 2 LAf (fun _ _ => 0) (fun _ _ => 0) (fun _ _ => 0) = [.la 1 0, .la 0 1]) ∧
    (let BEf : ℕ → ℕ → ℚ := fun i j => if (i, j) ∈ [(0, 1), (2, 0)] then 1 else 0
     (labels 2 3 (fun _ _ => 0) BEf (fun _ _ => 0) fun _ _ => 0) = [.reg 0 1, .reg 2 0] ∧
      freeCells 2 3 (fun _ _ => 0) BEf (fun _ _ => 0) (fun _ _ => 0) = [.be 2 0, .be 0 1]) := by
  decide +kernel

/-! ### Indicators -/

/-- C206: with `indicator_vars` holding the value of the loading at the indicators and zero elsewhere, exactly the
other nonzero loadings are free. -/
theorem C206_given_partial (LA ind : ℕ → ℕ → ℚ) (h : ∀ r c, ind r c = 0 ∨ ind r c = LA r c) (r c : ℕ) :
    indGiven LA ind r c ≠ 0 ↔ LA r c ≠ 0 ∧ ind r c = 0 := by
  unfold indGiven
  rcases h r c with h | h
  · simp [h]
  · rw [h, sub_self]; simp

/-- C206 fails: marking an indicator with one fixes nothing when its loading has another value, and a mark where
the loading is zero makes that loading free. -/
theorem C206_given_violated :
    (let LA : ℕ → ℕ → ℚ := fun _ _ => 7 / 10
     let ind : ℕ → ℕ → ℚ := fun r _ => if r = 0 then 1 else 0
     ∀ r c, indGiven LA ind r c ≠ 0) ∧
    indGiven (fun _ _ => (0 : ℚ)) (fun _ _ => 1) 0 0 ≠ 0 := by
  refine ⟨fun r c => ?_, by norm_num [indGiven]⟩
  simp only [indGiven]
  split_ifs <;> norm_num

/-- The documented default: the first variable that loads on the latent variable is fixed — sem.py 54-55. -/
def firstLoading (p : ℕ) (c : ℕ → R) : Option ℕ := (List.range p).find? fun r => c r ≠ 0

theorem argmax_spec (p : ℕ) (c : ℕ → ℚ) : ∀ r < p, c r ≤ c (argmax p c) ∧ (r < argmax p c → c r < c (argmax p c)) := by
  have H : ∀ n, n ≤ p → ∀ r < n, c r ≤ c (argmax n c) ∧ (r < argmax n c → c r < c (argmax n c)) ∧ argmax n c < n := by
    intro n
    induction n with
    | zero => intro _ r hr; omega
    | succ n ih =>
      intro hn r hr
      have e : argmax (n + 1) c = if c n ≤ c (argmax n c) then argmax n c else n := by
        simp only [argmax, List.range_succ, List.foldl_append, List.foldl_cons, List.foldl_nil]
        congr
      rw [e]
      rcases Nat.eq_zero_or_pos n with h0 | h0
      · subst h0
        have hr : r = 0 := by omega
        subst hr
        have : argmax 0 c = 0 := rfl
        rw [this, if_pos (le_refl _)]
        exact ⟨le_refl _, fun h => absurd h (lt_irrefl _), by omega⟩
      split_ifs with h1
      · rcases Nat.lt_succ_iff_lt_or_eq.1 hr with h2 | h2
        · have := ih (by omega) r h2; exact ⟨this.1, this.2.1, by omega⟩
        · subst h2
          have := ih (by omega) 0 h0
          exact ⟨h1, fun h => absurd h (by omega), by omega⟩
      · rcases Nat.lt_succ_iff_lt_or_eq.1 hr with h2 | h2
        · have := (ih (by omega) r h2).1
          exact ⟨by linarith, fun _ => by linarith, by omega⟩
        · subst h2; exact ⟨le_refl _, fun h => absurd h (lt_irrefl _), by omega⟩
  intro r hr
  exact ⟨(H p le_rfl r hr).1, (H p le_rfl r hr).2.1⟩

/-- C206: where the nonzero values given for the loadings of a latent variable are all the same positive number, the
variable fixed is the first that loads on it. -/
theorem C206_default_partial (p : ℕ) (c : ℕ → ℚ) {a : ℚ} (ha : 0 < a) (h : ∀ r, c r = 0 ∨ c r = a) (r : ℕ)
    (hr : firstLoading p c = some r) : argmax p c = r := by
  have h1 := List.find?_some hr
  have h2 : r < p := List.mem_range.1 (List.mem_of_find?_eq_some hr)
  have hcr : c r = a := by rcases h r with h' | h' <;> simp_all
  have hs := argmax_spec p c r h2
  have hge : c (argmax p c) = a := by
    rcases h (argmax p c) with h' | h'
    · rw [h', hcr] at hs; linarith [hs.1]
    · exact h'
  rcases lt_trichotomy r (argmax p c) with h3 | h3 | h3
  · have := hs.2 h3; rw [hcr, hge] at this; exact absurd this (lt_irrefl _)
  · exact h3.symm
  · exfalso
    rw [firstLoading, List.find?_range_eq_some] at hr
    have := hr.2.2 _ h3
    rw [hge] at this
    simp [ha.ne'] at this

theorem indDefault_apply (p q : ℕ) (LA PH : ℕ → ℕ → ℚ) (r c : ℕ) : indDefault p q LA PH r c =
    if c < q ∧ (PH c c ≠ 0 ∨ ((List.range p).filter fun r => LA r c ≠ 0).length = 1) ∧ r = argmax p (fun r => LA r c) then 0 else LA r c := by
  induction q generalizing r c with
  | zero => rw [if_neg (by omega)]; rfl
  | succ q ih =>
    have e : indDefault p (q + 1) LA PH = if PH q q ≠ 0 ∨ ((List.range p).filter fun r => indDefault p q LA PH r q ≠ 0).length = 1 then
        fun r c => if r = argmax p (fun r => indDefault p q LA PH r q) ∧ c = q then 0 else indDefault p q LA PH r c
        else indDefault p q LA PH := by
      simp only [indDefault, List.range_succ, List.foldl_append, List.foldl_cons, List.foldl_nil]
    have e2 : ∀ r, indDefault p q LA PH r q = LA r q := fun r => by rw [ih, if_neg (by omega)]
    simp only [e2] at e
    rw [e]
    rcases lt_trichotomy c q with hc | hc | hc
    · have : ∀ P : Prop, (c < q + 1 ∧ P) ↔ (c < q ∧ P) := fun P => by constructor <;> rintro ⟨_, h⟩ <;> exact ⟨by omega, h⟩
      simp only [this]
      rw [← ih]
      split_ifs <;> simp [hc.ne]
    · subst hc
      by_cases h1 : PH c c ≠ 0 ∨ ((List.range p).filter fun r => LA r c ≠ 0).length = 1
      · rw [if_pos h1]
        simp only [h1, true_and, and_true, e2, show c < c + 1 by omega]
      · rw [if_neg h1, e2, if_neg (fun h => h1 h.2.1)]
    · conv_rhs => rw [if_neg (by omega)]
      have h2 : indDefault p q LA PH r c = LA r c := by rw [ih, if_neg (by omega)]
      split_ifs <;> simp [hc.ne', h2]

/-- C206: the same for the whole matrix: of every latent variable with a variance, or with a single loading, the first
loading is fixed; all other nonzero loadings are free. -/
theorem C206_indicators_partial (p q : ℕ) (LA PH : ℕ → ℕ → ℚ) {a : ℚ} (ha : 0 < a) (h : ∀ r c, LA r c = 0 ∨ LA r c = a) {r c : ℕ}
    (hr : r < p) (hc : c < q) (hP : PH c c ≠ 0) :
    indDefault p q LA PH r c ≠ 0 ↔ LA r c ≠ 0 ∧ firstLoading p (fun r => LA r c) ≠ some r := by
  rw [indDefault_apply]
  by_cases h0 : LA r c = 0
  · simp [h0]
  rcases hf : firstLoading p (fun r => LA r c) with _ | f
  · exfalso
    rw [firstLoading, List.find?_eq_none] at hf
    exact absurd (hf r (List.mem_range.2 hr)) (by simp [h0])
  · rw [C206_default_partial p _ ha (fun r => h r c) f hf]
    by_cases e : r = f
    · simp [e, hc, hP]
    · simp [e, h0, Ne.symm e]

/-- C206 fails: the loading with the largest value is fixed, not the first; with negative values a zero
cell is chosen and no loading is fixed although the variance of the latent variable is free. -/
theorem C206_default_violated :
    (let LA : ℕ → ℕ → ℚ := fun r _ => if r = 0 then 1 / 2 else if r = 1 then 4 / 5 else 0
     firstLoading 3 (fun r => LA r 0) = some 0 ∧
      (List.range 3).map (fun r => indDefault 3 1 LA (fun _ _ => 1) r 0) = [1 / 2, 0, 0]) ∧
    (let LA : ℕ → ℕ → ℚ := fun r _ => if r < 2 then -1 else 0
     (List.range 3).map (fun r => indDefault 3 1 LA (fun _ _ => 1) r 0) = [-1, -1, 0]) := by
  decide +kernel

/-! ### Alignment and optional arguments -/

/-- C206: the loadings of the variable at a position are those of its own row. -/
theorem C206_align_loadings {ν : Type} [DecidableEq ν] (L Psi : Frame ν R) (sIdx : List ν) {LA PS : ℕ → ℕ → R}
    (h : setupLP L Psi sIdx = some (LA, PS)) {i : ℕ} {a : ν} (hi : sIdx[i]? = some a) (j : ℕ) :
    a ∈ L.idx ∧ LA i j = L.val (L.idx.idxOf a) j := by
  unfold setupLP locRows at h
  split_ifs at h with hm
  · rw [Option.map_some, Option.some.injEq, Prod.mk.injEq] at h
    refine ⟨?_, ?_⟩
    · have := List.all_eq_true.1 hm a (List.mem_of_getElem? hi); simpa using this
    · rw [← h.1]; simp only [hi]
  · simp at h

/-- C206: the residual variances belong to the right variables if `Psi` has the order of the covariance. -/
theorem C206_align_partial {ν : Type} [DecidableEq ν] (L Psi : Frame ν R) (sIdx : List ν) (hn : sIdx.Nodup) (hp : Psi.idx = sIdx)
    {LA PS : ℕ → ℕ → R} (h : setupLP L Psi sIdx = some (LA, PS)) {i j : ℕ} {a b : ν} (hi : sIdx[i]? = some a) (hj : sIdx[j]? = some b) :
    PS i j = Psi.val (Psi.idx.idxOf a) (Psi.idx.idxOf b) := by
  have e : ∀ {k : ℕ} {c : ν}, sIdx[k]? = some c → Psi.idx.idxOf c = k := fun {k c} hk => by
    obtain ⟨hk1, rfl⟩ := List.getElem?_eq_some_iff.1 hk
    rw [hp]; exact hn.idxOf_getElem k hk1
  rw [e hi, e hj]
  unfold setupLP at h
  rcases hl : locRows L sIdx with _ | l
  · rw [hl] at h; simp at h
  · rw [hl, Option.map_some, Option.some.injEq, Prod.mk.injEq] at h; rw [← h.2]

def exL : Frame String ℚ := ⟨["a", "b"], fun _ _ => 1⟩
def exPsi : Frame String ℚ := ⟨["a", "b"], fun i j => if i = j then (i : ℚ) + 1 else 0⟩

/-- C206 fails: with `Lambda` and `Psi` in one order and the covariance in another, only `Lambda` is reordered and the
residual variances go to the wrong variables. -/
theorem C206_align_violated : ∃ (L Psi : Frame String ℚ) (sIdx : List String) (LA PS : ℕ → ℕ → ℚ), L.idx = Psi.idx ∧
    setupLP L Psi sIdx = some (LA, PS) ∧ sIdx[0]? = some "b" ∧ PS 0 0 = 1 ∧ Psi.val (Psi.idx.idxOf "b") (Psi.idx.idxOf "b") = 2 := by
  refine ⟨exL, exPsi, ["b", "a"], (locRows exL ["b", "a"]).getD fun _ _ => 0, exPsi.val, rfl, ?_, rfl, ?_, ?_⟩
  · rw [setupLP, locRows, if_pos (by decide), Option.map_some, Option.getD_some]
  · simp [exPsi]
  · have : exPsi.idx.idxOf "b" = 1 := by decide
    rw [this]; norm_num [exPsi]

/-- C206 fails: a covariance without data, documented as sufficient, raises. -/
theorem C206_cov_only_raises_violated {D S : Type} (cov : D → S) (nrow : D → ℕ) (s : S) : nObs cov nrow none (some s) = none := rfl

/-- C206: with data the given covariance is used, and otherwise that of the data. -/
theorem C206_data {D S : Type} (cov : D → S) (nrow : D → ℕ) (d : D) (S0 : Option S) :
    nObs cov nrow (some d) S0 = some (S0.getD (cov d), nrow d) := by cases S0 <;> rfl

end Verif.Sem.OldSetup
