import Verif.Lmm.ReDesign
import Mathlib.Tactic.Ring
import Mathlib.Tactic.Linarith
/-!
# C202: the design and the covariance of the random effects
-/
namespace Verif.Lmm.ReDesign
open Finset
variable {nv ng : ℕ}

theorem pos_div {k o a : ℕ} (ha : a < k) : (o * k + a) / k = o := by
  rw [add_comm, Nat.add_mul_div_right _ _ (by omega), Nat.div_eq_of_lt ha, zero_add]

theorem pos_mod {k o a : ℕ} (ha : a < k) : (o * k + a) % k = a := by
  rw [add_comm, Nat.add_mul_mod_self_right, Nat.mod_eq_of_lt ha]

theorem sum_blocks (p k : ℕ) (f : ℕ → ℝ) : ∑ c ∈ range (p * k), f c = ∑ x ∈ range p, ∑ b ∈ range k, f (x * k + b) := by
  induction p with
  | zero => simp
  | succ p ih => rw [sum_range_succ, ← ih, Nat.succ_mul, sum_range_add]

/-- The design of a term gives every row the linear predictor with the random effects of its own level, stored as a block of `nv`
starting at `level * nv`. -/
theorem C202_design (X : ℕ → ℕ → ℝ) (lev : ℕ → ℕ) (u : ℕ → ℝ) {i : ℕ} (h : lev i < ng) :
    ∑ c ∈ range (ng * nv), kr nv (dummy lev) X i c * u c = ∑ v ∈ range nv, X i v * u (lev i * nv + v) := by
  rw [sum_blocks, sum_eq_single_of_mem (lev i) (mem_range.2 h)]
  · refine sum_congr rfl fun v hv => ?_
    rw [kr, pos_div (mem_range.1 hv), pos_mod (mem_range.1 hv), dummy, if_pos rfl, one_mul]
  · intro g _ hg
    refine sum_eq_zero fun v hv => ?_
    rw [kr, pos_div (mem_range.1 hv), dummy, if_neg (fun h => hg h.symm), zero_mul, zero_mul]

/-- In the stacked model the row of observation `o` and response `a` has the random effects of its level and response; the effects
of a level are a block of `nv * k`, the order of the covariance given to it. -/
theorem C202_stacked (X : ℕ → ℕ → ℝ) (lev : ℕ → ℕ) (u : ℕ → ℝ) {k o a : ℕ} (ha : a < k) (h : lev o < ng) :
    ∑ c ∈ range (ng * nv * k), kronI k (kr nv (dummy lev) X) (o * k + a) c * u c =
      ∑ v ∈ range nv, X o v * u (lev o * (nv * k) + (v * k + a)) := by
  rw [sum_blocks]
  have : ∀ c, ∑ b ∈ range k, kronI k (kr nv (dummy lev) X) (o * k + a) (c * k + b) * u (c * k + b) =
      kr nv (dummy lev) X o c * u (c * k + a) := by
    intro c
    rw [sum_eq_single_of_mem a (mem_range.2 ha)]
    · rw [kronI, pos_div ha, pos_div ha, pos_mod ha, pos_mod ha, if_pos rfl, mul_one]
    · intro b hb hba
      rw [kronI, pos_mod ha, pos_mod (mem_range.1 hb), if_neg (fun h => hba h.symm), mul_zero, zero_mul]
  simp only [this]
  rw [C202_design X lev (fun c => u (c * k + a)) h]
  refine sum_congr rfl fun v _ => ?_
  congr 2
  ring

theorem pos3 {g j i : ℕ} (hj : j < nv) (hi : i < nv) :
    cooRow nv (g * (nv * nv) + (j * nv + i)) = g * nv + j ∧ cooCol nv (g * (nv * nv) + (j * nv + i)) = g * nv + i ∧
      (g * (nv * nv) + (j * nv + i)) % (nv * nv) = j * nv + i := by
  have hlt : j * nv + i < nv * nv := by
    calc j * nv + i < j * nv + nv := by omega
      _ = (j + 1) * nv := by ring
      _ ≤ nv * nv := Nat.mul_le_mul_right _ hj
  refine ⟨?_, ?_, pos_mod hlt⟩
  · rw [cooRow, show g * (nv * nv) + (j * nv + i) = (g * nv + j) * nv + i by ring, pos_div hi]
  · rw [cooCol, pos_div hlt, show g * (nv * nv) + (j * nv + i) = (g * nv + j) * nv + i by ring, pos_mod hi]

/-- The covariance of a term is block diagonal with the covariance of the variables for every level. -/
theorem C202_gcov {S : ℕ → ℕ → ℝ} (hS : ∀ i j, S i j = S j i) {g g' j i : ℕ} (hg : g < ng) (hj : j < nv) (hi : i < nv) :
    coo ng nv S (g * nv + j) (g' * nv + i) = if g = g' then S j i else 0 := by
  unfold coo
  rw [sum_blocks]
  have hb : ∀ x, ∑ b ∈ range (nv * nv), (if cooRow nv (x * (nv * nv) + b) = g * nv + j ∧ cooCol nv (x * (nv * nv) + b) = g' * nv + i then
      cooDat nv S (x * (nv * nv) + b) else 0) = if x = g ∧ x = g' then S j i else 0 := by
    intro x
    rw [sum_blocks]
    have he : ∀ a ∈ range nv, ∀ b ∈ range nv, (if cooRow nv (x * (nv * nv) + (a * nv + b)) = g * nv + j ∧
        cooCol nv (x * (nv * nv) + (a * nv + b)) = g' * nv + i then cooDat nv S (x * (nv * nv) + (a * nv + b)) else 0) =
        if x = g ∧ a = j ∧ x = g' ∧ b = i then S b a else 0 := by
      intro a ha b hb
      obtain ⟨p1, p2, p3⟩ := pos3 (g := x) (mem_range.1 ha) (mem_range.1 hb)
      have q : ∀ {x g a j : ℕ}, a < nv → j < nv → (x * nv + a = g * nv + j ↔ x = g ∧ a = j) := by
        intro x g a j h1 h2
        constructor
        · intro h
          have d := congrArg (· / nv) h
          have m := congrArg (· % nv) h
          simp only [pos_div h1, pos_div h2, pos_mod h1, pos_mod h2] at d m
          exact ⟨d, m⟩
        · rintro ⟨rfl, rfl⟩; rfl
      rw [p1, p2, cooDat, p3, thetaF, pos_mod (mem_range.1 hb), pos_div (mem_range.1 hb)]
      simp only [q (mem_range.1 ha) hj, q (mem_range.1 hb) hi, and_assoc]
    rw [sum_congr rfl fun a ha => sum_congr rfl fun b hb => he a ha b hb, sum_eq_single_of_mem j (mem_range.2 hj),
      sum_eq_single_of_mem i (mem_range.2 hi)]
    · by_cases h : x = g ∧ x = g'
      · rw [if_pos h, if_pos ⟨h.1, rfl, h.2, rfl⟩, hS]
      · rw [if_neg h, if_neg (fun h' => h ⟨h'.1, h'.2.2.1⟩)]
    · intro b _ hb
      rw [if_neg (fun h => hb h.2.2.2)]
    · intro a _ ha
      exact sum_eq_zero fun b _ => if_neg (fun h => ha h.2.1)
  rw [sum_congr rfl fun x _ => hb x, sum_eq_single_of_mem g (mem_range.2 hg)]
  · simp
  · intro x _ hx
    rw [if_neg (fun h => hx h.1)]

/-- Updating the stored entries puts the entry of the covariance of the variables at its place in the block of every level. -/
theorem C202_update (S : ℕ → ℕ → ℝ) {g j i : ℕ} (hj : j < nv) (hi : i < nv) :
    let t := g * (nv * nv) + (i * nv + j)
    cscRow nv t = g * nv + j ∧ cscCol nv t = g * nv + i ∧ updDat nv S t = S j i := by
  intro t
  obtain ⟨p1, p2, p3⟩ := pos3 (g := g) hi hj
  have e1 : t / nv = g * nv + i := p1
  have e2 : t % nv = j := by
    show (g * (nv * nv) + (i * nv + j)) % nv = j
    rw [show g * (nv * nv) + (i * nv + j) = (g * nv + i) * nv + j by ring, pos_mod hj]
  refine ⟨?_, e1, ?_⟩
  · rw [cscRow, e1, e2, pos_div hi]
  · rw [updDat, p3, thetaF, pos_mod hj, pos_div hj]

section dict
variable {d : List (ℕ × ℕ × ℕ)} {key : ℕ} {v : ℕ × ℕ}

theorem any_iff : (d.any fun e => e.1 == key) = true ↔ key ∈ d.map Prod.fst := by
  rw [List.any_eq_true, List.mem_map]
  exact exists_congr fun e => and_congr_right fun _ => beq_iff_eq

theorem upd_new (h : key ∉ d.map Prod.fst) : upd d key v = d ++ [(key, v)] := by
  rw [upd, if_neg (fun hc => h (any_iff.1 hc))]

theorem upd_keys_old (h : key ∈ d.map Prod.fst) : (upd d key v).map Prod.fst = d.map Prod.fst := by
  rw [upd, if_pos (any_iff.2 h), List.map_map]
  refine List.map_congr_left fun e _ => ?_
  simp only [Function.comp]
  split_ifs with hc
  · exact (beq_iff_eq.1 hc).symm
  · rfl

theorem keys_nodup (h : (d.map Prod.fst).Nodup) : ((upd d key v).map Prod.fst).Nodup := by
  by_cases hk : key ∈ d.map Prod.fst
  · rwa [upd_keys_old hk]
  · rw [upd_new hk, List.map_append, List.nodup_append]
    refine ⟨h, by simp, ?_⟩
    intro a ha b hb hab
    simp only [List.map_cons, List.map_nil, List.mem_singleton] at hb
    exact hk (hb ▸ hab ▸ ha)

/-- Replacing the value of a key that is present. -/
theorem gDim_old (hd : (d.map Prod.fst).Nodup) (h : key ∈ d.map Prod.fst) (hp : ∀ e ∈ d, 0 < e.2.1 * e.2.2) :
    gDim (upd d key v) < gDim d + v.1 * v.2 := by
  rw [upd, if_pos (any_iff.2 h)]
  induction d with
  | nil => simp at h
  | cons e d ih =>
    simp only [List.map_cons, List.nodup_cons, List.mem_cons] at hd h
    have hpe := hp e (by simp)
    unfold gDim at ih ⊢
    simp only [List.map_cons, List.sum_cons]
    by_cases he : e.1 = key
    · have hnm : key ∉ d.map Prod.fst := he ▸ hd.1
      have hmap : d.map (fun e => if e.1 == key then (key, v) else e) = d := by
        refine (List.map_congr_left fun x hx => ?_).trans (List.map_id d)
        have : x.1 ≠ key := fun hc => hnm (List.mem_map.2 ⟨x, hx, hc⟩)
        simp [this]
      rw [if_pos (beq_iff_eq.2 he), hmap]
      show v.1 * v.2 + _ < _
      omega
    · rw [if_neg (fun hc => he (beq_iff_eq.1 hc))]
      have := ih hd.2 (h.resolve_left (fun hc => he hc.symm)) (fun x hx => hp x (by simp [hx]))
      omega

theorem gDim_new (h : key ∉ d.map Prod.fst) : gDim (upd d key v) = gDim d + v.1 * v.2 := by
  rw [upd_new h]
  simp [gDim]
end dict

section groups
variable {nvf ngf : ℕ → ℕ}

theorem dims_snoc (gs : List (ℕ × ℕ)) (g : ℕ × ℕ) : dims ngf nvf (gs ++ [g]) = upd (dims ngf nvf gs) g.2 (ngf g.2, nvf g.1) := by
  simp [dims, List.foldl_append]

theorem zCols_snoc (gs : List (ℕ × ℕ)) (g : ℕ × ℕ) : zCols ngf nvf (gs ++ [g]) = zCols ngf nvf gs + ngf g.2 * nvf g.1 := by
  simp [zCols]

/-- The items of the dictionary: a key for every grouping factor. -/
theorem dims_inv (gs : List (ℕ × ℕ)) (hp : ∀ g ∈ gs, 0 < ngf g.2 * nvf g.1) :
    ((dims ngf nvf gs).map Prod.fst).Nodup ∧ (∀ y, y ∈ (dims ngf nvf gs).map Prod.fst ↔ y ∈ gs.map Prod.snd) ∧
      (∀ e ∈ dims ngf nvf gs, 0 < e.2.1 * e.2.2) ∧ gDim (dims ngf nvf gs) ≤ zCols ngf nvf gs ∧
      (¬(gs.map Prod.snd).Nodup → gDim (dims ngf nvf gs) < zCols ngf nvf gs) := by
  induction gs using List.reverseRecOn with
  | nil => simp [dims, gDim, zCols]
  | append_singleton gs g ih =>
    obtain ⟨i1, i2, i3, i4, i5⟩ := ih (fun x hx => hp x (by simp [hx]))
    have hpg := hp g (by simp)
    rw [dims_snoc, zCols_snoc]
    by_cases hk : g.2 ∈ (dims ngf nvf gs).map Prod.fst
    · have hlt := gDim_old (v := (ngf g.2, nvf g.1)) i1 hk i3
      refine ⟨keys_nodup i1, fun y => ?_, fun e he => ?_, by dsimp only at hlt; omega, fun _ => by dsimp only at hlt; omega⟩
      · rw [upd_keys_old hk, i2, List.map_append, List.mem_append]
        refine ⟨Or.inl, fun h => h.elim id fun h => ?_⟩
        simp only [List.map_cons, List.map_nil, List.mem_singleton] at h
        exact h ▸ (i2 g.2).1 hk
      · rw [upd, if_pos (any_iff.2 hk)] at he
        obtain ⟨x, hx, rfl⟩ := List.mem_map.1 he
        split_ifs with hc
        · exact hpg
        · exact i3 x hx
    · have heq := gDim_new (v := (ngf g.2, nvf g.1)) hk
      refine ⟨keys_nodup i1, fun y => ?_, fun e he => ?_, by dsimp only at heq; omega, fun hnd => ?_⟩
      · rw [upd_new hk, List.map_append, List.map_append, List.mem_append, List.mem_append, i2]
        simp
      · rw [upd_new hk, List.mem_append] at he
        rcases he with he | he
        · exact i3 e he
        · rw [List.mem_singleton.1 he]
          exact hpg
      · rw [heq]
        have : ¬(gs.map Prod.snd).Nodup := fun hn => hnd (by
          rw [List.map_append, List.nodup_append]
          refine ⟨hn, by simp, ?_⟩
          intro a ha b hb hab
          simp only [List.map_cons, List.map_nil, List.mem_singleton] at hb
          exact hk ((i2 _).2 (hb ▸ hab ▸ ha)))
        have := i5 this
        dsimp only
        omega

/-- If no grouping factor occurs twice, the dictionary has the terms in their order and the covariance has the order of the number of
columns of the design. -/
theorem C202_dims_partial (gs : List (ℕ × ℕ)) (h : (gs.map Prod.snd).Nodup) :
    dims ngf nvf gs = gs.map (fun g => (g.2, ngf g.2, nvf g.1)) ∧ gDim (dims ngf nvf gs) = zCols ngf nvf gs := by
  have key : dims ngf nvf gs = gs.map (fun g => (g.2, ngf g.2, nvf g.1)) := by
    induction gs using List.reverseRecOn with
    | nil => rfl
    | append_singleton gs g ih =>
      rw [List.map_append, List.nodup_append] at h
      rw [dims_snoc, ih h.1, upd_new, List.map_append]
      · rfl
      · intro hc
        simp only [List.map_map] at hc
        exact h.2.2 g.2 (by simpa [Function.comp] using hc) g.2 (by simp) rfl
  refine ⟨key, ?_⟩
  rw [key, gDim, zCols, List.map_map]
  rfl

/-- If a grouping factor occurs in two terms, the second replaces the first in the dictionary: the covariance has fewer rows than the
design has columns. -/
theorem C202_dims_violated (gs : List (ℕ × ℕ)) (hp : ∀ g ∈ gs, 0 < ngf g.2 * nvf g.1) (h : ¬(gs.map Prod.snd).Nodup) :
    gDim (dims ngf nvf gs) < zCols ngf nvf gs := (dims_inv gs hp).2.2.2.2 h

/-- `(1|g) + (x|g)` with one and two columns and three levels. -/
example : gDim (dims (fun _ => 3) (fun x => x + 1) [(0, 0), (1, 0)]) = 6 ∧ zCols (fun _ => 3) (fun x => x + 1) [(0, 0), (1, 0)] = 9 := by
  decide
end groups

end Verif.Lmm.ReDesign
