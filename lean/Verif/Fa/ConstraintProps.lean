import Verif.Fa.Theta
import Verif.Fa.RotationProps
import Verif.Fa.LayoutProps
/-! # C86: Jacobians of the identification constraints -/
namespace Verif.Fa
open Matrix Verif.Calc Verif.Index Verif.Np Verif.Vec

variable {p m : ℕ}

/-! ## positions -/

theorem tri_length (m : ℕ) : (tri m).length = nS m := length_tril1 m

theorem tri_mem {k : ℕ} (hk : k < nS m) : (tri m).getD k (0, 0) ∈ tri m := by
  rw [List.getD_eq_getElem _ _ (by rw [tri_length]; exact hk)]; exact List.getElem_mem _

theorem rc_lt {k : ℕ} (hk : k < nS m) : colJ m k < rowI m k ∧ rowI m k < m :=
  mem_tril1.1 (tri_mem hk)

/-- Row of the `k`-th pair. -/
def rF {k : ℕ} (hk : k < nS m) : Fin m := ⟨rowI m k, (rc_lt hk).2⟩
/-- Column of the `k`-th pair. -/
def cF {k : ℕ} (hk : k < nS m) : Fin m := ⟨colJ m k, (rc_lt hk).1.trans (rc_lt hk).2⟩

theorem cF_lt_rF {k : ℕ} (hk : k < nS m) : cF hk < rF hk := (rc_lt hk).1

theorem idx_tri {k : ℕ} (hk : k < nS m) : (tri m).idxOf (rowI m k, colJ m k) = k := by
  have h : k < (tri m).length := by rw [tri_length]; exact hk
  rw [rowI, colJ, Prod.mk.eta, List.getD_eq_getElem _ _ h]
  exact (nodup_tril1 m).idxOf_getElem k h

theorem idx_lt {i j : Fin m} (h : j < i) : (tri m).idxOf ((i : ℕ), (j : ℕ)) < nS m := by
  rw [← tri_length]; exact List.idxOf_lt_length_iff.2 (mem_tril1.2 ⟨h, i.2⟩)

theorem tri_idx {i j : Fin m} (h : j < i) : (tri m).getD ((tri m).idxOf ((i : ℕ), (j : ℕ))) (0, 0) = ((i : ℕ), (j : ℕ)) := by
  have h1 : (tri m).idxOf ((i : ℕ), (j : ℕ)) < (tri m).length := List.idxOf_lt_length_iff.2 (mem_tril1.2 ⟨h, i.2⟩)
  rw [List.getD_eq_getElem _ _ h1, List.getElem_idxOf]

/-- Sums over the positions of the strict lower triangle. -/
theorem sum_nS (F : ℕ → ℕ → ℕ → ℝ) : ∑ k ∈ Finset.range (nS m), F (rowI m k) (colJ m k) k =
    ∑ i : Fin m, ∑ j : Fin m, if j < i then F i j ((tri m).idxOf ((i : ℕ), (j : ℕ))) else 0 := by
  rw [← sum_tril1 fun q => F q.1 q.2 ((tri m).idxOf q)]
  change _ = ((tri m).map _).sum
  have : (tri m).map (fun q => F q.1 q.2 ((tri m).idxOf q)) =
      (List.range (nS m)).map fun k => F (rowI m k) (colJ m k) k := by
    apply List.ext_getElem
    · simp [tri_length]
    · intro k h1 h2
      have hk : k < nS m := by simpa using h2
      simp only [List.getElem_map, List.getElem_range]
      have hk' : k < (tri m).length := by rw [tri_length]; exact hk
      have e : (tri m).idxOf (tri m)[k] = k := (nodup_tril1 m).idxOf_getElem k hk'
      rw [e, rowI, colJ, List.getD_eq_getElem _ _ hk']
  rw [this, ← List.sum_toFinset _ List.nodup_range, List.toFinset_range]

/-- The inner product of a row with a direction, split into the parts of the parameter. -/
theorem sum_nT (g d : ℕ → ℝ) : ∑ f ∈ Finset.range (nT p m), g f * d f =
    fro (unflatF p m g) (unflatF p m d) +
    (∑ k ∈ Finset.range (nS m), g (p * m + k) * d (p * m + k)) +
    ∑ i : Fin p, g (p * m + nS m + i) * d (p * m + nS m + i) := by
  rw [nT, Finset.sum_range_add, Finset.sum_range_add, sum_flat, Finset.sum_range (n := p)]
  rfl

theorem concatRow_sum (dL dPhi dPsi d : ℕ → ℝ) : ∑ f ∈ Finset.range (nT p m), concatRow p m dL dPhi dPsi f * d f =
    fro (unflatF p m dL) (unflatF p m d) +
    (∑ k ∈ Finset.range (nS m), dPhi k * d (p * m + k)) + ∑ i : Fin p, dPsi i * d (p * m + nS m + i) := by
  rw [sum_nT]
  congr 1
  · congr 1
    · simp only [fro, unflatF, of_apply]
      refine Finset.sum_congr rfl fun i _ => Finset.sum_congr rfl fun j _ => ?_
      rw [concatRow, if_pos (flat_lt i j)]
    · refine Finset.sum_congr rfl fun k hk => ?_
      rw [concatRow, if_neg (by omega), if_pos (by have := Finset.mem_range.1 hk; omega), Nat.add_sub_cancel_left]
  · refine Finset.sum_congr rfl fun i _ => ?_
    rw [concatRow, if_neg (by omega), if_neg (by omega), Nat.add_sub_cancel_left]

/-- The parts of a flat parameter are those returned by `unpack`. -/
theorem unpack_flat (theta : List ℝ) (h : theta.length = nT p m) :
    ∃ L Phi psi, unpack (layout p m) theta = some (L, Phi, psi) ∧
      toMat p m L = Lof p m (fun f => theta.getD f 0) ∧ toMat m m Phi = phiOf p m (fun f => theta.getD f 0) ∧
      psi.length = p ∧ ∀ i : Fin p, psi.getD i 0 = psiOf p m (fun f => theta.getD f 0) i := by
  have h' : theta.length = p * m + m * (m - 1) / 2 + p := h
  obtain ⟨v, hv⟩ := exists_vals m ((theta.drop (p * m)).take (m * (m - 1) / 2)) (by
    rw [List.length_take, List.length_drop]; omega)
  have hsplit : theta = theta.take (p * m) ++ (trilIndices m (-1) true).map v ++
      theta.drop (p * m + m * (m - 1) / 2) := by
    rw [← hv, List.append_assoc, ← List.drop_drop]
    rw [List.take_append_drop, List.take_append_drop]
  have ha : (theta.take (p * m)).length = p * m := by rw [List.length_take]; omega
  have hp : (theta.drop (p * m + m * (m - 1) / 2)).length = p := by rw [List.length_drop]; omega
  obtain ⟨L, Phi, h1, h2, h3⟩ := unpack_parts p m _ _ v ha hp
  rw [← hsplit] at h1
  have hval : ∀ i j : Fin m, j < i → v ((i : ℕ), (j : ℕ)) =
      theta.getD (p * m + (tri m).idxOf ((i : ℕ), (j : ℕ))) 0 := fun i j hij => by
    have hl := idx_lt hij
    have hl' : (tri m).idxOf ((i : ℕ), (j : ℕ)) < (tri m).length := by rw [tri_length]; exact hl
    have e := congrArg (fun l => l.getD ((tri m).idxOf ((i : ℕ), (j : ℕ))) 0) hv
    beta_reduce at e
    rw [List.getD_eq_getElem (l := List.map v (trilIndices m (-1) true)) _ (by rw [List.length_map]; exact hl'), List.getElem_map] at e
    have e2 : (trilIndices m (-1) true)[(tri m).idxOf ((i : ℕ), (j : ℕ))]'hl' = ((i : ℕ), (j : ℕ)) :=
      List.getElem_idxOf hl'
    replace e := e.trans (congrArg v e2)
    rw [← e]
    unfold nS at hl
    simp [List.getD_eq_getElem?_getD, List.getElem?_take, List.getElem?_drop, hl]
  refine ⟨L, Phi, _, h1, ?_, ?_, hp, ?_⟩
  · simp only [invec, ha, if_true, Option.some.injEq] at h2
    rw [← h2]
    ext i j
    have := flat_lt i j
    simp only [toMat, Lof, unflatF, of_apply, reshapeF]
    simp [List.getD_eq_getElem?_getD, this, mul_comm, add_comm]
  · ext i j
    simp only [toMat, phiOf, of_apply]
    rw [h3 i j i.2 j.2]
    rcases lt_trichotomy i j with h | h | h
    · have h' := Fin.lt_def.1 h
      rw [if_neg h'.not_gt, if_pos h', if_neg h.not_gt, if_pos h, hval j i h]
    · simp [h]
    · have h' := Fin.lt_def.1 h
      rw [if_pos h', if_pos h, hval i j h]
  · intro i
    simp [psiOf, nS, List.getD_eq_getElem?_getD, List.getElem?_drop]

/-! ## second derivatives -/

theorem hess_adj (c : Crit p m) (hc : CritOk c) (L : ℝ → Matrix (Fin p) (Fin m) ℝ) (D) (h : MD L D) :
    ∃ dG, MD (fun t => c.dQ (L t)) dG ∧ ∀ (Y : ℕ → ℕ → ℝ) (k : ℕ),
      fro (unflatF p m fun f => c.app (L 0) Y f k) D = fro (unflatF p m fun f => Y f k) dG := by
  refine ⟨_, hc.hess L D h (fun f _ => flatF D f) 0 (fun i j => flatF_at D i j), fun Y k => ?_⟩
  have := hc.symm (L 0) Y (fun f _ => flatF D f) k 0
  rw [unflat_flat] at this
  exact this

/-- A path of parameters with its velocity. -/
def TD (th : ℝ → ℕ → ℝ) (d : ℕ → ℝ) : Prop := ∀ f, HasDerivAt (fun t => th t f) (d f) 0

theorem TD.L {th : ℝ → ℕ → ℝ} {d : ℕ → ℝ} (h : TD th d) : MD (fun t => Lof p m (th t)) (Lof p m d) :=
  fun _ _ => h _

/-- Velocity of the correlation part. -/
def dPhiOf (p m : ℕ) (d : ℕ → ℝ) : Matrix (Fin m) (Fin m) ℝ := Matrix.of fun i j =>
  if j < i then d (p * m + (tri m).idxOf ((i : ℕ), (j : ℕ)))
  else if i < j then d (p * m + (tri m).idxOf ((j : ℕ), (i : ℕ))) else 0

theorem TD.Phi {th : ℝ → ℕ → ℝ} {d : ℕ → ℝ} (h : TD th d) : MD (fun t => phiOf p m (th t)) (dPhiOf p m d) :=
  fun i j => by
    simp only [phiOf, dPhiOf, of_apply]
    split
    · exact h _
    · split
      · exact h _
      · exact hasDerivAt_const _ _

/-- `⟨X, dPhi⟩` as a sum over the free correlations. -/
theorem dPhi_fro (X : Matrix (Fin m) (Fin m) ℝ) (d : ℕ → ℝ) : fro X (dPhiOf p m d) =
    ∑ k ∈ Finset.range (nS m), (entry X (rowI m k) (colJ m k) + entry X (colJ m k) (rowI m k)) * d (p * m + k) := by
  rw [sum_nS fun r c k => (entry X r c + entry X c r) * d (p * m + k)]
  have h1 : fro X (dPhiOf p m d) =
      (∑ i : Fin m, ∑ j : Fin m, if j < i then X i j * d (p * m + (tri m).idxOf ((i : ℕ), (j : ℕ))) else 0) +
      ∑ i : Fin m, ∑ j : Fin m, if i < j then X i j * d (p * m + (tri m).idxOf ((j : ℕ), (i : ℕ))) else 0 := by
    rw [← Finset.sum_add_distrib]
    refine Finset.sum_congr rfl fun i _ => ?_
    rw [← Finset.sum_add_distrib]
    refine Finset.sum_congr rfl fun j _ => ?_
    rw [dPhiOf, of_apply]
    rcases lt_trichotomy i j with h | h | h
    · simp [h, h.not_gt]
    · simp [h]
    · simp [h, h.not_gt]
  rw [h1, Finset.sum_comm (f := fun (i j : Fin m) => if i < j then X i j * d (p * m + (tri m).idxOf ((j : ℕ), (i : ℕ))) else 0),
    ← Finset.sum_add_distrib]
  refine Finset.sum_congr rfl fun i _ => ?_
  rw [← Finset.sum_add_distrib]
  refine Finset.sum_congr rfl fun j _ => ?_
  by_cases h : j < i
  · simp only [h, if_true, entry_fin]; ring
  · simp [h]

/-! ## orthogonal rotation -/

theorem triu_getD {k : ℕ} (hk : k < nS m) : (npTriu m 1).getD k (0, 0) = (colJ m k, rowI m k) := by
  have hl : (tri m).length = (npTriu m 1).length := by
    simp only [tri, trilIndices, if_true, List.length_map]; rfl
  have h1 : k < (tri m).length := by rw [tri_length]; exact hk
  rw [colJ, rowI, List.getD_eq_getElem _ _ h1, List.getD_eq_getElem _ _ (hl ▸ h1)]
  simp only [tri, trilIndices, if_true, List.getElem_map]
  rfl

/-- A matrix with a single nonzero column. -/
def colM (m : ℕ) (b : ℕ) (u : Fin p → ℝ) : Matrix (Fin p) (Fin m) ℝ :=
  Matrix.of fun i j => if (j : ℕ) = b then u i else 0

theorem fro_col (X : Matrix (Fin p) (Fin m) ℝ) (b : Fin m) (u : Fin p → ℝ) :
    fro (colM m b u) X = ∑ i, u i * X i b := by
  simp only [fro, colM, of_apply]
  refine Finset.sum_congr rfl fun i _ => ?_
  rw [Finset.sum_eq_single b]
  · simp
  · intro j _ hj
    rw [if_neg (fun h => hj (Fin.ext h)), zero_mul]
  · simp

/-- C86: row `k` of the orthogonal `d_constraint` is the derivative of the `k`-th constraint. -/
theorem C86_ortho (c : Crit p m) (hc : CritOk c) (th : ℝ → ℕ → ℝ) (d : ℕ → ℝ) (h : TD th d) (k : ℕ) (hk : k < nS m) :
    (∀ t, (rotConsOrtho c (th t)).length = nS m) ∧
    HasDerivAt (fun t => (rotConsOrtho c (th t)).getD k 0)
      (∑ f ∈ Finset.range (nT p m), rotDConsOrtho c (th 0) k f * d f) 0 := by
  have hlen : (npTriu m 1).length = nS m := by
    rw [← tri_length]; simp only [tri, trilIndices, if_true, List.length_map]; rfl
  refine ⟨fun t => by simp only [rotConsOrtho, orthoCons, vecl, List.length_map, hlen], ?_⟩
  set r := rF hk with hr
  set q := cF hk with hq
  have hL := h.L (p := p) (m := m)
  obtain ⟨dG, hG, hadj⟩ := hess_adj c hc _ _ hL
  set L0 := Lof p m (th 0)
  set D := Lof p m d
  set G0 := c.dQ L0
  have hM := hL.transpose.mul hG
  have e1 : ∀ t, (rotConsOrtho c (th t)).getD k 0 =
      ((Lof p m (th t))ᵀ * c.dQ (Lof p m (th t))) r q - ((Lof p m (th t))ᵀ * c.dQ (Lof p m (th t))) q r := fun t => by
    have hk' : k < (npTriu m 1).length := by rw [hlen]; exact hk
    have hv := triu_getD hk
    rw [List.getD_eq_getElem _ _ hk'] at hv
    rw [rotConsOrtho, orthoCons, vecl, List.getD_eq_getElem _ _ (by rw [List.length_map]; exact hk'), List.getElem_map, hv]
    change entry _ (r : ℕ) (q : ℕ) = _
    rw [entry_fin]; rfl
  simp only [e1]
  refine ((hM r q).fun_sub (hM q r)).congr_deriv ?_
  rw [rotDConsOrtho, concatRow_sum]
  simp only [zero_mul, Finset.sum_const_zero, add_zero]
  change _ = fro (unflatF p m (orthoDCons c L0 k)) D
  have hne : (r : ℕ) ≠ q := (Fin.lt_def.1 (cF_lt_rF hk)).ne'
  have hU0 : orthoU m L0 (2 * k) = colM m q fun i => L0 i r := by
    ext i j
    rw [orthoU, colM, of_apply, of_apply, if_pos (by omega), show 2 * k / 2 = k by omega, triu_getD hk]
    change (if (j : ℕ) = (q : ℕ) then entry L0 i (r : ℕ) else 0) = _
    rw [entry_fin]
  have hU1 : orthoU m L0 (2 * k + 1) = colM m r fun i => L0 i q := by
    ext i j
    rw [orthoU, colM, of_apply, of_apply, if_neg (by omega), show (2 * k + 1) / 2 = k by omega, triu_getD hk]
    change (if (j : ℕ) = (r : ℕ) then entry L0 i (q : ℕ) else 0) = _
    rw [entry_fin]
  have a0 := hadj (fun f s => flatF (orthoU m L0 s) f) (2 * k)
  have a1 := hadj (fun f s => flatF (orthoU m L0 s) f) (2 * k + 1)
  rw [unflat_flat, hU0, fro_col] at a0
  rw [unflat_flat, hU1, fro_col] at a1
  have hT : unflatF p m (orthoDCons c L0 k) =
      ((unflatF p m fun f => c.app L0 (fun f s => flatF (orthoU m L0 s) f) f (2 * k)) -
      (unflatF p m fun f => c.app L0 (fun f s => flatF (orthoU m L0 s) f) f (2 * k + 1))) +
      colM m r (fun i => G0 i q) - colM m q (fun i => G0 i r) := by
    unfold orthoDCons
    simp only [triu_getD hk]
    rw [unflat_flat]
    ext i j
    simp only [colM, of_apply, Matrix.sub_apply, Matrix.add_apply]
    change (if (j : ℕ) = (q : ℕ) then (if (j : ℕ) = (r : ℕ) then _ + entry G0 i (q : ℕ) else _) - entry G0 i (r : ℕ) else
      (if (j : ℕ) = (r : ℕ) then _ + entry G0 i (q : ℕ) else _)) = _
    simp only [entry_fin]
    by_cases h1 : (j : ℕ) = q
    · have h2 : ¬ (j : ℕ) = r := fun h => hne (h.symm.trans h1)
      simp only [h1, if_true, if_neg (fun h => hne (Eq.symm h) : ¬ (q : ℕ) = r)]
      ring
    · by_cases h2 : (j : ℕ) = r
      · simp only [h2, if_true, if_neg hne]; ring
      · simp only [h1, h2, if_false]; ring
  have fadd : ∀ A B : Matrix (Fin p) (Fin m) ℝ, fro (A + B) D = fro A D + fro B D := fun A B => by
    simp only [fro, Matrix.add_apply, add_mul, Finset.sum_add_distrib]
  have fsub : ∀ A B : Matrix (Fin p) (Fin m) ℝ, fro (A - B) D = fro A D - fro B D := fun A B => by
    simp only [fro, Matrix.sub_apply, sub_mul, Finset.sum_sub_distrib]
  rw [hT, fsub, fadd, fsub, a0, a1, fro_col, fro_col]
  simp only [Matrix.add_apply, Matrix.mul_apply, transpose_apply]
  rw [Finset.sum_congr rfl fun x _ => mul_comm (D x r) _, Finset.sum_congr rfl fun x _ => mul_comm (D x q) _]
  ring

/-! ## oblique rotation -/

theorem mem_ndg {q : ℕ × ℕ} : q ∈ ndg m ↔ q.1 < m ∧ q.2 < m ∧ q.1 ≠ q.2 := by
  rw [ndg, List.mem_filter]
  simp only [List.mem_flatMap, List.mem_map, List.mem_range, decide_eq_true_eq]
  constructor
  · rintro ⟨⟨j, hj, i, hi, rfl⟩, h⟩; exact ⟨hi, hj, h⟩
  · rintro ⟨h1, h2, h3⟩; exact ⟨⟨q.2, h2, q.1, h1, rfl⟩, h3⟩

/-- C86: `n_c = m (m - 1)` oblique constraints. -/
theorem C86_oblique_count (m : ℕ) : (ndg m).length = m * (m - 1) := by
  have key : ∀ j ∈ List.range m, ((List.range m).map (fun i => (i, j))).countP (fun q => decide (q.1 ≠ q.2)) = m - 1 := by
    intro j hj
    rw [List.countP_map]
    have h1 : (List.range m).countP ((fun q : ℕ × ℕ => decide (q.1 ≠ q.2)) ∘ fun i => (i, j)) =
        (List.range m).length - (List.range m).count j := by
      rw [List.count, List.length_eq_countP_add_countP (fun a => a == j)]
      rw [Nat.add_sub_cancel_left]
      apply List.countP_congr
      intro x _; simp
    rw [h1, List.length_range, List.count_eq_one_of_mem List.nodup_range hj]
  rw [ndg, ← List.countP_eq_length_filter, List.countP_flatMap]
  have : (List.map (fun j => ((List.range m).map (fun i => (i, j))).countP (fun q => decide (q.1 ≠ q.2))) (List.range m)) =
      (List.range m).map fun _ => m - 1 := List.map_congr_left key
  change (List.map (fun j => ((List.range m).map (fun i => (i, j))).countP (fun q => decide (q.1 ≠ q.2))) (List.range m)).sum = _
  rw [this]; simp

/-- C86: row `k` of the oblique `d_constraint` is the derivative of the `k`-th constraint, in the loadings
and in the free factor correlations. -/
theorem C86_oblique (c : Crit p m) (hc : CritOk c) (th : ℝ → ℕ → ℝ) (d : ℕ → ℝ) (h : TD th d)
    (h0 : IsUnit (phiOf p m (th 0)).det) :
    ∃ (C : ℝ → List ℝ) (dC : ℕ → ℕ → ℝ), (∀ᶠ t in nhds 0, rotConsObl c (th t) = some (C t)) ∧
      (∀ t, (C t).length = m * (m - 1)) ∧ rotDConsObl c (th 0) = some dC ∧
      ∀ k < m * (m - 1), HasDerivAt (fun t => (C t).getD k 0) (∑ f ∈ Finset.range (nT p m), dC k f * d f) 0 := by
  have hL := h.L (p := p) (m := m)
  have hP := h.Phi (p := p) (m := m)
  obtain ⟨dG, hG, hadj⟩ := hess_adj c hc _ _ hL
  refine ⟨fun t => (ndg m).map fun q => entry ((Lof p m (th t))ᵀ * c.dQ (Lof p m (th t)) * (phiOf p m (th t))⁻¹) q.1 q.2,
    fun k => concatRow p m ((oblDConsV c (Lof p m (th 0)) (phiOf p m (th 0))⁻¹).1 k)
      ((oblDConsV c (Lof p m (th 0)) (phiOf p m (th 0))⁻¹).2 k) fun _ => 0,
    ?_, fun t => by rw [List.length_map, C86_oblique_count], ?_, ?_⟩
  · exact (hP.eventually_isUnit h0).mono fun t ht => by rw [rotConsObl, oblCons, inv?_unit ht]; rfl
  · rw [rotDConsObl, oblDCons, inv?_unit h0]
    rfl
  · intro k hk
    have hk' : k < (ndg m).length := by rw [C86_oblique_count]; exact hk
    have hmem := mem_ndg.1 (List.getElem_mem hk')
    set a : Fin m := ⟨((ndg m)[k]).1, hmem.1⟩ with ha
    set b : Fin m := ⟨((ndg m)[k]).2, hmem.2.1⟩ with hb
    have hq : (ndg m).getD k (0, 0) = ((a : ℕ), (b : ℕ)) := by rw [List.getD_eq_getElem _ _ hk']
    set L0 := Lof p m (th 0)
    set D := Lof p m d
    set G0 := c.dQ L0
    set V := (phiOf p m (th 0))⁻¹
    have hM := (hL.transpose.mul hG).mul (hP.inv h0)
    have e1 : ∀ t, ((ndg m).map fun q => entry ((Lof p m (th t))ᵀ * c.dQ (Lof p m (th t)) * (phiOf p m (th t))⁻¹) q.1 q.2).getD k 0 =
        ((Lof p m (th t))ᵀ * c.dQ (Lof p m (th t)) * (phiOf p m (th t))⁻¹) a b := fun t => by
      rw [List.getD_eq_getElem _ _ (by rw [List.length_map]; exact hk'), List.getElem_map]
      exact entry_fin _ a b
    simp only [e1]
    refine (hM a b).congr_deriv ?_
    rw [concatRow_sum]
    simp only [zero_mul, Finset.sum_const_zero, add_zero]
    have a0 := hadj (fun f k => flatF (oblU L0 V k) f) k
    have hU : oblU L0 V k = Matrix.of fun x y => L0 x a * V y b := by
      ext x y; simp only [oblU, hq, entry_fin, of_apply]
    rw [unflat_flat, hU] at a0
    have hT : fro (unflatF p m (flatF (Matrix.of fun x y => if (y : ℕ) = (a : ℕ) then
        unflatF p m (fun f => c.app L0 (fun f k => flatF (oblU L0 V k) f) f k) x y + entry (G0 * V) x b
        else unflatF p m (fun f => c.app L0 (fun f k => flatF (oblU L0 V k) f) f k) x y))) D =
        fro (Matrix.of fun x y => L0 x a * V y b) dG + ∑ i, (G0 * V) i b * D i a := by
      rw [← a0, unflat_flat, ← fro_col D a fun i => (G0 * V) i b]
      simp only [fro, ← Finset.sum_add_distrib, ← add_mul]
      refine Finset.sum_congr rfl fun x _ => Finset.sum_congr rfl fun y _ => ?_
      congr 1
      simp only [of_apply, colM, entry_fin]
      split
      · rfl
      · rw [add_zero]
    have hJ : ∑ x ∈ Finset.range (nS m), entry (Matrix.of fun u w : Fin m =>
        -entry (L0ᵀ * G0 * V) u (rowI m x) * entry V (colJ m x) w -
          entry (L0ᵀ * G0 * V) u (colJ m x) * entry V (rowI m x) w) (a : ℕ) (b : ℕ) * d (p * m + x) =
        -fro (Matrix.of fun r c => (L0ᵀ * G0 * V) a r * V c b) (dPhiOf p m d) := by
      rw [dPhi_fro, ← Finset.sum_neg_distrib]
      refine Finset.sum_congr rfl fun x hx => ?_
      have hx := Finset.mem_range.1 hx
      rw [entry_fin, of_apply]
      change (-entry _ (a : ℕ) (rF hx : ℕ) * entry V (cF hx : ℕ) (b : ℕ) - entry _ (a : ℕ) (cF hx : ℕ) * entry V (rF hx : ℕ) (b : ℕ)) * _ =
        -((entry _ (rF hx : ℕ) (cF hx : ℕ) + entry _ (cF hx : ℕ) (rF hx : ℕ)) * _)
      simp only [entry_fin, of_apply]
      ring
    simp only [oblDConsV, hq]
    refine Eq.trans ?_ (congrArg₂ (· + ·) hT.symm hJ.symm)
    simp only [Matrix.add_apply, Matrix.add_mul, Matrix.mul_neg, Matrix.neg_apply]
    change (Dᵀ * G0 * V) a b + (L0ᵀ * dG * V) a b + -((L0ᵀ * G0) * (V * dPhiOf p m d * V)) a b = _
    have t1 : (Dᵀ * G0 * V) a b = ∑ i, (G0 * V) i b * D i a := by
      rw [Matrix.mul_assoc, Matrix.mul_apply]
      exact Finset.sum_congr rfl fun x _ => mul_comm _ _
    have t2 : (L0ᵀ * dG * V) a b = fro (Matrix.of fun x y => L0 x a * V y b) dG := by
      rw [Matrix.mul_assoc, Matrix.mul_apply]
      simp only [fro, Matrix.mul_apply, of_apply, transpose_apply, Finset.mul_sum]
      exact Finset.sum_congr rfl fun x _ => Finset.sum_congr rfl fun y _ => by ring
    have t3 : ((L0ᵀ * G0) * (V * dPhiOf p m d * V)) a b =
        fro (Matrix.of fun r c => (L0ᵀ * G0 * V) a r * V c b) (dPhiOf p m d) := by
      rw [show (L0ᵀ * G0) * (V * dPhiOf p m d * V) = (L0ᵀ * G0 * V) * (dPhiOf p m d * V) by simp only [Matrix.mul_assoc],
        Matrix.mul_apply]
      simp only [fro, of_apply]
      refine Finset.sum_congr rfl fun x _ => ?_
      generalize (L0ᵀ * G0 * V) a x = z
      rw [Matrix.mul_apply, Finset.mul_sum]
      exact Finset.sum_congr rfl fun y _ => by ring
    rw [t1, t2, t3]
    ring

/-! ## canonical identification -/

/-- C86: row `k` of `CanonicalIdentification.d_constraint` is the derivative of the `k`-th constraint. -/
theorem C86_canonical (th : ℝ → ℕ → ℝ) (d : ℕ → ℝ) (h : TD th d) (h0 : ∀ i, psiOf p m (th 0) i ≠ 0)
    (k : ℕ) (hk : k < nS m) :
    (∀ t, (canonCons p m (th t)).length = nS m) ∧
    HasDerivAt (fun t => (canonCons p m (th t)).getD k 0)
      (∑ f ∈ Finset.range (nT p m), canonDCons p m (th 0) k f * d f) 0 := by
  refine ⟨fun t => by simp only [canonCons, List.length_map, tri_length], ?_⟩
  set r := rF hk with hr
  set q := cF hk with hq
  have hk' : k < (tri m).length := by rw [tri_length]; exact hk
  have hkq : (tri m)[k] = ((r : ℕ), (q : ℕ)) := by
    rw [← List.getD_eq_getElem _ (0, 0) hk']; rfl
  have e1 : ∀ t, (canonCons p m (th t)).getD k 0 = ∑ x, Lof p m (th t) x r / psiOf p m (th t) x * Lof p m (th t) x q := fun t => by
    rw [canonCons, List.getD_eq_getElem _ _ (by rw [List.length_map]; exact hk'), List.getElem_map, hkq]
    simp only [entry_fin, Matrix.mul_apply, transpose_apply, of_apply]
  simp only [e1]
  have hne : (r : ℕ) ≠ q := (Fin.lt_def.1 (cF_lt_rF hk)).ne'
  have hL := h.L (p := p) (m := m)
  have hpsi : ∀ x : Fin p, HasDerivAt (fun t => psiOf p m (th t) x) (d (p * m + nS m + x)) 0 := fun x => h _
  refine (HasDerivAt.fun_sum fun x _ => ((hL x r).fun_div (hpsi x) (h0 x)).fun_mul (hL x q)).congr_deriv ?_
  rw [canonDCons, concatRow_sum]
  simp only [zero_mul, Finset.sum_const_zero, add_zero]
  set L0 := Lof p m (th 0)
  set D := Lof p m d
  set psi := psiOf p m (th 0)
  have hJ : (unflatF p m fun f => entry ((Matrix.of fun (i : Fin p) (j : Fin m) => if (j : ℕ) = colJ m k then
      entry (Matrix.of fun (i : Fin p) (j : Fin m) => L0 i j / psi i) i (rowI m k) else
      (Matrix.of fun (i : Fin p) (j : Fin m) => if (j : ℕ) = rowI m k then
        entry (Matrix.of fun (i : Fin p) (j : Fin m) => L0 i j / psi i) i (colJ m k) else (0 : Matrix (Fin p) (Fin m) ℝ) i j) i j)ᵀ) (f / p) (f % p)) =
      colM m r (fun i => L0 i q / psi i) + colM m q (fun i => L0 i r / psi i) := by
    ext i j
    rw [unflatF, of_apply, (flat_div i.2).1, (flat_div i.2).2, entry_fin]
    change (if (j : ℕ) = (q : ℕ) then entry _ (i : ℕ) (r : ℕ) else if (j : ℕ) = (r : ℕ) then entry _ (i : ℕ) (q : ℕ) else 0) = _
    simp only [entry_fin, of_apply, colM, Matrix.add_apply]
    by_cases h1 : (j : ℕ) = q
    · simp only [h1, if_true, if_neg (fun h => hne (Eq.symm h) : ¬ (q : ℕ) = r)]; ring
    · simp only [h1, if_false]; ring
  rw [hJ]
  have fadd : ∀ A B : Matrix (Fin p) (Fin m) ℝ, fro (A + B) D = fro A D + fro B D := fun A B => by
    simp only [fro, Matrix.add_apply, add_mul, Finset.sum_add_distrib]
  change _ = fro _ D + _
  rw [fadd, fro_col, fro_col, ← Finset.sum_add_distrib, ← Finset.sum_add_distrib]
  refine Finset.sum_congr rfl fun x _ => ?_
  rw [dif_pos x.2]
  change _ = _ + -(entry L0 (x : ℕ) (r : ℕ) * entry L0 (x : ℕ) (q : ℕ) / psi x ^ 2) * _
  rw [entry_fin, entry_fin]
  have := h0 x
  field_simp
  ring

end Verif.Fa
