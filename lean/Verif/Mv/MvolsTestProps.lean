import Verif.Mv.MvolsTest
import Verif.Mv.MvolsFitProps
import Verif.Robust.DispLemmas
import Verif.Cov.PsdProps
/-!
# C151: multivariate tests
-/
namespace Verif.Mv.Mvols
open Matrix Verif.Fa Verif.Like Verif.Robust
variable {n p q r k m : ℕ}

/-! ## the hypothesis matrix -/

/-- The residual cross products of a multivariate regression of `Z`. -/
def rss (d : Data n p q) (Z : Mat n k) (B : Mat p k) : Mat k k := (Z - d.X * B)ᵀ * (diagonal d.w * (Z - d.X * B))

theorem gram_symm (d : Data n p q) : (gram d)ᵀ = gram d := by simp [gram, Matrix.mul_assoc]

theorem rss_split (d : Data n p q) (Z : Mat n k) {B : Mat p k} (h0 : d.Xᵀ * (diagonal d.w * (Z - d.X * B)) = 0) (B2 : Mat p k) :
    rss d Z B2 = rss d Z B + (B2 - B)ᵀ * gram d * (B2 - B) := by
  have h1 : Z - d.X * B2 = (Z - d.X * B) - d.X * (B2 - B) := by simp [Matrix.mul_sub]
  have h2 : (Z - d.X * B)ᵀ * (diagonal d.w * d.X) = 0 := by
    have := congrArg transpose h0
    simpa [transpose_mul, Matrix.mul_assoc] using this
  unfold rss gram
  rw [h1]
  generalize Z - d.X * B = E at *
  generalize B2 - B = D
  have h3 : Eᵀ * (diagonal d.w * (d.X * D)) = 0 := by
    rw [← Matrix.mul_assoc (diagonal d.w), ← Matrix.mul_assoc Eᵀ (diagonal d.w * d.X), h2, Matrix.zero_mul]
  simp only [transpose_sub, transpose_mul, Matrix.sub_mul, Matrix.mul_sub, Matrix.mul_assoc]
  rw [h3, h0]
  simp

theorem quad_posSemidef {G : Mat p p} (hG : G.PosSemidef) (D : Mat p k) : (Dᵀ * G * D).PosSemidef := by
  have := hG.conjTranspose_mul_mul_same D
  rwa [conjTranspose_eq_transpose_of_trivial] at this

theorem rss_posSemidef (d : Data n p q) (hw : ∀ i, 0 ≤ d.w i) (Z : Mat n k) (B : Mat p k) : (rss d Z B).PosSemidef := by
  rw [rss, ← Matrix.mul_assoc]
  exact quad_posSemidef (PosSemidef.diagonal hw) _

/-- `gram_inv` is the inverse of the cross products. -/
theorem C151_gram_inv {cp : Mat p p → Option (Mat p p)} (hp : CholOk cp) {d : Data n p q} (hX : (gram d).PosDef) :
    gramInv cp d = some (gram d)⁻¹ := by
  obtain ⟨L, hL⟩ := hp.total _ hX
  obtain ⟨-, -, a3, a4, -⟩ := chol_facts hp hL
  unfold gramInv
  unfold gram at hL a4 ⊢
  simp only [hL, a3, a4, Option.bind_eq_bind, Option.bind_some]
  rfl

/-- `_hypothesis_sscp` returns the residuals of the unrestricted fit and what the restriction `L B M = 0` adds to them. -/
theorem C151_hypothesis {d : Data n p q} (hX : (gram d).PosDef) {B : Mat p q} (hB : B = (gram d)⁻¹ * (d.Xᵀ * (diagonal d.w * d.Y)))
    {L : Mat r p} {M : Mat q k} {H E : Mat k k} (h : hypSscp B (gram d)⁻¹ (residSscp d B) L M = some (H, E)) :
    E = rss d (d.Y * M) (B * M) ∧ (∀ B2, (rss d (d.Y * M) B2 - E).PosSemidef) ∧ H.PosSemidef ∧
    ∃ B0 : Mat p k, L * B0 = (0 : Mat r k) ∧ rss d (d.Y * M) B0 = E + H ∧ ∀ B2 : Mat p k, L * B2 = (0 : Mat r k) → (rss d (d.Y * M) B2 - rss d (d.Y * M) B0).PosSemidef := by
  have hu : IsUnit (gram d).det := isUnit_iff_ne_zero.2 hX.det_pos.ne'
  unfold hypSscp at h
  simp only [Option.bind_eq_bind] at h
  obtain ⟨Z, hZ, h⟩ := Option.bind_eq_some_iff.1 h
  obtain ⟨hm, rfl⟩ := inv?_eq hZ
  obtain ⟨rfl, rfl⟩ := Prod.mk.inj (Option.some.inj h)
  have hE : Mᵀ * (residSscp d B * M) = rss d (d.Y * M) (B * M) := by
    simp only [rss, residSscp, ← Matrix.mul_assoc, ← Matrix.sub_mul, transpose_mul]
  simp only [hE]
  clear h hE
  have h0 : d.Xᵀ * (diagonal d.w * (d.Y * M - d.X * (B * M))) = 0 := by
    have e1 : d.Xᵀ * (diagonal d.w * (d.X * (B * M))) = gram d * B * M := by simp only [gram, Matrix.mul_assoc]
    rw [Matrix.mul_sub, Matrix.mul_sub, e1, hB, mul_nonsing_inv_cancel_left _ _ hu]
    simp only [Matrix.mul_assoc, sub_self]
  have hs := rss_split d (d.Y * M) h0
  have hgi : ((gram d)⁻¹)ᵀ = (gram d)⁻¹ := by rw [transpose_nonsing_inv, gram_symm]
  generalize hW : L * ((gram d)⁻¹ * Lᵀ) = W at *
  have hWt : Wᵀ = W := by rw [← hW]; simp only [transpose_mul, transpose_transpose, hgi, Matrix.mul_assoc]
  have hWi : (W⁻¹)ᵀ = W⁻¹ := by rw [transpose_nonsing_inv, hWt]
  generalize B * M = C at *
  have hD : ((gram d)⁻¹ * (Lᵀ * (W⁻¹ * (L * C))))ᵀ * gram d * ((gram d)⁻¹ * (Lᵀ * (W⁻¹ * (L * C)))) = (L * C)ᵀ * (W⁻¹ * (L * C)) := by
    generalize L * C = V at *
    rw [Matrix.mul_assoc, mul_nonsing_inv_cancel_left _ _ hu]
    simp only [transpose_mul, transpose_transpose, hgi, hWi]
    have : Vᵀ * W⁻¹ * L * (gram d)⁻¹ * (Lᵀ * (W⁻¹ * V)) = Vᵀ * W⁻¹ * (L * ((gram d)⁻¹ * Lᵀ)) * (W⁻¹ * V) := by
      simp only [Matrix.mul_assoc]
    rw [this, hW, Matrix.mul_assoc Vᵀ, nonsing_inv_mul _ hm, Matrix.mul_one]
  refine ⟨trivial, fun B2 => ?_, ?_, C - (gram d)⁻¹ * (Lᵀ * (W⁻¹ * (L * C))), ?_, ?_, fun B2 hB2 => ?_⟩
  · rw [hs B2, add_sub_cancel_left]
    exact quad_posSemidef hX.posSemidef _
  · rw [← hD]
    exact quad_posSemidef hX.posSemidef _
  · have : L * ((gram d)⁻¹ * (Lᵀ * (W⁻¹ * (L * C)))) = L * ((gram d)⁻¹ * Lᵀ) * W⁻¹ * (L * C) := by simp only [Matrix.mul_assoc]
    rw [Matrix.mul_sub, this, hW, mul_nonsing_inv _ hm, Matrix.one_mul, sub_self]
  · rw [hs, sub_sub_cancel_left, transpose_neg, Matrix.neg_mul, Matrix.neg_mul, Matrix.mul_neg, neg_neg, hD]
  · have e1 : rss d (d.Y * M) B2 - rss d (d.Y * M) (C - (gram d)⁻¹ * (Lᵀ * (W⁻¹ * (L * C)))) =
        (B2 - (C - (gram d)⁻¹ * (Lᵀ * (W⁻¹ * (L * C)))))ᵀ * gram d * (B2 - (C - (gram d)⁻¹ * (Lᵀ * (W⁻¹ * (L * C))))) := by
      rw [hs, hs (C - _), sub_sub_cancel_left]
      have hLD : L * (B2 - C) = -(L * C) := by rw [Matrix.mul_sub, hB2, zero_sub]
      generalize hQ : (gram d)⁻¹ * (Lᵀ * (W⁻¹ * (L * C))) = Q at *
      have hGQ : gram d * Q = Lᵀ * (W⁻¹ * (L * C)) := by rw [← hQ, mul_nonsing_inv_cancel_left _ _ hu]
      have c1 : (B2 - C)ᵀ * (gram d * Q) = -(Qᵀ * gram d * Q) := by
        rw [hD, hGQ, ← Matrix.mul_assoc, ← transpose_mul, hLD, transpose_neg, Matrix.neg_mul]
      have c2 : Qᵀ * gram d * (B2 - C) = -(Qᵀ * gram d * Q) := by
        have := congrArg transpose c1
        simpa [transpose_mul, gram_symm, Matrix.mul_assoc] using this
      rw [show B2 - (C - Q) = (B2 - C) + Q by abel]
      generalize B2 - C = D at *
      simp only [transpose_add, transpose_neg, Matrix.add_mul, Matrix.mul_add, Matrix.neg_mul, Matrix.mul_neg, neg_neg]
      rw [c2, Matrix.mul_assoc Dᵀ, Matrix.mul_assoc Dᵀ (gram d) Q, c1]
      abel
    rw [e1]
    exact quad_posSemidef hX.posSemidef _

/-! ## the four statistics -/

/-- What is assumed of the generalised symmetric eigenvalue problem. -/
structure GeighOk (geigh : Mat k k → Mat k k → Option (Fin k → ℝ)) : Prop where
  ok : ∀ H B e, geigh H B = some e → ∃ V : Mat k k, Vᵀ * B * V = 1 ∧ Vᵀ * H * V = diagonal e
  total : ∀ H B : Mat k k, Hᵀ = H → B.PosDef → ∃ e, geigh H B = some e

/-- Such a solver exists. -/
theorem geigh_exists (k : ℕ) : ∃ geigh : Mat k k → Mat k k → Option (Fin k → ℝ), GeighOk geigh := by
  classical
  obtain ⟨ch, hc⟩ := cholOk_exists k
  obtain ⟨eigh, he⟩ := Verif.Cov.eigh_exists k
  have key : ∀ H B : Mat k k, Hᵀ = H → B.PosDef → ∃ e : Fin k → ℝ, ∃ V : Mat k k, Vᵀ * B * V = 1 ∧ Vᵀ * H * V = diagonal e := by
    intro H B hH hB
    obtain ⟨L, hL⟩ := hc.total B hB
    obtain ⟨a1, a2, -⟩ := chol_facts hc hL
    have hs : (L⁻¹ * H * (L⁻¹)ᵀ).IsSymm := by
      rw [Matrix.IsSymm]; simp only [transpose_mul, transpose_transpose, hH, Matrix.mul_assoc]
    obtain ⟨u1, u2⟩ := he _ hs
    generalize eigh (L⁻¹ * H * (L⁻¹)ᵀ) = w at *
    refine ⟨w.1, (L⁻¹)ᵀ * w.2, ?_, ?_⟩
    · rw [← a1]
      have e1 : L⁻¹ * L = 1 := nonsing_inv_mul _ a2
      have e2 : Lᵀ * (L⁻¹)ᵀ = 1 := by rw [← transpose_mul, e1, transpose_one]
      have : ((L⁻¹)ᵀ * w.2)ᵀ * (L * Lᵀ) * ((L⁻¹)ᵀ * w.2) = w.2ᵀ * (L⁻¹ * L) * (Lᵀ * (L⁻¹)ᵀ) * w.2 := by
        simp only [transpose_mul, transpose_transpose, Matrix.mul_assoc]
      rw [this, e1, e2, Matrix.mul_one, Matrix.mul_one, u1]
    · have : ((L⁻¹)ᵀ * w.2)ᵀ * H * ((L⁻¹)ᵀ * w.2) = w.2ᵀ * (L⁻¹ * H * (L⁻¹)ᵀ) * w.2 := by
        simp only [transpose_mul, transpose_transpose, Matrix.mul_assoc]
      rw [this, u2]
      have : w.2ᵀ * (w.2 * diagonal w.1 * w.2ᵀ) * w.2 = (w.2ᵀ * w.2) * diagonal w.1 * (w.2ᵀ * w.2) := by
        simp only [Matrix.mul_assoc]
      rw [this, u1, Matrix.one_mul, Matrix.mul_one]
  refine ⟨fun H B => if h : Hᵀ = H ∧ B.PosDef then some (key H B h.1 h.2).choose else none, fun H B e h => ?_, fun H B h1 h2 => ?_⟩
  · split at h
    · next hh => obtain rfl := Option.some.inj h; exact (key H B hh.1 hh.2).choose_spec
    · cases h
  · exact ⟨_, dif_pos ⟨h1, h2⟩⟩

section stats
variable {H E V : Mat k k} {e : Fin k → ℝ}

theorem simul (h1 : Vᵀ * (E + H) * V = 1) (h2 : Vᵀ * H * V = diagonal e) : Vᵀ * E * V = diagonal fun i => 1 - e i := by
  rw [Matrix.mul_add, Matrix.add_mul, h2] at h1
  rw [eq_sub_of_add_eq h1, ← diagonal_one, diagonal_sub]

theorem simul_range (hE : E.PosDef) (hH : H.PosSemidef) (h1 : Vᵀ * (E + H) * V = 1) (h2 : Vᵀ * H * V = diagonal e) (i : Fin k) :
    0 ≤ e i ∧ e i < 1 := by
  have hu : IsUnit V.det := by
    have := congrArg det h1
    rw [det_mul, det_one] at this
    exact IsUnit.of_mul_eq_one _ ((mul_comm _ _).trans this)
  have a := quad_posSemidef hH V
  rw [h2] at a
  have b := quad_posSemidef hE.posSemidef V
  have c := simul h1 h2
  rw [c] at b
  have d1 := posSemidef_diagonal_iff.1 a i
  have d2 := posSemidef_diagonal_iff.1 b i
  refine ⟨d1, lt_of_le_of_ne (by linarith) fun h => ?_⟩
  have hd := congrArg det c
  rw [det_mul, det_mul, det_transpose, det_diagonal, Finset.prod_eq_zero (Finset.mem_univ i) (by rw [h, sub_self])] at hd
  have := mul_ne_zero (mul_ne_zero hu.ne_zero hE.det_pos.ne') hu.ne_zero
  exact this hd

theorem simul_stats (hE : E.PosDef) (hH : H.PosSemidef) (h1 : Vᵀ * (E + H) * V = 1) (h2 : Vᵀ * H * V = diagonal e) :
    E.det / (E + H).det = ∏ i, (1 - e i) ∧ ((E + H)⁻¹ * H).trace = ∑ i, e i ∧ (E⁻¹ * H).trace = ∑ i, e i / (1 - e i) := by
  have hu : IsUnit V.det := by
    have := congrArg det h1
    rw [det_mul, det_one] at this
    exact IsUnit.of_mul_eq_one _ ((mul_comm _ _).trans this)
  have c := simul h1 h2
  have hut : IsUnit (Vᵀ).det := by rwa [det_transpose]
  have inv_of : ∀ (A : Mat k k) (f : Fin k → ℝ), Vᵀ * A * V = diagonal f → (∀ i, f i ≠ 0) → A⁻¹ = V * (diagonal fun i => (f i)⁻¹) * Vᵀ := by
    intro A f hA hf
    refine inv_eq_right_inv ?_
    have h3 : A * V = (Vᵀ)⁻¹ * diagonal f := by rw [← hA, Matrix.mul_assoc, nonsing_inv_mul_cancel_left _ _ hut]
    rw [← Matrix.mul_assoc, ← Matrix.mul_assoc, h3, Matrix.mul_assoc (Vᵀ)⁻¹, diagonal_mul_diagonal]
    have : (diagonal fun i => f i * (f i)⁻¹) = (1 : Mat k k) := by
      rw [← diagonal_one]; congr 1; funext i; exact mul_inv_cancel₀ (hf i)
    rw [this, Matrix.mul_one, nonsing_inv_mul _ hut]
  have tr_of : ∀ (A : Mat k k) (f : Fin k → ℝ), Vᵀ * A * V = diagonal f → (∀ i, f i ≠ 0) → (A⁻¹ * H).trace = ∑ i, e i / f i := by
    intro A f hA hf
    rw [inv_of A f hA hf, Matrix.mul_assoc, Matrix.mul_assoc, trace_mul_comm V, Matrix.mul_assoc, h2, diagonal_mul_diagonal,
      trace_diagonal]
    exact Finset.sum_congr rfl fun i _ => by rw [div_eq_mul_inv, mul_comm]
  have hr := simul_range hE hH h1 h2
  refine ⟨?_, ?_, ?_⟩
  · have d1 := congrArg det h1
    have d2 := congrArg det c
    rw [det_mul, det_mul, det_transpose, det_one] at d1
    rw [det_mul, det_mul, det_transpose, det_diagonal] at d2
    have hv := hu.ne_zero
    have hs : (E + H).det ≠ 0 := fun h => by rw [h] at d1; simp at d1
    rw [div_eq_iff hs, ← d2]
    have : V.det * V.det * (E + H).det = 1 := by rw [← d1]; ring
    calc E.det = V.det * V.det * (E + H).det * E.det := by rw [this, one_mul]
      _ = _ := by ring
  · have := tr_of (E + H) (fun _ => 1) (by rw [h1, diagonal_one]) fun _ => one_ne_zero
    simpa using this
  · exact tr_of E _ c fun i => (sub_pos.2 (hr i).2).ne'

/-- An eigenvalue after clipping and the threshold. -/
noncomputable def cut (x : ℝ) : ℝ := if clip x > 1e-9 then clip x else 0

theorem perm_eig {geigh : Mat k k → Mat k k → Option (Fin k → ℝ)} {eig : List ℝ} (h : canonEig geigh H E = some eig) :
    ∃ e, geigh H (E + H) = some e ∧ eig.Perm (List.ofFn fun i => clip (e i)) ∧ eig.SortedGE := by
  unfold canonEig at h
  simp only [Option.bind_eq_bind] at h
  obtain ⟨e, h1, h2⟩ := Option.bind_eq_some_iff.1 h
  obtain rfl := Option.some.inj h2
  refine ⟨e, h1, (List.reverse_perm _).trans ((npSort_perm _).trans ?_), (npSort_sorted _).reverse⟩
  rw [List.map_ofFn]
  rfl

theorem sum_filter (l : List ℝ) (P : ℝ → Prop) [DecidablePred P] (f : ℝ → ℝ) :
    ((l.filter fun x => decide (P x)).map f).sum = (l.map fun x => if P x then f x else 0).sum := by
  induction l with
  | nil => rfl
  | cons a l ih => by_cases h : P a <;> simp [h, ih]

theorem prod_filter (l : List ℝ) (P : ℝ → Prop) [DecidablePred P] (f : ℝ → ℝ) :
    ((l.filter fun x => decide (P x)).map f).prod = (l.map fun x => if P x then f x else 1).prod := by
  induction l with
  | nil => rfl
  | cons a l ih => by_cases h : P a <;> simp [h, ih]

/-- The sums and the product, over the eigenvalues. -/
theorem four_sums {eig : List ℝ} (h : eig.Perm (List.ofFn fun i => clip (e i))) :
    (four eig).wilks = ∏ i, (1 - cut (e i)) ∧ (four eig).pillai = ∑ i, cut (e i) ∧
      (four eig).hotelling = ∑ i, cut (e i) / (1 - cut (e i)) := by
  classical
  refine ⟨?_, ?_, ?_⟩
  · simp only [four]
    rw [prod_filter, (h.map _).prod_eq, List.map_ofFn, List.prod_ofFn]
    refine Finset.prod_congr rfl fun i _ => ?_
    simp only [Function.comp, cut]
    split_ifs <;> simp
  · simp only [four]
    have := sum_filter eig (fun x => x > 1e-9) id
    rw [List.map_id] at this
    rw [this, (h.map _).sum_eq, List.map_ofFn, List.sum_ofFn]
    rfl
  · simp only [four, List.map_map]
    rw [sum_filter, (h.map _).sum_eq, List.map_ofFn, List.sum_ofFn]
    refine Finset.sum_congr rfl fun i _ => ?_
    simp only [Function.comp, cut]
    split_ifs <;> simp

theorem cut_close {x : ℝ} (h0 : 0 ≤ x) (h1 : x ≤ 1) : 0 ≤ cut x ∧ cut x ≤ 1 - 1e-9 ∧ |cut x - x| ≤ 1e-9 := by
  unfold cut clip
  rw [max_eq_left h0]
  rcases le_total x (1 - 1e-9) with h | h
  · rw [min_eq_left h]
    split_ifs with hh
    · exact ⟨h0, h, by rw [sub_self, abs_zero]; norm_num⟩
    · exact ⟨le_rfl, by norm_num, by rw [zero_sub, abs_neg, abs_of_nonneg h0]; linarith⟩
  · rw [min_eq_right h]
    rw [if_pos (by norm_num)]
    exact ⟨by norm_num, le_rfl, by rw [abs_le]; constructor <;> linarith⟩

theorem cut_exact {x : ℝ} (h0 : x = 0 ∨ 1e-9 < x) (h1 : x ≤ 1 - 1e-9) : cut x = x := by
  unfold cut clip
  rcases h0 with rfl | h0
  · rw [max_self, min_eq_left h1]
    norm_num
  · rw [max_eq_left (by linarith [show (0:ℝ) < 1e-9 by norm_num]), min_eq_left h1, if_pos h0]

theorem prod_close {ι : Type} (s : Finset ι) (a b : ι → ℝ) (ha : ∀ i, 0 ≤ a i ∧ a i ≤ 1) (hb : ∀ i, 0 ≤ b i ∧ b i ≤ 1) :
    |∏ i ∈ s, a i - ∏ i ∈ s, b i| ≤ ∑ i ∈ s, |a i - b i| := by
  classical
  induction s using Finset.induction_on with
  | empty => simp
  | insert i s hi ih =>
    rw [Finset.prod_insert hi, Finset.prod_insert hi, Finset.sum_insert hi]
    have pa : |∏ i ∈ s, a i| ≤ 1 := by
      rw [Finset.abs_prod]; exact Finset.prod_le_one (fun _ _ => abs_nonneg _) fun j _ => by rw [abs_of_nonneg (ha j).1]; exact (ha j).2
    have hbi : |b i| ≤ 1 := by rw [abs_of_nonneg (hb i).1]; exact (hb i).2
    calc |a i * ∏ i ∈ s, a i - b i * ∏ i ∈ s, b i|
        = |(a i - b i) * ∏ i ∈ s, a i + b i * (∏ i ∈ s, a i - ∏ i ∈ s, b i)| := by congr 1; ring
      _ ≤ |(a i - b i) * ∏ i ∈ s, a i| + |b i * (∏ i ∈ s, a i - ∏ i ∈ s, b i)| := abs_add_le _ _
      _ ≤ |a i - b i| * 1 + 1 * |∏ i ∈ s, a i - ∏ i ∈ s, b i| := by
        rw [abs_mul, abs_mul]; gcongr
      _ ≤ _ := by linarith

/-- Wilks' lambda and Pillai's trace are within the tolerance of `det E / det (E + H)` and `tr ((E + H)⁻¹ H)`. -/
theorem C151_tolerance {geigh : Mat k k → Mat k k → Option (Fin k → ℝ)} (hg : GeighOk geigh) (hE : E.PosDef) (hH : H.PosSemidef)
    {eig : List ℝ} (h : canonEig geigh H E = some eig) :
    |(four eig).wilks - E.det / (E + H).det| ≤ k * 1e-9 ∧ |(four eig).pillai - ((E + H)⁻¹ * H).trace| ≤ k * 1e-9 := by
  obtain ⟨e, h1, h2, -⟩ := perm_eig h
  obtain ⟨V, v1, v2⟩ := hg.ok _ _ _ h1
  obtain ⟨s1, s2, -⟩ := simul_stats hE hH v1 v2
  obtain ⟨f1, f2, -⟩ := four_sums h2
  have hr := simul_range hE hH v1 v2
  have hc := fun i => cut_close (hr i).1 (hr i).2.le
  rw [f1, f2, s1, s2]
  constructor
  · refine (prod_close _ _ _ (fun i => ?_) fun i => ?_).trans ?_
    · exact ⟨by linarith [(hc i).2.1, show (0:ℝ) < 1e-9 by norm_num], by linarith [(hc i).1]⟩
    · exact ⟨by linarith [(hr i).2], by linarith [(hr i).1]⟩
    · refine (Finset.sum_le_sum fun i _ => (?_ : _ ≤ (1e-9 : ℝ))).trans (by simp)
      rw [sub_sub_sub_cancel_left, abs_sub_comm]
      exact (hc i).2.2
  · rw [← Finset.sum_sub_distrib]
    refine (Finset.abs_sum_le_sum_abs _ _).trans ((Finset.sum_le_sum fun i _ => (hc i).2.2).trans (by simp))

theorem foldl_max (l : List ℝ) (x : ℝ) : (∀ y ∈ x :: l, y ≤ l.foldl max x) ∧ l.foldl max x ∈ x :: l := by
  induction l generalizing x with
  | nil => simp
  | cons a l ih =>
    obtain ⟨i1, i2⟩ := ih (max x a)
    rw [List.foldl_cons]
    constructor
    · intro y hy
      have hm := i1 _ (List.mem_cons_self ..)
      rcases List.mem_cons.1 hy with rfl | hy
      · exact (le_max_left _ _).trans hm
      · rcases List.mem_cons.1 hy with rfl | hy
        · exact (le_max_right _ _).trans hm
        · exact i1 _ (List.mem_cons_of_mem _ hy)
    · rcases List.mem_cons.1 i2 with h | h
      · rw [h]
        rcases max_choice x a with h | h <;> rw [h] <;> simp
      · simp [h]

/-- The largest ratio. -/
theorem four_roy {eig : List ℝ} (h : eig.Perm (List.ofFn fun i => clip (e i))) (h1 : ∀ i, 0 ≤ e i ∧ e i ≤ 1) :
    (∀ i, cut (e i) / (1 - cut (e i)) ≤ (four eig).roy) ∧ ((four eig).roy = 0 ∧ (∀ i, cut (e i) = 0) ∨
      ∃ i, (four eig).roy = cut (e i) / (1 - cut (e i))) := by
  classical
  have hmem : ∀ i, 1e-9 < clip (e i) → cut (e i) / (1 - cut (e i)) ∈
      (eig.filter fun x => decide (x > 1e-9)).map fun x => x / (1 - x) := fun i hi => by
    rw [cut, if_pos hi]
    refine List.mem_map_of_mem (List.mem_filter.2 ⟨h.mem_iff.2 ?_, decide_eq_true hi⟩)
    exact List.mem_ofFn.2 ⟨i, rfl⟩
  have hmem2 : ∀ y ∈ (eig.filter fun x => decide (x > 1e-9)).map fun x => x / (1 - x), ∃ i, y = cut (e i) / (1 - cut (e i)) := by
    intro y hy
    obtain ⟨x, hx, rfl⟩ := List.mem_map.1 hy
    obtain ⟨hx1, hx2⟩ := List.mem_filter.1 hx
    obtain ⟨i, rfl⟩ := List.mem_ofFn.1 (h.mem_iff.1 hx1)
    exact ⟨i, by rw [cut, if_pos (of_decide_eq_true hx2)]⟩
  have hnn : ∀ i, 0 ≤ cut (e i) / (1 - cut (e i)) := fun i => by
    have := cut_close (h1 i).1 (h1 i).2
    exact div_nonneg this.1 (by linarith [this.2.1, show (0:ℝ) < 1e-9 by norm_num])
  simp only [four]
  generalize (eig.filter fun x => decide (x > 1e-9)).map (fun x => x / (1 - x)) = l at *
  have hz : ∀ i, ¬ 1e-9 < clip (e i) → cut (e i) = 0 := fun i hi => if_neg hi
  cases l with
  | nil =>
    have : ∀ i, cut (e i) = 0 := fun i => hz i fun hi => List.not_mem_nil (hmem i hi)
    exact ⟨fun i => by simp [this i], Or.inl ⟨rfl, this⟩⟩
  | cons x l =>
    obtain ⟨m1, m2⟩ := foldl_max l x
    refine ⟨fun i => ?_, Or.inr (hmem2 _ m2)⟩
    by_cases hi : 1e-9 < clip (e i)
    · exact m1 _ (hmem i hi)
    · rw [hz i hi, zero_div]
      obtain ⟨j, hj⟩ := hmem2 _ m2
      change 0 ≤ l.foldl max x
      rw [hj]; exact hnn j

/-- Away from the tolerances the four values are the classical statistics; Roy's is the largest ratio of quadratic forms. -/
theorem C151_statistics {geigh : Mat k k → Mat k k → Option (Fin k → ℝ)} (hg : GeighOk geigh) (hE : E.PosDef) (hH : H.PosSemidef)
    {eig : List ℝ} (h : canonEig geigh H E = some eig)
    (ht : ∀ e, geigh H (E + H) = some e → ∀ i, (e i = 0 ∨ 1e-9 < e i) ∧ e i ≤ 1 - 1e-9) :
    (four eig).wilks = E.det / (E + H).det ∧ (four eig).pillai = ((E + H)⁻¹ * H).trace ∧
      (four eig).hotelling = (E⁻¹ * H).trace ∧ (∀ x, x ⬝ᵥ (H *ᵥ x) ≤ (four eig).roy * (x ⬝ᵥ (E *ᵥ x))) ∧
        (0 < k → ∃ x, x ≠ 0 ∧ x ⬝ᵥ (H *ᵥ x) = (four eig).roy * (x ⬝ᵥ (E *ᵥ x))) := by
  obtain ⟨e, h1, h2, -⟩ := perm_eig h
  obtain ⟨V, v1, v2⟩ := hg.ok _ _ _ h1
  obtain ⟨s1, s2, s3⟩ := simul_stats hE hH v1 v2
  obtain ⟨f1, f2, f3⟩ := four_sums h2
  have hr := simul_range hE hH v1 v2
  have hc := fun i => cut_exact (ht e h1 i).1 (ht e h1 i).2
  obtain ⟨r1, r2⟩ := four_roy h2 fun i => ⟨(hr i).1, (hr i).2.le⟩
  simp only [hc] at f1 f2 f3 r1 r2
  have hu : IsUnit V.det := by
    have := congrArg det v1
    rw [det_mul, det_one] at this
    exact IsUnit.of_mul_eq_one _ ((mul_comm _ _).trans this)
  have qf : ∀ (A : Mat k k) (f : Fin k → ℝ), Vᵀ * A * V = diagonal f → ∀ y, (V *ᵥ y) ⬝ᵥ (A *ᵥ (V *ᵥ y)) = ∑ i, f i * (y i * y i) := by
    intro A f hA y
    rw [dotProduct_comm, ← dotProduct_transpose_mulVec, mulVec_mulVec, mulVec_mulVec, hA]
    simp only [dotProduct, mulVec_diagonal]
    exact Finset.sum_congr rfl fun i _ => by ring
  have hpos : ∀ i, 0 < 1 - e i := fun i => by linarith [(hr i).2]
  refine ⟨f1.trans s1.symm, f2.trans s2.symm, f3.trans s3.symm, fun x => ?_, fun hk => ?_⟩
  · have hx : x = V *ᵥ (V⁻¹ *ᵥ x) := by rw [mulVec_mulVec, mul_nonsing_inv _ hu, one_mulVec]
    rw [hx, qf H e v2, qf E _ (simul v1 v2), Finset.mul_sum]
    refine Finset.sum_le_sum fun i _ => ?_
    rw [← mul_assoc (four eig).roy]
    refine mul_le_mul_of_nonneg_right ?_ (mul_self_nonneg (_ : ℝ))
    exact (div_le_iff₀ (hpos i)).1 (r1 i)
  · have hv : ∀ j : Fin k, V *ᵥ Pi.single j 1 ≠ 0 := fun j h0 => by
      have := congrArg (V⁻¹ *ᵥ ·) h0
      simp only [mulVec_mulVec, nonsing_inv_mul _ hu, one_mulVec, mulVec_zero] at this
      have := congrFun this j
      simp at this
    have hq : ∀ (f : Fin k → ℝ) (j : Fin k), ∑ i, f i * ((Pi.single j 1 : Fin k → ℝ) i * (Pi.single j 1 : Fin k → ℝ) i) = f j := fun f j => by
      rw [Finset.sum_eq_single j]
      · simp
      · intro b _ hb; simp [Pi.single_eq_of_ne hb]
      · simp
    rcases r2 with ⟨r2, r3⟩ | ⟨j, r2⟩
    · refine ⟨V *ᵥ Pi.single ⟨0, hk⟩ 1, hv _, ?_⟩
      rw [qf H e v2, hq, r3, r2, zero_mul]
    · refine ⟨V *ᵥ Pi.single j 1, hv _, ?_⟩
      rw [qf H e v2, qf E _ (simul v1 v2), hq, hq, r2, div_mul_cancel₀ _ (hpos j).ne']

end stats

/-! ## the F tests -/

theorem pdiv_ok {a b : ℝ} (h : b ≠ 0) : pdiv a b = some (a / b) := if_neg h

/-- One eigenvalue above the threshold. -/
theorem four_one {eig : List ℝ} {rho : ℝ} (h : (eig.filter fun x => decide (x > 1e-9)) = [rho]) :
    four eig = ⟨1 - rho, rho, rho / (1 - rho), rho / (1 - rho)⟩ := by
  have : (eig.filter fun x => @decide (x > 1e-9) (Classical.propDecidable _)) = [rho] := by rw [← h]
  simp only [four, this]
  simp

/-- No eigenvalue above the threshold. -/
theorem four_none {eig : List ℝ} (h : (eig.filter fun x => decide (x > 1e-9)) = []) : four eig = ⟨1, 0, 0, 0⟩ := by
  have : (eig.filter fun x => @decide (x > 1e-9) (Classical.propDecidable _)) = [] := by rw [← h]
  simp only [four, this]
  simp

theorem ft_one {y x z rho : ℝ} (h1 : rho < 1) (h1y : 1 ≤ y) (h1h : 1 ≤ x) (hs' : y = 1 ∨ x = 1) (t : FT)
    (ht : t = ⟨rho / (1 - rho) * ((z - y + 1) / (y * x)), y * x, z - y + 1⟩) :
    min y x = 1 ∧ |y - x| = y * x - 1 ∧ wilksF (1 - rho) y x z = some t ∧
      pillaiF rho 1 ((y * x - 1 - 1) / 2) ((z - y - 1) / 2) = some t ∧ royF (rho / (1 - rho)) y x z = some t := by
  have hr : (1 : ℝ) - rho ≠ 0 := by linarith
  have hnum : y * x ≠ 0 := (mul_pos (by linarith) (by linarith)).ne'
  have hmin : min y x = 1 := by
    rcases hs' with h | h
    · rw [h]; exact min_eq_left h1h
    · rw [h]; exact min_eq_right h1y
  have hmax : max y x = y * x := by
    rcases hs' with h | h
    · rw [h, one_mul]; exact max_eq_right h1h
    · rw [h, mul_one]; exact max_eq_left h1y
  have habs : |y - x| = y * x - 1 := by
    rcases hs' with h | h
    · rw [h, abs_of_nonpos (by linarith)]; ring
    · rw [h, abs_of_nonneg (by linarith)]; ring
  have hsum : y + x = y * x + 1 := by
    rcases hs' with h | h <;> rw [h] <;> ring
  refine ⟨hmin, habs, ?_, ?_, ?_⟩
  · have h2 : (if y * y + x * x - 5 > 0 then √((y * y * x * x - 4) / (y * y + x * x - 5)) else 1) = 1 := by
      split_ifs with hb
      · have : y * y * x * x - 4 = y * y + x * x - 5 := by rcases hs' with h | h <;> rw [h] <;> ring
        rw [this, div_self hb.ne', Real.sqrt_one]
      · rfl
    unfold wilksF
    simp only [h2, pdiv_ok one_ne_zero, Option.bind_eq_bind, Option.bind_some, div_one, Real.rpow_one, pdiv_ok hr, pdiv_ok hnum]
    refine congrArg some ?_
    simp only [ht, FT.mk.injEq, true_and]
    constructor
    · rw [show (z - (y - x + 1) / 2) * 1 - 2 * ((y * x - 2) / 4) = z - y + 1 by linarith, sub_sub_cancel]
      field_simp
    · linarith
  · unfold pillaiF
    have e1 : (1 : ℝ) * (2 * ((y * x - 1 - 1) / 2) + 1 + 1) = y * x := by ring
    have e2 : (1 : ℝ) * (2 * ((z - y - 1) / 2) + 1 + 1) = z - y + 1 := by ring
    simp only [e1, e2, pdiv_ok hnum, Option.bind_eq_bind, Option.bind_some, pdiv_ok hr]
    refine congrArg some ?_
    simp only [ht, FT.mk.injEq, and_true]
    field_simp
  · unfold royF
    simp only [hmax, pdiv_ok hnum, Option.bind_eq_bind, Option.bind_some]
    refine congrArg some ?_
    simp only [ht, FT.mk.injEq, true_and]
    have : z - y * x + x = z - y + 1 := by linarith
    rw [this]
    exact ⟨mul_comm _ _, rfl⟩

theorem hl_one {y x z U : ℝ} (h1y : 1 ≤ y) (h1h : 1 ≤ x) (hs' : y = 1 ∨ x = 1) (hde : y + 1 < z) (hde2 : z ≠ y + 3) :
    hotellingF U 1 ((y * x - 1 - 1) / 2) ((z - y - 1) / 2) y x = some ⟨U * ((z - y + 1) / (y * x)), y * x, z - y + 1⟩ := by
  have hy : 0 < y := by linarith
  have hx0 : 0 < x := by linarith
  have hnum : y * x ≠ 0 := (mul_pos hy hx0).ne'
  have hsum : y + x = y * x + 1 := by
    rcases hs' with h | h <;> rw [h] <;> ring
  unfold hotellingF
  generalize hn : (z - y - 1) / 2 = np
  have hnp : 0 < np := by rw [← hn]; linarith
  have hn1 : np - 1 ≠ 0 := fun h => hde2 (by linarith)
  rw [if_pos hnp]
  have d1 : 2 * (2 * np + 1) * (np - 1) ≠ 0 := mul_ne_zero (by positivity) hn1
  have hb : (y + 2 * np) * (x + 2 * np) / (2 * (2 * np + 1) * (np - 1)) = (y * x + 2 * np) / (2 * (np - 1)) := by
    have : (y + 2 * np) * (x + 2 * np) = (y * x + 2 * np) * (2 * np + 1) := by linear_combination 2 * np * hsum
    rw [this]
    have h3 : 2 * np + 1 ≠ 0 := by positivity
    field_simp
  have hb1 : (y * x + 2 * np) / (2 * (np - 1)) - 1 = (y * x + 2) / (2 * (np - 1)) := by
    field_simp
    ring
  have hyx : y * x + 2 ≠ 0 := by positivity
  have d2 : (y * x + 2) / (2 * (np - 1)) ≠ 0 := div_ne_zero hyx (mul_ne_zero two_ne_zero hn1)
  have hx : (y * x + 2) / ((y * x + 2) / (2 * (np - 1))) = 2 * (np - 1) := by field_simp
  have d3 : 2 * np ≠ 0 := by positivity
  have hc : (4 + 2 * (np - 1) - 2) / (2 * np) = 1 := by field_simp; ring
  simp only [pdiv_ok d1, Option.bind_eq_bind, Option.bind_some, hb, hb1, pdiv_ok d2, hx, pdiv_ok d3, hc, pdiv_ok hnum, pdiv_ok one_ne_zero]
  refine congrArg some ?_
  simp only [FT.mk.injEq, true_and]
  have hz : 4 + 2 * (np - 1) = z - y + 1 := by rw [← hn]; ring
  rw [hz, div_one]
  exact ⟨mul_comm _ _, rfl⟩

/-- With one response or one restriction there is one root, and all four tests are the exact F test. -/
theorem C151_exact_partial {eig : List ℝ} {rho : ℝ} (hv : four eig = ⟨1 - rho, rho, rho / (1 - rho), rho / (1 - rho)⟩) (h1 : rho < 1)
    {ny dfh dfe : ℕ} (hy : 0 < ny) (hh : 0 < dfh) (hs : ny = 1 ∨ dfh = 1) (hd : ny + 1 < dfe) (hd2 : dfe ≠ ny + 3) :
    let t : FT := ⟨rho / (1 - rho) * ((dfe - ny + 1) / (ny * dfh)), ny * dfh, dfe - ny + 1⟩
    manova eig ny dfh dfe = some (four eig, t, t, t, t) := by
  intro t
  have hs' : (ny : ℝ) = 1 ∨ (dfh : ℝ) = 1 := by rcases hs with h | h <;> [left; right] <;> exact_mod_cast h
  have h1y : (1 : ℝ) ≤ ny := by exact_mod_cast hy
  have h1h : (1 : ℝ) ≤ dfh := by exact_mod_cast hh
  have hde : (ny : ℝ) + 1 < dfe := by exact_mod_cast hd
  have hde2 : (dfe : ℝ) ≠ ny + 3 := by exact_mod_cast hd2
  obtain ⟨m1, m2, w, pl, ro⟩ := ft_one (z := dfe) h1 h1y h1h hs' t rfl
  have hl := hl_one (U := rho / (1 - rho)) h1y h1h hs' hde hde2
  unfold manova
  simp only [hv, m1, m2, w, pl, hl, ro, Option.bind_eq_bind, Option.bind_some]
  rfl

/-- With three more error degrees of freedom than responses no test is computed: the Hotelling-Lawley approximation divides by zero. -/
theorem C151_crash_violated (eig : List ℝ) (ny dfh : ℕ) : manova eig ny dfh (ny + 3) = none := by
  have h : hotellingF (four eig).hotelling (min (ny : ℝ) dfh) ((|(ny : ℝ) - dfh| - 1) / 2) ((((ny + 3 : ℕ) : ℝ) - ny - 1) / 2) ny dfh = none := by
    have e : (((ny + 3 : ℕ) : ℝ) - ny - 1) / 2 = 1 := by push_cast; ring
    unfold hotellingF
    rw [e, if_pos one_pos]
    simp [pdiv]
  unfold manova
  simp only [h, Option.bind_eq_bind, Option.bind_none]
  simp

/-- With few error degrees of freedom the Hotelling-Lawley test has half the exact statistic and half its degrees of freedom. -/
theorem C151_small_sample_violated {eig : List ℝ} {rho : ℝ} (hv : four eig = ⟨1 - rho, rho, rho / (1 - rho), rho / (1 - rho)⟩) (h1 : rho < 1)
    {ny dfh dfe : ℕ} (hy : 0 < ny) (hh : 0 < dfh) (hs : ny = 1 ∨ dfh = 1) (hd : dfe ≤ ny + 1) :
    let t : FT := ⟨rho / (1 - rho) * ((dfe - ny + 1) / (ny * dfh)), ny * dfh, dfe - ny + 1⟩
    manova eig ny dfh dfe = some (four eig, t, t, ⟨t.f / 2, t.num, t.den / 2⟩, t) := by
  intro t
  have hs' : (ny : ℝ) = 1 ∨ (dfh : ℝ) = 1 := by rcases hs with h | h <;> [left; right] <;> exact_mod_cast h
  have h1y : (1 : ℝ) ≤ ny := by exact_mod_cast hy
  have h1h : (1 : ℝ) ≤ dfh := by exact_mod_cast hh
  have hde : (dfe : ℝ) ≤ ny + 1 := by exact_mod_cast hd
  obtain ⟨m1, m2, w, pl, ro⟩ := ft_one (z := dfe) h1 h1y h1h hs' t rfl
  have hnum : (ny : ℝ) * dfh ≠ 0 := (mul_pos (by linarith) (by linarith)).ne'
  have hl : hotellingF (rho / (1 - rho)) 1 (((ny : ℝ) * dfh - 1 - 1) / 2) (((dfe : ℝ) - ny - 1) / 2) ny dfh =
      some ⟨t.f / 2, t.num, t.den / 2⟩ := by
    unfold hotellingF
    rw [if_neg (by linarith)]
    have e1 : (1 : ℝ) * (2 * (((ny : ℝ) * dfh - 1 - 1) / 2) + 1 + 1) = ny * dfh := by ring
    simp only [e1, pdiv_ok hnum, Option.bind_eq_bind, Option.bind_some, pdiv_ok one_ne_zero]
    refine congrArg some ?_
    simp only [t, FT.mk.injEq, true_and]
    constructor
    · field_simp; ring
    · ring
  unfold manova
  simp only [hv, m1, m2, w, pl, hl, ro, Option.bind_eq_bind, Option.bind_some]
  rfl

/-- One root. -/
theorem four_single {E H : Mat k k} {geigh : Mat k k → Mat k k → Option (Fin k → ℝ)} (hg : GeighOk geigh) (hE : E.PosDef) (hH : H.PosSemidef)
    {eig : List ℝ} (h : canonEig geigh H E = some eig)
    (ht : ∀ e, geigh H (E + H) = some e → ∀ i, (e i = 0 ∨ 1e-9 < e i) ∧ e i ≤ 1 - 1e-9)
    (hone : ∀ (V : Mat k k) (e : Fin k → ℝ), Vᵀ * H * V = diagonal e → ∀ i j, i ≠ j → e i * e j = 0) :
    ∃ rho, 0 ≤ rho ∧ rho < 1 ∧ four eig = ⟨1 - rho, rho, rho / (1 - rho), rho / (1 - rho)⟩ ∧ rho / (1 - rho) = (E⁻¹ * H).trace := by
  obtain ⟨e, h1, h2, -⟩ := perm_eig h
  obtain ⟨V, v1, v2⟩ := hg.ok _ _ _ h1
  obtain ⟨s1, s2, s3⟩ := simul_stats hE hH v1 v2
  obtain ⟨f1, f2, f3⟩ := four_sums h2
  have hr := simul_range hE hH v1 v2
  have hc := fun i => cut_exact (ht e h1 i).1 (ht e h1 i).2
  obtain ⟨r1, r2⟩ := four_roy h2 fun i => ⟨(hr i).1, (hr i).2.le⟩
  simp only [hc] at f1 f2 f3 r1 r2
  have ho := hone V e v2
  generalize four eig = v at *
  obtain ⟨v1, v2, v3, v4⟩ := v
  dsimp only at *
  by_cases hz : ∀ i, e i = 0
  · refine ⟨0, le_rfl, one_pos, ?_, ?_⟩
    · simp only [hz] at f1 f2 f3 r2
      rw [f1, f2, f3]
      rcases r2 with ⟨r2, -⟩ | ⟨i, r2⟩ <;> simp [r2]
    · rw [s3]; simp [hz]
  · push Not at hz
    obtain ⟨j, hj⟩ := hz
    have h0 : ∀ i, i ≠ j → e i = 0 := fun i hi => (mul_eq_zero.1 (ho i j hi)).resolve_right hj
    have t3 : ∑ i, e i / (1 - e i) = e j / (1 - e j) :=
      Finset.sum_eq_single j (fun i _ hi => by rw [h0 i hi, zero_div]) (by simp)
    refine ⟨e j, (hr j).1, (hr j).2, ?_, by rw [s3, t3]⟩
    have t1 : ∏ i, (1 - e i) = 1 - e j :=
      Finset.prod_eq_single j (fun i _ hi => by rw [h0 i hi, sub_zero]) (by simp)
    have t2 : ∑ i, e i = e j := Finset.sum_eq_single j (fun i _ hi => h0 i hi) (by simp)
    rw [f1, f2, f3, t1, t2, t3]
    have hp : 0 < e j / (1 - e j) := div_pos (lt_of_le_of_ne (hr j).1 (Ne.symm hj)) (by linarith [(hr j).2])
    congr 1
    rcases r2 with ⟨-, r2⟩ | ⟨i, r2⟩
    · exact absurd (r2 j) hj
    · by_cases hij : i = j
      · rw [r2, hij]
      · have := r1 j
        rw [r2, h0 i hij, zero_div] at this
        linarith

/-- One row: all four tests are Hotelling's `T²` with its exact degrees of freedom. -/
theorem C151_one_row_partial {B : Mat p q} {gi : Mat p p} {rs : Mat q q} {L : Mat 1 p} {M : Mat q k}
    {geigh : Mat k k → Mat k k → Option (Fin k → ℝ)} (hg : GeighOk geigh) {H E : Mat k k} (h : hypSscp B gi rs L M = some (H, E))
    (hE : E.PosDef) (hH : H.PosSemidef)
    (ht : ∀ e, geigh H (E + H) = some e → ∀ i, (e i = 0 ∨ 1e-9 < e i) ∧ e i ≤ 1 - 1e-9)
    (hL : L.rank = 1) (hk : 0 < k) {dfe : ℕ} (hd : k + 1 < dfe) (hd2 : dfe ≠ k + 3) :
    ∃ v, let u : Fin k → ℝ := fun j => (L * (B * M)) 0 j
      let t : FT := ⟨(u ⬝ᵥ (E⁻¹ *ᵥ u)) / (L * (gi * Lᵀ)) 0 0 * ((dfe - k + 1) / k), k, dfe - k + 1⟩
      testHyp geigh B gi rs dfe L M = some (v, t, t, t, t) := by
  have hEH : (E + H).PosDef := hE.add_posSemidef hH
  have hHs : Hᵀ = H := by have := hH.isHermitian; rwa [Matrix.IsHermitian, conjTranspose_eq_transpose_of_trivial] at this
  obtain ⟨e, he⟩ := hg.total H (E + H) hHs hEH
  have heig : canonEig geigh H E = some (npSort ((List.ofFn e).map clip)).reverse := by
    unfold canonEig; simp only [he, Option.bind_eq_bind, Option.bind_some]; rfl
  have h' := h
  unfold hypSscp at h'
  simp only [Option.bind_eq_bind] at h'
  obtain ⟨Z, hZ, h'⟩ := Option.bind_eq_some_iff.1 h'
  obtain ⟨hm, rfl⟩ := inv?_eq hZ
  have hHe := (Prod.mk.inj (Option.some.inj h')).1
  generalize hA : L * (B * M) = A at *
  have hform : ∀ i j, H i j = A 0 i * ((L * (gi * Lᵀ)) 0 0)⁻¹ * A 0 j := fun i j => by
    rw [← hHe, mul_apply, Fin.sum_univ_one, transpose_apply, mul_apply, Fin.sum_univ_one]
    have : (L * (gi * Lᵀ))⁻¹ 0 0 = ((L * (gi * Lᵀ)) 0 0)⁻¹ := by
      rw [inv_def, det_fin_one, adjugate_fin_one, Matrix.smul_apply, one_apply_eq, smul_eq_mul, mul_one, Ring.inverse_eq_inv']
    rw [this]; ring
  have hone : ∀ (V : Mat k k) (e : Fin k → ℝ), Vᵀ * H * V = diagonal e → ∀ i j, i ≠ j → e i * e j = 0 := by
    intro V e hV i j hij
    have hw : ∀ i j, (Vᵀ * H * V) i j = (A * V) 0 i * ((L * (gi * Lᵀ)) 0 0)⁻¹ * (A * V) 0 j := fun i j => by
      rw [← hHe]
      have : Vᵀ * (Aᵀ * ((L * (gi * Lᵀ))⁻¹ * A)) * V = (A * V)ᵀ * ((L * (gi * Lᵀ))⁻¹ * (A * V)) := by
        simp only [transpose_mul, Matrix.mul_assoc]
      have hz : (L * (gi * Lᵀ))⁻¹ 0 0 = ((L * (gi * Lᵀ)) 0 0)⁻¹ := by
        rw [inv_def, det_fin_one, adjugate_fin_one, Matrix.smul_apply, one_apply_eq, smul_eq_mul, mul_one, Ring.inverse_eq_inv']
      rw [this, mul_apply, Fin.sum_univ_one, transpose_apply, mul_apply (N := A * V), Fin.sum_univ_one, hz]; ring
    have a1 := hw i i
    have a2 := hw j j
    have a3 := hw i j
    rw [hV] at a1 a2 a3
    rw [diagonal_apply_eq] at a1 a2
    rw [diagonal_apply_ne _ hij] at a3
    rw [a1, a2]
    calc _ = ((A * V) 0 i * ((L * (gi * Lᵀ)) 0 0)⁻¹ * (A * V) 0 j) * ((A * V) 0 i * ((L * (gi * Lᵀ)) 0 0)⁻¹ * (A * V) 0 j) := by ring
      _ = 0 := by rw [← a3, mul_zero]
  obtain ⟨rho, r0, r1, r2, r3⟩ := four_single hg hE hH heig ht hone
  have htr : (E⁻¹ * H).trace = ((fun j => A 0 j) ⬝ᵥ (E⁻¹ *ᵥ fun j => A 0 j)) / (L * (gi * Lᵀ)) 0 0 := by
    rw [trace, dotProduct, Finset.sum_div]
    refine Finset.sum_congr rfl fun i _ => ?_
    rw [diag_apply, mul_apply, mulVec, dotProduct, Finset.mul_sum, Finset.sum_div]
    refine Finset.sum_congr rfl fun j _ => ?_
    rw [hform]; ring
  have hex := C151_exact_partial r2 r1 hk (Nat.one_pos) (Or.inr rfl) hd hd2
  refine ⟨four (npSort ((List.ofFn e).map clip)).reverse, ?_⟩
  intro u t
  unfold testHyp
  simp only [h, heig, Option.bind_eq_bind, Option.bind_some, hL]
  rw [hex]
  simp only [Nat.cast_one, mul_one, r3, htr]
  rfl

/-- Eigenvalues with one root, and solvers of the eigenvalue problem. -/
example : four [0, 1 / 2] = ⟨1 - 1 / 2, 1 / 2, 1 / 2 / (1 - 1 / 2), 1 / 2 / (1 - 1 / 2)⟩ ∧
    ∀ k, ∃ geigh : Mat k k → Mat k k → Option (Fin k → ℝ), GeighOk geigh := by
  refine ⟨four_one ?_, geigh_exists⟩
  rw [List.filter_cons_of_neg (by norm_num), List.filter_cons_of_pos (by norm_num)]
  rfl

end Verif.Mv.Mvols
