import Verif.Mv.MvolsTestProps
/-!
# C152: measures of association of the multivariate regression
-/
namespace Verif.Mv.Mvols
open Matrix Verif.Fa Verif.Like Verif.Robust
variable {n p q r k m : ℕ}

/-- The centred responses. -/
noncomputable def centred (d : Data n p q) : Mat n q := of fun i j => d.Y i j - (∑ l, d.w l * d.Y l j) / ∑ l, d.w l

theorem total_eq {d : Data n p q} (hN : ∑ i, d.w i ≠ 0) : totalSscp d = some ((centred d)ᵀ * (diagonal d.w * centred d)) := if_neg hN

/-- Cross products around any centre. -/
theorem centre_split (d : Data n p q) (hN : ∑ i, d.w i ≠ 0) (b : Fin q → ℝ) :
    let C : Mat n q := of fun i j => d.Y i j - b j
    let D : Mat 1 q := of fun _ j => (∑ l, d.w l * d.Y l j) / (∑ l, d.w l) - b j
    Cᵀ * (diagonal d.w * C) = (centred d)ᵀ * (diagonal d.w * centred d) + Dᵀ * (diagonal fun _ => ∑ i, d.w i) * D := by
  intro C D
  ext x y
  rw [Matrix.add_apply]
  simp only [mul_apply (M := Cᵀ), mul_apply (M := (centred d)ᵀ), transpose_apply, diagonal_mul]
  rw [mul_apply, Fin.sum_univ_one, mul_diagonal, transpose_apply]
  simp only [C, D, centred, of_apply]
  have hx : ∀ j, ∑ i, d.w i * (d.Y i j - (∑ l, d.w l * d.Y l j) / ∑ l, d.w l) = 0 := fun j => by
    simp only [mul_sub, Finset.sum_sub_distrib, ← Finset.sum_mul]
    rw [mul_div_cancel₀ _ hN, sub_self]
  have hx1 := hx x
  have hy1 := hx y
  generalize (∑ l, d.w l * d.Y l x) / (∑ l, d.w l) = mx at *
  generalize (∑ l, d.w l * d.Y l y) / (∑ l, d.w l) = my at *
  have e : ∀ i, (d.Y i x - b x) * (d.w i * (d.Y i y - b y)) = (d.Y i x - mx) * (d.w i * (d.Y i y - my)) +
      ((mx - b x) * (d.w i * (d.Y i y - my)) + (my - b y) * (d.w i * (d.Y i x - mx)) + (mx - b x) * (my - b y) * d.w i) := fun i => by ring
  simp only [e, Finset.sum_add_distrib, ← Finset.mul_sum, hx1, hy1]
  ring

/-- With a constant column and restrictions on all others the cross products add up to those of the centred responses. -/
theorem C152_total {d : Data n p q} (hw : ∀ i, 0 ≤ d.w i) (hN : 0 < ∑ i, d.w i) (hX : (gram d).PosDef) {B : Mat p q}
    (hB : B = (gram d)⁻¹ * (d.Xᵀ * (diagonal d.w * d.Y))) {j0 : Fin p} {c : ℝ} (hc : c ≠ 0) (hconst : ∀ i, d.X i j0 = c)
    {idx : Fin m → Fin p} (hidx : ∀ j, j ≠ j0 ↔ ∃ i, idx i = j) {H E : Mat q q}
    (h : hypSscp B (gram d)⁻¹ (residSscp d B) (contrast idx) 1 = some (H, E)) : totalSscp d = some (E + H) := by
  obtain ⟨-, -, -, B0, z0, z1, z2⟩ := C151_hypothesis hX hB h
  rw [total_eq hN.ne', ← z1]
  simp only [Matrix.mul_one] at z2 ⊢
  have hrow : ∀ B2 : Mat p q, contrast idx * B2 = 0 ↔ ∀ j, j ≠ j0 → ∀ l, B2 j l = 0 := by
    intro B2
    have hent : ∀ i l, (contrast idx * B2) i l = B2 (idx i) l := fun i l => by
      simp [contrast, mul_apply, of_apply]
    constructor
    · intro h j hj l
      obtain ⟨i, rfl⟩ := (hidx j).1 hj
      rw [← hent, h]; rfl
    · intro h
      ext i l
      rw [hent, h _ ((hidx _).2 ⟨i, rfl⟩)]; rfl
  have hfit : ∀ B2 : Mat p q, (∀ j, j ≠ j0 → ∀ l, B2 j l = 0) → d.Y - d.X * B2 = of fun i l => d.Y i l - c * B2 j0 l := by
    intro B2 h
    ext i l
    rw [Matrix.sub_apply, mul_apply, of_apply, Finset.sum_eq_single j0 (fun j _ hj => by rw [h j hj l, mul_zero]) (by simp), hconst]
  have h0 := (hrow B0).1 z0
  let B1 : Mat p q := of fun j l => if j = j0 then (∑ i, d.w i * d.Y i l) / (∑ i, d.w i) / c else 0
  have h1 : ∀ j, j ≠ j0 → ∀ l, B1 j l = 0 := fun j hj l => by simp only [B1, of_apply, if_neg hj]
  have r1 : rss d d.Y B1 = (centred d)ᵀ * (diagonal d.w * centred d) := by
    rw [rss, hfit B1 h1]
    have : (of fun i l => d.Y i l - c * B1 j0 l) = centred d := by
      ext i l
      simp only [B1, of_apply, if_true, centred]
      rw [mul_div_cancel₀ _ hc]
    rw [this]
  have p1 := z2 B1 ((hrow B1).2 h1)
  rw [r1] at p1
  have p0 : (rss d d.Y B0 - (centred d)ᵀ * (diagonal d.w * centred d)).PosSemidef := by
    rw [rss, hfit B0 h0]
    have r0 := centre_split d hN.ne' fun l => c * B0 j0 l
    dsimp only at r0
    rw [r0, add_sub_cancel_left]
    exact quad_posSemidef (PosSemidef.diagonal fun _ => hN.le) _
  refine congrArg some ?_
  open scoped MatrixOrder in
  exact le_antisymm (Matrix.le_iff.2 p0) (Matrix.le_iff.2 p1)

/-- With a constant column `1 - Wilks` compares the generalised variances. -/
theorem C152_generalized {E H T : Mat q q} {geigh : Mat q q → Mat q q → Option (Fin q → ℝ)} (hg : GeighOk geigh) (hE : E.PosDef) (hH : H.PosSemidef)
    {eig : List ℝ} (h : canonEig geigh H E = some eig)
    (ht : ∀ e, geigh H (E + H) = some e → ∀ i, (e i = 0 ∨ 1e-9 < e i) ∧ e i ≤ 1 - 1e-9) (hT : T = E + H) (dfh : ℕ) :
    (assoc eig q dfh).gen = 1 - E.det / T.det := by
  rw [hT, ← (C151_statistics hg hE hH h ht).1]
  rfl

/-- Coefficients of determination are shares of the total, and the adjusted ones compare mean squares. -/
theorem C152_rsquared {E H T : Mat q q} (hE : E.PosSemidef) (hH : H.PosSemidef) (hT : T = E + H) {j : Fin q} (hj : 0 < T j j) (n df : ℕ) :
    (rsq E T n df j).1 = H j j / T j j ∧ 0 ≤ (rsq E T n df j).1 ∧ (rsq E T n df j).1 ≤ 1 ∧
      (1 < n → (rsq E T n df j).2 = 1 - (E j j / df) / (T j j / (n - 1))) := by
  have h1 : T j j = E j j + H j j := by rw [hT]; rfl
  have e1 : (rsq E T n df j).1 = H j j / T j j := by
    simp only [rsq]
    rw [eq_div_iff hj.ne', sub_mul, div_mul_cancel₀ _ hj.ne', h1]
    ring
  have hEj : 0 ≤ E j j := hE.diag_nonneg
  have hHj : 0 ≤ H j j := hH.diag_nonneg
  refine ⟨e1, ?_, ?_, fun hn => ?_⟩
  · rw [e1]; exact div_nonneg hHj hj.le
  · rw [e1, div_le_one hj]; linarith
  · simp only [rsq]
    have : (n : ℝ) - 1 ≠ 0 := by
      have : (1 : ℝ) < n := by exact_mod_cast hn
      linarith
    by_cases hd : (df : ℝ) = 0
    · simp [hd]
    · field_simp
      ring

/-- The coefficient from the traces is the mean of the others, weighted by the totals. -/
theorem C152_trace {E T : Mat q q} (hT : ∀ j, 0 < T j j) (hq : 0 < q) (n df : ℕ) :
    rsqTrace E T = ∑ j, T j j / (∑ l, T l l) * (rsq E T n df j).1 := by
  have hs : 0 < ∑ l, T l l := Finset.sum_pos (fun j _ => hT j) ⟨⟨0, hq⟩, Finset.mem_univ _⟩
  have : ∀ j, T j j / (∑ l, T l l) * (rsq E T n df j).1 = (T j j - E j j) / ∑ l, T l l := fun j => by
    have := (hT j).ne'
    simp only [rsq]
    field_simp
  simp only [this]
  rw [← Finset.sum_div, Finset.sum_sub_distrib, sub_div, div_self hs.ne']
  rfl

/-! ## effect sizes -/

theorem card_roots {H V : Mat k k} {e : Fin k → ℝ} (h2 : Vᵀ * H * V = diagonal e) : (Finset.univ.filter fun i => e i ≠ 0).card ≤ H.rank := by
  classical
  have h := rank_diagonal e
  rw [← h2, Fintype.card_subtype] at h
  rw [← h]
  exact (rank_mul_le_left _ _).trans (rank_mul_le_right _ _)

/-- The hypothesis matrix has at most the rank of the restrictions. -/
theorem rank_hyp {B : Mat p q} {gi : Mat p p} {rs : Mat q q} {L : Mat r p} {M : Mat q k} {H E : Mat k k}
    (h : hypSscp B gi rs L M = some (H, E)) : H.rank ≤ L.rank := by
  unfold hypSscp at h
  simp only [Option.bind_eq_bind] at h
  obtain ⟨Z, hZ, h⟩ := Option.bind_eq_some_iff.1 h
  rw [← (Prod.mk.inj (Option.some.inj h)).1]
  exact (rank_mul_le_right _ _).trans ((rank_mul_le_right _ _).trans (rank_mul_le_left _ _))

theorem eta_order {s : ℕ} (hs : 0 < s) (hk : s ≤ k) (c : Fin k → ℝ) (h0 : ∀ i, 0 ≤ c i) (h1 : ∀ i, c i < 1)
    (hcard : (Finset.univ.filter fun i => c i ≠ 0).card ≤ s) {roy : ℝ} (hr : ∀ i, c i / (1 - c i) ≤ roy) :
    0 ≤ (∑ i, c i) / s ∧ (∑ i, c i) / s ≤ 1 - (∏ i, (1 - c i)) ^ (1 / (s : ℝ)) ∧
      1 - (∏ i, (1 - c i)) ^ (1 / (s : ℝ)) ≤ ((∑ i, c i / (1 - c i)) / s) / (1 + (∑ i, c i / (1 - c i)) / s) ∧
        ((∑ i, c i / (1 - c i)) / s) / (1 + (∑ i, c i / (1 - c i)) / s) ≤ roy / (1 + roy) ∧ roy / (1 + roy) < 1 := by
  classical
  obtain ⟨S, hS1, hS2⟩ := Finset.exists_superset_card_eq hcard (by simpa using hk)
  have hz : ∀ i, i ∉ S → c i = 0 := fun i hi => by
    by_contra hc
    exact hi (hS1 (Finset.mem_filter.2 ⟨Finset.mem_univ _, hc⟩))
  have q1 : ∑ i, c i = ∑ i ∈ S, c i := (Finset.sum_subset (Finset.subset_univ S) fun i _ hi => hz i hi).symm
  have q2 : ∏ i, (1 - c i) = ∏ i ∈ S, (1 - c i) :=
    (Finset.prod_subset (Finset.subset_univ S) fun i _ hi => by rw [hz i hi, sub_zero]).symm
  have q3 : ∑ i, c i / (1 - c i) = ∑ i ∈ S, c i / (1 - c i) :=
    (Finset.sum_subset (Finset.subset_univ S) fun i _ hi => by rw [hz i hi, zero_div]).symm
  have hs' : (0 : ℝ) < s := Nat.cast_pos.2 hs
  have hp : ∀ i, 0 < 1 - c i := fun i => by linarith [h1 i]
  have hw : ∑ _i ∈ S, (1 / (s : ℝ)) = 1 := by rw [Finset.sum_const, hS2, nsmul_eq_mul, mul_one_div_cancel hs'.ne']
  have hwn : ∀ i ∈ S, 0 ≤ 1 / (s : ℝ) := fun _ _ => by positivity
  rw [q1, q2, q3]
  have a1 := Real.geom_mean_le_arith_mean_weighted S (fun _ => 1 / (s : ℝ)) (fun i => 1 - c i) hwn hw fun i _ => (hp i).le
  have a2 := Real.geom_mean_le_arith_mean_weighted S (fun _ => 1 / (s : ℝ)) (fun i => (1 - c i)⁻¹) hwn hw fun i _ => (inv_pos.2 (hp i)).le
  rw [Real.finset_prod_rpow _ _ fun i _ => (hp i).le] at a1
  rw [Real.finset_prod_rpow _ _ fun i _ => (inv_pos.2 (hp i)).le, Finset.prod_inv_distrib] at a2
  have hP : 0 < ∏ i ∈ S, (1 - c i) := Finset.prod_pos fun i _ => hp i
  rw [Real.inv_rpow hP.le] at a2
  rw [← Finset.mul_sum, Finset.sum_sub_distrib, Finset.sum_const, hS2, nsmul_eq_mul, mul_one] at a1
  have e2 : ∑ i ∈ S, 1 / (s : ℝ) * (1 - c i)⁻¹ = 1 + (∑ i ∈ S, c i / (1 - c i)) / s := by
    rw [← Finset.mul_sum, show ∑ i ∈ S, (1 - c i)⁻¹ = ∑ i ∈ S, (1 + c i / (1 - c i)) from
      Finset.sum_congr rfl fun i _ => by have := (hp i).ne'; field_simp; ring, Finset.sum_add_distrib, Finset.sum_const, hS2,
      nsmul_eq_mul, mul_one]
    field_simp
  rw [e2] at a2
  have hW : 0 < (∏ i ∈ S, (1 - c i)) ^ (1 / (s : ℝ)) := Real.rpow_pos_of_pos hP _
  have hnn : 0 ≤ (∑ i ∈ S, c i / (1 - c i)) / s := div_nonneg (Finset.sum_nonneg fun i _ => div_nonneg (h0 i) (hp i).le) hs'.le
  have hU : (∑ i ∈ S, c i / (1 - c i)) / s ≤ roy := by
    rw [div_le_iff₀ hs']
    refine (Finset.sum_le_sum fun i _ => hr i).trans ?_
    rw [Finset.sum_const, hS2, nsmul_eq_mul, mul_comm]
  generalize (∏ i ∈ S, (1 - c i)) ^ (1 / (s : ℝ)) = W at *
  generalize (∑ i ∈ S, c i / (1 - c i)) / s = U at *
  have e1 : 1 / (s : ℝ) * (s - ∑ i ∈ S, c i) = 1 - (∑ i ∈ S, c i) / s := by field_simp
  rw [e1] at a1
  refine ⟨div_nonneg (Finset.sum_nonneg fun i _ => h0 i) hs'.le, by linarith, ?_, ?_, ?_⟩
  · have hw1 : 1 / (1 + U) ≤ W := by
      rw [div_le_iff₀ (by linarith)]
      calc (1 : ℝ) = W * W⁻¹ := (mul_inv_cancel₀ hW.ne').symm
        _ ≤ W * (1 + U) := by gcongr
    have : U / (1 + U) = 1 - 1 / (1 + U) := by
      have : 1 + U ≠ 0 := by linarith
      field_simp; ring
    linarith
  · rw [div_le_div_iff₀ (by linarith) (by linarith)]
    nlinarith
  · rw [div_lt_one (by linarith)]; linarith

/-- The effect sizes are ordered: Pillai's, Wilks', Hotelling's and Roy's, all in the unit interval. -/
theorem C152_effect_sizes {B : Mat p q} {gi : Mat p p} {rs : Mat q q} {L : Mat r p} {H E : Mat q q}
    (hyp : hypSscp B gi rs L (1 : Mat q q) = some (H, E)) {geigh : Mat q q → Mat q q → Option (Fin q → ℝ)} (hg : GeighOk geigh)
    (hE : E.PosDef) (hH : H.PosSemidef) {eig : List ℝ} (h : canonEig geigh H E = some eig) (hq : 0 < q) :
    let a := assoc eig q L.rank
    0 ≤ a.etaP ∧ a.etaP ≤ a.etaW ∧ a.etaW ≤ a.etaH ∧ a.etaH ≤ a.etaR ∧ a.etaR < 1 := by
  obtain ⟨e, h1, h2, -⟩ := perm_eig h
  obtain ⟨V, v1, v2⟩ := hg.ok _ _ _ h1
  obtain ⟨f1, f2, f3⟩ := four_sums h2
  have hr := simul_range hE hH v1 v2
  have hc := fun i => cut_close (hr i).1 (hr i).2.le
  obtain ⟨r1, -⟩ := four_roy h2 fun i => ⟨(hr i).1, (hr i).2.le⟩
  intro a
  simp only [a, assoc, f1, f2, f3]
  refine eta_order (k := q) (lt_of_lt_of_le one_pos (le_max_right _ _)) (max_le (min_le_left _ _) hq) (fun i => cut (e i)) (fun i => (hc i).1)
    (fun i => lt_of_le_of_lt (hc i).2.1 (by norm_num)) ?_ r1
  have hsub : (Finset.univ.filter fun i => cut (e i) ≠ 0) ⊆ Finset.univ.filter fun i => e i ≠ 0 := by
    intro i hi
    rw [Finset.mem_filter] at hi ⊢
    refine ⟨hi.1, fun h0 => hi.2 ?_⟩
    rw [h0]; exact cut_exact (Or.inl rfl) (by norm_num)
  have c1 := (Finset.card_le_card hsub).trans (card_roots v2)
  refine le_trans (le_min ?_ (c1.trans (rank_hyp hyp))) (le_max_left _ _)
  exact (Finset.card_le_univ _).trans (by simp)

/-- The canonical correlations decrease and lie strictly between zero and one; their mean square is that reported. -/
theorem C152_canonical {E H : Mat q q} {geigh : Mat q q → Mat q q → Option (Fin q → ℝ)} {eig : List ℝ} (h : canonEig geigh H E = some eig) (dfh : ℕ) :
    let a := assoc eig q dfh
    a.cc.SortedGE ∧ (∀ x ∈ a.cc, 0 < x ∧ x < 1) ∧ a.mean * a.cc.length = (a.cc.map fun x => x ^ 2).sum := by
  classical
  obtain ⟨e, h1, h2, h3⟩ := perm_eig h
  intro a
  have hm : ∀ x ∈ eig.filter (fun x => decide (x > 1e-9)), 1e-9 < x ∧ x < 1 := by
    intro x hx
    obtain ⟨hx1, hx2⟩ := List.mem_filter.1 hx
    obtain ⟨i, rfl⟩ := List.mem_ofFn.1 (h2.mem_iff.1 hx1)
    exact ⟨of_decide_eq_true hx2, lt_of_le_of_lt (min_le_right _ _) (by norm_num)⟩
  simp only [a, assoc]
  refine ⟨?_, ?_, ?_⟩
  · refine List.Pairwise.sortedGE (List.pairwise_map.2 ?_)
    exact (h3.pairwise.filter _).imp fun hab => Real.sqrt_le_sqrt hab
  · intro y hy
    obtain ⟨x, hx, rfl⟩ := List.mem_map.1 hy
    have := hm x (by convert hx)
    have h0 : 0 < x := lt_trans (by norm_num) this.1
    exact ⟨Real.sqrt_pos.2 h0, by rw [Real.sqrt_lt' one_pos]; simpa using this.2⟩
  · rw [List.length_map, List.map_map]
    have hsq : ((eig.filter fun x => @decide (x > 1e-9) (Classical.propDecidable _)).map ((fun x => x ^ 2) ∘ Real.sqrt)) =
        (eig.filter fun x => @decide (x > 1e-9) (Classical.propDecidable _)) := by
      conv_rhs => rw [← List.map_id (eig.filter _)]
      refine List.map_congr_left fun x hx => ?_
      have := hm x (by convert hx)
      exact Real.sq_sqrt (le_trans (by norm_num) this.1.le)
    rw [hsq]
    split_ifs with hn
    · rw [hn]; simp
    · rw [div_mul_cancel₀]
      simpa using hn

end Verif.Mv.Mvols
