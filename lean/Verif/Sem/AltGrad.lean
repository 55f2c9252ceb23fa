import Verif.Sem.Moments
import Verif.Index.Model
/-!
# Model of the second gradient of `pysem2/derivatives.py` and of the gradients of `pysem`

`_dloglike_mu_alt` writes the direction of each parameter into one of six work arrays that are kept
between calls.  `multigroup.py` has the gradient in matrix form; `fitfunctions.py` and
`cov_derivatives.py` the fit function without means.
-/
namespace Verif.Sem
open Matrix

variable {p q : Type*} [Fintype p] [Fintype q] [DecidableEq p] [DecidableEq q]

/-- A free parameter: its block `m_type[i]` and its cell `r[i], c[i]` (`a`, `b` have one row). -/
inductive Par (p q : Type*) where
  | L (r : p) (c : q)
  | B (r c : q)
  | F (r c : q)
  | P (r c : p)
  | a (c : p)
  | b (c : q)

/-- The work arrays. -/
structure Buf (p q : Type*) where
  dL : Matrix p q ℝ
  dB : Matrix q q ℝ
  dF : Matrix q q ℝ
  dP : Matrix p p ℝ
  da : p → ℝ
  db : q → ℝ

/-- `M[r, c] = v`. -/
def setCell {m n : Type*} [DecidableEq m] [DecidableEq n] (M : Matrix m n ℝ) (r : m) (c : n)
    (v : ℝ) : Matrix m n ℝ := fun i j => if i = r ∧ j = c then v else M i j

/-- One pass of the loop of `_dloglike_mu_alt` — pysem2/derivatives.py 163-214, pysem/derivatives.py
149-201: the entry of the gradient (which starts at zero) and the work arrays afterwards. -/
noncomputable def altStep (d : Stats p) (θ : Mats p q) (s : Buf p q) : Par p q → ℝ × Buf p q
  | .L r c =>
    let dL := setCell s.dL r c 1
    let BFBt := θ.Bi * θ.F * θ.Biᵀ
    let dmi := dL *ᵥ (θ.Bi *ᵥ θ.b)
    let g1 : ℝ := -2 * frob (dLᵀ * (VRV d θ * θ.L)) BFBt
    let g2 : ℝ := 2 * (dmi ⬝ᵥ rtV d θ) + 2 * ((rtV d θ ᵥ* θ.L) ⬝ᵥ (BFBt *ᵥ (rtV d θ ᵥ* dL)))
    (g1 + -g2, { s with dL := setCell dL r c 0 })
  | .B r c =>
    let dB := setCell s.dB r c 1
    let J1 := dB * (θ.Bi * θ.F)
    let JJ := J1 + J1ᵀ
    let BtLtVRV := (θ.L * θ.Bi)ᵀ * ((VRV d θ * θ.L) * θ.Bi)
    let rtVLB := (rtV d θ ᵥ* θ.L) ᵥ* θ.Bi
    let g1 : ℝ := -frob BtLtVRV JJ
    let g2 : ℝ := 2 * (rtVLB ⬝ᵥ (dB *ᵥ (θ.Bi *ᵥ θ.b))) + (rtVLB ᵥ* JJ) ⬝ᵥ rtVLB
    (g1 + -g2, { s with dB := setCell dB r c 0 })
  | .F r c =>
    let dF := setCell (setCell s.dF r c 1) c r 1
    let dSi := (θ.L * θ.Bi) * dF * (θ.L * θ.Bi)ᵀ
    let g1 : ℝ := -frob (VRV d θ) dSi
    let g2 : ℝ := rtV d θ ⬝ᵥ (dSi *ᵥ rtV d θ)
    (g1 + -g2, { s with dF := setCell (setCell dF r c 0) c r 0 })
  | .P r c =>
    let dP := setCell (setCell s.dP r c 1) c r 1
    let g1 : ℝ := -frob (VRV d θ) dP
    let g2 : ℝ := rtV d θ ⬝ᵥ (dP *ᵥ rtV d θ)
    (g1 + -g2, { s with dP := setCell (setCell dP r c 0) c r 0 })
  | .a c =>
    let da := Function.update s.da c 1
    (-2 * (da ⬝ᵥ rtV d θ), { s with da := Function.update da c 0 })
  | .b c =>
    let db := Function.update s.db c 1
    (-2 * (((θ.L * θ.Bi) *ᵥ db) ⬝ᵥ rtV d θ), { s with db := Function.update db c 0 })

/-- `_dloglike_mu_alt`: the gradient and the work arrays that the next call will see. -/
noncomputable def altGrad (d : Stats p) (θ : Mats p q) : List (Par p q) → Buf p q →
    List ℝ × Buf p q
  | [], s => ([], s)
  | x :: t, s =>
    let r := altStep d θ s x
    let rest := altGrad d θ t r.2
    (r.1 :: rest.1, rest.2)

/-- The entry of `gradient2` — pysem/multigroup.py 373-407, without the weight of the group. -/
noncomputable def grad2 (d : Stats p) (θ : Mats p q) : Par p q → ℝ :=
  let LB := θ.L * θ.Bi
  let Bb := θ.Bi *ᵥ θ.b
  let r := d.m - θ.mu
  let V := θ.Sigma⁻¹
  let W := V * (d.S + vecMulVec r r - θ.Sigma) * V
  let Vr := V *ᵥ r
  let VrbtBt := vecMulVec Vr Bb
  let T1 := LB * (θ.F * θ.Biᵀ)
  let dL := (-2 : ℝ) • (W * T1 + VrbtBt)
  let dB := (-2 : ℝ) • (LBᵀ * W * T1 + LBᵀ * VrbtBt)
  let dF := -(LBᵀ * W * LB)
  let dP := -W
  let da := (-2 : ℝ) • Vr
  let db := (-2 : ℝ) • (LBᵀ *ᵥ Vr)
  fun x => match x with
    | .L r c => dL r c
    | .B r c => dB r c
    | .F r c => dF r c * (1 + (if r ≠ c then 1 else 0))
    | .P r c => dP r c * (1 + (if r ≠ c then 1 else 0))
    | .a c => da c
    | .b c => db c

/-- `gsizes = data_df["group"].value_counts().values` — pysem/multigroup.py 271: the sizes by
decreasing size, while the groups are numbered by their sorted labels. -/
def valueCounts (g : List ℕ) (nGroups : ℕ) : List ℕ :=
  ((List.range nGroups).map fun i => g.count i).mergeSort (fun x y => y ≤ x)

/-- `LikelihoodObjective._function` — pysem/fitfunctions.py 150-155. -/
noncomputable def covFun (C Sigma : Matrix p p ℝ) : ℝ :=
  Real.log (abs Sigma.det) + (Sigma⁻¹ * C).trace

/-- `LikelihoodObjective._gradient` for one direction — pysem/fitfunctions.py 178-185 (`dSigma` after
`_invech`); the `einsum` is a trace. -/
noncomputable def covGrad (C Sigma D1 : Matrix p p ℝ) : ℝ :=
  let A := Sigma⁻¹ * (C - Sigma) * Sigma⁻¹
  let t := ∑ i, ∑ j, A j i * D1 i j
  (-t)

/-- `LikelihoodObjective._hessian` for one pair — pysem/fitfunctions.py 219-231. -/
noncomputable def covHess (C Sigma D1 D1' D2 : Matrix p p ℝ) : ℝ :=
  let A := Sigma⁻¹ * (C - Sigma) * Sigma⁻¹
  let A1 := (A + (1 / 2 : ℝ) • Sigma⁻¹) * D1
  let A2 := Sigma⁻¹ * D1'
  let t1 := ∑ i, ∑ j, A j i * D2 i j
  let t2 := ∑ i, ∑ j, A1 i j * A2 j i
  2 * t2 - t1

/-- One entry of `_dloglike` — pysem/cov_derivatives.py 217-238. -/
noncomputable def covDlog (C : Matrix p p ℝ) (θ : Mats p q) (D : Dir p q) : ℝ :=
  -frob (VRV ⟨C, 0⟩ θ) (dSigma θ D)

/-- One entry of `_d2loglike` — pysem/cov_derivatives.py 241-318: the second term only for the pairs
with a second derivative (`d2Sigma` is zero for the others). -/
noncomputable def covD2log (C : Matrix p p ℝ) (θ : Mats p q) (di dj : Dir p q) : ℝ :=
  2 * frob (VRV ⟨C, 0⟩ θ + (1 / 2 : ℝ) • θ.Sigma⁻¹) (dSigma θ di * θ.Sigma⁻¹ * dSigma θ dj)
    + -frob (VRV ⟨C, 0⟩ θ) (d2Sigma θ di dj)

/-- The pairs in the order of the loops of `_d2loglike` — pysem/cov_derivatives.py 254-273. -/
def loopPairs (n : ℕ) : List (ℕ × ℕ) :=
  (List.range n).flatMap fun j => (List.range' j (n - j)).map fun i => (i, j)

/-- `matrix_pair_types` — pysem/cov_derivatives.py 99-108, for one pair of blocks. -/
def pairType (mj mk : ℕ) : ℕ :=
  if (mj, mk) = (0, 0) then 1 else if (mj, mk) = (1, 0) then 2 else if (mj, mk) = (2, 0) then 3
  else if (mj, mk) = (1, 1) then 4 else if (mj, mk) = (2, 1) then 5 else 0

/-- `matrix_pair_types` for all pairs of `tril_indices(nf)`. -/
def pairTypes (types : ℕ → ℕ) (n : ℕ) : List ℕ :=
  (Index.trilIndices n 0 true).map fun ij => pairType (types ij.1) (types ij.2)

/-- The kinds that the loops read with the counter `ij`, beside the pair in use. -/
def loopKinds (types : ℕ → ℕ) (n : ℕ) : List ((ℕ × ℕ) × ℕ) :=
  (loopPairs n).zip (pairTypes types n)

/-- `_gradient_direct` — pysem/fitfunctions.py 187-196: `_dloglike` (217) has eleven parameters and is
called with ten arguments. -/
def gradientDirect : Option Unit :=
  let params := ["g", "L", "B", "F", "vecVRV", "dA", "r", "c", "deriv_type", "n", "vech_inds"]
  let args := ["g", "L", "B", "F", "dA", "r", "c", "mtype", "ns", "vsrs"]
  if args.length = params.length then some () else none

/-- `par_to_free_ind = nonzero(par_ind > 0).squeeze()` and `par_mats[par_to_free_ind][:, 1]` —
pysem/cov_model.py 221-226: with one free parameter the index is a scalar, the row has one axis and
the second subscript raises.  Result: the blocks. -/
def freeToMat (parInd : List ℕ) (block : ℕ → ℕ) : Option (List ℕ) :=
  let ix := (List.range parInd.length).filter fun i => parInd.getD i 0 > 0
  if ix.length = 1 then none else some (ix.map block)

end Verif.Sem
