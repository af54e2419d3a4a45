import Verif.NonLinModel
import Verif.SigmaProps
import Verif.FactMarg

/-!
# Helper lemmas for non-linear Gaussians: densities and points
-/

namespace Verif.Gauss
open Matrix Spec

variable {n : ℕ}

/-- Covariance form parameters evaluate to a weighted normal density. -/
theorem exp_evalCan_toCan {v : CovF n} (hp : v.cov.PosDef) (x : Fin n → ℝ) :
    Real.exp (evalCan (toCan v) x) = Real.exp v.lw * normalDensity v.cov v.mean x := by
  have hd := hp.det_pos
  have hs := posDef_symm hp
  have e1 : Real.exp (1 / 2 * Real.log (det2pi v.cov)) = Real.sqrt (det2pi v.cov) := by
    rw [Real.sqrt_eq_rpow, Real.rpow_def_of_pos (det2pi_pos.2 hd), mul_comm]
  rw [normalDensity, Fintype.card_fin, ← det2pi_eq, ← e1, mul_div_assoc', ← Real.exp_add, ← Real.exp_sub]
  congr 1
  have hsym := dot_symm (symm_inv hs) v.mean x
  simp only [evalCan, toCan, sub_dotProduct, mulVec_sub, dotProduct_sub, hsym]
  have h2 : x ⬝ᵥ v.cov⁻¹ *ᵥ v.mean = v.mean ⬝ᵥ v.cov⁻¹ *ᵥ x := hsym.symm
  ring_nf

theorem normalDensity_pos {ι : Type} [Fintype ι] [DecidableEq ι] {S : Matrix ι ι ℝ} (hS : S.PosDef) (m x : ι → ℝ) :
    0 < normalDensity S m x := by
  unfold normalDensity
  have := hS.det_pos
  positivity

/-- The density of a permuted vector. -/
theorem normalDensity_submatrix {ι κ : Type} [Fintype ι] [DecidableEq ι] [Fintype κ] [DecidableEq κ] (e : κ ≃ ι)
    (S : Matrix ι ι ℝ) (m x : ι → ℝ) : normalDensity (S.submatrix e e) (m ∘ e) (x ∘ e) = normalDensity S m x := by
  unfold normalDensity
  rw [inv_submatrix_equiv, det_submatrix_equiv_self, Fintype.card_congr e]
  congr 4
  have : x ∘ e - m ∘ e = (x - m) ∘ e := rfl
  rw [this, submatrix_mulVec_equiv]
  have h2 : ((x - m) ∘ e) ∘ e.symm = x - m := by
    funext i
    simp
  rw [h2]
  exact comp_equiv_dotProduct_comp_equiv _ _ e

section Joint
variable {ι κ : Type} [Fintype ι] [DecidableEq ι] [Fintype κ] [DecidableEq κ] {S : Matrix ι ι ℝ} {N : Matrix κ κ ℝ}

theorem joint_inv (hS : S.PosDef) (hN : N.PosDef) (A : Matrix κ ι ℝ) :
    (fromBlocks S (S * Aᵀ) (A * S) (A * S * Aᵀ + N))⁻¹ =
      fromBlocks (S⁻¹ + Aᵀ * N⁻¹ * A) (-(Aᵀ * N⁻¹)) (-(N⁻¹ * A)) N⁻¹ := by
  have hS1 : S * S⁻¹ = 1 := mul_nonsing_inv _ hS.det_pos.ne'.isUnit
  have hN1 : N * N⁻¹ = 1 := mul_nonsing_inv _ hN.det_pos.ne'.isUnit
  have b1 : S * (S⁻¹ + Aᵀ * N⁻¹ * A) + S * Aᵀ * -(N⁻¹ * A) = 1 := by
    simp only [Matrix.mul_add, Matrix.mul_neg, Matrix.mul_assoc, hS1]
    abel
  have b2 : S * -(Aᵀ * N⁻¹) + S * Aᵀ * N⁻¹ = 0 := by
    simp only [Matrix.mul_neg, Matrix.mul_assoc]
    abel
  have b3 : A * S * (S⁻¹ + Aᵀ * N⁻¹ * A) + (A * S * Aᵀ + N) * -(N⁻¹ * A) = 0 := by
    simp only [Matrix.mul_add, Matrix.add_mul, Matrix.mul_neg, Matrix.mul_assoc, hS1, Matrix.mul_one]
    rw [← Matrix.mul_assoc N N⁻¹ A, hN1, Matrix.one_mul]
    abel
  have b4 : A * S * -(Aᵀ * N⁻¹) + (A * S * Aᵀ + N) * N⁻¹ = 1 := by
    simp only [Matrix.mul_neg, Matrix.add_mul, Matrix.mul_assoc, hN1]
    abel
  refine inv_eq_right_inv ?_
  rw [fromBlocks_multiply, b1, b2, b3, b4, fromBlocks_one]

theorem joint_det (hS : S.PosDef) (A : Matrix κ ι ℝ) :
    (fromBlocks S (S * Aᵀ) (A * S) (A * S * Aᵀ + N)).det = S.det * N.det := by
  have hS1 : S * S⁻¹ = 1 := mul_nonsing_inv _ hS.det_pos.ne'.isUnit
  have : Invertible S := invertibleOfIsUnitDet S hS.det_pos.ne'.isUnit
  have e : A * S * Aᵀ + N - A * S * ⅟S * (S * Aᵀ) = N := by
    rw [invOf_eq_nonsing_inv, Matrix.mul_assoc A S S⁻¹, hS1, Matrix.mul_one, Matrix.mul_assoc]
    abel
  rw [det_fromBlocks₁₁, e]

omit [DecidableEq ι] [DecidableEq κ] in
theorem joint_quad (A : Matrix κ ι ℝ) (P : Matrix ι ι ℝ) (Q : Matrix κ κ ℝ) (u : ι → ℝ) (w : κ → ℝ) :
    Sum.elim u w ⬝ᵥ (fromBlocks (P + Aᵀ * Q * A) (-(Aᵀ * Q)) (-(Q * A)) Q) *ᵥ Sum.elim u w
      = u ⬝ᵥ P *ᵥ u + (w - A *ᵥ u) ⬝ᵥ Q *ᵥ (w - A *ᵥ u) := by
  have t1 : u ⬝ᵥ (Aᵀ * Q * A) *ᵥ u = (A *ᵥ u) ⬝ᵥ Q *ᵥ (A *ᵥ u) := by
    rw [Matrix.mul_assoc, ← mulVec_mulVec, dotProduct_mulVec u, vecMul_transpose, mulVec_mulVec]
  have t2 : u ⬝ᵥ (Aᵀ * Q) *ᵥ w = (A *ᵥ u) ⬝ᵥ Q *ᵥ w := by
    rw [← mulVec_mulVec, dotProduct_mulVec u, vecMul_transpose]
  have t3 : w ⬝ᵥ (Q * A) *ᵥ u = w ⬝ᵥ Q *ᵥ (A *ᵥ u) := by rw [mulVec_mulVec]
  rw [fromBlocks_mulVec, sumElim_dotProduct_sumElim]
  simp only [Sum.elim_comp_inl, Sum.elim_comp_inr]
  simp only [add_mulVec, neg_mulVec, dotProduct_add, dotProduct_neg, sub_dotProduct, mulVec_sub, dotProduct_sub]
  rw [t1, t2, t3]
  ring

/-- The joint density of a normal vector and a noisy affine image of it. -/
theorem normalDensity_affine (hS : S.PosDef) (hN : N.PosDef) (A : Matrix κ ι ℝ) (m x : ι → ℝ) (c y : κ → ℝ) :
    normalDensity (fromBlocks S (S * Aᵀ) (A * S) (A * S * Aᵀ + N)) (Sum.elim m (A *ᵥ m + c)) (Sum.elim x y)
      = normalDensity S m x * normalDensity N (A *ᵥ x + c) y := by
  have hSd := hS.det_pos
  have hNd := hN.det_pos
  have hsub : Sum.elim x y - Sum.elim m (A *ᵥ m + c) = Sum.elim (x - m) (y - (A *ᵥ m + c)) := by
    funext i
    rcases i with i | i <;> rfl
  have hw : y - (A *ᵥ m + c) - A *ᵥ (x - m) = y - (A *ᵥ x + c) := by
    rw [mulVec_sub]
    abel
  unfold normalDensity
  rw [joint_inv hS hN, joint_det hS, hsub, joint_quad, hw, div_mul_div_comm, ← Real.exp_add,
    ← Real.sqrt_mul (by positivity), Fintype.card_sum, pow_add]
  have e1 : ∀ a b : ℝ, -(a + b) / 2 = -a / 2 + -b / 2 := fun a b => by ring
  have e2 : ∀ a b c d : ℝ, a * b * (c * d) = a * c * (b * d) := fun a b c d => by ring
  rw [e1, e2]

end Joint

end Verif.Gauss

namespace Verif.Sigma
open Matrix

variable {d q : ℕ}

/-! ### Selecting coordinates of points -/

theorem meanOf_comp {k : ℕ} (l : List (Fin d → ℝ)) (f : Fin k → Fin d) : meanOf (l.map (· ∘ f)) = meanOf l ∘ f := by
  funext i
  rw [← hasMean_meanOf (l.map (· ∘ f)) i, List.length_map, List.map_map]
  exact hasMean_meanOf l (f i)

theorem covOf_comp {k : ℕ} (l : List (Fin d → ℝ)) (f : Fin k → Fin d) :
    covOf (l.map (· ∘ f)) = (covOf l).submatrix f f := by
  ext i j
  rw [← hasCov_covOf (l.map (· ∘ f)) i j, List.length_map, List.map_map, meanOf_comp]
  exact hasCov_covOf l (f i) (f j)

theorem covOf_nonneg (l : List (Fin d → ℝ)) (z : Fin d → ℝ) : 0 ≤ z ⬝ᵥ covOf l *ᵥ z := by
  have h1 : ∀ v : Fin d → ℝ, z ⬝ᵥ vecMulVec v v *ᵥ z = (z ⬝ᵥ v) ^ 2 := by
    intro v
    rw [vecMulVec_mulVec, dotProduct_smul, dotProduct_comm v z]
    simp [sq]
  have h2 : ∀ (m : Fin d → ℝ) (l : List (Fin d → ℝ)),
      0 ≤ z ⬝ᵥ (l.map fun p => vecMulVec (p - m) (p - m)).sum *ᵥ z := by
    intro m l
    induction l with
    | nil => simp
    | cons p l ih =>
      rw [List.map_cons, List.sum_cons, add_mulVec, dotProduct_add, h1]
      positivity
  unfold covOf
  rw [smul_mulVec, dotProduct_smul, smul_eq_mul]
  exact mul_nonneg (by positivity) (h2 _ _)

theorem covOf_symm (l : List (Fin d → ℝ)) : (covOf l).IsSymm := by
  ext i j
  rw [transpose_apply, ← hasCov_covOf l j i, ← hasCov_covOf l i j]
  simp only [mul_comm]

end Verif.Sigma
