import Verif.SigmaModel
import Verif.GaussProps2
import Mathlib.Analysis.Matrix.LDL
import Mathlib.LinearAlgebra.Matrix.Block
import Mathlib.Data.Matrix.ColumnRowPartitioned

/-!
# Helper lemmas for sigma points
-/

namespace Verif.Sigma
open Matrix Gauss

variable {d q : ℕ}

/-! ### The Cholesky factor -/

theorem lowerSym_eq {S : Matrix (Fin d) (Fin d) ℝ} (h : S.IsSymm) : lowerSym S = S := by
  ext i j
  unfold lowerSym
  split
  · rfl
  · exact h.apply i j

theorem IsChol.det_ne {L S : Matrix (Fin d) (Fin d) ℝ} (h : IsChol L S) : L.det ≠ 0 := by
  have : L.BlockTriangular OrderDual.toDual := fun i j hij => h.lower i j hij
  rw [det_of_isLowerTriangular L this]
  exact (Finset.prod_pos fun i _ => h.pos i).ne'

theorem IsChol.posDef {L S : Matrix (Fin d) (Fin d) ℝ} (h : IsChol L S) : S.PosDef := by
  rw [← h.prod, ← conjTranspose_eq_transpose_of_trivial]
  have : IsUnit L := (isUnit_iff_isUnit_det L).2 h.det_ne.isUnit
  exact PosDef.mul_conjTranspose_self L (vecMul_injective_iff_isUnit.2 this)

theorem exists_chol {S : Matrix (Fin d) (Fin d) ℝ} (hS : S.PosDef) : ∃ L, IsChol L S := by
  set P := LDL.lower hS with hP
  have hPu : IsUnit P := by
    rw [hP, LDL.lower]
    exact (isUnit_nonsing_inv_iff).2 (isUnit_of_invertible _)
  have htri : P.BlockTriangular OrderDual.toDual := by
    rw [hP, LDL.lower]
    exact blockTriangular_inv_of_blockTriangular fun i j hij => LDL.lowerInv_triangular hS hij
  have hdet : P.det ≠ 0 := ((isUnit_iff_isUnit_det P).1 hPu).ne_zero
  have hdiag : ∀ i, P i i ≠ 0 := by
    intro i hi
    rw [det_of_isLowerTriangular P htri] at hdet
    exact hdet (Finset.prod_eq_zero (Finset.mem_univ i) hi)
  set D := LDL.diagEntries hS with hD
  have hDpos : ∀ i, 0 < D i := by
    intro i
    have h1 : (LDL.diag hS).PosDef := by
      rw [LDL.diag_eq_lowerInv_conj hS]
      exact hS.mul_mul_conjTranspose_same (vecMul_injective_iff_isUnit.2 (isUnit_of_invertible _))
    have := h1.diag_pos (i := i)
    simpa [LDL.diag] using this
  let e : Fin d → ℝ := fun j => √(D j) * SignType.sign (P j j)
  have he : ∀ j, e j * e j = D j := by
    intro j
    have h1 : ((SignType.sign (P j j) : ℝ)) * (SignType.sign (P j j) : ℝ) = 1 := by
      rcases lt_or_gt_of_ne (hdiag j) with h | h
      · simp [sign_neg h]
      · simp [sign_pos h]
    calc e j * e j = (√(D j) * √(D j)) * (((SignType.sign (P j j) : ℝ)) * (SignType.sign (P j j) : ℝ)) := by
          simp only [e]; ring
      _ = D j := by rw [h1, mul_one, Real.mul_self_sqrt (hDpos j).le]
  refine ⟨P * diagonal e, ?_, ?_, ?_⟩
  · intro i j hij
    rw [mul_diagonal, htri hij, zero_mul]
  · intro i
    rw [mul_diagonal]
    have : P i i * (SignType.sign (P i i) : ℝ) = |P i i| := by rw [mul_comm]; exact sign_mul_self _
    calc (0 : ℝ) < |P i i| * √(D i) := mul_pos (abs_pos.2 (hdiag i)) (Real.sqrt_pos.2 (hDpos i))
      _ = P i i * e i := by rw [← this]; simp only [e]; ring
  · have h2 : diagonal e * diagonal e = LDL.diag hS := by
      rw [diagonal_mul_diagonal, LDL.diag]
      congr 1
      funext j
      exact he j
    have h3 := LDL.lower_conj_diag hS
    rw [transpose_mul, diagonal_transpose, Matrix.mul_assoc, ← Matrix.mul_assoc (diagonal e), h2, ← Matrix.mul_assoc,
      ← conjTranspose_eq_transpose_of_trivial]
    exact h3

theorem IsChol.unique {L M S : Matrix (Fin d) (Fin d) ℝ} (hL : IsChol L S) (hM : IsChol M S) : L = M := by
  have hMu : IsUnit M.det := hM.det_ne.isUnit
  have : Invertible M := (isUnit_iff_isUnit_det M).2 hMu |>.invertible
  have tM : M.BlockTriangular OrderDual.toDual := fun i j hij => hM.lower i j hij
  have tL : L.BlockTriangular OrderDual.toDual := fun i j hij => hL.lower i j hij
  obtain ⟨X, hX⟩ : ∃ X, X = M⁻¹ * L := ⟨_, rfl⟩
  have hMX : M * X = L := by rw [hX, mul_nonsing_inv_cancel_left M L hMu]
  have tX : X.BlockTriangular OrderDual.toDual := hX ▸ (blockTriangular_inv_of_blockTriangular tM).mul tL
  have hone : X * Xᵀ = 1 := by
    have h1 : M * (X * Xᵀ) * Mᵀ = M * Mᵀ := by
      calc M * (X * Xᵀ) * Mᵀ = (M * X) * (M * X)ᵀ := by rw [transpose_mul]; simp only [Matrix.mul_assoc]
        _ = M * Mᵀ := by rw [hMX, hL.prod, hM.prod]
    have hMt : IsUnit Mᵀ.det := by rwa [det_transpose]
    have h2 := congrArg (fun A => M⁻¹ * (A * Mᵀ⁻¹)) h1
    simp only [Matrix.mul_assoc] at h2
    rw [mul_nonsing_inv _ hMt, Matrix.mul_one, nonsing_inv_mul_cancel_left _ _ hMu, Matrix.mul_one,
      nonsing_inv_mul _ hMu] at h2
    exact h2
  have hXu : IsUnit X.det := by
    have := congrArg det hone
    rw [det_mul, det_one] at this
    exact IsUnit.of_mul_eq_one _ this
  have : Invertible X := (isUnit_iff_isUnit_det X).2 hXu |>.invertible
  have hXt : Xᵀ = X⁻¹ := (inv_eq_right_inv hone).symm
  have tXt : Xᵀ.BlockTriangular OrderDual.toDual := by
    rw [hXt]
    exact blockTriangular_inv_of_blockTriangular tX
  have hdiag : ∀ i j, i ≠ j → X i j = 0 := by
    intro i j hij
    rcases lt_or_gt_of_ne hij with h | h
    · exact tX h
    · exact tXt (i := j) (j := i) h
  have hL0 : ∀ i, L i i = M i i * X i i := by
    intro i
    rw [← hMX, Matrix.mul_apply]
    refine Finset.sum_eq_single_of_mem i (Finset.mem_univ i) fun k _ hk => ?_
    rw [hdiag k i hk, mul_zero]
  have hpos : ∀ i, 0 < X i i := fun i => by
    have h1 := hL.pos i
    rw [hL0 i] at h1
    exact (mul_pos_iff_of_pos_left (hM.pos i)).1 h1
  have hX1 : X = 1 := by
    ext i j
    by_cases hij : i = j
    · subst hij
      have h1 := congrFun (congrFun hone i) i
      rw [Matrix.mul_apply, Finset.sum_eq_single_of_mem i (Finset.mem_univ i)
        (fun k _ hk => by rw [hdiag i k (Ne.symm hk), zero_mul]), transpose_apply, one_apply_eq] at h1
      rw [one_apply_eq]
      nlinarith [hpos i]
    · rw [hdiag i j hij, one_apply_ne hij]
  rw [← hMX, hX1, Matrix.mul_one]

theorem npChol_ok {S : Matrix (Fin d) (Fin d) ℝ} (hS : S.PosDef) : ∃ L, IsChol L S ∧ npChol S = .ok L := by
  have hs : S.IsSymm := by
    have := hS.isHermitian
    rwa [IsHermitian, conjTranspose_eq_transpose_of_trivial] at this
  have h : ∃ L, IsChol L (lowerSym S) := by rw [lowerSym_eq hs]; exact exists_chol hS
  refine ⟨h.choose, ?_, ?_⟩
  · have h1 : IsChol h.choose (lowerSym S) := h.choose_spec
    exact ⟨h1.lower, h1.pos, h1.prod.trans (lowerSym_eq hs)⟩
  · unfold npChol
    rw [dif_pos h]

theorem npChol_eq_ok {S L : Matrix (Fin d) (Fin d) ℝ} (h : npChol S = .ok L) : IsChol L (lowerSym S) := by
  unfold npChol at h
  split at h
  · next h' => cases h; exact h'.choose_spec
  · cases h

theorem npChol_error {S : Matrix (Fin d) (Fin d) ℝ} (h : ¬ (lowerSym S).PosDef) : npChol S = .error .linAlgError := by
  unfold npChol
  rw [dif_neg]
  rintro ⟨L, hL⟩
  exact h hL.posDef

/-! ### Means and covariances of lists of points -/

theorem meanOf_affine {d q : ℕ} (B : Matrix (Fin q) (Fin d) ℝ) (c : Fin q → ℝ) {l : List (Fin d → ℝ)} (hl : l ≠ []) :
    meanOf (l.map fun p => B *ᵥ p + c) = B *ᵥ meanOf l + c := by
  have hlen : (l.length : ℝ) ≠ 0 := by simpa using hl
  have hsum : ∀ l : List (Fin d → ℝ), (l.map fun p => B *ᵥ p + c).sum = B *ᵥ l.sum + (l.length : ℝ) • c := by
    intro l
    induction l with
    | nil => simp
    | cons p l ih =>
      rw [List.map_cons, List.sum_cons, ih, List.sum_cons, mulVec_add, List.length_cons]
      push_cast
      rw [add_smul, one_smul]
      abel
  unfold meanOf
  rw [hsum, List.length_map, smul_add, smul_smul, inv_mul_cancel₀ hlen, one_smul, mulVec_smul]

theorem covOf_affine {d q : ℕ} (B : Matrix (Fin q) (Fin d) ℝ) (c : Fin q → ℝ) {l : List (Fin d → ℝ)} (hl : l ≠ []) :
    covOf (l.map fun p => B *ᵥ p + c) = B * covOf l * Bᵀ := by
  have hone : ∀ v : Fin d → ℝ, vecMulVec (B *ᵥ v) (B *ᵥ v) = B * vecMulVec v v * Bᵀ := by
    intro v
    rw [mul_vecMulVec, vecMulVec_mul, vecMul_transpose]
  have hsum : ∀ (m : Fin d → ℝ) (l : List (Fin d → ℝ)),
      (l.map fun p => vecMulVec (B *ᵥ p + c - (B *ᵥ m + c)) (B *ᵥ p + c - (B *ᵥ m + c))).sum
        = B * (l.map fun p => vecMulVec (p - m) (p - m)).sum * Bᵀ := by
    intro m l
    induction l with
    | nil => simp
    | cons p l ih =>
      rw [List.map_cons, List.sum_cons, ih, List.map_cons, List.sum_cons, Matrix.mul_add, Matrix.add_mul,
        add_sub_add_right_eq_sub, ← mulVec_sub, hone]
  unfold covOf
  rw [meanOf_affine B c hl, List.length_map, List.map_map]
  rw [show ((fun p => vecMulVec (p - (B *ᵥ meanOf l + c)) (p - (B *ᵥ meanOf l + c))) ∘ fun p => B *ᵥ p + c)
    = fun p => vecMulVec (B *ᵥ p + c - (B *ᵥ meanOf l + c)) (B *ᵥ p + c - (B *ᵥ meanOf l + c)) from rfl, hsum]
  rw [Matrix.mul_smul, Matrix.smul_mul]

theorem pointsOf_length (m : Fin d → ℝ) (L : Matrix (Fin d) (Fin d) ℝ) : (pointsOf m L).length = 2 * d + 1 := by
  simp [pointsOf]
  omega

theorem pointsOf_ne (m : Fin d → ℝ) (L : Matrix (Fin d) (Fin d) ℝ) : pointsOf m L ≠ [] := by
  simp [pointsOf]

theorem pointsOf_mean (m : Fin d → ℝ) (L : Matrix (Fin d) (Fin d) ℝ) : meanOf (pointsOf m L) = m := by
  have hs : (pointsOf m L).sum = (2 * d + 1 : ℝ) • m := by
    simp only [pointsOf, List.sum_append, List.sum_ofFn, List.sum_cons, List.sum_nil, Finset.sum_sub_distrib,
      Finset.sum_add_distrib, Finset.sum_const, Finset.card_univ, Fintype.card_fin]
    ext i
    simp only [Pi.add_apply, Pi.sub_apply, Pi.smul_apply, smul_eq_mul, nsmul_eq_mul, Pi.mul_apply, Pi.natCast_apply,
      Pi.zero_apply]
    ring
  unfold meanOf
  rw [hs, pointsOf_length, smul_smul]
  push_cast
  rw [inv_mul_cancel₀ (by positivity), one_smul]

theorem sum_outer (L : Matrix (Fin d) (Fin d) ℝ) : ∑ j, vecMulVec (L.col j) (L.col j) = L * Lᵀ := by
  ext a b
  rw [Matrix.sum_apply, Matrix.mul_apply]
  rfl

theorem pointsOf_cov (m : Fin d → ℝ) (L : Matrix (Fin d) (Fin d) ℝ) : covOf (pointsOf m L) = L * Lᵀ := by
  have hk : √((d : ℝ) + 1 / 2) * √((d : ℝ) + 1 / 2) = d + 1 / 2 := Real.mul_self_sqrt (by positivity)
  have hs : ((pointsOf m L).map fun p => vecMulVec (p - m) (p - m)).sum = (2 * d + 1 : ℝ) • (L * Lᵀ) := by
    simp only [pointsOf, List.map_append, List.sum_append, List.map_ofFn, List.sum_ofFn, List.map_cons, List.map_nil,
      List.sum_cons, List.sum_nil, Function.comp_def, sub_self, add_sub_cancel_left, sub_sub_cancel_left]
    have e1 : ∀ j, vecMulVec (-(√((d : ℝ) + 1 / 2) • L.col j)) (-(√((d : ℝ) + 1 / 2) • L.col j))
        = ((d : ℝ) + 1 / 2) • vecMulVec (L.col j) (L.col j) := by
      intro j
      ext a b
      simp only [vecMulVec_apply, Pi.neg_apply, Pi.smul_apply, smul_eq_mul, Matrix.smul_apply]
      linear_combination (L.col j a * L.col j b) * hk
    have e2 : ∀ j, vecMulVec (√((d : ℝ) + 1 / 2) • L.col j) (√((d : ℝ) + 1 / 2) • L.col j)
        = ((d : ℝ) + 1 / 2) • vecMulVec (L.col j) (L.col j) := by
      intro j
      ext a b
      simp only [vecMulVec_apply, Pi.smul_apply, smul_eq_mul, Matrix.smul_apply]
      linear_combination (L.col j a * L.col j b) * hk
    simp only [e1, e2, ← Finset.smul_sum, sum_outer]
    ext a b
    simp
    ring
  unfold covOf
  rw [pointsOf_mean, hs, pointsOf_length, smul_smul]
  push_cast
  rw [inv_mul_cancel₀ (by positivity), one_smul]

/-! ### Stacked points -/

theorem zipWith_self {α β γ : Type} (f : α → β → γ) (g : α → β) (l : List α) :
    List.zipWith f l (l.map g) = l.map fun x => f x (g x) := by
  induction l with
  | nil => rfl
  | cons x l ih => rw [List.map_cons, List.zipWith_cons_cons, ih, List.map_cons]

/-- The matrix that repeats a vector and applies `A` to it. -/
def stack (A : Matrix (Fin q) (Fin d) ℝ) : Matrix (Fin (d + q)) (Fin d) ℝ :=
  fun i => Fin.append (fun i : Fin d => (1 : Matrix (Fin d) (Fin d) ℝ) i) (fun j => A j) i

theorem stack_mulVec (A : Matrix (Fin q) (Fin d) ℝ) (b : Fin q → ℝ) (x : Fin d → ℝ) :
    stack A *ᵥ x + Fin.append 0 b = Fin.append x (A *ᵥ x + b) := by
  funext i
  refine Fin.addCases (fun i => ?_) (fun j => ?_) i
  · have : (stack A *ᵥ x) (Fin.castAdd q i) = ((1 : Matrix (Fin d) (Fin d) ℝ) *ᵥ x) i := by
      simp only [mulVec, stack, Fin.append_left]
    rw [Pi.add_apply, this, one_mulVec]
    simp
  · have : (stack A *ᵥ x) (Fin.natAdd d j) = (A *ᵥ x) j := by
      simp only [mulVec, stack, Fin.append_right]
    rw [Pi.add_apply, this]
    simp

/-- The covariance of a vector with the given covariance and its image under `A`. -/
def jointCov (S : Matrix (Fin d) (Fin d) ℝ) (A : Matrix (Fin q) (Fin d) ℝ) :
    Matrix (Fin (d + q)) (Fin (d + q)) ℝ :=
  reindex finSumFinEquiv finSumFinEquiv (fromBlocks S (S * Aᵀ) (A * S) (A * S * Aᵀ))

theorem stack_conj (S : Matrix (Fin d) (Fin d) ℝ) (A : Matrix (Fin q) (Fin d) ℝ) :
    stack A * S * (stack A)ᵀ = jointCov S A := by
  have e1 : stack A = (fromRows (1 : Matrix (Fin d) (Fin d) ℝ) A).submatrix finSumFinEquiv.symm id := by
    ext i j
    refine Fin.addCases (fun i => ?_) (fun k => ?_) i
    · simp [stack]
    · simp [stack]
  have e2 : (fromRows (1 : Matrix (Fin d) (Fin d) ℝ) A) * S * (fromRows (1 : Matrix (Fin d) (Fin d) ℝ) A)ᵀ
      = fromBlocks S (S * Aᵀ) (A * S) (A * S * Aᵀ) := by
    rw [fromRows_mul, transpose_fromRows, fromRows_mul_fromCols]
    simp
  unfold jointCov
  rw [e1, ← e2, reindex_apply, transpose_submatrix]
  ext i j
  simp only [submatrix_apply, mul_apply, id, transpose_apply]

end Verif.Sigma
