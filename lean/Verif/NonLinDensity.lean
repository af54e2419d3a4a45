import Verif.NonLinJoint

/-!
# Helper lemmas for non-linear Gaussians: the density of the joint
-/

namespace Verif.NLG
open Matrix Gauss Spec _root_.Verif.Fact _root_.Verif.Sigma

theorem posDef_blocks {ι κ : Type} [Fintype ι] [DecidableEq ι] [Fintype κ] [DecidableEq κ] {M : Matrix (ι ⊕ κ) (ι ⊕ κ) ℝ}
    {N : Matrix κ κ ℝ} (hs : M.IsSymm) (hM : ∀ z, 0 ≤ z ⬝ᵥ M *ᵥ z) (hS : M.toBlocks₁₁.PosDef) (hN : N.PosDef) :
    (M + fromBlocks 0 0 0 N).PosDef := by
  have hq : ∀ z : ι ⊕ κ → ℝ, z ⬝ᵥ (fromBlocks 0 0 0 N : Matrix (ι ⊕ κ) (ι ⊕ κ) ℝ) *ᵥ z = (z ∘ Sum.inr) ⬝ᵥ N *ᵥ (z ∘ Sum.inr) := by
    intro z
    rw [← Sum.elim_comp_inl_inr z, fromBlocks_mulVec, sumElim_dotProduct_sumElim]
    simp
  refine PosDef.of_dotProduct_mulVec_pos ?_ fun z hz => ?_
  · rw [IsHermitian, conjTranspose_eq_transpose_of_trivial, transpose_add, fromBlocks_transpose, hs.eq]
    have := posDef_symm hN
    rw [this.eq]
    simp
  · simp only [star_trivial]
    rw [add_mulVec, dotProduct_add, hq]
    by_cases h : z ∘ Sum.inr = 0
    · rw [h, zero_dotProduct, add_zero]
      have hx : z ∘ Sum.inl ≠ 0 := by
        intro h'
        apply hz
        rw [← Sum.elim_comp_inl_inr z, h, h']
        funext i
        rcases i with i | i <;> rfl
      have h1 : z ⬝ᵥ M *ᵥ z = (z ∘ Sum.inl) ⬝ᵥ M.toBlocks₁₁ *ᵥ (z ∘ Sum.inl) := by
        conv_lhs => rw [← Sum.elim_comp_inl_inr z, h, ← fromBlocks_toBlocks M]
        rw [fromBlocks_mulVec, sumElim_dotProduct_sumElim]
        simp
      rw [h1]
      have := hS.dotProduct_mulVec_pos hx
      simpa using this
    · have := hN.dotProduct_mulVec_pos h
      simp only [star_trivial] at this
      have := hM z
      linarith

/-- The coordinates of the joint: conditioning variables, then conditional variables. -/
def ix {vars ys : List Var} {q : ℕ} (hd : (vars ++ ys).length = vars.length + q) :
    Fin vars.length ⊕ Fin q ≃ Fin (vars ++ ys).length := finSumFinEquiv.trans (finCongr hd.symm)

variable {vars ys : List Var} {q : ℕ}

theorem ix_inl (hd : (vars ++ ys).length = vars.length + q) (i : Fin vars.length) : (vars ++ ys)[ix hd (Sum.inl i)] = vars[i] := by
  unfold ix
  simp

theorem ix_inr (hq : ys.length = q) (hd : (vars ++ ys).length = vars.length + q) (i : Fin q) :
    (vars ++ ys)[ix hd (Sum.inr i)] = ys[i.1]'(hq.symm ▸ i.2) := by
  unfold ix
  simp

theorem vecAt_ix (hq : ys.length = q) (hd : (vars ++ ys).length = vars.length + q) (x : Var → ℝ) :
    vecAt (vars ++ ys) rfl x ∘ ix hd = Sum.elim (vecAt vars rfl x) (vecAt ys hq x) := by
  funext i
  unfold vecAt
  rcases i with i | i
  · dsimp only [Function.comp_apply, Sum.elim_inl]
    exact congrArg x (ix_inl hd i)
  · dsimp only [Function.comp_apply, Sum.elim_inr]
    exact congrArg x (ix_inr hq hd i)

theorem jCov_blocks (hnd : (vars ++ ys).Nodup) (hq : ys.length = q) (hd : (vars ++ ys).length = vars.length + q)
    (Z : List (Fin (vars.length + q) → ℝ)) (N : Matrix (Fin q) (Fin q) ℝ) :
    (jCov Z N hq hd).submatrix (ix hd) (ix hd) =
      (covOf Z).submatrix finSumFinEquiv finSumFinEquiv + fromBlocks 0 0 0 N := by
  have hy := (List.nodup_append.1 hnd).2.1
  have hdis : ∀ i : Fin vars.length, vars[i] ∉ ys := fun i hi =>
    (List.nodup_append.1 hnd).2.2 _ (List.getElem_mem _) _ hi rfl
  have hc : ∀ i, Fin.cast hd (ix hd i) = finSumFinEquiv i := fun i => rfl
  ext i j
  rw [submatrix_apply, Matrix.add_apply, submatrix_apply]
  unfold jCov
  rw [hc, hc]
  congr 1
  rcases i with i | i
  · rw [ix_inl hd i, entryM_not_mem_left _ _ (hdis i)]
    rcases j with j | j <;> rfl
  · rcases j with j | j
    · rw [ix_inl hd j, entryM_not_mem_right _ _ (hdis j)]
      rfl
    · rw [ix_inr hq hd i, ix_inr hq hd j, entryM_get hy hq]
      rfl

theorem covOf_left {d : ℕ} {pts : List (Fin d → ℝ)} {outs : List (Fin q → ℝ)} (hl : outs.length = pts.length) :
    ((covOf (List.zipWith Fin.append pts outs)).submatrix finSumFinEquiv finSumFinEquiv).toBlocks₁₁ = covOf pts := by
  have h1 : (List.zipWith Fin.append pts outs).map (· ∘ Fin.castAdd q) = pts := by
    rw [List.map_zipWith]
    have : ∀ (p : Fin d → ℝ) (o : Fin q → ℝ), Fin.append p o ∘ Fin.castAdd q = p := by
      intro p o
      funext i
      simp
    simp only [this]
    have := List.map_fst_zip (l₁ := pts) (l₂ := outs) hl.ge
    rw [List.zip, List.map_zipWith] at this
    exact this
  conv_rhs => rw [← h1, covOf_comp]
  rfl

theorem jCov_posDef (hnd : (vars ++ ys).Nodup) (hq : ys.length = q) (hd : (vars ++ ys).length = vars.length + q)
    {pts : List (Fin vars.length → ℝ)} {outs : List (Fin q → ℝ)} (hl : outs.length = pts.length) (hS : (covOf pts).PosDef)
    {N : Matrix (Fin q) (Fin q) ℝ} (hN : N.PosDef) : (jCov (List.zipWith Fin.append pts outs) N hq hd).PosDef := by
  have h1 : ((jCov (List.zipWith Fin.append pts outs) N hq hd).submatrix (ix hd) (ix hd)).PosDef := by
    rw [jCov_blocks hnd]
    refine posDef_blocks ((covOf_symm _).submatrix _) (fun z => ?_) (by rwa [covOf_left hl]) hN
    rw [submatrix_mulVec_equiv]
    have := covOf_nonneg (List.zipWith Fin.append pts outs) (z ∘ finSumFinEquiv.symm)
    rw [← comp_equiv_symm_dotProduct]
    exact this
  have h2 := h1.submatrix (ix hd).symm.injective
  rwa [submatrix_submatrix, Equiv.self_comp_symm, submatrix_id_id] at h2

/-- The density of the joint if the transform is affine. -/
theorem joint_density (hnd : (vars ++ ys).Nodup) (hq : ys.length = q) (hd : (vars ++ ys).length = vars.length + q)
    {m : Fin vars.length → ℝ} {L : Matrix (Fin vars.length) (Fin vars.length) ℝ} {N : Matrix (Fin q) (Fin q) ℝ}
    (hS : (L * Lᵀ).PosDef) (hN : N.PosDef) (A : Matrix (Fin q) (Fin vars.length) ℝ) (b : Fin q → ℝ) (x : Var → ℝ) :
    let Z := List.zipWith Fin.append (pointsOf m L) ((pointsOf m L).map fun p => A *ᵥ p + b)
    normalDensity (jCov Z N hq hd) (meanOf Z ∘ Fin.cast hd) (vecAt (vars ++ ys) rfl x) =
      normalDensity (L * Lᵀ) m (vecAt vars rfl x) * normalDensity N (A *ᵥ vecAt vars rfl x + b) (vecAt ys hq x) := by
  intro Z
  have hne := pointsOf_ne m L
  have hZ : Z = (pointsOf m L).map fun p => stack A *ᵥ p + Fin.append 0 b := by
    dsimp only [Z]
    rw [zipWith_self]
    refine List.map_congr_left fun p _ => ?_
    rw [stack_mulVec]
  have hmean : meanOf Z = Fin.append m (A *ᵥ m + b) := by
    rw [hZ, meanOf_affine _ _ hne, pointsOf_mean, stack_mulVec]
  have hcov : (covOf Z).submatrix finSumFinEquiv finSumFinEquiv =
      fromBlocks (L * Lᵀ) (L * Lᵀ * Aᵀ) (A * (L * Lᵀ)) (A * (L * Lᵀ) * Aᵀ) := by
    rw [hZ, covOf_affine _ _ hne, pointsOf_cov, stack_conj]
    unfold Sigma.jointCov
    rw [reindex_apply, submatrix_submatrix, Equiv.symm_comp_self, submatrix_id_id]
  rw [← normalDensity_submatrix (ix hd), vecAt_ix hq hd, jCov_blocks hnd, hcov, fromBlocks_add, hmean]
  simp only [add_zero]
  have e : (Fin.append m (A *ᵥ m + b) ∘ Fin.cast hd) ∘ ix hd = Sum.elim m (A *ᵥ m + b) := by
    funext i
    have hc : ∀ i, Fin.cast hd (ix hd i) = finSumFinEquiv i := fun i => rfl
    dsimp only [Function.comp_apply]
    rw [hc]
    rcases i with i | i <;> simp
  rw [e, normalDensity_affine hS hN]

end Verif.NLG
