import Verif.GaussProps3

/-!
# Properties of linear Gaussians (C40)
-/

namespace Verif
open Matrix MeasureTheory Spec GaussInt

variable {d : ℕ}

/-- The normal density of the specification and the one of the integrals. -/
theorem normalDensity_eq {ι : Type} [Fintype ι] [DecidableEq ι] {S : Matrix ι ι ℝ} (mu x : ι → ℝ) :
    normalDensity S mu x = dens S⁻¹ mu x := by
  unfold normalDensity dens bell Z
  congr 2
  rw [det_nonsing_inv, Ring.inverse_eq_inv', div_inv_eq_mul]

/-- The inverse of the joint covariance, in blocks. -/
noncomputable def jointInv (A N : Matrix (Fin d) (Fin d) ℝ) : Matrix (Fin d ⊕ Fin d) (Fin d ⊕ Fin d) ℝ :=
  fromBlocks (1 + Aᵀ * N⁻¹ * A) (-(Aᵀ * N⁻¹)) (-(N⁻¹ * A)) N⁻¹

theorem jointCov_inv (A : Matrix (Fin d) (Fin d) ℝ) {N : Matrix (Fin d) (Fin d) ℝ} (hN : N.det ≠ 0) :
    (jointCov A N)⁻¹ = (jointInv A N).submatrix finSumFinEquiv.symm finSumFinEquiv.symm := by
  have h1 : N * N⁻¹ = 1 := mul_nonsing_inv _ hN.isUnit
  refine inv_eq_right_inv ?_
  unfold jointCov jointInv
  rw [submatrix_mul_equiv, fromBlocks_multiply]
  have e : fromBlocks (1 : Matrix (Fin d) (Fin d) ℝ) 0 0 1 = (1 : Matrix (Fin d ⊕ Fin d) (Fin d ⊕ Fin d) ℝ) :=
    fromBlocks_one
  have : fromBlocks (1 * (1 + Aᵀ * N⁻¹ * A) + 1 * Aᵀ * -(N⁻¹ * A)) (1 * -(Aᵀ * N⁻¹) + 1 * Aᵀ * N⁻¹)
      (A * 1 * (1 + Aᵀ * N⁻¹ * A) + (A * 1 * Aᵀ + N) * -(N⁻¹ * A)) (A * 1 * -(Aᵀ * N⁻¹) + (A * 1 * Aᵀ + N) * N⁻¹) =
      fromBlocks (1 : Matrix (Fin d) (Fin d) ℝ) 0 0 1 := by
    congr 1
    · simp only [Matrix.one_mul, Matrix.mul_neg, Matrix.mul_assoc]
      abel
    · simp
    · simp only [Matrix.mul_one, Matrix.mul_neg, Matrix.mul_add, Matrix.add_mul, Matrix.mul_assoc]
      rw [← Matrix.mul_assoc N N⁻¹ A, h1, Matrix.one_mul]
      abel
    · simp only [Matrix.mul_one, Matrix.mul_neg, Matrix.add_mul, Matrix.mul_assoc, h1]
      abel
  rw [this, e, submatrix_one_equiv]

theorem jointCov_det (A N : Matrix (Fin d) (Fin d) ℝ) : (jointCov A N).det = N.det := by
  unfold jointCov
  rw [det_submatrix_equiv_self, det_fromBlocks_one₁₁]
  congr 1
  simp

/-- The parameters computed by `make_linear_gaussian`. -/
theorem linearParams_ok (A : Matrix (Fin d) (Fin d) ℝ) {N : Matrix (Fin d) (Fin d) ℝ} (hN : 0 < N.det) :
    linearParams A N = .ok ⟨subtractXX ((jointInv A N).submatrix finSumFinEquiv.symm finSumFinEquiv.symm) 1, 0,
      -(1 / 2) * Real.log ((2 * Real.pi) ^ d * N.det)⟩ := by
  have hj : 0 < (jointCov A N).det := by rw [jointCov_det]; exact hN
  unfold linearParams
  rw [npInv_ok (by simp), npLog_ok (det2pi_pos.2 (by simp))]
  dsimp only [bind, Except.bind]
  rw [npInv_ok hj.ne', npLog_ok (det2pi_pos.2 hj), jointCov_inv A hN.ne']
  have hmean : (Sum.elim (0 : Fin d → ℝ) (Aᵀ *ᵥ 0) ∘ finSumFinEquiv.symm : Fin (d + d) → ℝ) = 0 := by
    funext i
    rcases h : finSumFinEquiv.symm i with j | j <;> simp [h]
  dsimp only
  rw [hmean]
  simp only [mulVec_zero, Pi.zero_apply, sub_zero, dite_eq_ite, ite_self, inv_one, zero_dotProduct, mul_zero,
    Real.log_one, zero_add, det2pi_eq, jointCov_det, det_one, mul_one]
  congr 2
  rw [Real.log_mul (by positivity) hN.ne', Real.log_mul (by positivity) hN.ne', Real.log_pow, Real.log_pow]
  push_cast
  ring

theorem evalCan_linear (A : Matrix (Fin d) (Fin d) ℝ) {N : Matrix (Fin d) (Fin d) ℝ} (hN : N.PosDef)
    (z : Fin (d + d) → ℝ) (x y : Fin d → ℝ) (hz : z ∘ finSumFinEquiv = Sum.elim x y) :
    Real.exp (Gauss.evalCan ⟨subtractXX ((jointInv A N).submatrix finSumFinEquiv.symm finSumFinEquiv.symm) 1, 0,
      -(1 / 2) * Real.log ((2 * Real.pi) ^ d * N.det)⟩ z) = normalDensity N (A *ᵥ x) y := by
  have hdet := hN.det_pos
  have hs : N⁻¹.IsSymm := Gauss.symm_inv (Gauss.posDef_symm hN)
  set P := subtractXX ((jointInv A N).submatrix finSumFinEquiv.symm finSumFinEquiv.symm) 1 with hP
  have hr : ∀ i : Fin d, ¬ (finSumFinEquiv (Sum.inr i : Fin d ⊕ Fin d)).1 < d := fun i => by
    rw [finSumFinEquiv_apply_right, Fin.val_natAdd]
    omega
  have b11 : P.submatrix (finSumFinEquiv ∘ Sum.inl) (finSumFinEquiv ∘ Sum.inl) = Aᵀ * N⁻¹ * A := by
    ext i j
    have : (1 : Matrix (Fin d) (Fin d) ℝ) i j + (Aᵀ * N⁻¹ * A) i j - (1 : Matrix (Fin d) (Fin d) ℝ) i j =
        (Aᵀ * N⁻¹ * A) i j := by ring
    simp [hP, subtractXX, jointInv]
    exact this
  have b12 : P.submatrix (finSumFinEquiv ∘ Sum.inl) (finSumFinEquiv ∘ Sum.inr) = -(Aᵀ * N⁻¹) := by
    ext i j
    rw [submatrix_apply, hP, subtractXX, dif_neg (fun h => hr j h.2), submatrix_apply]
    simp only [Function.comp_apply, Equiv.symm_apply_apply]
    rfl
  have b21 : P.submatrix (finSumFinEquiv ∘ Sum.inr) (finSumFinEquiv ∘ Sum.inl) = -(N⁻¹ * A) := by
    ext i j
    rw [submatrix_apply, hP, subtractXX, dif_neg (fun h => hr i h.1), submatrix_apply]
    simp only [Function.comp_apply, Equiv.symm_apply_apply]
    rfl
  have b22 : P.submatrix (finSumFinEquiv ∘ Sum.inr) (finSumFinEquiv ∘ Sum.inr) = N⁻¹ := by
    ext i j
    rw [submatrix_apply, hP, subtractXX, dif_neg (fun h => hr i h.1), submatrix_apply]
    simp only [Function.comp_apply, Equiv.symm_apply_apply]
    rfl
  have hq : z ⬝ᵥ P *ᵥ z = (y - A *ᵥ x) ⬝ᵥ N⁻¹ *ᵥ (y - A *ᵥ x) := by
    rw [Gauss.quad_blocks finSumFinEquiv P z x y hz, b11, b12, b21, b22]
    simp only [sub_dotProduct, mulVec_sub, dotProduct_sub, neg_mulVec, dotProduct_neg, mulVec_mulVec]
    have t1 : x ⬝ᵥ (Aᵀ * N⁻¹ * A) *ᵥ x = (A *ᵥ x) ⬝ᵥ (N⁻¹ * A) *ᵥ x := by
      rw [Matrix.mul_assoc, ← mulVec_mulVec, dotProduct_mulVec x, vecMul_transpose]
    have t2 : x ⬝ᵥ (Aᵀ * N⁻¹) *ᵥ y = (A *ᵥ x) ⬝ᵥ N⁻¹ *ᵥ y := by
      rw [← mulVec_mulVec, dotProduct_mulVec x, vecMul_transpose]
    rw [t1, t2]
    ring
  unfold Gauss.evalCan normalDensity
  dsimp only
  rw [hq, dotProduct_zero, Fintype.card_fin, Real.exp_add]
  have hpos : 0 < (2 * Real.pi) ^ d * N.det := by positivity
  have hl : Real.exp (-(1 / 2) * Real.log ((2 * Real.pi) ^ d * N.det)) = (Real.sqrt ((2 * Real.pi) ^ d * N.det))⁻¹ := by
    rw [neg_mul, Real.exp_neg, ← Real.exp_log (Real.sqrt_pos.2 hpos), Real.log_sqrt hpos.le]
    congr 2
    ring
  rw [hl, ← div_eq_mul_inv]
  congr 2
  ring

namespace Gauss

/-- **C40 (part).** For a square matrix `A` and a positive definite noise covariance, the factor made by
`make_linear_gaussian` is, at every point, the normal density of `y` with mean `A x`, and integrates to one over
`y` for every `x`. Missing: matrices that are not square (`C40_not_square`). -/
theorem C40_linear_partial {A N : Matrix (Fin d) (Fin d) ℝ} (hN : N.PosDef) {xs ys : List Var}
    (hx : xs.length = d) (hy : ys.length = d) (hnd : (xs ++ ys).Nodup) :
    ∃ g L, makeLinearGaussian A N xs ys = .ok g ∧ g.vars = xs ++ ys ∧ Denotes g L ∧
      (∀ z, Real.exp (L z) = normalDensity N (A *ᵥ fun i => z (xs[i]'(hx ▸ i.2))) fun i => z (ys[i]'(hy ▸ i.2))) ∧
      ∀ x, IntegrableOut ys (fun z => Real.exp (L z)) x ∧ integrateOut ys (fun z => Real.exp (L z)) x = 1 := by
  subst hx
  have hsymm : (subtractXX ((jointInv A N).submatrix finSumFinEquiv.symm finSumFinEquiv.symm) 1).IsSymm := by
    have := linearParams_symm (A := A) (N := N) (Gauss.posDef_symm hN) (linearParams_ok A hN.det_pos)
    exact this
  have hlen : (xs ++ ys).length = xs.length + xs.length := by rw [List.length_append, hy]
  have hmk := mkCan_ok (c := ⟨subtractXX ((jointInv A N).submatrix finSumFinEquiv.symm finSumFinEquiv.symm) 1, 0,
      -(1 / 2) * Real.log ((2 * Real.pi) ^ xs.length * N.det)⟩) hnd hlen
  have gg := good_mkCan hnd hlen (vacParams (subtractXX ((jointInv A N).submatrix finSumFinEquiv.symm
    finSumFinEquiv.symm) 1)) (c := ⟨subtractXX ((jointInv A N).submatrix finSumFinEquiv.symm finSumFinEquiv.symm) 1, 0,
      -(1 / 2) * Real.log ((2 * Real.pi) ^ xs.length * N.det)⟩) hsymm
  have hval : ∀ z, Real.exp (logOf _ gg.len z) =
      normalDensity N (A *ᵥ fun i => z xs[i]) fun i => z (ys[i]'(hy.symm ▸ i.2)) := by
    intro z
    refine evalCan_linear A hN _ _ _ ?_
    funext i
    rcases i with i | i
    · simp [vecAt]
    · simp [vecAt]
  refine ⟨_, _, ?_, rfl, gg.denotes, hval, fun x => ?_⟩
  · unfold makeLinearGaussian
    rw [dif_pos ⟨rfl, rfl⟩]
    have e : linearParams (A.submatrix (Fin.cast rfl) (Fin.cast rfl)) (N.submatrix (Fin.cast rfl) (Fin.cast rfl)) =
        linearParams A N := rfl
    rw [e, linearParams_ok A hN.det_pos]
    exact hmk
  · obtain ⟨-, hndy, hdis⟩ := List.nodup_append'.1 hnd
    have hset : (fun y : Fin ys.length → ℝ => Real.exp (logOf _ gg.len (setVars ys y x))) = fun y =>
        dens N⁻¹ (A *ᵥ fun i => x xs[i]) (y ∘ Fin.cast hy.symm) := by
      funext y
      rw [hval, normalDensity_eq]
      congr 1
      · congr 1
        exact setVars_not_mem (fun v hv hm => hdis hv hm) y x
      · funext i
        exact congrFun (setVars_mem hndy y x) (Fin.cast hy.symm i)
    have key : ∀ {k : ℕ} (h : k = xs.length),
        Integrable (fun y : Fin k → ℝ => dens N⁻¹ (A *ᵥ fun i => x xs[i]) (y ∘ Fin.cast h.symm)) ∧
        ∫ y : Fin k → ℝ, dens N⁻¹ (A *ᵥ fun i => x xs[i]) (y ∘ Fin.cast h.symm) = 1 := by
      intro k h
      subst h
      exact ⟨dens_integrable hN.inv _, dens_integral hN.inv _⟩
    unfold IntegrableOut integrateOut
    rw [hset]
    exact key hy

/-- The hypotheses of `C40_linear_partial` can be met. -/
example : exS.PosDef ∧ ["a", "b"].length = 2 ∧ ["c", "d"].length = 2 ∧ (["a", "b"] ++ ["c", "d"]).Nodup :=
  ⟨exS_posDef, rfl, rfl, by decide⟩

/-- **C40 fails** for matrices that are not square: for one conditioning variable and two dependent ones no
factor is returned, whatever the matrix and the noise. -/
theorem C40_not_square (A : Matrix (Fin 2) (Fin 1) ℝ) (N : Matrix (Fin 2) (Fin 2) ℝ) :
    makeLinearGaussian A N ["x"] ["y", "z"] = .error .valueError := by
  unfold makeLinearGaussian
  rw [dif_neg (by decide)]

end Gauss
end Verif
