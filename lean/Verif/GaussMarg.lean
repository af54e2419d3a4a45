import Verif.GaussOps
import Verif.GaussSpec

/-! Helper lemmas: integration and restriction of Gaussian quadratic forms. -/

namespace Verif
open Matrix MeasureTheory

namespace GaussInt
variable {ι : Type} [Fintype ι] [DecidableEq ι]

/-- Completing the square. -/
theorem complete_square {K : Matrix ι ι ℝ} (hs : K.IsSymm) (hd : K.det ≠ 0) (b y : ι → ℝ) :
    (-1 / 2 : ℝ) * (y ⬝ᵥ K *ᵥ y) + y ⬝ᵥ b =
      -((y - K⁻¹ *ᵥ b) ⬝ᵥ K *ᵥ (y - K⁻¹ *ᵥ b)) / 2 + 1 / 2 * (b ⬝ᵥ K⁻¹ *ᵥ b) := by
  have e : K *ᵥ (K⁻¹ *ᵥ b) = b := by rw [mulVec_mulVec, mul_nonsing_inv _ hd.isUnit, one_mulVec]
  have h1 : (K⁻¹ *ᵥ b) ⬝ᵥ K *ᵥ y = y ⬝ᵥ b := by rw [Gauss.dot_symm hs, e]
  have h2 : (K⁻¹ *ᵥ b) ⬝ᵥ b = b ⬝ᵥ K⁻¹ *ᵥ b := dotProduct_comm _ _
  simp only [sub_dotProduct, mulVec_sub, dotProduct_sub, e, h1, h2]
  ring

theorem quad_eq {K : Matrix ι ι ℝ} (hK : K.PosDef) (b : ι → ℝ) (c : ℝ) (y : ι → ℝ) :
    Real.exp ((-1 / 2 : ℝ) * (y ⬝ᵥ K *ᵥ y) + y ⬝ᵥ b + c) =
      Real.exp (c + 1 / 2 * (b ⬝ᵥ K⁻¹ *ᵥ b)) * bell K (K⁻¹ *ᵥ b) y := by
  have hs : K.IsSymm := by simpa [IsHermitian, IsSymm] using hK.isHermitian
  rw [complete_square hs hK.det_pos.ne', bell, ← Real.exp_add]
  congr 1
  ring

theorem integral_quad {K : Matrix ι ι ℝ} (hK : K.PosDef) (b : ι → ℝ) (c : ℝ) :
    ∫ y : ι → ℝ, Real.exp ((-1 / 2 : ℝ) * (y ⬝ᵥ K *ᵥ y) + y ⬝ᵥ b + c) =
      Real.exp (c + 1 / 2 * (b ⬝ᵥ K⁻¹ *ᵥ b)) * Z K := by
  simp_rw [quad_eq hK]
  rw [integral_const_mul, mass hK]

theorem integrable_quad {K : Matrix ι ι ℝ} (hK : K.PosDef) (b : ι → ℝ) (c : ℝ) :
    Integrable fun y : ι → ℝ => Real.exp ((-1 / 2 : ℝ) * (y ⬝ᵥ K *ᵥ y) + y ⬝ᵥ b + c) := by
  simp_rw [quad_eq hK]
  exact (mass_integrable hK _).const_mul _

theorem Z_log {n : ℕ} {K : Matrix (Fin n) (Fin n) ℝ} (hK : K.PosDef) :
    Z K = Real.exp (1 / 2 * Real.log (det2pi K⁻¹)) := by
  have hd := hK.det_pos
  rw [Z, Fintype.card_fin, det2pi_eq, det_nonsing_inv, Ring.inverse_eq_inv', ← div_eq_mul_inv,
    Real.sqrt_eq_rpow, Real.rpow_def_of_pos (by positivity), mul_comm (1 / 2 : ℝ)]

end GaussInt

namespace Gauss
open GaussInt Spec
variable {n : ℕ}

theorem posDef_symm {ι : Type} {K : Matrix ι ι ℝ} (hK : K.PosDef) : K.IsSymm := by
  simpa [IsHermitian, IsSymm] using hK.isHermitian

/-- The weight of a canonical form is its integral. -/
theorem integral_evalCan {c : Can n} (hK : c.prec.PosDef) :
    ∫ y, Real.exp (evalCan c y) = Real.exp (toCov c).lw := by
  unfold evalCan
  rw [integral_quad hK, Z_log hK, ← Real.exp_add]
  congr 1
  have e : c.prec *ᵥ (c.prec⁻¹ *ᵥ c.h) = c.h := by
    rw [mulVec_mulVec, mul_nonsing_inv _ hK.det_pos.ne'.isUnit, one_mulVec]
  simp only [toCov, e, dotProduct_comm _ c.h]

theorem integrable_evalCan {c : Can n} (hK : c.prec.PosDef) : Integrable fun y => Real.exp (evalCan c y) := by
  unfold evalCan
  exact integrable_quad hK _ _

/-! ### Setting variables -/

theorem setVars_mem {vs : List Var} (hnd : vs.Nodup) (y : Fin vs.length → ℝ) (x : Var → ℝ) :
    vecAt vs rfl (setVars vs y x) = y := by
  funext i
  unfold vecAt setVars
  rw [dif_pos (List.getElem_mem _)]
  congr 1
  exact Fin.ext (hnd.idxOf_getElem _ _)

theorem setVars_not_mem {vs keep : List Var} (h : ∀ v ∈ keep, v ∉ vs) (y : Fin vs.length → ℝ) (x : Var → ℝ) :
    vecAt keep rfl (setVars vs y x) = vecAt keep rfl x := by
  funext i
  unfold vecAt setVars
  rw [dif_neg (h _ (List.getElem_mem _))]

/-! ### Marginals -/

/-- The parameters of a marginal (gaussian.py 494-503). -/
noncomputable def margParams {k l : ℕ} (Kxx : Matrix (Fin k) (Fin k) ℝ) (Kxy : Matrix (Fin k) (Fin l) ℝ)
    (Kyy : Matrix (Fin l) (Fin l) ℝ) (hx : Fin k → ℝ) (hy : Fin l → ℝ) (g : ℝ) : Can k :=
  ⟨Kxx - Kxy * Kyy⁻¹ * Kxyᵀ, hx - (Kxy * Kyy⁻¹) *ᵥ hy, g + 1 / 2 * (hy ⬝ᵥ Kyy⁻¹ *ᵥ hy + Real.log (det2pi Kyy⁻¹))⟩

theorem block_inner {k l : ℕ} (Kxx : Matrix (Fin k) (Fin k) ℝ) (Kxy : Matrix (Fin k) (Fin l) ℝ)
    (Kyy : Matrix (Fin l) (Fin l) ℝ) (hx : Fin k → ℝ) (hy : Fin l → ℝ) (g : ℝ) (x : Fin k → ℝ) (y : Fin l → ℝ) :
    (-1 / 2 : ℝ) * (x ⬝ᵥ Kxx *ᵥ x + x ⬝ᵥ Kxy *ᵥ y + y ⬝ᵥ Kxyᵀ *ᵥ x + y ⬝ᵥ Kyy *ᵥ y) +
        (x ⬝ᵥ hx + y ⬝ᵥ hy) + g =
      (-1 / 2 : ℝ) * (y ⬝ᵥ Kyy *ᵥ y) + y ⬝ᵥ (hy - Kxyᵀ *ᵥ x) +
        (g + (-1 / 2) * (x ⬝ᵥ Kxx *ᵥ x) + x ⬝ᵥ hx) := by
  have h1 : x ⬝ᵥ Kxy *ᵥ y = y ⬝ᵥ Kxyᵀ *ᵥ x := by
    rw [dotProduct_mulVec, ← mulVec_transpose, dotProduct_comm]
  rw [h1, dotProduct_sub]
  ring

theorem integral_block {k l : ℕ} (Kxx : Matrix (Fin k) (Fin k) ℝ) (Kxy : Matrix (Fin k) (Fin l) ℝ)
    {Kyy : Matrix (Fin l) (Fin l) ℝ} (hK : Kyy.PosDef) (hx : Fin k → ℝ) (hy : Fin l → ℝ) (g : ℝ) (x : Fin k → ℝ) :
    ∫ y : Fin l → ℝ, Real.exp ((-1 / 2 : ℝ) * (x ⬝ᵥ Kxx *ᵥ x + x ⬝ᵥ Kxy *ᵥ y + y ⬝ᵥ Kxyᵀ *ᵥ x + y ⬝ᵥ Kyy *ᵥ y) +
        (x ⬝ᵥ hx + y ⬝ᵥ hy) + g) = Real.exp (evalCan (margParams Kxx Kxy Kyy hx hy g) x) := by
  simp_rw [block_inner]
  rw [integral_quad hK, Z_log hK, ← Real.exp_add]
  congr 1
  have hs := symm_inv (posDef_symm hK)
  have h1 : ∀ u : Fin l → ℝ, (Kxyᵀ *ᵥ x) ⬝ᵥ u = x ⬝ᵥ Kxy *ᵥ u := by
    intro u
    rw [mulVec_transpose, dotProduct_mulVec]
  simp only [evalCan, margParams, mulVec_sub, dotProduct_sub, sub_dotProduct, sub_mulVec, h1]
  rw [dot_symm hs hy (Kxyᵀ *ᵥ x), h1]
  simp only [mulVec_mulVec, Matrix.mul_assoc]
  ring

theorem integrable_block {k l : ℕ} (Kxx : Matrix (Fin k) (Fin k) ℝ) (Kxy : Matrix (Fin k) (Fin l) ℝ)
    {Kyy : Matrix (Fin l) (Fin l) ℝ} (hK : Kyy.PosDef) (hx : Fin k → ℝ) (hy : Fin l → ℝ) (g : ℝ) (x : Fin k → ℝ) :
    Integrable fun y : Fin l → ℝ => Real.exp ((-1 / 2 : ℝ) * (x ⬝ᵥ Kxx *ᵥ x + x ⬝ᵥ Kxy *ᵥ y + y ⬝ᵥ Kxyᵀ *ᵥ x +
      y ⬝ᵥ Kyy *ᵥ y) + (x ⬝ᵥ hx + y ⬝ᵥ hy) + g) := by
  simp_rw [block_inner]
  exact integrable_quad hK _ _

/-- The marginal of a form, given by the positions of the kept and dropped variables. -/
noncomputable def margOf {k l : ℕ} (c : Can n) (e : Fin k ⊕ Fin l ≃ Fin n) : Can k :=
  margParams (c.prec.submatrix (e ∘ Sum.inl) (e ∘ Sum.inl)) (c.prec.submatrix (e ∘ Sum.inl) (e ∘ Sum.inr))
    (c.prec.submatrix (e ∘ Sum.inr) (e ∘ Sum.inr)) (c.h ∘ (e ∘ Sum.inl)) (c.h ∘ (e ∘ Sum.inr)) c.g

theorem evalCan_split {k l : ℕ} {c : Can n} (hs : c.prec.IsSymm) (e : Fin k ⊕ Fin l ≃ Fin n) (z : Fin n → ℝ)
    (x : Fin k → ℝ) (y : Fin l → ℝ) (hz : z ∘ e = Sum.elim x y) :
    evalCan c z = (-1 / 2 : ℝ) * (x ⬝ᵥ c.prec.submatrix (e ∘ Sum.inl) (e ∘ Sum.inl) *ᵥ x +
        x ⬝ᵥ c.prec.submatrix (e ∘ Sum.inl) (e ∘ Sum.inr) *ᵥ y +
        y ⬝ᵥ (c.prec.submatrix (e ∘ Sum.inl) (e ∘ Sum.inr))ᵀ *ᵥ x +
        y ⬝ᵥ c.prec.submatrix (e ∘ Sum.inr) (e ∘ Sum.inr) *ᵥ y) +
      (x ⬝ᵥ c.h ∘ (e ∘ Sum.inl) + y ⬝ᵥ c.h ∘ (e ∘ Sum.inr)) + c.g := by
  have ht : (c.prec.submatrix (e ∘ Sum.inl) (e ∘ Sum.inr))ᵀ =
      c.prec.submatrix (e ∘ Sum.inr) (e ∘ Sum.inl) := by
    rw [transpose_submatrix, hs.eq]
  rw [ht, evalCan, quad_blocks e _ z x y hz, dot_blocks e _ z x y hz]

/-- Integrating out the dropped variables. -/
theorem integral_margOf {vars keep out : List Var} (hsp : Split vars keep out) (hn : vars.length = n)
    {c : Can n} (hs : c.prec.IsSymm) (e : Fin keep.length ⊕ Fin out.length ≃ Fin n)
    (he : ∀ x, vecAt vars hn x ∘ e = Sum.elim (vecAt keep rfl x) (vecAt out rfl x))
    (hK : (c.prec.submatrix (e ∘ Sum.inr) (e ∘ Sum.inr)).PosDef) (x : Var → ℝ) :
    IntegrableOut out (fun z => Real.exp (evalCan c (vecAt vars hn z))) x ∧
    integrateOut out (fun z => Real.exp (evalCan c (vecAt vars hn z))) x =
      Real.exp (evalCan (margOf c e) (vecAt keep rfl x)) := by
  have key : ∀ y : Fin out.length → ℝ, evalCan c (vecAt vars hn (setVars out y x)) = _ := fun y =>
    evalCan_split hs e _ (vecAt keep rfl x) y (by rw [he, setVars_mem hsp.no, setVars_not_mem hsp.disj])
  unfold integrateOut IntegrableOut
  simp_rw [key]
  exact ⟨integrable_block _ _ hK _ _ _ _, integral_block _ _ hK _ _ _ _⟩

/-! ### Schur complements -/

section Schur
variable {k l : ℕ} (e : Fin k ⊕ Fin l ≃ Fin n)

theorem submatrix_blocks (A : Matrix (Fin n) (Fin n) ℝ) :
    A.submatrix e e = fromBlocks (A.submatrix (e ∘ Sum.inl) (e ∘ Sum.inl))
      (A.submatrix (e ∘ Sum.inl) (e ∘ Sum.inr)) (A.submatrix (e ∘ Sum.inr) (e ∘ Sum.inl))
      (A.submatrix (e ∘ Sum.inr) (e ∘ Sum.inr)) := by
  ext (i | i) (j | j) <;> rfl

/-- The covariance block of the kept variables is the inverse of the Schur complement. -/
theorem schur_inv {S : Matrix (Fin n) (Fin n) ℝ} (hd : S.det ≠ 0)
    (hy : (S⁻¹.submatrix (e ∘ Sum.inr) (e ∘ Sum.inr)).det ≠ 0) :
    (S⁻¹.submatrix (e ∘ Sum.inl) (e ∘ Sum.inl) - S⁻¹.submatrix (e ∘ Sum.inl) (e ∘ Sum.inr) *
      (S⁻¹.submatrix (e ∘ Sum.inr) (e ∘ Sum.inr))⁻¹ * S⁻¹.submatrix (e ∘ Sum.inr) (e ∘ Sum.inl)) *
      S.submatrix (e ∘ Sum.inl) (e ∘ Sum.inl) = 1 := by
  have h1 : S⁻¹.submatrix e e * S.submatrix e e = 1 := by
    rw [submatrix_mul_equiv, nonsing_inv_mul _ hd.isUnit, submatrix_one_equiv]
  rw [submatrix_blocks e S, submatrix_blocks e S⁻¹, fromBlocks_multiply, ← fromBlocks_one,
    fromBlocks_inj] at h1
  obtain ⟨h11, _, h21, _⟩ := h1
  generalize S⁻¹.submatrix (e ∘ Sum.inl) (e ∘ Sum.inl) = Kxx at *
  generalize S⁻¹.submatrix (e ∘ Sum.inl) (e ∘ Sum.inr) = Kxy at *
  generalize S⁻¹.submatrix (e ∘ Sum.inr) (e ∘ Sum.inl) = Kyx at *
  generalize S⁻¹.submatrix (e ∘ Sum.inr) (e ∘ Sum.inr) = Kyy at *
  generalize S.submatrix (e ∘ Sum.inl) (e ∘ Sum.inl) = Sxx at *
  generalize S.submatrix (e ∘ Sum.inr) (e ∘ Sum.inl) = Syx at *
  have h3 : Kyx * Sxx = -(Kyy * Syx) := eq_neg_of_add_eq_zero_left h21
  rw [Matrix.sub_mul, Matrix.mul_assoc, h3, Matrix.mul_neg, sub_neg_eq_add, Matrix.mul_assoc Kxy,
    ← Matrix.mul_assoc Kyy⁻¹, nonsing_inv_mul _ hy.isUnit, Matrix.one_mul, h11]

/-- The determinant of a covariance matrix in blocks. -/
theorem schur_det {S : Matrix (Fin n) (Fin n) ℝ} (hd : S.det ≠ 0)
    (hy : (S⁻¹.submatrix (e ∘ Sum.inr) (e ∘ Sum.inr)).det ≠ 0) :
    S.det * (S⁻¹.submatrix (e ∘ Sum.inr) (e ∘ Sum.inr)).det =
      (S.submatrix (e ∘ Sum.inl) (e ∘ Sum.inl)).det := by
  have h1 := schur_inv e hd hy
  have h2 : S⁻¹.det = (S⁻¹.submatrix e e).det := by rw [det_submatrix_equiv_self]
  let _ : Invertible (S⁻¹.submatrix (e ∘ Sum.inr) (e ∘ Sum.inr)) :=
    ((isUnit_iff_isUnit_det _).2 hy.isUnit).invertible
  rw [submatrix_blocks e S⁻¹, det_fromBlocks₂₂, invOf_eq_nonsing_inv] at h2
  have h3 := congrArg det h1
  rw [det_mul, det_one] at h3
  rw [det_nonsing_inv, Ring.inverse_eq_inv'] at h2
  have h4 : S.det * S.det⁻¹ = 1 := mul_inv_cancel₀ hd
  rw [h2] at h4
  calc _ = S.det * (S⁻¹.submatrix (e ∘ Sum.inr) (e ∘ Sum.inr)).det * 1 := (mul_one _).symm
    _ = _ := by
      rw [← h3]
      rw [← mul_assoc, mul_assoc S.det, h4, one_mul]

/-- Dropping rows and columns of a covariance form is the same as marginalising its canonical form. -/
theorem toCan_submatrix {v : CovF n} (hs : v.cov.IsSymm) (hd : 0 < v.cov.det)
    (hy : 0 < (v.cov⁻¹.submatrix (e ∘ Sum.inr) (e ∘ Sum.inr)).det) :
    0 < (v.cov.submatrix (e ∘ Sum.inl) (e ∘ Sum.inl)).det ∧
    toCan ⟨v.cov.submatrix (e ∘ Sum.inl) (e ∘ Sum.inl), v.mean ∘ (e ∘ Sum.inl), v.lw⟩ = margOf (toCan v) e := by
  have h1 := schur_inv e hd.ne' hy.ne'
  have h2 := schur_det e hd.ne' hy.ne'
  have hpos : 0 < (v.cov.submatrix (e ∘ Sum.inl) (e ∘ Sum.inl)).det := by
    rw [← h2]
    exact mul_pos hd hy
  refine ⟨hpos, ?_⟩
  have hKs := symm_inv hs
  have ht : (v.cov⁻¹.submatrix (e ∘ Sum.inl) (e ∘ Sum.inr))ᵀ =
      v.cov⁻¹.submatrix (e ∘ Sum.inr) (e ∘ Sum.inl) := by
    rw [transpose_submatrix, hKs.eq]
  have hinv : (v.cov.submatrix (e ∘ Sum.inl) (e ∘ Sum.inl))⁻¹ = _ := inv_eq_left_inv h1
  have hz : v.mean ∘ e = Sum.elim (v.mean ∘ (e ∘ Sum.inl)) (v.mean ∘ (e ∘ Sum.inr)) := by
    funext i
    rcases i with i | i <;> rfl
  have hq := quad_blocks e v.cov⁻¹ v.mean _ _ hz
  have hh : (v.cov⁻¹ *ᵥ v.mean) ∘ e = v.cov⁻¹.submatrix e e *ᵥ (v.mean ∘ e) := by
    rw [submatrix_mulVec_equiv]
    congr 2
    funext i
    simp
  rw [submatrix_blocks e, hz, fromBlocks_mulVec] at hh
  simp only [Sum.elim_comp_inl, Sum.elim_comp_inr] at hh
  have hhx : (v.cov⁻¹ *ᵥ v.mean) ∘ (e ∘ Sum.inl) = _ := congrArg (· ∘ Sum.inl) hh
  have hhy : (v.cov⁻¹ *ᵥ v.mean) ∘ (e ∘ Sum.inr) = _ := congrArg (· ∘ Sum.inr) hh
  simp only [Sum.elim_comp_inl, Sum.elim_comp_inr] at hhx hhy
  have hlog : Real.log (det2pi v.cov) =
      Real.log (det2pi (v.cov.submatrix (e ∘ Sum.inl) (e ∘ Sum.inl))) +
      Real.log (det2pi (v.cov⁻¹.submatrix (e ∘ Sum.inr) (e ∘ Sum.inr))⁻¹) := by
    rw [← Real.log_mul (det2pi_pos.2 hpos).ne' (det2pi_pos.2 (det_inv_pos.2 hy)).ne']
    congr 1
    rw [det2pi_eq, det2pi_eq, det2pi_eq, ← h2, det_nonsing_inv, Ring.inverse_eq_inv']
    have hkl : n = k + l := by
      have := Fintype.card_congr e
      simpa using this.symm
    have hpow : (2 * Real.pi) ^ n = (2 * Real.pi) ^ k * (2 * Real.pi) ^ l := by rw [hkl, pow_add]
    rw [hpow]
    field_simp
  simp only [margOf, margParams, toCan, ht, hinv, hhx, hhy, hlog, hq]
  generalize v.cov⁻¹.submatrix (e ∘ Sum.inl) (e ∘ Sum.inl) = Kxx at *
  generalize v.cov⁻¹.submatrix (e ∘ Sum.inr) (e ∘ Sum.inl) = Kyx at *
  have hKyy : (v.cov⁻¹.submatrix (e ∘ Sum.inr) (e ∘ Sum.inr)).IsSymm := hKs.submatrix _
  generalize v.cov⁻¹.submatrix (e ∘ Sum.inr) (e ∘ Sum.inr) = Kyy at *
  generalize v.cov⁻¹.submatrix (e ∘ Sum.inl) (e ∘ Sum.inr) = Kxy at *
  generalize v.mean ∘ (e ∘ Sum.inl) = ux at *
  generalize v.mean ∘ (e ∘ Sum.inr) = uy at *
  subst ht
  have i1 : Kyy⁻¹ * Kyy = 1 := nonsing_inv_mul _ hy.ne'.isUnit
  congr 1
  · simp only [sub_mulVec, mulVec_add, mulVec_mulVec, Matrix.mul_assoc, i1, Matrix.mul_one]
    abel
  · have t1 : uy ⬝ᵥ Kxyᵀ *ᵥ ux = ux ⬝ᵥ Kxy *ᵥ uy := by
      rw [mulVec_transpose, dotProduct_comm, ← dotProduct_mulVec]
    have t2 : ∀ w : Fin l → ℝ, (Kxyᵀ *ᵥ ux) ⬝ᵥ w = ux ⬝ᵥ Kxy *ᵥ w := fun w => by
      rw [mulVec_transpose, dotProduct_mulVec]
    have t3 : ∀ w : Fin l → ℝ, (Kyy *ᵥ uy) ⬝ᵥ Kyy⁻¹ *ᵥ w = uy ⬝ᵥ w := fun w => by
      rw [dotProduct_comm, dotProduct_mulVec, ← mulVec_transpose, hKyy.eq, mulVec_mulVec,
        mul_nonsing_inv _ hy.ne'.isUnit, one_mulVec, dotProduct_comm]
    simp only [add_dotProduct, mulVec_add, dotProduct_add, t2, t3, sub_mulVec, dotProduct_sub]
    simp only [mulVec_mulVec, Matrix.mul_assoc, i1, Matrix.mul_one]
    rw [t1]
    ring

end Schur

end Gauss
end Verif
