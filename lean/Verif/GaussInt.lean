import Mathlib.Analysis.Matrix.Order
import Mathlib.Analysis.Matrix.PosDef
import Mathlib.MeasureTheory.Measure.Lebesgue.Basic
import Mathlib.MeasureTheory.Integral.Pi
import Mathlib.Probability.Distributions.Gaussian.Real

/-!
# Gaussian integrals in `n` dimensions

Lebesgue integrals of `exp (-½ (x - m)ᵀ K (x - m))` times polynomials of degree at most two, for a
positive definite `K`. Nothing in this file refers to the modelled program.
-/

namespace Verif.GaussInt
open MeasureTheory Matrix Real

set_option linter.unusedSectionVars false

variable {ι : Type} [Fintype ι] [DecidableEq ι]

/-! ### One dimension -/

/-- `∫ t^k exp (-t²/2) dt`. -/
noncomputable def M (k : ℕ) : ℝ := ∫ t : ℝ, t ^ k * exp (-(t ^ 2 / 2))

theorem integrable_M (k : ℕ) : Integrable fun t : ℝ => t ^ k * exp (-(t ^ 2 / 2)) := by
  have h := integrable_rpow_mul_exp_neg_mul_sq (b := 1 / 2) (by norm_num) (s := (k : ℝ))
    (by have : (0 : ℝ) ≤ k := Nat.cast_nonneg k
        linarith)
  refine h.congr (Filter.Eventually.of_forall fun t => ?_)
  simp only [rpow_natCast]
  congr 2
  ring

theorem M_zero : M 0 = √(2 * π) := by
  have h := integral_gaussian (1 / 2)
  have e : (fun t : ℝ => t ^ 0 * exp (-(t ^ 2 / 2))) = fun x => exp (-(1 / 2) * x ^ 2) := by
    funext t
    rw [pow_zero, one_mul]
    congr 1
    ring
  unfold M
  rw [e, h]
  congr 1
  ring

theorem M_one : M 1 = 0 := by
  have h : M 1 = - M 1 := by
    unfold M
    rw [← integral_neg, ← integral_neg_eq_self]
    congr 1
    funext t
    simp
  linarith

theorem M_two : M 2 = √(2 * π) := by
  have hv := ProbabilityTheory.variance_fun_id_gaussianReal (μ := 0) (v := 1)
  rw [ProbabilityTheory.variance_of_integral_eq_zero (by fun_prop)
    (by simp),
    ProbabilityTheory.integral_gaussianReal_eq_integral_smul one_ne_zero] at hv
  have hs : √(2 * π) ≠ 0 := by positivity
  have : (√(2 * π))⁻¹ * M 2 = 1 := by
    unfold M
    rw [← integral_const_mul]
    refine Eq.trans ?_ (hv.trans (by simp))
    congr 1
    funext t
    rw [ProbabilityTheory.gaussianPDFReal]
    simp only [NNReal.coe_one, mul_one, sub_zero, smul_eq_mul]
    rw [mul_assoc, mul_comm (t ^ 2)]
    congr 3
    ring
  field_simp at this
  exact this

/-! ### Standard normal weights -/

/-- Monomials of the standard normal weight factor. -/
theorem monomial_eq (a : ι → ℕ) (z : ι → ℝ) :
    (∏ i, z i ^ a i) * exp (-(z ⬝ᵥ z) / 2) = ∏ i, z i ^ a i * exp (-(z i ^ 2 / 2)) := by
  rw [Finset.prod_mul_distrib, ← exp_sum]
  congr 2
  rw [Finset.sum_neg_distrib, ← Finset.sum_div, dotProduct, neg_div]
  simp [sq]

theorem integrable_monomial (a : ι → ℕ) :
    Integrable fun z : ι → ℝ => (∏ i, z i ^ a i) * exp (-(z ⬝ᵥ z) / 2) := by
  simp_rw [monomial_eq]
  exact Integrable.fintype_prod fun i => integrable_M (a i)

theorem integral_monomial (a : ι → ℕ) :
    ∫ z : ι → ℝ, (∏ i, z i ^ a i) * exp (-(z ⬝ᵥ z) / 2) = ∏ i, M (a i) := by
  simp_rw [monomial_eq]
  exact integral_fintype_prod_volume_eq_prod fun i (t : ℝ) => t ^ a i * exp (-(t ^ 2 / 2))

theorem std_zero : ∫ z : ι → ℝ, exp (-(z ⬝ᵥ z) / 2) = √(2 * π) ^ Fintype.card ι := by
  have := integral_monomial (ι := ι) 0
  simpa [M_zero] using this

theorem std_zero_integrable : Integrable fun z : ι → ℝ => exp (-(z ⬝ᵥ z) / 2) := by
  simpa using integrable_monomial (ι := ι) 0

theorem std_one (i : ι) : ∫ z : ι → ℝ, z i * exp (-(z ⬝ᵥ z) / 2) = 0 := by
  have := integral_monomial (Pi.single i 1)
  rw [Finset.prod_eq_zero (Finset.mem_univ i) (by simp [M_one])] at this
  rw [← this]
  congr 1
  funext z
  rw [Finset.prod_eq_single i] <;> simp +contextual

theorem std_one_integrable (i : ι) : Integrable fun z : ι → ℝ => z i * exp (-(z ⬝ᵥ z) / 2) := by
  refine (integrable_monomial (Pi.single i 1)).congr (Filter.Eventually.of_forall fun z => ?_)
  beta_reduce
  rw [Finset.prod_eq_single i] <;> simp +contextual

theorem prod_two (i j : ι) (z : ι → ℝ) :
    ∏ k, z k ^ ((Pi.single i 1 + Pi.single j 1 : ι → ℕ) k) = z i * z j := by
  simp only [Pi.add_apply, pow_add, Finset.prod_mul_distrib]
  congr 1
  · rw [Finset.prod_eq_single i] <;> simp +contextual
  · rw [Finset.prod_eq_single j] <;> simp +contextual

theorem std_two_integrable (i j : ι) :
    Integrable fun z : ι → ℝ => z i * z j * exp (-(z ⬝ᵥ z) / 2) := by
  refine (integrable_monomial (Pi.single i 1 + Pi.single j 1)).congr
    (Filter.Eventually.of_forall fun z => ?_)
  beta_reduce
  rw [prod_two]

theorem std_two (i j : ι) : ∫ z : ι → ℝ, z i * z j * exp (-(z ⬝ᵥ z) / 2) =
    if i = j then √(2 * π) ^ Fintype.card ι else 0 := by
  have := integral_monomial (Pi.single i 1 + Pi.single j 1)
  simp_rw [prod_two] at this
  rw [this]
  split
  · rename_i h
    subst h
    rw [Finset.prod_congr rfl (g := fun _ => √(2 * π)), Finset.prod_const, Finset.card_univ]
    intro k _
    by_cases hk : k = i
    · simp [hk, M_two]
    · simp [hk, M_zero]
  · rename_i h
    exact Finset.prod_eq_zero (Finset.mem_univ i) (by simp [h, M_one])

/-! ### Linear substitution -/

/-- Linear change of variables. -/
theorem integral_comp_mulVec {B : Matrix ι ι ℝ} (hB : B.det ≠ 0) (H : (ι → ℝ) → ℝ) :
    ∫ x, H (B *ᵥ x) = |B.det|⁻¹ * ∫ z, H z := by
  have hm := Real.map_matrix_volume_pi_eq_smul_volume_pi hB
  let e : (ι → ℝ) ≃ₗ[ℝ] (ι → ℝ) := Matrix.toLinearEquiv' B ((Matrix.isUnit_iff_isUnit_det B).2 hB.isUnit).invertible
  have he : ∀ x, e x = B *ᵥ x := fun x => rfl
  have hemb : MeasurableEmbedding (Matrix.toLin' B) :=
    e.toContinuousLinearEquiv.toHomeomorph.measurableEmbedding
  have h1 := hemb.integral_map (μ := volume) H
  rw [hm, integral_smul_measure] at h1
  rw [ENNReal.toReal_ofReal (abs_nonneg _), abs_inv, smul_eq_mul] at h1
  rw [h1]
  rfl

theorem integrable_comp_mulVec {B : Matrix ι ι ℝ} (hB : B.det ≠ 0) {H : (ι → ℝ) → ℝ}
    (hH : Integrable H) : Integrable fun x => H (B *ᵥ x) := by
  have hm := Real.map_matrix_volume_pi_eq_smul_volume_pi hB
  let e : (ι → ℝ) ≃ₗ[ℝ] (ι → ℝ) := Matrix.toLinearEquiv' B ((Matrix.isUnit_iff_isUnit_det B).2 hB.isUnit).invertible
  have hemb : MeasurableEmbedding (Matrix.toLin' B) :=
    e.toContinuousLinearEquiv.toHomeomorph.measurableEmbedding
  have h1 := hemb.integrable_map_iff (μ := volume) (g := H)
  rw [hm] at h1
  exact h1.1 (hH.smul_measure ENNReal.ofReal_ne_top)

open scoped MatrixOrder in
/-- A positive definite matrix is `Bᵀ B` for an invertible `B`. -/
theorem exists_sqrt {K : Matrix ι ι ℝ} (hK : K.PosDef) :
    ∃ B : Matrix ι ι ℝ, B.det ≠ 0 ∧ K = Bᵀ * B := by
  obtain ⟨B, hB⟩ := CStarAlgebra.nonneg_iff_eq_star_mul_self.mp hK.posSemidef.nonneg
  refine ⟨B, fun h => ?_, hB⟩
  have := hK.det_pos
  rw [hB, det_mul, h, mul_zero] at this
  exact lt_irrefl _ this

/-- The unnormalised normal density with mean `m` and precision `K`. -/
noncomputable def bell (K : Matrix ι ι ℝ) (m x : ι → ℝ) : ℝ := exp (-((x - m) ⬝ᵥ K *ᵥ (x - m)) / 2)

theorem bell_pos (K : Matrix ι ι ℝ) (m x : ι → ℝ) : 0 < bell K m x := exp_pos _

theorem bell_sub {B : Matrix ι ι ℝ} (m x : ι → ℝ) :
    bell (Bᵀ * B) m (x + m) = exp (-((B *ᵥ x) ⬝ᵥ (B *ᵥ x)) / 2) := by
  unfold bell
  rw [add_sub_cancel_right, ← mulVec_mulVec, dotProduct_mulVec, vecMul_transpose]

/-- Substituting `z = B (x - m)`. -/
theorem integral_bell {B : Matrix ι ι ℝ} (hB : B.det ≠ 0) (m : ι → ℝ) (f : (ι → ℝ) → ℝ) :
    ∫ x, f x * bell (Bᵀ * B) m x =
      |B.det|⁻¹ * ∫ z, f (B⁻¹ *ᵥ z + m) * exp (-(z ⬝ᵥ z) / 2) := by
  rw [← integral_comp_mulVec hB, ← integral_add_right_eq_self _ m]
  congr 1
  funext x
  rw [bell_sub, mulVec_mulVec, nonsing_inv_mul _ hB.isUnit, one_mulVec]

theorem integrable_bell {B : Matrix ι ι ℝ} (hB : B.det ≠ 0) (m : ι → ℝ) (f : (ι → ℝ) → ℝ)
    (h : Integrable fun z => f (B⁻¹ *ᵥ z + m) * exp (-(z ⬝ᵥ z) / 2)) :
    Integrable fun x => f x * bell (Bᵀ * B) m x := by
  have h2 := integrable_comp_mulVec hB h
  have h3 := h2.comp_add_right (-m)
  refine h3.congr (Filter.Eventually.of_forall fun x => ?_)
  beta_reduce
  have e := bell_sub (B := B) m (x + -m)
  rw [neg_add_cancel_right] at e
  rw [mulVec_mulVec, nonsing_inv_mul _ hB.isUnit, one_mulVec, neg_add_cancel_right, e]

/-- The normalising constant. -/
noncomputable def Z (K : Matrix ι ι ℝ) : ℝ := √((2 * π) ^ Fintype.card ι / K.det)

theorem Z_eq {B : Matrix ι ι ℝ} : Z (Bᵀ * B) = |B.det|⁻¹ * √(2 * π) ^ Fintype.card ι := by
  unfold Z
  rw [det_mul, det_transpose, sqrt_div (by positivity), sqrt_mul_self_eq_abs, div_eq_inv_mul,
    sqrt_eq_rpow, sqrt_eq_rpow, ← rpow_natCast, ← rpow_natCast, ← rpow_mul (by positivity),
    ← rpow_mul (by positivity), mul_comm (1 / 2 : ℝ)]

theorem Z_pos {K : Matrix ι ι ℝ} (hK : K.PosDef) : 0 < Z K := by
  have := hK.det_pos
  unfold Z
  positivity

/-- Total mass. -/
theorem mass {K : Matrix ι ι ℝ} (hK : K.PosDef) (m : ι → ℝ) : ∫ x, bell K m x = Z K := by
  obtain ⟨B, hB, rfl⟩ := exists_sqrt hK
  have := integral_bell hB m fun _ => 1
  simp only [one_mul] at this
  rw [this, Z_eq, std_zero]

theorem mass_integrable {K : Matrix ι ι ℝ} (hK : K.PosDef) (m : ι → ℝ) : Integrable (bell K m) := by
  obtain ⟨B, hB, rfl⟩ := exists_sqrt hK
  have := integrable_bell hB m (fun _ => 1) (by simpa using std_zero_integrable)
  simpa using this

/-- First centred moment. -/
theorem first_centred {K : Matrix ι ι ℝ} (hK : K.PosDef) (m : ι → ℝ) (i : ι) :
    Integrable (fun x => (x i - m i) * bell K m x) ∧ ∫ x, (x i - m i) * bell K m x = 0 := by
  obtain ⟨B, hB, rfl⟩ := exists_sqrt hK
  have e : ∀ z : ι → ℝ, ((B⁻¹ *ᵥ z + m) i - m i) * exp (-(z ⬝ᵥ z) / 2) =
      ∑ k, B⁻¹ i k * (z k * exp (-(z ⬝ᵥ z) / 2)) := by
    intro z
    rw [Pi.add_apply, add_sub_cancel_right, mulVec, dotProduct, Finset.sum_mul]
    exact Finset.sum_congr rfl fun k _ => by ring
  have hi : ∀ k : ι, Integrable fun z : ι → ℝ => B⁻¹ i k * (z k * exp (-(z ⬝ᵥ z) / 2)) :=
    fun k => (std_one_integrable k).const_mul _
  constructor
  · refine integrable_bell hB m (fun x => x i - m i) ?_
    simp_rw [e]
    exact integrable_finsetSum _ fun k _ => hi k
  · rw [integral_bell hB m (fun x => x i - m i)]
    simp_rw [e]
    rw [integral_finsetSum _ fun k _ => hi k]
    simp_rw [integral_const_mul, std_one]
    simp

/-- Second centred moments: the covariance is `K⁻¹`. -/
theorem second_centred {K : Matrix ι ι ℝ} (hK : K.PosDef) (m : ι → ℝ) (i j : ι) :
    Integrable (fun x => (x i - m i) * (x j - m j) * bell K m x) ∧
      ∫ x, (x i - m i) * (x j - m j) * bell K m x = K⁻¹ i j * Z K := by
  obtain ⟨B, hB, rfl⟩ := exists_sqrt hK
  have e : ∀ z : ι → ℝ, ((B⁻¹ *ᵥ z + m) i - m i) * ((B⁻¹ *ᵥ z + m) j - m j) * exp (-(z ⬝ᵥ z) / 2) =
      ∑ k, ∑ l, B⁻¹ i k * B⁻¹ j l * (z k * z l * exp (-(z ⬝ᵥ z) / 2)) := by
    intro z
    rw [Pi.add_apply, Pi.add_apply, add_sub_cancel_right, add_sub_cancel_right, mulVec, dotProduct,
      mulVec, dotProduct, Finset.sum_mul_sum, Finset.sum_mul]
    refine Finset.sum_congr rfl fun k _ => ?_
    rw [Finset.sum_mul]
    exact Finset.sum_congr rfl fun l _ => by ring
  have hi : ∀ k l : ι, Integrable fun z : ι → ℝ =>
      B⁻¹ i k * B⁻¹ j l * (z k * z l * exp (-(z ⬝ᵥ z) / 2)) :=
    fun k l => (std_two_integrable k l).const_mul _
  constructor
  · refine integrable_bell hB m (fun x => (x i - m i) * (x j - m j)) ?_
    simp_rw [e]
    exact integrable_finsetSum _ fun k _ => integrable_finsetSum _ fun l _ => hi k l
  · rw [integral_bell hB m (fun x => (x i - m i) * (x j - m j))]
    simp_rw [e]
    rw [integral_finsetSum _ fun k _ => integrable_finsetSum _ fun l _ => hi k l]
    simp_rw [fun k => integral_finsetSum Finset.univ fun l _ => hi k l, integral_const_mul, std_two]
    rw [Z_eq, Matrix.mul_inv_rev, ← transpose_nonsing_inv]
    simp only [mul_ite, mul_zero, Finset.sum_ite_eq, Finset.mem_univ, if_true]
    rw [← Finset.sum_mul, mul_apply]
    simp only [transpose_apply]
    ring

end Verif.GaussInt
