import Verif.GaussInt
import Verif.GaussSpec
import Mathlib.MeasureTheory.Measure.WithDensity
import Mathlib.MeasureTheory.Constructions.Pi

/-!
# The law of an affine function of independent standard normal numbers

Nothing in this file refers to the modelled program.
-/

namespace Verif.GaussInt
open MeasureTheory Matrix Real ProbabilityTheory

set_option linter.unusedSectionVars false

variable {ι : Type} [Fintype ι] [DecidableEq ι]

/-- Independent standard normal numbers. -/
noncomputable def stdNoise (ι : Type) [Fintype ι] : Measure (ι → ℝ) := Measure.pi fun _ => gaussianReal 0 1

instance : IsProbabilityMeasure (stdNoise ι) := by unfold stdNoise; infer_instance

/-- The joint density of independent standard normal numbers. -/
theorem stdNoise_density : stdNoise ι =
    (volume : Measure (ι → ℝ)).withDensity fun z =>
      ENNReal.ofReal (exp (-(z ⬝ᵥ z) / 2) / √(2 * π) ^ Fintype.card ι) := by
  unfold stdNoise
  refine Measure.pi_eq fun s hs => ?_
  have hm : MeasurableSet (Set.univ.pi s) := MeasurableSet.univ_pi hs
  have e : ∀ z : ι → ℝ, exp (-(z ⬝ᵥ z) / 2) / √(2 * π) ^ Fintype.card ι = ∏ i, gaussianPDFReal 0 1 (z i) := by
    intro z
    simp only [gaussianPDFReal, NNReal.coe_one, mul_one, sub_zero]
    rw [Finset.prod_mul_distrib, ← exp_sum, Finset.prod_const, Finset.card_univ, inv_pow, div_eq_inv_mul]
    congr 2
    rw [dotProduct, ← Finset.sum_neg_distrib, Finset.sum_div]
    refine Finset.sum_congr rfl fun i _ => ?_
    ring
  simp only [e]
  rw [withDensity_apply _ hm]
  have hr : (volume : Measure (ι → ℝ)).restrict (Set.univ.pi s) =
      Measure.pi fun i => (volume : Measure ℝ).restrict (s i) := Measure.restrict_pi_pi _ _
  rw [hr]
  have hi : ∀ i, Integrable (gaussianPDFReal 0 1) ((volume : Measure ℝ).restrict (s i)) :=
    fun i => (integrable_gaussianPDFReal 0 1).restrict
  rw [← ofReal_integral_eq_lintegral_ofReal (Integrable.fintype_prod_dep hi)
    (Filter.Eventually.of_forall fun z => Finset.prod_nonneg fun i _ => gaussianPDFReal_nonneg _ _ _),
    integral_fintype_prod_eq_prod (fun _ => gaussianPDFReal 0 1),
    ENNReal.ofReal_prod_of_nonneg fun i _ => integral_nonneg fun _ => gaussianPDFReal_nonneg _ _ _]
  refine Finset.prod_congr rfl fun i _ => ?_
  rw [gaussianReal_apply_eq_integral 0 one_ne_zero]

theorem measurable_affine (L : Matrix ι ι ℝ) (m : ι → ℝ) : Measurable fun z : ι → ℝ => L *ᵥ z + m := by
  have : Continuous fun z : ι → ℝ => L *ᵥ z + m :=
    (Continuous.matrix_mulVec continuous_const continuous_id).add continuous_const
  exact this.measurable

theorem map_affine_volume {L : Matrix ι ι ℝ} (hL : L.det ≠ 0) (m : ι → ℝ) :
    (volume : Measure (ι → ℝ)).map (fun z => L *ᵥ z + m) = ENNReal.ofReal |L.det|⁻¹ • volume := by
  have h1 : (fun z : ι → ℝ => L *ᵥ z + m) = (fun z => z + m) ∘ Matrix.toLin' L := by
    funext z
    simp
  have h2 : Measurable (Matrix.toLin' L) := by
    have := measurable_affine L 0
    simp only [add_zero] at this
    exact this
  rw [h1, ← Measure.map_map (measurable_add_const m) h2, Real.map_matrix_volume_pi_eq_smul_volume_pi hL,
    Measure.map_smul, map_add_right_eq_self, abs_inv]

open Spec in
/-- The law of `L z + m`, where `z` is standard normal, has the normal density with covariance `L Lᵀ`. -/
theorem map_affine {L : Matrix ι ι ℝ} (hL : L.det ≠ 0) (m : ι → ℝ) :
    (stdNoise ι).map (fun z => L *ᵥ z + m) =
      volume.withDensity fun x => ENNReal.ofReal (normalDensity (L * Lᵀ) m x) := by
  have hf := measurable_affine L m
  have hp : Measurable fun x : ι → ℝ => ENNReal.ofReal (normalDensity (L * Lᵀ) m x) := by
    refine ENNReal.measurable_ofReal.comp (Continuous.measurable ?_)
    unfold normalDensity
    have : Continuous fun x : ι → ℝ => x - m := continuous_id.sub continuous_const
    exact (((this.dotProduct (Continuous.matrix_mulVec continuous_const this)).neg.div_const 2).rexp).div_const _
  have hd : 0 < |L.det| := abs_pos.2 hL
  have hv : (volume : Measure (ι → ℝ)) =
      ENNReal.ofReal |L.det| • (volume : Measure (ι → ℝ)).map (fun z => L *ᵥ z + m) := by
    rw [map_affine_volume hL, smul_smul, ← ENNReal.ofReal_mul hd.le, mul_inv_cancel₀ hd.ne', ENNReal.ofReal_one,
      one_smul]
  ext s hs
  rw [Measure.map_apply hf hs, stdNoise_density, withDensity_apply _ (hf hs), withDensity_apply _ hs]
  conv_rhs => rw [hv]
  rw [Measure.restrict_smul, lintegral_smul_measure, setLIntegral_map hs hp hf, smul_eq_mul,
    ← lintegral_const_mul _ (show Measurable fun z => ENNReal.ofReal (normalDensity (L * Lᵀ) m (L *ᵥ z + m)) from hp.comp hf)]
  refine lintegral_congr fun z => ?_
  rw [← ENNReal.ofReal_mul hd.le]
  congr 1
  have hu : IsUnit L.det := hL.isUnit
  have hut : IsUnit Lᵀ.det := by rwa [det_transpose]
  unfold normalDensity
  rw [add_sub_cancel_right, Matrix.mul_inv_rev, mulVec_mulVec, Matrix.mul_assoc, nonsing_inv_mul _ hu, Matrix.mul_one,
    dotProduct_mulVec, ← mulVec_transpose, transpose_nonsing_inv, transpose_transpose, mulVec_mulVec,
    nonsing_inv_mul _ hu, one_mulVec]
  have e1 : √((2 * π) ^ Fintype.card ι * (L.det * L.det)) = √(2 * π) ^ Fintype.card ι * |L.det| := by
    rw [sqrt_mul (by positivity), sqrt_mul_self_eq_abs]
    congr 1
    rw [sqrt_eq_rpow, sqrt_eq_rpow, ← rpow_natCast, ← rpow_natCast, ← rpow_mul (by positivity),
      ← rpow_mul (by positivity), mul_comm (1 / 2 : ℝ)]
  rw [det_mul, det_transpose, e1]
  field_simp

end Verif.GaussInt
