import Verif.GaussMarg
import Verif.TreeInt
import Mathlib.MeasureTheory.Function.Floor

/-! Exponentials of quadratic forms with finite integral have positive definite matrices. -/

namespace Verif.GaussInt
open Matrix MeasureTheory
open scoped ENNReal

variable {ι : Type} [Fintype ι]

/-- The exponential of a quadratic form with linear and constant part. -/
noncomputable def expQuad (K : Matrix ι ι ℝ) (b : ι → ℝ) (c : ℝ) (y : ι → ℝ) : ℝ≥0∞ :=
  .ofReal (Real.exp ((-1 / 2 : ℝ) * (y ⬝ᵥ K *ᵥ y) + y ⬝ᵥ b + c))

theorem expQuad_meas (K : Matrix ι ι ℝ) (b : ι → ℝ) (c : ℝ) : Measurable (expQuad K b c) := by
  unfold expQuad
  refine Measurable.ennreal_ofReal (Continuous.measurable ?_)
  unfold dotProduct mulVec dotProduct
  fun_prop

/-- Along a direction in which the form is not positive the function is convex. -/
theorem expQuad_convex {K : Matrix ι ι ℝ} {v : ι → ℝ} (hv : v ⬝ᵥ K *ᵥ v ≤ 0) (b : ι → ℝ) (c t : ℝ) (y : ι → ℝ) :
    2 * expQuad K b c y ≤ expQuad K b c (y + t • v) + expQuad K b c (y + (-t) • v) := by
  unfold expQuad
  rw [← ENNReal.ofReal_add (Real.exp_nonneg _) (Real.exp_nonneg _),
    show (2 : ℝ≥0∞) = ENNReal.ofReal 2 by simp, ← ENNReal.ofReal_mul (by norm_num)]
  refine ENNReal.ofReal_le_ofReal ?_
  have e : ∀ s : ℝ, (-1 / 2 : ℝ) * ((y + s • v) ⬝ᵥ K *ᵥ (y + s • v)) + (y + s • v) ⬝ᵥ b + c =
      (-1 / 2 : ℝ) * (y ⬝ᵥ K *ᵥ y) + y ⬝ᵥ b + c +
        (s * ((-1 / 2 : ℝ) * (y ⬝ᵥ K *ᵥ v + v ⬝ᵥ K *ᵥ y) + v ⬝ᵥ b) + s * s * ((-1 / 2 : ℝ) * (v ⬝ᵥ K *ᵥ v))) := by
    intro s
    simp only [add_dotProduct, mulVec_add, dotProduct_add, mulVec_smul, smul_dotProduct, dotProduct_smul, smul_eq_mul]
    ring
  rw [e, e]
  generalize (-1 / 2 : ℝ) * (y ⬝ᵥ K *ᵥ y) + y ⬝ᵥ b + c = q
  generalize (-1 / 2 : ℝ) * (y ⬝ᵥ K *ᵥ v + v ⬝ᵥ K *ᵥ y) + v ⬝ᵥ b = l
  have hr : 0 ≤ t * t * ((-1 / 2 : ℝ) * (v ⬝ᵥ K *ᵥ v)) := mul_nonneg (mul_self_nonneg t) (by linarith)
  have h1 : Real.exp q * (t * l + 1) ≤ Real.exp (q + (t * l + t * t * ((-1 / 2 : ℝ) * (v ⬝ᵥ K *ᵥ v)))) := by
    rw [Real.exp_add]
    refine mul_le_mul_of_nonneg_left ?_ (Real.exp_nonneg _)
    have := Real.add_one_le_exp (t * l + t * t * ((-1 / 2 : ℝ) * (v ⬝ᵥ K *ᵥ v)))
    linarith
  have h2 : Real.exp q * (-t * l + 1) ≤ Real.exp (q + (-t * l + -t * -t * ((-1 / 2 : ℝ) * (v ⬝ᵥ K *ᵥ v)))) := by
    rw [Real.exp_add]
    refine mul_le_mul_of_nonneg_left ?_ (Real.exp_nonneg _)
    have := Real.add_one_le_exp (-t * l + -t * -t * ((-1 / 2 : ℝ) * (v ⬝ᵥ K *ᵥ v)))
    linarith
  linarith

/-- A symmetric form whose exponential has a finite integral is positive definite. -/
theorem posDef_of_lintegral {K : Matrix ι ι ℝ} (hs : K.IsSymm) (b : ι → ℝ) (c : ℝ)
    (h : ∫⁻ y, expQuad K b c y ≠ ∞) : K.PosDef := by
  by_contra hK
  obtain ⟨v, hv0, hv⟩ : ∃ v : ι → ℝ, v ≠ 0 ∧ v ⬝ᵥ K *ᵥ v ≤ 0 := by
    by_contra hne
    push Not at hne
    refine hK (PosDef.of_dotProduct_mulVec_pos ?_ fun v hv => by simpa using hne v hv)
    rw [IsHermitian, conjTranspose_eq_transpose_of_trivial]
    exact hs
  obtain ⟨i, hi⟩ := Function.ne_iff.1 hv0
  have hi : v i ≠ 0 := hi
  obtain ⟨S, hS⟩ : ∃ S : ℤ → Set (ι → ℝ), S = fun k => {y | ⌊y i / v i⌋ = k} := ⟨_, rfl⟩
  have hSm : ∀ k, MeasurableSet (S k) := by
    intro k
    rw [hS]
    have hm : Measurable fun y : ι → ℝ => ⌊y i / v i⌋ :=
      Int.measurable_floor.comp (Measurable.div_const (measurable_pi_apply (X := fun _ => ℝ) i) (v i))
    exact hm (measurableSet_singleton k)
  have hdis : Pairwise (Function.onFun Disjoint S) := by
    intro k l hkl
    rw [Function.onFun, Set.disjoint_left]
    intro y h1 h2
    rw [hS] at h1 h2
    exact hkl (h1.symm.trans h2)
  have hpiece : ∀ k : ℤ, ∫⁻ y in S k, expQuad K b c y = ∫⁻ y in S 0, expQuad K b c (y + (k : ℝ) • v) := by
    intro k
    rw [← lintegral_indicator (hSm k), ← lintegral_indicator (hSm 0),
      ← lintegral_add_right_eq_self _ ((k : ℝ) • v)]
    refine lintegral_congr fun y => ?_
    have hiff : y + (k : ℝ) • v ∈ S k ↔ y ∈ S 0 := by
      rw [hS]
      simp only [Set.mem_ofPred_eq, Pi.add_apply, Pi.smul_apply, smul_eq_mul]
      rw [add_div, mul_div_assoc, div_self hi, mul_one, Int.floor_add_intCast]
      constructor <;> intro h <;> omega
    by_cases hy : y ∈ S 0
    · rw [Set.indicator_of_mem hy, Set.indicator_of_mem (hiff.2 hy)]
    · rw [Set.indicator_of_notMem hy, Set.indicator_of_notMem fun h => hy (hiff.1 h)]
  have hpos : ∫⁻ y in S 0, expQuad K b c y ≠ 0 := by
    intro h0
    rw [lintegral_eq_zero_iff (expQuad_meas K b c)] at h0
    have h1 : ∀ᵐ y ∂(volume.restrict (S 0)), False := by
      filter_upwards [h0] with y hy
      have : (0 : ℝ≥0∞) < expQuad K b c y := by
        unfold expQuad
        exact ENNReal.ofReal_pos.2 (Real.exp_pos _)
      exact this.ne' hy
    rw [ae_iff] at h1
    simp only [not_false_eq_true, Set.ofPred_true, Measure.restrict_apply_univ] at h1
    have hopen : IsOpen {y : ι → ℝ | 0 < y i / v i ∧ y i / v i < 1} := by
      refine IsOpen.inter ?_ ?_
      · exact isOpen_lt continuous_const ((continuous_apply i).div_const _)
      · exact isOpen_lt ((continuous_apply i).div_const _) continuous_const
    have hne : {y : ι → ℝ | 0 < y i / v i ∧ y i / v i < 1}.Nonempty := by
      refine ⟨(1 / 2 : ℝ) • v, ?_⟩
      simp only [Set.mem_ofPred_eq, Pi.smul_apply, smul_eq_mul, mul_div_assoc, div_self hi]
      norm_num
    have hsub : {y : ι → ℝ | 0 < y i / v i ∧ y i / v i < 1} ⊆ S 0 := by
      intro y hy
      rw [hS]
      exact Int.floor_eq_zero_iff.2 ⟨hy.1.le, hy.2⟩
    exact (hopen.measure_pos volume hne).ne' (measure_mono_null hsub h1)
  have hsum : ∑' k : ℤ, ∫⁻ y in S k, expQuad K b c y ≠ ∞ := by
    rw [← lintegral_iUnion hSm hdis]
    exact ne_top_of_le_ne_top h (setLIntegral_le_lintegral _ _)
  have hneg : ∑' k : ℤ, ∫⁻ y in S (-k), expQuad K b c y = ∑' k : ℤ, ∫⁻ y in S k, expQuad K b c y :=
    (Equiv.neg ℤ).tsum_eq fun k => ∫⁻ y in S k, expQuad K b c y
  have hle : ∀ k : ℤ, ∫⁻ y in S 0, expQuad K b c y ≤
      (∫⁻ y in S k, expQuad K b c y) + ∫⁻ y in S (-k), expQuad K b c y := by
    intro k
    have hm : Measurable fun y => expQuad K b c (y + (k : ℝ) • v) :=
      (expQuad_meas K b c).comp (measurable_add_const _)
    rw [hpiece k, hpiece (-k), ← lintegral_add_left hm]
    refine lintegral_mono fun y => ?_
    have := expQuad_convex hv b c (k : ℝ) y
    push_cast
    refine le_trans ?_ this
    rw [two_mul]
    exact le_self_add
  have htop : ∑' _ : ℤ, ∫⁻ y in S 0, expQuad K b c y = ∞ := ENNReal.tsum_const_eq_top_of_ne_zero hpos
  have h2 := ENNReal.tsum_le_tsum hle
  rw [htop, ENNReal.tsum_add, hneg] at h2
  exact (ENNReal.add_ne_top.2 ⟨hsum, hsum⟩) (top_le_iff.1 h2)

end Verif.GaussInt
