import Mathlib.Analysis.SpecialFunctions.Log.Deriv
import Mathlib.Analysis.Calculus.Deriv.MeanValue
import Mathlib.Analysis.SpecialFunctions.Sqrt

/-! Pinsker's inequality: the scalar inequality behind it. -/

namespace Verif.Pinsker

theorem aux_deriv {u : ℝ} (hu : 0 < u) :
    HasDerivAt (fun u : ℝ => (u + 1) * Real.log u - 2 * (u - 1)) (Real.log u + (u + 1) * u⁻¹ - 2) u := by
  have h1 := ((hasDerivAt_id u).add_const (1 : ℝ)).mul (Real.hasDerivAt_log hu.ne')
  have h2 := ((hasDerivAt_id u).sub_const (1 : ℝ)).const_mul 2
  have h3 := h1.sub h2
  refine (h3.congr_deriv ?_)
  simp

theorem aux_mono : MonotoneOn (fun u : ℝ => (u + 1) * Real.log u - 2 * (u - 1)) (Set.Ioi 0) := by
  apply monotoneOn_of_deriv_nonneg (convex_Ioi 0)
  · exact fun u hu => (aux_deriv hu).continuousAt.continuousWithinAt
  · rw [interior_Ioi]
    exact fun u hu => (aux_deriv hu).differentiableAt.differentiableWithinAt
  · rw [interior_Ioi]
    intro u hu
    have hu : 0 < u := hu
    rw [(aux_deriv hu).deriv]
    have := Real.one_sub_inv_le_log_of_pos hu
    have h2 : (u + 1) * u⁻¹ = 1 + u⁻¹ := by field_simp
    rw [h2]
    linarith

/-- The function whose minimum is at 1. -/
noncomputable def gap (u : ℝ) : ℝ := (2 * u + 4) * (u * Real.log u - u + 1) - 3 * (u - 1) ^ 2

theorem gap_deriv {u : ℝ} (hu : 0 < u) : HasDerivAt gap (4 * ((u + 1) * Real.log u - 2 * (u - 1))) u := by
  have h1 := (((hasDerivAt_id u).const_mul 2).add_const (4 : ℝ))
  have h2 := ((((hasDerivAt_id u).mul (Real.hasDerivAt_log hu.ne')).sub (hasDerivAt_id u)).add_const (1 : ℝ))
  have h3 := ((((hasDerivAt_id u).sub_const (1 : ℝ)).pow 2).const_mul 3)
  refine ((h1.mul h2).sub h3).congr_deriv ?_
  simp only [id, Pi.mul_apply, Pi.sub_apply]
  have : u * u⁻¹ = 1 := mul_inv_cancel₀ hu.ne'
  simp only [this]
  norm_num
  ring

theorem gap_nonneg {u : ℝ} (hu : 0 < u) : 0 ≤ gap u := by
  have h1 : gap 1 = 0 := by simp [gap]
  have hg1 : (fun u : ℝ => (u + 1) * Real.log u - 2 * (u - 1)) 1 = 0 := by simp
  rcases le_total u 1 with h | h
  · have : AntitoneOn gap (Set.Ioc 0 1) := by
      apply antitoneOn_of_deriv_nonpos (convex_Ioc 0 1)
      · exact fun v hv => (gap_deriv hv.1).continuousAt.continuousWithinAt
      · rw [interior_Ioc]
        exact fun v hv => (gap_deriv hv.1).differentiableAt.differentiableWithinAt
      · rw [interior_Ioc]
        intro v hv
        rw [(gap_deriv hv.1).deriv]
        have := aux_mono (show v ∈ Set.Ioi (0 : ℝ) from hv.1) (Set.mem_Ioi.2 one_pos) hv.2.le
        rw [hg1] at this
        dsimp only at this
        linarith
    have := this ⟨hu, h⟩ ⟨one_pos, le_refl _⟩ h
    rwa [h1] at this
  · have : MonotoneOn gap (Set.Ici 1) := by
      apply monotoneOn_of_deriv_nonneg (convex_Ici 1)
      · exact fun v hv => (gap_deriv (lt_of_lt_of_le one_pos hv)).continuousAt.continuousWithinAt
      · rw [interior_Ici]
        exact fun v hv => (gap_deriv (one_pos.trans hv)).differentiableAt.differentiableWithinAt
      · rw [interior_Ici]
        intro v hv
        have hv' : (0 : ℝ) < v := one_pos.trans hv
        rw [(gap_deriv hv').deriv]
        have := aux_mono (Set.mem_Ioi.2 one_pos) (show v ∈ Set.Ioi (0 : ℝ) from hv') (le_of_lt hv)
        rw [hg1] at this
        dsimp only at this
        linarith
    have := this (Set.mem_Ici.2 le_rfl) h h
    rwa [h1] at this

/-- The pointwise inequality. -/
theorem sq_le {p q : ℝ} (hp : 0 ≤ p) (hq : 0 < q) :
    (p - q) ^ 2 ≤ (2 * p + 4 * q) / 3 * (p * Real.log (p / q) - p + q) := by
  rcases hp.eq_or_lt with rfl | hp
  · simp
    nlinarith
  · have h := gap_nonneg (div_pos hp hq)
    unfold gap at h
    have e : (2 * p + 4 * q) / 3 * (p * Real.log (p / q) - p + q) - (p - q) ^ 2 =
        q ^ 2 / 3 * ((2 * (p / q) + 4) * (p / q * Real.log (p / q) - p / q + 1) - 3 * (p / q - 1) ^ 2) := by
      field_simp
    have : 0 ≤ q ^ 2 / 3 * ((2 * (p / q) + 4) * (p / q * Real.log (p / q) - p / q + 1) - 3 * (p / q - 1) ^ 2) := by
      positivity
    linarith

/-- With a weight: `|p - q|` is at most the mean of `t (2p + 4q)/3` and `(p log (p/q) - p + q)/t`. -/
theorem abs_le {p q t : ℝ} (hp : 0 ≤ p) (hq : 0 ≤ q) (h0 : q = 0 → p = 0) (ht : 0 < t) :
    |p - q| ≤ (t * ((2 * p + 4 * q) / 3) + (p * Real.log (p / q) - p + q) / t) / 2 := by
  rcases hq.eq_or_lt with rfl | hq
  · rw [h0 rfl]
    simp
  · have h := sq_le hp hq
    obtain ⟨A, hA⟩ : ∃ A, A = (2 * p + 4 * q) / 3 := ⟨_, rfl⟩
    obtain ⟨B, hB⟩ : ∃ B, B = p * Real.log (p / q) - p + q := ⟨_, rfl⟩
    rw [← hA, ← hB] at h ⊢
    have hA0 : 0 < A := by rw [hA]; positivity
    have hB0 : 0 ≤ B := by
      by_contra hc
      have : A * B < 0 := mul_neg_of_pos_of_neg hA0 (not_le.1 hc)
      have := sq_nonneg (p - q)
      linarith
    apply abs_le_of_sq_le_sq _ (by positivity)
    calc (p - q) ^ 2 ≤ A * B := h
      _ = (t * A) * (B / t) := by field_simp
      _ ≤ ((t * A + B / t) / 2) ^ 2 := by nlinarith [sq_nonneg (t * A - B / t)]

/-- Choosing the weight. -/
theorem le_sqrt {S d : ℝ} (hd : 0 ≤ d) (h : ∀ t : ℝ, 0 < t → S ≤ t + d / (2 * t)) : S ≤ √(2 * d) := by
  rcases hd.eq_or_lt with rfl | hd
  · rw [mul_zero, Real.sqrt_zero]
    apply le_of_forall_pos_le_add
    intro t ht
    have := h t ht
    simpa using this
  · have h2 : 0 < √(2 * d) := Real.sqrt_pos.2 (by linarith)
    have := h (√(2 * d) / 2) (by positivity)
    have e : d / (2 * (√(2 * d) / 2)) = √(2 * d) / 2 := by
      obtain ⟨s, hs⟩ : ∃ s, s = √(2 * d) := ⟨_, rfl⟩
      have hm : s * s = 2 * d := by rw [hs]; exact Real.mul_self_sqrt (by linarith)
      rw [← hs] at h2 ⊢
      have : d = s * s / 2 := by linarith
      rw [this]
      field_simp
    rw [e] at this
    linarith

end Verif.Pinsker
