import Verif.SampleProps

/-!
# Most of the mass of a normal density lies within three standard deviations of the mean
-/

namespace Verif.Plot
open MeasureTheory Matrix Spec GaussInt

variable {d : ℕ}

theorem dens_integrable {S : Matrix (Fin d) (Fin d) ℝ} (hS : S.PosDef) (m : Fin d → ℝ) :
    Integrable (normalDensity S m) ∧ ∫ x, normalDensity S m x = 1 := by
  have e : normalDensity S m = fun x => (Z S⁻¹)⁻¹ * bell S⁻¹ m x := by
    funext x
    rw [normalDensity_eq, dens, div_eq_inv_mul]
  rw [e]
  refine ⟨(mass_integrable hS.inv m).const_mul _, ?_⟩
  rw [integral_const_mul, mass hS.inv, inv_mul_cancel₀ (Z_pos hS.inv).ne']

theorem dens_second {S : Matrix (Fin d) (Fin d) ℝ} (hS : S.PosDef) (m : Fin d → ℝ) (i : Fin d) :
    Integrable (fun x => (x i - m i) ^ 2 * normalDensity S m x) ∧
      ∫ x, (x i - m i) ^ 2 * normalDensity S m x = S i i := by
  have e : (fun x => (x i - m i) ^ 2 * normalDensity S m x) =
      fun x => (Z S⁻¹)⁻¹ * ((x i - m i) * (x i - m i) * bell S⁻¹ m x) := by
    funext x
    rw [normalDensity_eq, dens, div_eq_inv_mul]
    ring
  obtain ⟨h1, h2⟩ := second_centred hS.inv m i i
  rw [e]
  refine ⟨h1.const_mul _, ?_⟩
  rw [integral_const_mul, h2, nonsing_inv_nonsing_inv _ hS.det_pos.ne'.isUnit]
  have := (Z_pos hS.inv).ne'
  field_simp

/-- Chebyshev's inequality for a box that extends three standard deviations to both sides of the mean. -/
theorem box_mass {S : Matrix (Fin d) (Fin d) ℝ} (hS : S.PosDef) (m lo hi : Fin d → ℝ)
    (hlo : ∀ i, lo i ≤ m i - 3 * √(S i i)) (hhi : ∀ i, m i + 3 * √(S i i) ≤ hi i) :
    1 - (d : ℝ) / 9 ≤ ∫ x in Set.Icc lo hi, normalDensity S m x := by
  obtain ⟨hi1, h1⟩ := dens_integrable hS m
  have hpos : ∀ i, 0 < S i i := fun i => hS.diag_pos
  have hint : Integrable fun x => ∑ i, (9 * S i i)⁻¹ * ((x i - m i) ^ 2 * normalDensity S m x) :=
    integrable_finsetSum _ fun i _ => (dens_second hS m i).1.const_mul _
  have hsum : ∫ x, ∑ i, (9 * S i i)⁻¹ * ((x i - m i) ^ 2 * normalDensity S m x) = (d : ℝ) / 9 := by
    rw [integral_finsetSum _ fun i _ => (dens_second hS m i).1.const_mul _]
    have : ∀ i : Fin d, ∫ x, (9 * S i i)⁻¹ * ((x i - m i) ^ 2 * normalDensity S m x) = 1 / 9 := by
      intro i
      rw [integral_const_mul, (dens_second hS m i).2]
      have := (hpos i).ne'
      field_simp
    simp only [this, Finset.sum_const, Finset.card_univ, Fintype.card_fin, nsmul_eq_mul]
    ring
  have hmeas : MeasurableSet (Set.Icc lo hi) := measurableSet_Icc
  have htail : ∫ x in (Set.Icc lo hi)ᶜ, normalDensity S m x ≤ (d : ℝ) / 9 := by
    rw [← hsum, ← integral_indicator hmeas.compl]
    refine integral_mono (hi1.indicator hmeas.compl) hint fun x => ?_
    dsimp only
    have hn := Sampling.normalDensity_nonneg S m x
    have hterm : ∀ i ∈ Finset.univ, 0 ≤ (9 * S i i)⁻¹ * ((x i - m i) ^ 2 * normalDensity S m x) := by
      intro i _
      have := hpos i
      positivity
    by_cases hx : x ∈ Set.Icc lo hi
    · rw [Set.indicator_of_notMem (Set.notMem_compl_iff.2 hx)]
      exact Finset.sum_nonneg hterm
    · rw [Set.indicator_of_mem hx]
      obtain ⟨i, h⟩ : ∃ i, x i < lo i ∨ hi i < x i := by
        by_contra hc
        push Not at hc
        exact hx ⟨fun i => (hc i).1, fun i => (hc i).2⟩
      refine le_trans ?_ (Finset.single_le_sum hterm (Finset.mem_univ i))
      have hs : 0 < √(S i i) := Real.sqrt_pos.2 (hpos i)
      have hsq : √(S i i) ^ 2 = S i i := Real.sq_sqrt (hpos i).le
      have h9 : 9 * S i i ≤ (x i - m i) ^ 2 := by
        have := hlo i
        have := hhi i
        rcases h with h | h <;> nlinarith
      have : 1 ≤ (9 * S i i)⁻¹ * (x i - m i) ^ 2 := by
        rw [inv_mul_eq_div, one_le_div (by linarith [hpos i])]
        exact h9
      rw [← mul_assoc]
      exact le_mul_of_one_le_left hn this
  have hsplit := integral_add_compl hmeas hi1
  rw [h1] at hsplit
  linarith

/-- A weighted sum of normal densities. -/
noncomputable def mixDensity (vs : List (CovF d)) (z : Fin d → ℝ) : ℝ :=
  (vs.map fun v => Real.exp v.lw * normalDensity v.cov v.mean z).sum

/-- Most of the mass of a weighted sum of normal densities lies in a box that extends three standard deviations to both
sides of each mean. -/
theorem mix_mass (lo hi : Fin d → ℝ) (vs : List (CovF d)) (h : ∀ v ∈ vs, v.cov.PosDef ∧
      ∀ i, lo i ≤ v.mean i - 3 * √(v.cov i i) ∧ v.mean i + 3 * √(v.cov i i) ≤ hi i) :
    Integrable (mixDensity vs) ∧
      (1 - (d : ℝ) / 9) * ∫ z, mixDensity vs z ≤ ∫ z in Set.Icc lo hi, mixDensity vs z := by
  induction vs with
  | nil =>
    have e : mixDensity ([] : List (CovF d)) = fun _ => 0 := by
      funext z
      simp [mixDensity]
    rw [e]
    simp
  | cons v vs ih =>
    obtain ⟨h1, h2⟩ := ih fun w hw => h w (List.mem_cons_of_mem _ hw)
    obtain ⟨hp, hb⟩ := h v List.mem_cons_self
    have e : mixDensity (v :: vs) = fun z => Real.exp v.lw * normalDensity v.cov v.mean z + mixDensity vs z := by
      funext z
      simp [mixDensity]
    obtain ⟨k1, k2⟩ := dens_integrable hp v.mean
    rw [e]
    refine ⟨(k1.const_mul _).add h1, ?_⟩
    rw [integral_add (k1.const_mul _) h1, integral_add (k1.const_mul _).integrableOn h1.integrableOn,
      integral_const_mul, integral_const_mul, k2]
    have := box_mass hp v.mean lo hi (fun i => (hb i).1) fun i => (hb i).2
    have hw := Real.exp_pos v.lw
    nlinarith

theorem mixDensity_pos {vs : List (CovF d)} (hne : vs ≠ []) (h : ∀ v ∈ vs, v.cov.PosDef) (z : Fin d → ℝ) :
    0 < mixDensity vs z := by
  refine List.sum_pos _ (fun y hy => ?_) (by simpa using hne)
  obtain ⟨v, hv, rfl⟩ := List.mem_map.1 hy
  have := (h v hv).det_pos
  unfold normalDensity
  positivity

/-- The same over the real line. -/
theorem line_mass {F : (Fin 1 → ℝ) → ℝ} (hF : Integrable F) (lo hi : ℝ) :
    Integrable (fun t : ℝ => F fun _ => t) ∧ ∫ t : ℝ, F (fun _ => t) = ∫ z, F z ∧
      ∫ t in Set.Icc lo hi, F (fun _ => t) = ∫ z in Set.Icc (fun _ => lo) (fun _ => hi), F z := by
  have hm := (volume_preserving_funUnique (Fin 1) ℝ).symm
  have e : ∀ t : ℝ, F (fun _ => t) = F ((MeasurableEquiv.funUnique (Fin 1) ℝ).symm t) := fun t => rfl
  simp only [e]
  refine ⟨?_, ?_, ?_⟩
  · exact (hm.integrable_comp_emb (MeasurableEquiv.measurableEmbedding _)).2 hF
  · exact hm.integral_comp (MeasurableEquiv.measurableEmbedding _) F
  · have := hm.setIntegral_preimage_emb (MeasurableEquiv.measurableEmbedding _) F (Set.Icc (fun _ => lo) fun _ => hi)
    refine Eq.trans ?_ this
    congr 2
    ext t
    simp [Set.mem_Icc, Pi.le_def]

end Verif.Plot
