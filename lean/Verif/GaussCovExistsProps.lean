import Verif.GaussProps

/-!
# C133: the check whether a Gaussian has a covariance
-/

namespace Verif.Gauss
open Matrix

variable {n : ℕ}

/-- **C133.** For a Gaussian given by its canonical parameters the check says yes exactly if some matrix is inverse to
the precision. -/
theorem C133_cov_exists (a : Gauss n) (c : Can n) (hc : a.can = some c) (hv : a.cov = none) :
    covExists a = true ↔ ∃ S : Matrix (Fin n) (Fin n) ℝ, c.prec * S = 1 := by
  unfold covExists
  rw [hv, hc]
  simp only [decide_eq_true_eq]
  constructor
  · intro h
    exact ⟨c.prec⁻¹, mul_nonsing_inv _ (isUnit_iff_ne_zero.2 h)⟩
  · rintro ⟨S, hS⟩ h
    have := congrArg det hS
    rw [det_mul, h, zero_mul, det_one] at this
    exact zero_ne_one this

/-- **C133.** If the covariance parameters can be read, the check says yes, before and after reading them. -/
theorem C133_necessary (a a' : Gauss n) (v : CovF n) (h : a.getCov = .ok (a', v)) :
    covExists a = true ∧ covExists a' = true := by
  have hu : ∃ b, updateCov a = .ok b ∧ b.cov = some v ∧ b = a' := by
    unfold getCov at h
    obtain ⟨b, hb, h⟩ := py_bind_eq_ok.1 h
    refine ⟨b, hb, ?_⟩
    revert h
    cases hbc : b.cov with
    | none => intro h; cases h
    | some w => intro h; cases h; exact ⟨rfl, rfl⟩
  obtain ⟨b, hb, hbv, rfl⟩ := hu
  refine ⟨?_, by unfold covExists; rw [hbv]⟩
  unfold updateCov at hb
  split at hb
  · cases hb
  · cases hav : a.cov with
    | some w => unfold covExists; rw [hav]
    | none =>
      rw [hav] at hb
      cases hac : a.can with
      | none => rw [hac] at hb; cases hb
      | some c =>
        rw [hac] at hb
        dsimp only at hb
        obtain ⟨w, hw, -⟩ := py_bind_eq_ok.1 hb
        refine (C133_cov_exists a c hac hav).2 ?_
        unfold covParams at hw
        obtain ⟨S, hS, -⟩ := py_bind_eq_ok.1 hw
        unfold npInv at hS
        split at hS
        · cases hS
        · rename_i hd
          exact ⟨c.prec⁻¹, mul_nonsing_inv _ (isUnit_iff_ne_zero.2 hd)⟩

/-- **C133**, sufficiency (partial): for a positive semidefinite precision a yes means that the covariance parameters of
a Gaussian that is not vacuous can be read. For an indefinite precision see `C133_indefinite`. -/
theorem C133_sufficient_partial (a : Gauss n) (hvac : a.vac = false)
    (hp : ∀ c, a.can = some c → c.prec.PosSemidef) (h : covExists a = true) : ∃ r, a.getCov = .ok r := by
  unfold getCov updateCov
  rw [hvac]
  cases hav : a.cov with
  | some v =>
    simp only [Bool.false_eq_true, if_false]
    rw [py_bind_ok]
    simp only [hav]
    exact ⟨_, rfl⟩
  | none =>
    cases hac : a.can with
    | none => unfold covExists at h; rw [hav, hac] at h; cases h
    | some c =>
      unfold covExists at h
      rw [hav, hac] at h
      simp only [decide_eq_true_eq] at h
      have hd : 0 < c.prec.det := lt_of_le_of_ne (hp c hac).det_nonneg (Ne.symm h)
      simp only [Bool.false_eq_true, if_false]
      rw [covParams_ok hd, py_bind_ok, py_bind_ok]
      exact ⟨_, rfl⟩

/-- A Gaussian with an indefinite precision, as it results from a division. -/
noncomputable def exIndef : Gauss 2 := ⟨["a", "b"], some ⟨!![1, 0; 0, -1], 0, 0⟩, none, false⟩

/-- **C133 fails** for indefinite precisions: the check says yes, and the log weight is not a number. -/
theorem C133_indefinite : mkCan ["a", "b"] ⟨!![1, 0; 0, -1], 0, 0⟩ = .ok exIndef ∧ covExists exIndef = true ∧
    exIndef.getCov = .error .nan := by
  have hdet : (!![1, 0; 0, -1] : Matrix (Fin 2) (Fin 2) ℝ).det = -1 := by rw [det_fin_two_of]; norm_num
  refine ⟨?_, ?_, ?_⟩
  · unfold mkCan
    rw [if_neg (by decide), if_neg (by decide)]
    have : vacParams (!![1, 0; 0, -1] : Matrix (Fin 2) (Fin 2) ℝ) = false := by
      unfold vacParams
      rw [decide_eq_false_iff_not]
      rintro ⟨h, -⟩
      have := h 0 0
      norm_num at this
    rw [this]
    rfl
  · simp only [covExists, exIndef, hdet]
    norm_num
  · have hc : covParams (⟨!![1, 0; 0, -1], 0, 0⟩ : Can 2) = .error .nan := by
      unfold covParams
      rw [npInv_ok (by rw [hdet]; norm_num)]
      have hl : npLog (det2pi (!![1, 0; 0, -1] : Matrix (Fin 2) (Fin 2) ℝ)⁻¹) = .error .nan := by
        unfold npLog
        refine if_pos (not_lt.1 fun h => ?_)
        have := det_inv_pos.1 (det2pi_pos.1 h)
        rw [hdet] at this
        norm_num at this
      dsimp only [bind, Except.bind]
      rw [hl]
    unfold getCov updateCov exIndef
    simp only [Bool.false_eq_true, if_false, hc]
    rfl

/-- Both answers occur: the standard precision has an inverse, the zero precision has none. -/
example : covExists (⟨["a", "b"], some ⟨1, 0, 0⟩, none, false⟩ : Gauss 2) = true ∧
    covExists (⟨["a", "b"], some ⟨0, 0, 0⟩, none, true⟩ : Gauss 2) = false := by
  constructor
  · exact (C133_cov_exists _ _ rfl rfl).2 ⟨1, mul_one 1⟩
  · rw [← Bool.not_eq_true, C133_cov_exists _ _ rfl rfl]
    rintro ⟨S, hS⟩
    have := congrFun (congrFun hS 0) 0
    simp at this

/-- The hypotheses of `C133_sufficient_partial` can be met. -/
example : ∃ r, (⟨["a", "b"], some ⟨1, 0, 0⟩, none, false⟩ : Gauss 2).getCov = .ok r :=
  C133_sufficient_partial _ rfl (fun c hc => by cases hc; exact PosSemidef.one)
    ((C133_cov_exists _ _ rfl rfl).2 ⟨1, mul_one 1⟩)

end Verif.Gauss
