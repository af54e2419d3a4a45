import Verif.ShowModel
import Verif.NonLinLemmas
import Verif.GaussProps3
import Verif.FactProps5

/-!
# C114: the text of a Gaussian; C115: random Gaussians
-/

namespace Verif.Gauss
open Matrix Spec _root_.Verif.Fact

variable {n : ℕ}

/-! ### C114 -/

/-- The covariance parameters stand for the function `L` of the variables `vs`. -/
def CovMeans (vs : List Var) (v : CovF n) (L : (Var → ℝ) → ℝ) : Prop :=
  ∃ hl : vs.length = n, ∀ x : Var → ℝ, Real.exp (L x) = Real.exp v.lw * normalDensity v.cov v.mean (vecAt vs hl x)

/-- The canonical parameters stand for the function `L` of the variables `vs`. -/
def CanMeans (vs : List Var) (c : Can n) (L : (Var → ℝ) → ℝ) : Prop :=
  ∃ hl : vs.length = n, ∀ x : Var → ℝ, L x = -(1 / 2) * (vecAt vs hl x ⬝ᵥ c.prec *ᵥ vecAt vs hl x) +
    c.h ⬝ᵥ vecAt vs hl x + c.g

theorem exp_evalCan_det {v : CovF n} (hs : v.cov.IsSymm) (hd : 0 < v.cov.det) (x : Fin n → ℝ) :
    Real.exp (evalCan (toCan v) x) = Real.exp v.lw * normalDensity v.cov v.mean x := by
  have e1 : Real.exp (1 / 2 * Real.log (det2pi v.cov)) = Real.sqrt (det2pi v.cov) := by
    rw [Real.sqrt_eq_rpow, Real.rpow_def_of_pos (det2pi_pos.2 hd), mul_comm]
  rw [normalDensity, Fintype.card_fin, ← det2pi_eq, ← e1, mul_div_assoc', ← Real.exp_add, ← Real.exp_sub]
  congr 1
  have hsym := dot_symm (symm_inv hs) v.mean x
  simp only [evalCan, toCan, sub_dotProduct, mulVec_sub, dotProduct_sub, hsym]
  have h2 : x ⬝ᵥ v.cov⁻¹ *ᵥ v.mean = v.mean ⬝ᵥ v.cov⁻¹ *ᵥ x := hsym.symm
  ring_nf

theorem canMeans_canOf {a : Gauss n} {L : (Var → ℝ) → ℝ} (hg : Good a) (hL : Denotes a L) : CanMeans a.vars (canOf a) L := by
  refine ⟨hg.len, fun x => ?_⟩
  rw [hL.eq hg]
  unfold logOf evalCan
  rw [dotProduct_comm _ (canOf a).h]
  ring

theorem covMeans_toCov {a : Gauss n} {L : (Var → ℝ) → ℝ} (hg : Good a) (hL : Denotes a L) (hd : 0 < (canOf a).prec.det) :
    CovMeans a.vars (toCov (canOf a)) L := by
  refine ⟨hg.len, fun x => ?_⟩
  rw [hL.eq hg]
  unfold logOf
  rw [← exp_evalCan_det (v := toCov (canOf a)) (symm_inv hg.symm) (det_inv_pos.2 hd), toCan_toCov hd]

theorem canText_ok {a : Gauss n} (hg : Good a) : ∃ b, canText a = .ok (canOf a, b) := by
  obtain ⟨k, hk⟩ := copy_total hg
  obtain ⟨gk, -, hc⟩ := copy_good hg hk
  refine ⟨k.vac, ?_⟩
  unfold canText
  rw [hk, py_bind_ok, getCan_valid gk.toValid, py_bind_ok, hc]

/-- **C114, `repr` (part that holds).** The text of a strictly concave Gaussian can be made; it shows the names of the
variables and the covariance parameters of its function, and the canonical parameters unless the factor is marked as
vacuous. What is missing for the full claim: `C114_vacuous`, `C114_no_covariance`. -/
theorem C114_repr_partial {a : Gauss n} {L : (Var → ℝ) → ℝ} (ha : Made a) (hL : Denotes a L) (hpos : PosOn L (· ∈ a.vars)) :
    ∃ c v, repr a = .ok ⟨a.vars, c, some v⟩ ∧ CovMeans a.vars v L ∧ (c = none → a.vac = true) ∧
      ∀ p, c = some p → CanMeans a.vars p.1 L := by
  have hg := hL.good ha.inv
  have hpd : (canOf a).prec.PosDef := by
    refine posDef_logOf hg ?_
    rw [← hL.eq hg]
    exact hpos
  obtain ⟨k, hk⟩ := copy_total hg
  obtain ⟨gk, hkv, hc⟩ := copy_good hg hk
  have hcov : covText a = .ok (toCov (canOf a)) := by
    unfold covText
    rw [hk, py_bind_ok, getCov_valid gk.toValid (copy_vac hg hpd hk) (by rw [hc]; exact hpd.det_pos), py_bind_ok, hc]
  obtain ⟨b, hb⟩ := canText_ok hg
  refine ⟨if a.vac then none else some (canOf a, b), toCov (canOf a), ?_, covMeans_toCov hg hL hpd.det_pos, ?_, ?_⟩
  · unfold repr
    cases a.vac with
    | true =>
      simp only [if_true]
      rw [py_bind_ok, hcov, py_bind_ok]
    | false =>
      simp only [Bool.false_eq_true, if_false]
      rw [hb, py_bind_ok, py_bind_ok, hcov, py_bind_ok]
  · intro h
    split at h
    · assumption
    · cases h
  · intro p h
    split at h
    · cases h
    · cases h
      exact canMeans_canOf hg hL

/-- **C114, `show`.** The parameters of every Gaussian that denotes a function can be shown, whether it is vacuous or not: those
of each form that the factor has, and they stand for its function. -/
theorem C114_show {a : Gauss n} {L : (Var → ℝ) → ℝ} (ha : Made a) (hL : Denotes a L) :
    ∃ c v, display a = .ok ⟨a.vars, c, v⟩ ∧ (c.isSome ∨ v.isSome) ∧ (∀ p, c = some p → CanMeans a.vars p.1 L) ∧
      ∀ p, v = some p → CovMeans a.vars p L := by
  have hg := hL.good ha.inv
  obtain ⟨b, hb⟩ := canText_ok hg
  have hform := hg.form
  have hcov : ∀ v, a.cov = some v → covText a = .ok v := by
    intro v hv
    obtain ⟨k, hk⟩ := copy_total hg
    obtain ⟨gk, hkv, hc⟩ := copy_good hg hk
    have hkc : k.cov = some v ∧ k.vac = false := by
      obtain ⟨vars, can, cov, vac⟩ := a
      dsimp only at hv
      subst hv
      unfold Gauss.copy at hk
      cases can with
      | some c =>
        obtain ⟨y, hy, hk⟩ := py_bind_eq_ok.1 hk
        cases hk
        obtain ⟨-, -, rfl⟩ := mkCov_eq_ok hy
        exact ⟨rfl, rfl⟩
      | none =>
        obtain ⟨-, -, rfl⟩ := mkCov_eq_ok hk
        exact ⟨rfl, rfl⟩
    unfold covText getCov updateCov
    rw [hk, py_bind_ok, if_neg (by simp [hkc.2]), hkc.1]
    dsimp only
    rw [py_bind_ok, hkc.1]
    rfl
  have hmean : ∀ v, a.cov = some v → CovMeans a.vars v L := by
    intro v hv
    refine ⟨hg.len, fun x => ?_⟩
    have hcan : canOf a = toCan v := canOf_cov hg.toValid hv
    rw [hL.eq hg]
    unfold logOf
    rw [hcan, exp_evalCan_det (hg.cov v hv).1 (hg.cov v hv).2]
  refine ⟨a.can.map fun _ => (canOf a, b), a.cov, ?_, ?_, ?_, hmean⟩
  · unfold display
    cases hc : a.can with
    | none =>
      cases hv : a.cov with
      | none =>
        rw [hc, hv] at hform
        simp at hform
      | some v =>
        simp [hcov v hv, py_bind_ok]
    | some c =>
      cases hv : a.cov with
      | none => simp [hb, py_bind_ok]
      | some v => simp [hb, hcov v hv, py_bind_ok]
  · rw [Option.isSome_map]
    exact hform
  · intro p hp
    cases hc : a.can with
    | none =>
      rw [hc] at hp
      cases hp
    | some c =>
      rw [hc] at hp
      cases hp
      exact canMeans_canOf hg hL

/-- **C114 is violated: vacuous factors.** `repr` of a factor made from canonical parameters that are vacuous, such as the
result of `make_vacuous`, raises an exception. -/
theorem C114_vacuous {vars : List Var} {c : Can n} {a : Gauss n} (h : mkCan vars c = .ok a) (hv : a.isVacuous = true) :
    repr a = .error .exception := by
  obtain ⟨h1, h2, rfl⟩ := mkCan_eq_ok h
  have hvac : vacParams c.prec = true := by
    unfold isVacuous at hv
    simpa using hv
  unfold repr
  dsimp only
  rw [hvac]
  simp only [if_true]
  unfold covText Gauss.copy
  dsimp only
  rw [mkCan_ok h1 h2, py_bind_ok, py_bind_ok, hvac]
  rfl

/-- **C114 is violated: factors without a covariance.** `repr` of a factor made from canonical parameters with a singular
precision raises an exception. Such factors arise as products with factors over other variables, and as quotients. -/
theorem C114_no_covariance {vars : List Var} {c : Can n} {a : Gauss n} (h : mkCan vars c = .ok a) (hd : c.prec.det = 0) :
    ∃ e, repr a = .error e := by
  obtain ⟨h1, h2, rfl⟩ := mkCan_eq_ok h
  unfold repr
  dsimp only
  have hcov : ∃ e, covText (⟨vars, some c, none, vacParams c.prec⟩ : Gauss n) = .error e := by
    unfold covText Gauss.copy
    dsimp only
    rw [mkCan_ok h1 h2, py_bind_ok]
    unfold getCov updateCov
    cases vacParams c.prec with
    | true => exact ⟨_, rfl⟩
    | false =>
      refine ⟨.linAlgError, ?_⟩
      unfold covParams npInv
      simp only [Bool.false_eq_true, if_false, if_pos hd]
      rfl
  obtain ⟨e, he⟩ := hcov
  rw [he]
  cases vacParams c.prec with
  | true => exact ⟨_, rfl⟩
  | false =>
    simp only [Bool.false_eq_true, if_false]
    cases canText (⟨vars, some c, none, false⟩ : Gauss n) with
    | error e' => exact ⟨_, rfl⟩
    | ok p => exact ⟨_, rfl⟩

/-- The vacuous factor over `x`: `repr` raises, `show` does not. -/
example : ∃ a c v, makeVacuous ["x"] = .ok a ∧ repr a = .error .exception ∧ display a = .ok ⟨["x"], c, v⟩ := by
  have h : makeVacuous ["x"] = .ok ⟨["x"], some ⟨0, 0, 0⟩, none, vacParams (0 : Matrix (Fin 1) (Fin 1) ℝ)⟩ :=
    mkCan_ok (by decide) rfl
  have hm := Made.ofCan (c := ⟨0, 0, 0⟩) (by simp [IsSymm]) h
  have hg : Good (⟨["x"], some ⟨0, 0, 0⟩, none, vacParams (0 : Matrix (Fin 1) (Fin 1) ℝ)⟩ : Gauss 1) :=
    good_mkCan (by decide) rfl _ (by simp [IsSymm])
  obtain ⟨c, v, hd, -⟩ := C114_show hm hg.denotes
  refine ⟨_, c, v, h, C114_vacuous h ?_, hd⟩
  unfold isVacuous
  simp [vacParams_zero]

/-- A proper factor. -/
example : ∃ c v, repr (std ["a", "b"]) = .ok ⟨["a", "b"], c, some v⟩ := by
  have h := std_den (vs := ["a", "b"]) (by decide)
  obtain ⟨c, v, h, -⟩ := C114_repr_partial h.1.made h.1.den (std_pos ["a", "b"])
  exact ⟨c, v, h⟩

/-! ### C115 -/

theorem random_diag {vars : List Var} (C : Matrix (Fin vars.length) (Fin vars.length) ℝ) :
    (fun i j => C i j * (1 : Matrix (Fin vars.length) (Fin vars.length) ℝ) i j : Matrix _ _ ℝ) = diagonal fun i => C i i := by
  ext i j
  by_cases h : i = j
  · subst h
    simp
  · simp [h]

/-- **C115.** For any numbers drawn from a range of positive numbers, a random Gaussian is the product of normal densities of its
variables with the means and variances drawn: its variables are independent, and its weight is one. -/
theorem C115_random {vars : List Var} (hn : vars.Nodup) (hne : vars ≠ []) {lo hi : ℝ} (hlo : 0 < lo)
    {C : Matrix (Fin vars.length) (Fin vars.length) ℝ} (hC : ∀ i j, lo ≤ C i j ∧ C i j ≤ hi) (m : Fin vars.length → ℝ) :
    ∃ a a', ∃ s : Fin vars.length → ℝ, makeRandom vars C m = .ok a ∧ Made a ∧ a.vars = vars ∧ a.isVacuous = false ∧
      a.getWeight = .ok (a', 1) ∧ (∀ i, lo ≤ s i ∧ s i ≤ hi) ∧ ∀ x : Fin vars.length → ℝ, a.potential (List.ofFn x) =
        .ok (∏ i, Real.exp (-(x i - m i) ^ 2 / (2 * s i)) / Real.sqrt (2 * Real.pi * s i)) := by
  have hs : ∀ i, 0 < C i i := fun i => hlo.trans_le (hC i i).1
  have hpd : (diagonal fun i => C i i : Matrix (Fin vars.length) (Fin vars.length) ℝ).PosDef := PosDef.diagonal hs
  have hmk : mkCov vars ⟨diagonal fun i => C i i, m, 0⟩ = .ok ⟨vars, none, some ⟨diagonal fun i => C i i, m, 0⟩, false⟩ :=
    mkCov_ok hn rfl
  refine ⟨_, ⟨vars, none, some ⟨diagonal fun i => C i i, m, 0⟩, false⟩, fun i => C i i, ?_, .ofCov hpd hmk, rfl, rfl, ?_, fun i => hC i i, fun x => ?_⟩
  · unfold makeRandom
    rw [random_diag, hmk]
    simp only [pyAssert, List.isEmpty_iff, hne, decide_false, Bool.not_false, List.isEmpty_eq_false_iff.2 hne]
    rfl
  · unfold getWeight getCov updateCov
    simp only [Bool.false_eq_true, if_false]
    dsimp only [bind, Except.bind]
    rw [Real.exp_zero]
  · rw [(C28_forms hpd hmk).1]
    congr 1
    have hinv : (diagonal fun i => C i i)⁻¹ = diagonal fun i => (C i i)⁻¹ := by
      refine inv_eq_right_inv ?_
      rw [diagonal_mul_diagonal, ← diagonal_one]
      congr 1
      funext i
      exact mul_inv_cancel₀ (hs i).ne'
    rw [Real.exp_zero, one_mul, normalDensity, hinv, det_diagonal, Fintype.card_fin, Finset.prod_div_distrib, ← Real.exp_sum]
    congr 1
    · congr 1
      simp only [dotProduct, mulVec_diagonal, Pi.sub_apply]
      rw [← Finset.sum_neg_distrib, Finset.sum_div]
      refine Finset.sum_congr rfl fun i _ => ?_
      have := (hs i).ne'
      field_simp
    · rw [← Real.sqrt_prod _ fun i _ => by have := hs i; positivity, Finset.prod_mul_distrib, Finset.prod_const,
        Finset.card_univ, Fintype.card_fin]

/-- **C115, errors.** A random Gaussian must have a variable, and no variable twice. -/
theorem C115_errors (vars : List Var) (C : Matrix (Fin vars.length) (Fin vars.length) ℝ) (m : Fin vars.length → ℝ) :
    (vars = [] → makeRandom vars C m = .error .assertionError) ∧ (¬ vars.Nodup → ∃ e, makeRandom vars C m = .error e) := by
  constructor
  · rintro rfl
    rfl
  · intro h
    cases hr : makeRandom vars C m with
    | error e => exact ⟨e, rfl⟩
    | ok a =>
      unfold makeRandom at hr
      obtain ⟨_, -, hr⟩ := py_bind_eq_ok.1 hr
      exact absurd (mkCov_eq_ok hr).1 h

/-- A case that meets the hypotheses of `C115_random`: the default range of variances. -/
example : ∃ a, makeRandom ["x", "y"] (fun _ _ => 3) ![0, 1] = .ok a := by
  obtain ⟨a, _, _, h, -⟩ := C115_random (vars := ["x", "y"]) (by decide) (by decide) (lo := 1) (hi := 10) (by norm_num)
    (C := fun _ _ => 3) (fun _ _ => by norm_num) ![0, 1]
  exact ⟨a, h⟩

end Verif.Gauss
