import Verif.SampleModel
import Verif.SampleLaw
import Verif.SampleSpec
import Verif.SigmaProps
import Verif.GaussProps4
import Verif.MixLemmas

/-!
# Helper lemmas for sampling
-/

namespace Verif.Sampling
open MeasureTheory Matrix Spec GaussInt Gauss

variable {d : ℕ}

theorem measurable_normalDensity (S : Matrix (Fin d) (Fin d) ℝ) (m : Fin d → ℝ) : Measurable (normalDensity S m) := by
  unfold normalDensity
  have : Continuous fun x : Fin d → ℝ => x - m := continuous_id.sub continuous_const
  exact ((((this.dotProduct (Continuous.matrix_mulVec continuous_const this)).neg.div_const 2).rexp).div_const _).measurable

theorem normalDensity_nonneg (S : Matrix (Fin d) (Fin d) ℝ) (m x : Fin d → ℝ) : 0 ≤ normalDensity S m x := by
  unfold normalDensity
  positivity

/-- A measurable function and its law. -/
theorem samples_of_law {Ω : Type} [MeasurableSpace Ω] {P : Measure Ω} [IsProbabilityMeasure P] {f : Ω → Fin d → ℝ}
    {p : (Fin d → ℝ) → ℝ} (h0 : ∀ x, 0 ≤ p x) (hp : Measurable p) (hf : Measurable f)
    (h : P.map f = volume.withDensity fun x => ENNReal.ofReal (p x)) : Samples P f p := by
  refine ⟨h0, hp, hf, ?_, h, fun k => ?_⟩
  · have h1 : P.map f Set.univ = 1 := by rw [Measure.map_apply hf MeasurableSet.univ, Set.preimage_univ, measure_univ]
    rw [h, withDensity_apply _ MeasurableSet.univ, Measure.restrict_univ] at h1
    exact h1
  · have : ∀ _ : Fin k, IsProbabilityMeasure (P.map f) := fun _ => Measure.isProbabilityMeasure_map hf.aemeasurable
    rw [Measure.pi_map_pi (μ := fun _ : Fin k => P) (f := fun _ => f) fun _ => hf.aemeasurable, h]

/-! ### Choosing a component -/

/-- The cumulative sums. -/
noncomputable def cum (p : List ℝ) (i : ℕ) : ℝ := (p.take i).sum

theorem cum_succ {p : List ℝ} {i : ℕ} (h : i < p.length) : cum p (i + 1) = cum p i + p[i] := List.sum_take_succ _ _ h

theorem cum_mono {p : List ℝ} (hp : ∀ t ∈ p, 0 ≤ t) : Monotone (cum p) := by
  refine monotone_nat_of_le_succ fun i => ?_
  by_cases h : i < p.length
  · rw [cum_succ h]
    have := hp _ (List.getElem_mem h)
    linarith
  · unfold cum
    rw [List.take_of_length_le (by omega), List.take_of_length_le (by omega)]

/-- The index that is chosen. -/
noncomputable def pick (p : List ℝ) (u : ℝ) : ℕ := (npCumsum p).countP fun t => decide (t ≤ u)

theorem countP_lt (i k : ℕ) (h : i ≤ k) : (List.range k).countP (fun j => decide (j < i)) = i := by
  induction k with
  | zero => simp; omega
  | succ k ih =>
    rw [List.range_succ, List.countP_append]
    by_cases hi : i ≤ k
    · rw [ih hi]
      simp [hi]
    · have : i = k + 1 := by omega
      subst this
      have h1 : (List.range k).countP (fun j => decide (j < k + 1)) = k := by
        rw [List.countP_eq_length.2]
        · simp
        · intro j hj
          have := List.mem_range.1 hj
          simp; omega
      rw [h1]
      simp

theorem pick_eq {p : List ℝ} (hp : ∀ t ∈ p, 0 ≤ t) {i : ℕ} (hi : i < p.length) {u : ℝ} (h1 : cum p i ≤ u)
    (h2 : u < cum p (i + 1)) : pick p u = i := by
  unfold pick npCumsum
  rw [List.countP_map]
  refine Eq.trans (List.countP_congr fun j _ => ?_) (countP_lt i p.length hi.le)
  simp only [Function.comp, decide_eq_true_eq]
  change cum p (j + 1) ≤ u ↔ j < i
  constructor
  · intro h
    by_contra hj
    have := cum_mono hp (show i + 1 ≤ j + 1 by omega)
    linarith
  · intro h
    exact (cum_mono hp (show j + 1 ≤ i by omega)).trans h1

theorem exists_pick {p : List ℝ} (h1 : p.sum = 1) {u : ℝ} (h0 : 0 ≤ u) (hu : u < 1) :
    ∃ i < p.length, cum p i ≤ u ∧ u < cum p (i + 1) := by
  classical
  have hex : ∃ i, u < cum p i := ⟨p.length, by unfold cum; rwa [List.take_length, h1]⟩
  have hpos : Nat.find hex ≠ 0 := by
    intro h
    have := Nat.find_spec hex
    rw [h] at this
    simp only [cum, List.take_zero, List.sum_nil] at this
    linarith
  obtain ⟨i, hi⟩ := Nat.exists_eq_succ_of_ne_zero hpos
  have hle : Nat.find hex ≤ p.length := Nat.find_min' hex (by unfold cum; rwa [List.take_length, h1])
  refine ⟨i, by omega, ?_, ?_⟩
  · exact not_lt.1 (Nat.find_min hex (by omega))
  · have := Nat.find_spec hex
    rwa [hi] at this

theorem npChoice_ok {p : List ℝ} (hne : p ≠ []) (hp : ∀ t ∈ p, 0 ≤ t) (h1 : p.sum = 1) (u : ℝ) :
    npChoice p u = .ok (pick p u) := by
  unfold npChoice
  rw [if_neg hne, if_neg (by push Not; exact hp), if_neg (by simpa using h1)]
  have hlast : (npCumsum p).getLast?.getD 0 = 1 := by
    have hl : 0 < p.length := List.length_pos_iff.2 hne
    unfold npCumsum
    rw [List.getLast?_map, List.getLast?_range, if_neg (by omega)]
    simp only [Option.map_some, Option.getD_some]
    rw [Nat.sub_add_cancel hl, List.take_length, h1]
  dsimp only
  rw [hlast]
  simp only [div_one, List.map_id']
  rfl

theorem measurable_pick (p : List ℝ) : Measurable (pick p) := by
  unfold pick
  generalize npCumsum p = l
  induction l with
  | nil => exact measurable_const
  | cons t l ih =>
    simp only [List.countP_cons]
    refine ih.add (Measurable.ite ?_ measurable_const measurable_const)
    simp only [decide_eq_true_eq]
    exact measurableSet_Ici

/-- The uniform distribution on `[0, 1)`. -/
noncomputable def unif : Measure ℝ := volume.restrict (Set.Ico 0 1)

instance : IsProbabilityMeasure unif := ⟨by
  unfold unif
  rw [Measure.restrict_apply_univ, Real.volume_Ico]
  simp⟩

theorem integral_pick {p : List ℝ} (hp : ∀ t ∈ p, 0 ≤ t) (h1 : p.sum = 1) (c : ℕ → ENNReal) :
    ∫⁻ u, c (pick p u) ∂unif = ∑ i : Fin p.length, ENNReal.ofReal p[i] * c i := by
  have key : ∀ m ≤ p.length, ∫⁻ u in Set.Ico 0 (cum p m), c (pick p u) =
      ∑ i ∈ Finset.range m, ENNReal.ofReal (cum p (i + 1) - cum p i) * c i := by
    intro m
    induction m with
    | zero => intro _; simp [cum]
    | succ m ih =>
      intro hm
      have h0 : (0 : ℝ) ≤ cum p m := by simpa [cum] using cum_mono hp (Nat.zero_le m)
      rw [← Set.Ico_union_Ico_eq_Ico h0 (cum_mono hp (Nat.le_succ m)), lintegral_union measurableSet_Ico
        (Set.disjoint_left.2 fun u hu hv => absurd hu.2 (not_lt.2 hv.1)), ih (by omega), Finset.sum_range_succ]
      congr 1
      rw [setLIntegral_congr_fun (g := fun _ => c m) measurableSet_Ico
        fun u hu => by rw [pick_eq hp (by omega) hu.1 hu.2], setLIntegral_const, Real.volume_Ico, mul_comm]
  have := key p.length le_rfl
  unfold unif
  have hc : cum p p.length = 1 := by unfold cum; rw [List.take_length, h1]
  rw [hc] at this
  rw [this, Finset.sum_range]
  refine Finset.sum_congr rfl fun i _ => ?_
  rw [cum_succ i.2]
  simp

/-! ### A mixture -/

/-- The affine function of a component. -/
noncomputable def aff (v : CovF d) (z : Fin d → ℝ) : Fin d → ℝ :=
  match Sigma.npChol v.cov with
  | .ok L => L *ᵥ z + v.mean
  | .error _ => 0

theorem measurable_aff (v : CovF d) : Measurable (aff v) := by
  unfold aff
  split
  · exact measurable_affine _ _
  · exact measurable_const

theorem map_aff {v : CovF d} (hv : v.cov.PosDef) : (stdNoise (Fin d)).map (aff v) =
    volume.withDensity fun x => ENNReal.ofReal (normalDensity v.cov v.mean x) := by
  obtain ⟨L, hL, e⟩ := Sigma.npChol_ok hv
  have h : aff v = fun z => L *ᵥ z + v.mean := by
    funext z
    unfold aff
    rw [e]
  rw [h, map_affine hL.det_ne, hL.prod]

/-- One sample of a mixture: the component is chosen by the first number. -/
noncomputable def mixFun (p : List ℝ) (vs : List (CovF d)) (ω : ℝ × (Fin d → ℝ)) : Fin d → ℝ :=
  match vs[pick p ω.1]? with
  | some v => aff v ω.2
  | none => 0

theorem measurable_mixFun (p : List ℝ) (vs : List (CovF d)) : Measurable (mixFun p vs) := by
  have h : Measurable fun q : ℕ × (Fin d → ℝ) =>
      (match vs[q.1]? with
      | some v => aff v q.2
      | none => 0 : Fin d → ℝ) := by
    refine measurable_from_prod_countable_right fun i => ?_
    dsimp only
    split
    · exact measurable_aff _
    · exact measurable_const
  exact h.comp (((measurable_pick p).comp measurable_fst).prodMk measurable_snd)

/-- The density of a mixture with the given probabilities. -/
noncomputable def mixDens (p : List ℝ) (vs : List (CovF d)) (x : Fin d → ℝ) : ℝ :=
  (List.zipWith (fun t (v : CovF d) => t * normalDensity v.cov v.mean x) p vs).sum

theorem map_mixFun {p : List ℝ} {vs : List (CovF d)} (hp : ∀ t ∈ p, 0 ≤ t) (h1 : p.sum = 1)
    (hl : p.length = vs.length) (hv : ∀ v ∈ vs, v.cov.PosDef) :
    (unif.prod (stdNoise (Fin d))).map (mixFun p vs) =
      volume.withDensity fun x => ENNReal.ofReal (mixDens p vs x) := by
  have hm := measurable_mixFun p vs
  ext s hs
  rw [Measure.map_apply hm hs, Measure.prod_apply (hm hs), withDensity_apply _ hs]
  let c : ℕ → ENNReal := fun i => (stdNoise (Fin d)) {z | (match vs[i]? with
      | some v => aff v z
      | none => 0 : Fin d → ℝ) ∈ s}
  have e1 : ∀ u, (stdNoise (Fin d)) (Prod.mk u ⁻¹' (mixFun p vs ⁻¹' s)) = c (pick p u) := fun u => rfl
  simp only [e1]
  rw [integral_pick hp h1 c]
  have e2 : ∀ x, ENNReal.ofReal (mixDens p vs x) = ∑ i : Fin p.length, ENNReal.ofReal p[i] *
      ENNReal.ofReal (normalDensity (vs[i]'(hl ▸ i.2)).cov (vs[i]'(hl ▸ i.2)).mean x) := by
    intro x
    have h2 : mixDens p vs x = ∑ i : Fin p.length, p[i] *
        normalDensity (vs[i]'(hl ▸ i.2)).cov (vs[i]'(hl ▸ i.2)).mean x := by
      unfold mixDens
      rw [← Fin.sum_univ_getElem]
      have hz : (List.zipWith (fun t (v : CovF d) => t * normalDensity v.cov v.mean x) p vs).length = p.length := by
        simp [hl]
      refine (Fintype.sum_equiv (finCongr hz) _ _ fun i => ?_)
      simp
    have h3 : ∀ i ∈ (Finset.univ : Finset (Fin p.length)), 0 ≤ p[i.1] * normalDensity (vs[i.1]'(hl ▸ i.2)).cov (vs[i.1]'(hl ▸ i.2)).mean x :=
      fun (i : Fin p.length) _ => mul_nonneg (hp _ (List.getElem_mem _)) (normalDensity_nonneg _ _ _)
    rw [h2]
    refine (ENNReal.ofReal_sum_of_nonneg h3).trans ?_
    exact Finset.sum_congr rfl fun i _ => ENNReal.ofReal_mul (hp _ (List.getElem_mem _))
  simp only [e2]
  rw [lintegral_finsetSum]
  · refine Finset.sum_congr rfl fun i _ => ?_
    rw [lintegral_const_mul _ (measurable_normalDensity _ _).ennreal_ofReal]
    congr 1
    have hi : i.1 < vs.length := hl ▸ i.2
    have h3 := congrArg (fun μ => μ s) (map_aff (hv _ (List.getElem_mem hi)))
    rw [Measure.map_apply (measurable_aff _) hs, withDensity_apply _ hs] at h3
    refine Eq.trans ?_ h3
    simp only [c, List.getElem?_eq_getElem hi]
    rfl
  · intro i _
    exact ((measurable_normalDensity _ _).ennreal_ofReal).const_mul _

theorem mixDens_nonneg {p : List ℝ} {vs : List (CovF d)} (hp : ∀ t ∈ p, 0 ≤ t) (x : Fin d → ℝ) :
    0 ≤ mixDens p vs x := by
  unfold mixDens
  refine List.sum_nonneg fun y hy => ?_
  rw [List.mem_iff_getElem] at hy
  obtain ⟨i, hi, rfl⟩ := hy
  rw [List.getElem_zipWith]
  exact mul_nonneg (hp _ (List.getElem_mem _)) (normalDensity_nonneg _ _ _)

theorem measurable_mixDens (p : List ℝ) (vs : List (CovF d)) : Measurable (mixDens p vs) := by
  unfold mixDens
  induction p generalizing vs with
  | nil => simp
  | cons t p ih =>
    cases vs with
    | nil => simp
    | cons v vs =>
      simp only [List.zipWith_cons_cons, List.sum_cons]
      exact ((measurable_normalDensity _ _).const_mul _).add (ih vs)

theorem samples_mix {p : List ℝ} {vs : List (CovF d)} (hp : ∀ t ∈ p, 0 ≤ t) (h1 : p.sum = 1)
    (hl : p.length = vs.length) (hv : ∀ v ∈ vs, v.cov.PosDef) :
    Samples (unif.prod (stdNoise (Fin d))) (mixFun p vs) (mixDens p vs) :=
  samples_of_law (mixDens_nonneg hp) (measurable_mixDens p vs) (measurable_mixFun p vs) (map_mixFun hp h1 hl hv)

end Verif.Sampling
