import Verif.GaussDenote
import Mathlib.MeasureTheory.Integral.Prod
import Mathlib.MeasureTheory.Constructions.Pi

/-!
# Integrating out variables in two steps

Helper lemmas about the integrals of the specification (`GaussSpec.lean`).
-/

namespace Verif.Spec
open MeasureTheory

/-- The positions in the concatenation of two lists. -/
def appendEquiv (vs ws : List Var) : Fin (vs ++ ws).length ≃ Fin vs.length ⊕ Fin ws.length :=
  (finCongr List.length_append).trans finSumFinEquiv.symm

theorem appendEquiv_inl (vs ws : List Var) (i : Fin vs.length) : ((appendEquiv vs ws).symm (.inl i)).1 = i.1 := by
  simp [appendEquiv]

theorem appendEquiv_inr (vs ws : List Var) (i : Fin ws.length) :
    ((appendEquiv vs ws).symm (.inr i)).1 = vs.length + i.1 := by
  simp [appendEquiv]

theorem setVars_append (vs ws : List Var) (y : Fin (vs ++ ws).length → ℝ) (x : Var → ℝ) :
    setVars (vs ++ ws) y x = setVars vs (fun i => y ((appendEquiv vs ws).symm (.inl i)))
      (setVars ws (fun i => y ((appendEquiv vs ws).symm (.inr i))) x) := by
  funext v
  unfold setVars
  by_cases h : v ∈ vs
  · rw [dif_pos (List.mem_append_left _ h), dif_pos h]
    congr 1
    refine Fin.ext ?_
    rw [appendEquiv_inl]
    simp [List.idxOf_append_of_mem h]
  · rw [dif_neg h]
    by_cases h' : v ∈ ws
    · rw [dif_pos (List.mem_append_right _ h'), dif_pos h']
      congr 1
      refine Fin.ext ?_
      rw [appendEquiv_inr]
      simp [List.idxOf_append_of_notMem h, add_comm]
    · rw [dif_neg (by simp [h, h']), dif_neg h']

theorem integrateOut_append (vs ws : List Var) (F : (Var → ℝ) → ℝ) (x : Var → ℝ) :
    integrateOut (vs ++ ws) F x =
      ∫ p : (Fin vs.length → ℝ) × (Fin ws.length → ℝ), F (setVars vs p.1 (setVars ws p.2 x)) ∧
    (IntegrableOut (vs ++ ws) F x ↔
      Integrable fun p : (Fin vs.length → ℝ) × (Fin ws.length → ℝ) => F (setVars vs p.1 (setVars ws p.2 x))) := by
  have h1 := volume_measurePreserving_piCongrLeft (fun _ : Fin vs.length ⊕ Fin ws.length => ℝ) (appendEquiv vs ws)
  have h2 := volume_measurePreserving_sumPiEquivProdPi (fun _ : Fin vs.length ⊕ Fin ws.length => ℝ)
  have hm := h2.comp h1
  have hc : ∀ y : Fin (vs ++ ws).length → ℝ, (MeasurableEquiv.sumPiEquivProdPi (fun _ : Fin vs.length ⊕ Fin ws.length => ℝ))
      (MeasurableEquiv.piCongrLeft (fun _ : Fin vs.length ⊕ Fin ws.length => ℝ) (appendEquiv vs ws) y) =
      (fun i => y ((appendEquiv vs ws).symm (.inl i)), fun i => y ((appendEquiv vs ws).symm (.inr i))) := by
    intro y
    refine Prod.ext (funext fun i => ?_) (funext fun i => ?_)
    · have := Equiv.piCongrLeft_apply (fun _ : Fin vs.length ⊕ Fin ws.length => ℝ) (appendEquiv vs ws) y (.inl i)
      simpa [MeasurableEquiv.coe_piCongrLeft, MeasurableEquiv.coe_sumPiEquivProdPi] using this
    · have := Equiv.piCongrLeft_apply (fun _ : Fin vs.length ⊕ Fin ws.length => ℝ) (appendEquiv vs ws) y (.inr i)
      simpa [MeasurableEquiv.coe_piCongrLeft, MeasurableEquiv.coe_sumPiEquivProdPi] using this
  have hemb : MeasurableEmbedding (⇑(MeasurableEquiv.sumPiEquivProdPi (fun _ : Fin vs.length ⊕ Fin ws.length => ℝ)) ∘
      ⇑(MeasurableEquiv.piCongrLeft (fun _ : Fin vs.length ⊕ Fin ws.length => ℝ) (appendEquiv vs ws))) :=
    (MeasurableEquiv.measurableEmbedding _).comp (MeasurableEquiv.measurableEmbedding _)
  unfold integrateOut IntegrableOut
  constructor
  · rw [← hm.integral_comp hemb]
    congr 1
    funext y
    rw [Function.comp, hc, setVars_append]
  · rw [← hm.integrable_comp_emb hemb]
    have : (fun y => F (setVars (vs ++ ws) y x)) = (fun p : (Fin vs.length → ℝ) × (Fin ws.length → ℝ) =>
        F (setVars vs p.1 (setVars ws p.2 x))) ∘
        (⇑(MeasurableEquiv.sumPiEquivProdPi (fun _ : Fin vs.length ⊕ Fin ws.length => ℝ)) ∘
        ⇑(MeasurableEquiv.piCongrLeft (fun _ : Fin vs.length ⊕ Fin ws.length => ℝ) (appendEquiv vs ws))) := by
      funext y
      rw [Function.comp, Function.comp, hc, setVars_append]
    rw [this]

/-- `F` does not depend on the variables `vs`. -/
def IndepOf (F : (Var → ℝ) → ℝ) (vs : List Var) : Prop := ∀ x y : Var → ℝ, (∀ v, v ∉ vs → x v = y v) → F x = F y

theorem IndepOf.set {F : (Var → ℝ) → ℝ} {vs : List Var} (h : IndepOf F vs) (y : Fin vs.length → ℝ) (x : Var → ℝ) :
    F (setVars vs y x) = F x := h _ _ fun v hv => by
  unfold setVars
  rw [dif_neg hv]

theorem setVars_comm {vs ws : List Var} (hd : ∀ v ∈ vs, v ∉ ws) (y : Fin vs.length → ℝ) (z : Fin ws.length → ℝ)
    (x : Var → ℝ) : setVars vs y (setVars ws z x) = setVars ws z (setVars vs y x) := by
  funext v
  unfold setVars
  by_cases h : v ∈ vs
  · rw [dif_pos h, dif_neg (hd v h), dif_pos h]
  · rw [dif_neg h, dif_neg h]

/-- Two factors that do not share integrated variables can be integrated separately. -/
theorem integrateOut_mul {vs ws : List Var} (hd : ∀ v ∈ vs, v ∉ ws) {F G : (Var → ℝ) → ℝ} (hF : IndepOf F ws)
    (hG : IndepOf G vs) {x : Var → ℝ} :
    integrateOut (vs ++ ws) (fun z => F z * G z) x = integrateOut vs F x * integrateOut ws G x ∧
    (IntegrableOut vs F x → IntegrableOut ws G x → IntegrableOut (vs ++ ws) (fun z => F z * G z) x) := by
  obtain ⟨h1, h2⟩ := integrateOut_append vs ws (fun z => F z * G z) x
  have e : (fun p : (Fin vs.length → ℝ) × (Fin ws.length → ℝ) => F (setVars vs p.1 (setVars ws p.2 x)) *
      G (setVars vs p.1 (setVars ws p.2 x))) = fun p => F (setVars vs p.1 x) * G (setVars ws p.2 x) := by
    funext p
    rw [hG.set, setVars_comm hd, hF.set]
  rw [h1, h2, e]
  exact ⟨integral_prod_mul (μ := volume) (ν := volume) (fun y => F (setVars vs y x)) (fun y => G (setVars ws y x)),
    fun i1 i2 => Integrable.mul_prod i1 i2⟩

/-- Integrating out in two steps. -/
theorem integrateOut_step {vs ws : List Var} {F : (Var → ℝ) → ℝ} {x : Var → ℝ} (h : IntegrableOut (vs ++ ws) F x)
    (hd : ∀ v ∈ vs, v ∉ ws) :
    integrateOut (vs ++ ws) F x = integrateOut vs (fun z => integrateOut ws F z) x := by
  obtain ⟨h1, h2⟩ := integrateOut_append vs ws F x
  rw [h1, Measure.volume_eq_prod, integral_prod _ (h2.1 h)]
  unfold integrateOut
  congr 1
  funext y
  congr 1
  funext z
  rw [setVars_comm hd]

end Verif.Spec
