import Verif.TreeInt
import Verif.Fubini

/-! Integrals over a list of variables (`GaussSpec.lean`) as integrals over a set of variables. -/

namespace Verif.Spec
open MeasureTheory
open scoped ENNReal

/-- The positions of a list without repetitions, as elements of the set. -/
noncomputable def posEquiv {l : List Var} (hn : l.Nodup) : Fin l.length ≃ l.toFinset :=
  Equiv.ofBijective (fun i => ⟨l[i.1], by simp⟩) (by
    constructor
    · intro i j h
      have h' : l[i.1] = l[j.1] := congrArg Subtype.val h
      exact Fin.ext ((List.Nodup.getElem_inj_iff hn).1 h')
    · rintro ⟨v, hv⟩
      rw [List.mem_toFinset] at hv
      exact ⟨⟨l.idxOf v, List.idxOf_lt_length_of_mem hv⟩, Subtype.ext (by simp)⟩)

theorem intOut_list {l : List Var} (hn : l.Nodup) (F : (Var → ℝ) → ℝ≥0∞) (x : Var → ℝ) :
    intOut l.toFinset F x = ∫⁻ y : Fin l.length → ℝ, F (setVars l y x) := by
  have hm := volume_measurePreserving_piCongrLeft (fun _ : l.toFinset => ℝ) (posEquiv hn)
  unfold intOut lmarginal
  refine Eq.trans (hm.lintegral_comp_emb (MeasurableEquiv.measurableEmbedding _) _).symm ?_
  refine lintegral_congr fun y => ?_
  congr 1
  funext v
  unfold Function.updateFinset setVars
  by_cases hv : v ∈ l
  · rw [dif_pos (by simpa using hv), dif_pos hv]
    have hv' : v ∈ l.toFinset := by simpa using hv
    have h1 : posEquiv hn ⟨l.idxOf v, List.idxOf_lt_length_of_mem hv⟩ = ⟨v, hv'⟩ :=
      Subtype.ext (show l[l.idxOf v]'(List.idxOf_lt_length_of_mem hv) = v by simp)
    have h2 := Equiv.piCongrLeft_apply_apply (fun _ : l.toFinset => ℝ) (posEquiv hn) y
      ⟨l.idxOf v, List.idxOf_lt_length_of_mem hv⟩
    rw [h1] at h2
    exact h2
  · rw [dif_neg (by simpa using hv), dif_neg hv]

theorem measurable_setVars (l : List Var) (x : Var → ℝ) : Measurable fun y : Fin l.length → ℝ => setVars l y x := by
  refine measurable_pi_iff.2 fun v => ?_
  unfold setVars
  split
  · exact measurable_pi_apply _
  · exact measurable_const

variable {F : (Var → ℝ) → ℝ}

theorem integrableOut_iff {l : List Var} (hn : l.Nodup) (hF : Measurable F) (h0 : ∀ y, 0 ≤ F y) (x : Var → ℝ) :
    IntegrableOut l F x ↔ intOut l.toFinset (fun y => .ofReal (F y)) x ≠ ∞ := by
  rw [intOut_list hn]
  unfold IntegrableOut
  exact (lintegral_ofReal_ne_top_iff_integrable (hF.comp (measurable_setVars l x)).aestronglyMeasurable
    (Filter.Eventually.of_forall fun y => h0 _)).symm

theorem integrateOut_eq_intOut {l : List Var} (hn : l.Nodup) (hF : Measurable F) (h0 : ∀ y, 0 ≤ F y) (x : Var → ℝ) :
    integrateOut l F x = (intOut l.toFinset (fun y => .ofReal (F y)) x).toReal := by
  rw [intOut_list hn]
  unfold integrateOut
  exact integral_eq_lintegral_of_nonneg_ae (Filter.Eventually.of_forall fun y => h0 _)
    (hF.comp (measurable_setVars l x)).aestronglyMeasurable

end Verif.Spec
