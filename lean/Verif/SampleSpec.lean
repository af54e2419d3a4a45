import Mathlib.MeasureTheory.Constructions.Pi
import Mathlib.MeasureTheory.Measure.WithDensity
import Mathlib.MeasureTheory.Measure.Haar.OfBasis

/-!
# Specification for sampling

Nothing here refers to the modelled program.
-/

namespace Verif.Spec
open MeasureTheory

/-- If its argument has the law `P`, the value of `f` has the probability density `p`, and the values of `f` for any
number of independent arguments are independent and have that density. -/
structure Samples {Ω : Type} [MeasurableSpace Ω] {d : ℕ} (P : Measure Ω) (f : Ω → Fin d → ℝ) (p : (Fin d → ℝ) → ℝ) :
    Prop where
  nonneg : ∀ x, 0 ≤ p x
  measurable : Measurable p
  measurable_fun : Measurable f
  prob : ∫⁻ x, ENNReal.ofReal (p x) = 1
  law : P.map f = volume.withDensity fun x => ENNReal.ofReal (p x)
  indep : ∀ k : ℕ, (Measure.pi fun _ : Fin k => P).map (fun ω j => f (ω j)) =
    Measure.pi fun _ => volume.withDensity fun x => ENNReal.ofReal (p x)

end Verif.Spec
