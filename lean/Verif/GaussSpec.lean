import Verif.Py
import Mathlib.MeasureTheory.Integral.Bochner.Basic
import Mathlib.MeasureTheory.Measure.Haar.OfBasis
import Mathlib.LinearAlgebra.Matrix.NonsingularInverse

/-!
# Specification for continuous factors

Functions of real valued named variables, and Lebesgue integrals of such functions over some of the
variables. Nothing here refers to the modelled program.
-/

namespace Verif.Spec
open MeasureTheory

/-- The point `x` with the variables `vs` set to the values `y`. -/
def setVars (vs : List Var) (y : Fin vs.length → ℝ) (x : Var → ℝ) : Var → ℝ := fun v =>
  if h : v ∈ vs then y ⟨vs.idxOf v, List.idxOf_lt_length_of_mem h⟩ else x v

/-- The Lebesgue integral of `F` over all values of the variables `vs`, the others fixed by `x`. -/
noncomputable def integrateOut (vs : List Var) (F : (Var → ℝ) → ℝ) (x : Var → ℝ) : ℝ :=
  ∫ y : Fin vs.length → ℝ, F (setVars vs y x)

/-- `F` is integrable over the variables `vs`, the others fixed by `x`. (Lean's integral of a function that
is not integrable is zero.) -/
def IntegrableOut (vs : List Var) (F : (Var → ℝ) → ℝ) (x : Var → ℝ) : Prop :=
  Integrable fun y : Fin vs.length → ℝ => F (setVars vs y x)

/-- The density of the normal distribution with covariance `S` and mean `mu`. -/
noncomputable def normalDensity {ι : Type} [Fintype ι] [DecidableEq ι] (S : Matrix ι ι ℝ) (mu x : ι → ℝ) : ℝ :=
  Real.exp (-((x - mu) ⬝ᵥ Matrix.mulVec S⁻¹ (x - mu)) / 2) /
    Real.sqrt ((2 * Real.pi) ^ Fintype.card ι * S.det)

/-- Two numbers agree up to a relative and an absolute tolerance. -/
def Close (rtol atol x y : ℝ) : Prop := |x - y| ≤ atol + rtol * |y|

/-- `F` divided by its integral over the variables `vs`. -/
noncomputable def normalised (vs : List Var) (F : (Var → ℝ) → ℝ) (x : Var → ℝ) : ℝ := F x / integrateOut vs F x

/-- The integrand of the Kullback-Leibler divergence of `P` from `Q`. -/
noncomputable def klIntegrand (P Q : (Var → ℝ) → ℝ) (x : Var → ℝ) : ℝ := P x * (Real.log (P x) - Real.log (Q x))

end Verif.Spec
