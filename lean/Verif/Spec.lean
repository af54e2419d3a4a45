import Mathlib.Algebra.BigOperators.Group.Finset.Basic
import Mathlib.Algebra.BigOperators.Intervals
import Mathlib.Data.Real.Basic
import Mathlib.Analysis.SpecialFunctions.Log.Basic
import Verif.Py

/-!
# Specification vocabulary

Nothing in this file refers to the code. A discrete factor over variables `vs` is specified as a
function from assignments (a value for every variable name) to numbers; the operations of a factor
are specified as the usual operations on such functions.
-/

namespace Verif.Spec

/-- An assignment of discrete values to all variable names. -/
abbrev Asg := Var → Nat

/-- `F` only looks at the variables in `vs`. -/
def DependsOn {β γ : Type*} (F : (Var → β) → γ) (vs : List Var) : Prop :=
  ∀ x y, (∀ v ∈ vs, x v = y v) → F x = F y

/-- The assignment `x` changed so that the listed variables have the listed values (first match
wins). -/
def override {β : Type*} (ev : List (Var × β)) (x : Var → β) : Var → β :=
  fun v => match ev.find? (fun e => e.1 = v) with
    | some e => e.2
    | none => x v

/-- Sum a function over the `c` values of the variable `v`. -/
def sumVar (v : Var) (c : Nat) (F : Asg → ℝ) : Asg → ℝ :=
  fun x => ∑ k ∈ Finset.range c, F (Function.update x v k)

/-- Sum a function over all values of several variables, each with its cardinality. -/
def sumVars : List (Var × Nat) → (Asg → ℝ) → Asg → ℝ
  | [], F => F
  | (v, c) :: l, F => sumVar v c (sumVars l F)

/-- The assignment gives each listed variable a value below its cardinality. -/
def InRange (vc : List (Var × Nat)) (x : Asg) : Prop := ∀ e ∈ vc, x e.1 < e.2

/-- The Kullback-Leibler divergence `∑ P log (P / Q)` of two functions over the listed variables. -/
noncomputable def kl (vc : List (Var × Nat)) (P Q : Asg → ℝ) : ℝ :=
  sumVars vc (fun x => P x * Real.log (P x / Q x)) (fun _ => 0)

end Verif.Spec
