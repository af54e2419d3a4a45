import Verif.PyLemmas
import Mathlib.Data.EReal.Operations
import Mathlib.Analysis.SpecialFunctions.Log.Basic

/-!
# Model of `plot_message_convergence`

What is handed to matplotlib: the curve, the red curve and whether there is a legend. The distances are extended real
numbers. `np.log` of a negative number (a `nan`) is not modelled; distances are not negative.
-/

namespace Verif.Plot

/-- `np.log` on distances: zero is sent to minus infinity. -/
noncomputable def npLogE (x : EReal) : EReal :=
  if x = ⊤ then ⊤ else if x ≤ 0 then ⊥ else ((Real.log x.toReal : ℝ) : EReal)

/-- `max(l)` -/
noncomputable def pyMax (l : List EReal) : Py EReal :=
  match l with
  | [] => .error .valueError
  | x :: t => .ok (t.foldl max x)

/-- The arguments of the two calls of `plt.plot` and the test for the legend. -/
structure Figure where
  iterations : List ℝ
  curve : List EReal
  red : List (Option EReal)
  legend : Bool

/-- `plot_message_convergence` (cluster_graph.py 275-310), applied to the list of distances. A masked value is `none`. -/
noncomputable def convergence (log : Bool) (dists : List EReal) : Py Figure := do
  let ds := if log then dists.map npLogE else dists
  let ds := ds.flatMap fun d => [d, d]
  let iterations := (List.range ds.length).map fun (k : Nat) => (k : ℝ) / 2
  let nonInf := ds.filter (· ≠ ⊤)
  let m ← pyMax nonInf
  let newInf := m * ((3 / 2 : ℝ) : EReal)
  let replaced := ds.map fun v => if v ≠ ⊤ then v else newInf
  let inf := replaced.map fun v => if v ≠ newInf then none else some v
  .ok ⟨iterations, replaced, inf, nonInf.length != ds.length⟩

end Verif.Plot
