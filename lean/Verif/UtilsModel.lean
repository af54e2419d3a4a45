import Verif.ClusterModel
import Mathlib.Data.Real.Basic

/-!
# Model of parts of `veroku/factors/_factor_utils.py`
-/

namespace Verif.Utils

/-- The inner loop of `remove_duplicate_values` (_factor_utils.py 67-70). -/
noncomputable def isDuplicate (tol : ℝ) (unique : List ℝ) (x : ℝ) : Bool :=
  unique.foldl (fun dup u => if |u - x| ≤ tol then true else dup) false

/-- One turn of the outer loop (_factor_utils.py 66-72). -/
noncomputable def dedupStep (tol : ℝ) (unique : List ℝ) (x : ℝ) : List ℝ :=
  if isDuplicate tol unique x then unique else unique ++ [x]

/-- `remove_duplicate_values` (_factor_utils.py 60-73), for a list of real numbers. -/
noncomputable def removeDuplicateValues (l : List ℝ) (tol : ℝ := 0) : Py (List ℝ) :=
  match l with
  | [] => .error .indexError
  | a :: l => .ok ((a :: l).foldl (dedupStep tol) [a])

/-- `get_subset_evidence` (_factor_utils.py 36-48): the lists of names and of values. -/
def getSubsetEvidence {V : Type} (ev : Dict Var V) (vars : List Var) : List Var × List V :=
  let d := CG.subsetEvidence ev vars
  (Dict.keys d, Dict.values d)

end Verif.Utils
