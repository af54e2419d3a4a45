import Verif.Py
import Mathlib.Data.Real.Basic

/-!
# Model of `_sort_almost_sorted` (`veroku/cluster_graph.py` 32-50)
-/

namespace Verif.CG

/-- `sorted(l, key=key, reverse=True)`: descending, elements with equal keys keep their order. -/
noncomputable def sortedDesc {α : Type} (key : α → ℝ) (l : List α) : List α :=
  l.mergeSort fun x y => decide (key y ≤ key x)

/-- `_sort_almost_sorted` (cluster_graph.py 32-50): the argument (a deque) after the call and the result. `deque[1]` of a
deque with fewer than two elements raises `IndexError`. -/
noncomputable def sortAlmostSorted {α : Type} (key : α → ℝ) (l : List α) : Py (List α × List α) :=
  match l with
  | a :: b :: t =>
    let l' := if key a < key b then b :: t ++ [a] else a :: b :: t
    match l'.reverse with
    | y :: x :: _ => if key y ≤ key x then .ok (l', l') else .ok (l', sortedDesc key l')
    | _ => .error .indexError
  | _ => .error .indexError

end Verif.CG
