import Verif.ListModel

/-!
# Model of the text of categorical factors

`__repr__` of `Categorical` and `SparseCategorical` with the helpers `tabs_to_cover_string` and
`space_assignments_and_probs`. Strings are lists of characters. The text of a number with four decimals
(`f'{value:.4f}'`) is a parameter.
-/

namespace Verif.Tab

/-- A string. -/
abbrev Text := List Char

/-- `str(a)` for an index. -/
def str (a : Nat) : Text := Nat.toDigits 10 a

/-- `tabs_to_cover_string` (_factor_utils.py 358-367). -/
def tabsToCover (s : Text) : Nat := s.length / 8 + 1

/-- `space_assignments_and_probs` (_factor_utils.py 370-383): `zip` stops at the shorter list. -/
def spaceRow (assignment : List Nat) (value : Text) (spacings : List Text) : Text :=
  ((assignment.map str ++ [value]).zipWith (· ++ ·) spacings).flatten

/-- `"\t".join(l)` -/
def joinTabs : List Text → Text
  | [] => []
  | [w] => w
  | w :: l => w ++ '\t' :: joinTabs l

/-- The common part of the two `__repr__` methods (categorical.py 539-551, sparse_categorical.py 884-892): the header, then
one line per row. -/
def table (vars : List Text) (rows : List (List Nat × Text)) : Text :=
  let spacings := vars.map (fun v => List.replicate (tabsToCover v) '\t') ++ [['\n']]
  rows.foldl (fun s row => s ++ spaceRow row.1 row.2 spacings)
    (joinTabs vars ++ ['\t', 'p', 'r', 'o', 'b', '\n'])

end Verif.Tab

namespace Verif

/-- `Categorical.__repr__` (categorical.py 533-551). -/
noncomputable def Cat.repr (fmt : XF ℝ → Tab.Text) (f : Cat ℝ) : Tab.Text :=
  Tab.table (f.vars.map String.toList)
    ((productRange f.tensor.shape).map fun a => (a, fmt (XF.exp (f.tensor.get a))))

/-- `SparseCategorical.__repr__` (sparse_categorical.py 877-892). -/
noncomputable def Sparse.repr (fmt : XF ℝ → Tab.Text) (f : Sparse ℝ) : Tab.Text :=
  Tab.table (f.vars.map String.toList) (f.table.map fun e => (e.1, fmt (XF.exp e.2)))

end Verif
