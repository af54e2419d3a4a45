import Verif.CatModel

/-!
# Model of the listings of categorical factors

`dense_distribution_array`, `get_df` (categorical.py 519-575) and `dense_distribution_array`
(sparse_categorical.py 837-844). A row is an assignment with its probability; the conversion to a numpy array or a
data frame is not modelled.
-/

namespace Verif

/-- `Categorical.dense_distribution_array` (categorical.py 519-531). -/
noncomputable def Cat.distribution (f : Cat ℝ) : List (List Nat × XF ℝ) :=
  (productRange f.tensor.shape).map fun a => (a, XF.exp (f.tensor.get a))

/-- `SparseCategorical.dense_distribution_array` (sparse_categorical.py 837-844). -/
noncomputable def Sparse.distribution (f : Sparse ℝ) : Py (List (List Nat × XF ℝ)) := do
  let d ← f.makeDense
  .ok (d.table.map fun e => (e.1, XF.exp e.2))

/-- `get_df(named_assignments=True)` (categorical.py 553-575): the rows with the names of the values. The local variable
`named_assignments` is overwritten with a list of names, which counts as false only when it is empty; then the row has no
names either. -/
noncomputable def Cat.namedRows (f : Cat ℝ) : Py (List (List AName × XF ℝ)) :=
  f.distribution.mapM fun row => do
    let ns ← (f.vars.zip row.1).mapM fun e => do
      let names ← Dict.getItem f.names e.1
      pyGet names e.2
    .ok (ns, row.2)

end Verif
