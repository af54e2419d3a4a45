import Verif.FormatModel
import Verif.CatModel
import Verif.GaussModel
import Verif.NonLinModel

/-!
# Model of `make_factor` of the factor templates

The variable names are made in `Verif.FormatModel`; here they are passed on to the constructors.
-/

namespace Verif.Fmt

/-- The variable name with the given characters. -/
def toVar (s : List Char) : Var := String.ofList s

/-- `Categorical.__init__` with any of its arguments (categorical.py 101-146; `Factor.__init__`, _factor.py 22). The
table is not looked at if there is a tensor. -/
noncomputable def categorical (vars : Option (List Var)) (cards : Option (List ℕ)) (table : Option (Dict (List Int) ℝ))
    (tensor : Option (Tensor (XF ℝ))) : Py (Cat ℝ) :=
  match vars with
  | none => .error .typeError
  | some vars =>
    if vars.dedup.length ≠ vars.length then .error .valueError
    else match cards, table, tensor with
      | none, _, none => .error .valueError
      | none, _, some t => Cat.ofTensor vars t none
      | some cs, none, none => if cs.length ≠ vars.length then .error .valueError else .error .valueError
      | some cs, some tab, none => Cat.ofTable vars cs tab
      | some cs, _, some t => Cat.ofTensor vars t (some cs)

/-- `CategoricalTemplate` (categorical.py 613-646). -/
structure CatTemplate where
  base : Template
  cards : Option (List ℕ)
  table : Option (Dict (List Int) ℝ)
  tensor : Option (Tensor (XF ℝ))

/-- `CategoricalTemplate.__init__` (categorical.py 643-646). -/
def CatTemplate.init (templates : Option (List (List Char))) (cards : Option (List ℕ)) (table : Option (Dict (List Int) ℝ))
    (tensor : Option (Tensor (XF ℝ))) : Py CatTemplate := do
  let b ← Template.mk' templates none none
  .ok ⟨b, cards, table, tensor⟩

/-- `CategoricalTemplate.make_factor` (categorical.py 648-665). -/
noncomputable def CatTemplate.make (special : Special) (t : CatTemplate) (d : Option (Dict (List Char) (List Char)))
    (names : Option (List (List Char))) : Py (Cat ℝ) := do
  let ns ← t.base.denseNames special d names
  categorical (ns.map (·.map toVar)) t.cards t.table t.tensor

/-- `SparseCategoricalTemplate` (sparse_categorical.py 932-962). -/
structure SparseTemplate where
  base : Template
  table : Dict (List ℕ) (XF ℝ)
  cards : List ℕ

/-- `_fast_copy_probs_table` (sparse_categorical.py 364-372). -/
def fastCopy (table : Dict (List ℕ) (XF ℝ)) : Dict (List ℕ) (XF ℝ) := Dict.ofPairs table

/-- `SparseCategoricalTemplate.__init__` (sparse_categorical.py 960-962). -/
def SparseTemplate.init (table : Dict (List ℕ) (XF ℝ)) (cards : List ℕ) (templates : Option (List (List Char))) :
    Py SparseTemplate := do
  let b ← Template.mk' templates none none
  .ok ⟨b, fastCopy table, cards⟩

/-- The constructor of sparse factors with the names (sparse_categorical.py 984; 415-428). -/
noncomputable def sparseCategorical (vars : Option (List Var)) (cards : List ℕ) (table : Dict (List ℕ) (XF ℝ)) :
    Py (Sparse ℝ) :=
  match vars with
  | none => .error .typeError
  | some vars => Sparse.newProbs vars cards table

/-- `SparseCategoricalTemplate.make_factor` (sparse_categorical.py 964-985). -/
noncomputable def SparseTemplate.make (special : Special) (t : SparseTemplate) (d : Option (Dict (List Char) (List Char)))
    (names : Option (List (List Char))) : Py (Sparse ℝ) := do
  let ns ← t.base.sparseNames special d names
  sparseCategorical (ns.map (·.map toVar)) t.cards t.table

/-- The names of a Gaussian made from a template: `None` is a `ValueError` (gaussian.py 170-171). -/
def gaussNames : Option (List Var) → Py (List Var)
  | none => .error .valueError
  | some l => .ok l

/-- `GaussianTemplate.make_factor` (gaussian.py 1068-1085); `GTemplate.makeFactor` for the names that
`Template.denseNames` makes. -/
noncomputable def gaussMake {n : ℕ} (special : Special) (base : Template) (params : Can n)
    (d : Option (Dict (List Char) (List Char))) (names : Option (List (List Char))) : Py (Gauss n) := do
  let ns ← base.denseNames special d names
  let vs ← gaussNames (ns.map (·.map toVar))
  (⟨params, []⟩ : GTemplate n).makeFactor vs

/-- `NonLinearGaussianTemplate` (nonlinear_gaussian.py 657-680). -/
structure NonLinTemplate where
  base : Template
  transform : Sigma.Transform
  q : ℕ
  q' : ℕ
  noise : Matrix (Fin q) (Fin q') ℝ

/-- `NonLinearGaussianTemplate.__init__` (nonlinear_gaussian.py 675-680). -/
def NonLinTemplate.init (conditioning conditional : List (List Char)) (T : Sigma.Transform) {q q' : ℕ}
    (noise : Matrix (Fin q) (Fin q') ℝ) : Py NonLinTemplate := do
  let b ← Template.mk' none (some conditioning) (some conditional)
  .ok ⟨b, T, q, q', noise⟩

/-- The call of the constructor at the end of `make_factor` (nonlinear_gaussian.py 702-709): `set(None)` and
`set(...).intersection(None)` are `TypeError`s (62). -/
noncomputable def nonLinear (xs ys : Option (List Var)) (T : Sigma.Transform) {q q' : ℕ} (noise : Matrix (Fin q) (Fin q') ℝ) :
    Py NLG :=
  match xs, ys with
  | some xs, some ys => NLG.make xs ys T noise
  | _, _ => .error .typeError

/-- `NonLinearGaussianTemplate.make_factor` (nonlinear_gaussian.py 682-709). -/
noncomputable def NonLinTemplate.make (special : Special) (t : NonLinTemplate) (d : Option (Dict (List Char) (List Char)))
    (conditioning conditional : Option (List (List Char))) : Py NLG := do
  let r ← t.base.nonLinNames special d conditioning conditional
  nonLinear (r.1.map (·.map toVar)) (r.2.map (·.map toVar)) t.transform t.noise

end Verif.Fmt
