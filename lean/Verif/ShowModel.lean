import Verif.GaussModel

/-!
# Model of the text of Gaussians, and of random Gaussians (`veroku/factors/gaussian.py`)

The text is represented by the parameters that are formatted; the formatting itself is not modelled.
-/

namespace Verif
open Matrix

namespace Gauss
variable {n : ℕ}

/-- The parameters in `_get_cov_repr_str` (gaussian.py 856-877). -/
noncomputable def covText (a : Gauss n) : Py (CovF n) := do
  let k ← copy a
  let (_, v) ← getCov k
  .ok v

/-- The parameters and the flag in `_get_can_repr_str` (gaussian.py 879-903). -/
noncomputable def canText (a : Gauss n) : Py (Can n × Bool) := do
  let k ← copy a
  let (k', c) ← getCan k
  .ok (c, k'.vac)

/-- What a text shows. -/
structure Text (n : ℕ) where
  vars : List Var
  can : Option (Can n × Bool)
  cov : Option (CovF n)

/-- `__repr__` (gaussian.py 905-919). -/
noncomputable def repr (a : Gauss n) : Py (Text n) := do
  let c ← if a.vac then .ok none else (do
    let c ← canText a
    .ok (some c))
  let v ← covText a
  .ok ⟨a.vars, c, some v⟩

/-- `show` (gaussian.py 921-932). -/
noncomputable def display (a : Gauss n) : Py (Text n) := do
  let v ← if a.cov.isSome then (do
    let v ← covText a
    .ok (some v)) else .ok none
  let c ← if a.can.isSome then (do
    let c ← canText a
    .ok (some c)) else .ok none
  .ok ⟨a.vars, c, v⟩

/-- `make_random_gaussian` (gaussian.py 28-52). The numbers drawn are parameters: `C` for the covariance, which is multiplied
by the identity entry by entry, and `m` for the mean. -/
def makeRandom (vars : List Var) (C : Matrix (Fin vars.length) (Fin vars.length) ℝ) (m : Fin vars.length → ℝ) :
    Py (Gauss vars.length) := do
  pyAssert (!vars.isEmpty)
  mkCov vars ⟨fun i j => C i j * (1 : Matrix (Fin vars.length) (Fin vars.length) ℝ) i j, m, 0⟩

end Gauss
end Verif
