import Verif.CatModel
import Verif.SparseModel

/-! # Model of `is_vacuous` of categorical factors (`veroku/factors/_factor.py`) -/

namespace Verif

/-- `Factor.is_vacuous` (_factor.py 72-82), inherited by the categorical factors: `distance_from_vacuous` against
`1e-10`. -/
noncomputable def factorIsVacuous (distance : Py (XF ℝ)) : Py Bool := do
  let d ← distance
  if XF.lt d (.fin (1 / 10 ^ 10)) then .ok true else .ok false

/-- `is_vacuous` of dense factors (_factor.py 72-82; categorical.py 484-499). -/
noncomputable def Cat.isVacuous (f : Cat ℝ) : Py Bool := factorIsVacuous f.distanceFromVacuous

/-- `is_vacuous` of sparse factors (_factor.py 72-82; sparse_categorical.py 810-823). -/
noncomputable def Sparse.isVacuous (hs : HashSeed) (f : Sparse ℝ) : Py Bool := factorIsVacuous (f.distanceFromVacuous hs)

end Verif
