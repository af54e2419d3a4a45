import Verif.NonLinModel

/-!
# Model of `NonLinearGaussian`: reading parameters and comparing
-/

namespace Verif
open Matrix Gauss

namespace NLG

/-- `get_prec`, `get_h`, `get_g` (nonlinear_gaussian.py 158-183): the joint is recomputed and stored, then its canonical
parameters are read, which stores them in it. The factor afterwards, and the parameters. -/
noncomputable def getCan (hs : HashSeed) (a : NLG) : Py (NLG × Σ k, Can k) := do
  let a' ← recompute hs a
  let (j, c) ← a'.joint.2.getCan
  .ok ({ a' with joint := ⟨_, j⟩ }, ⟨_, c⟩)

/-- `get_cov`, `get_mean`, `get_log_weight` (nonlinear_gaussian.py 185-210). -/
noncomputable def getCov (hs : HashSeed) (a : NLG) : Py (NLG × Σ k, CovF k) := do
  let a' ← recompute hs a
  let (j, v) ← a'.joint.2.getCov
  .ok ({ a' with joint := ⟨_, j⟩ }, ⟨_, v⟩)

/-- What a non-linear Gaussian can be compared with. -/
inductive Other
  | gaussian (g : AnyG)
  | nonLinear (b : NLG)

/-- `equals` (nonlinear_gaussian.py 95-104): the stored joint is compared as it is; `Gaussian.equals` raises for
everything that is not a Gaussian (gaussian.py 304-305). The factor and the argument afterwards, and the answer. -/
noncomputable def equals (rtol atol : ℝ) (a : NLG) : Other → Py (NLG × Other × Bool)
  | .gaussian g => do
    let (j, g', r) ← Gauss.equals rtol atol a.joint.2 g.2
    .ok ({ a with joint := ⟨_, j⟩ }, .gaussian ⟨_, g'⟩, r)
  | .nonLinear _ => .error .valueError

end NLG
end Verif
