import Verif.ClusterGauss
import Verif.MixModel

/-!
# Gaussian mixtures in cluster graphs: the operations

The factors of a cluster graph may be `Gaussian` and `GaussianMixture` objects side by side. This file dispatches the
operations of `ClusterModel.lean` to the models of the two classes.

Simplifications. The parameters an operation caches in its operands are dropped. The cluster graph works with copies of
the factors and messages; the copy matters where the vacuous flag is read, and `marginalize` copies there, as for
Gaussians (`ClusterGauss.lean`).
-/

namespace Verif.CG
open Gauss (AnyG)

/-- A `Gaussian` or a `GaussianMixture`. -/
abbrev GM := AnyG ⊕ Mix

/-- `multiply` (gaussian.py 585-594, 605-631; gaussian_mixture.py 139-158). A `GaussianMixture` has no `get_prec`
(gaussian.py 615). -/
noncomputable def gmMultiply (hs : HashSeed) : GM → GM → Py GM
  | .inl f, .inl g => do
    let r ← (gaussOps hs).multiply f g
    .ok (.inl r)
  | .inl f, .inr _ => do
    let _ ← f.2.getCan
    .error .attributeError
  | .inr a, .inl g => do
    let (_, _, r) ← a.multiplyG g
    .ok (.inr r)
  | .inr a, .inr b => do
    let (_, _, r) ← a.multiply b
    .ok (.inr r)

/-- `cancel`, which is `divide` (_factor.py 143-152; gaussian.py 596-603; gaussian_mixture.py 160-187); `approx` stands
for the cancel methods 1 and 2. -/
noncomputable def gmCancel (hs : HashSeed) (approx : ℕ → Mix → Mix → Py (Mix × Mix × Mix)) : GM → GM → Py GM
  | .inl f, .inl g => do
    let r ← (gaussOps hs).cancel f g
    .ok (.inl r)
  | .inl f, .inr _ => do
    let _ ← f.2.getCan
    .error .attributeError
  | .inr a, .inl g => do
    let (_, _, r) ← a.divideLoop g
    .ok (.inr r)
  | .inr a, .inr b => do
    let (_, _, r) ← a.divide approx b
    .ok (.inr r)

/-- `marginalize(vrs, keep=True)` (gaussian.py 506-560; gaussian_mixture.py 205-219) of a copy. -/
noncomputable def gmMarginalize (hs : HashSeed) : GM → List Var → Py GM
  | .inl f, vrs => do
    let r ← (gaussOps hs).marginalize f vrs
    .ok (.inl r)
  | .inr a, vrs => do
    let k ← a.copy
    let r ← k.marginalize hs vrs true
    .ok (.inr r)

/-- `reduce` (gaussian.py 562-583; gaussian_mixture.py 189-203). -/
noncomputable def gmReduce (hs : HashSeed) : GM → List Var → List ℝ → Py GM
  | .inl f, vrs, vals => do
    let r ← (gaussOps hs).reduce f vrs vals
    .ok (.inl r)
  | .inr a, vrs, vals => do
    let (_, r) ← a.reduce vrs vals
    .ok (.inr r)

/-- `var_names` (_factor.py 31-38). -/
def gmVars : GM → List Var
  | .inl f => f.2.vars
  | .inr a => a.vars

/-- The operations of `Gaussian` and `GaussianMixture` used by the cluster graph. `distance_from_vacuous` and
`kl_divergence` of a `GaussianMixture` raise `NotImplementedError` (gaussian_mixture.py 221-240); a `Gaussian` asked for
the divergence from a `GaussianMixture` reads the missing attribute `_is_vacuous` (gaussian.py 729-736). -/
noncomputable def gmOps (hs : HashSeed) (approx : ℕ → Mix → Mix → Py (Mix × Mix × Mix)) : Ops GM ℝ EReal where
  vars := gmVars
  multiply := gmMultiply hs
  cancel := gmCancel hs approx
  marginalize := gmMarginalize hs
  reduce := gmReduce hs
  distVacuous := fun
    | .inl f => (gaussOps hs).distVacuous f
    | .inr _ => .error .notImplementedError
  kl := fun
    | .inl f, .inl g => (gaussOps hs).kl f g
    | .inl f, .inr b => if f.1 ≠ b.vars.length then .error .valueError else .error .attributeError
    | .inr _, _ => .error .notImplementedError

/-- The value of `potential` of a mixture at a named point (zero if the call raises). -/
noncomputable def mixDen (a : Mix) (x : Var → ℝ) : ℝ :=
  match a.potential (a.vars.map x) with
  | .ok r => r
  | .error _ => 0

/-- The value of `potential` at a named point. -/
noncomputable def gmDen : GM → (Var → ℝ) → ℝ
  | .inl f => gaussDen f
  | .inr a => mixDen a

end Verif.CG
