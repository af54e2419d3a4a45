import Verif.ClusterGauss
import Verif.NlgReadModel
import Verif.NonLinProps4

/-!
# Non-linear Gaussians in cluster graphs: the operations

The factors of a cluster graph may be `Gaussian` and `NonLinearGaussian` objects side by side. This file dispatches
the operations of `ClusterModel.lean` to the models of the two classes.

Simplifications. The parameters an operation caches in its operands are dropped. `ClusterGraph` works with copies of
the factors and messages (cluster_graph.py 68, 88, 94; _cluster.py 87, 119, 164, 248); the copy matters where the
vacuous flag is read, and the operations copy there. `var_names` of a `NonLinearGaussian` keeps the observed
variables, while `vars` leaves them out: the cluster graph reads `var_names` before it observes special evidence, so
for graphs without `evidence` made from factors without evidence the two agree wherever `var_names` is read.
-/

namespace Verif.CG
open Gauss (AnyG)

/-- A `Gaussian` or a `NonLinearGaussian`. -/
abbrev GN := AnyG ⊕ NLG

/-- The variables that are not observed. -/
def nlgFree (a : NLG) : List Var := a.vars.filter fun v => v ∉ Dict.keys a.ev

/-- What `Gaussian._absorb_or_cancel` reads of a `NonLinearGaussian` (gaussian.py 614-628;
nonlinear_gaussian.py 158-183): the canonical parameters of the recomputed joint, with the names `var_names`. -/
noncomputable def nlgAsGauss (hs : HashSeed) (a : NLG) : Py AnyG := do
  let (_, ⟨n, c⟩) ← NLG.getCan hs a
  .ok ⟨n, ⟨a.vars, some c, none, false⟩⟩

/-- `multiply` (gaussian.py 585-594, 605-631; nonlinear_gaussian.py 320-363). -/
noncomputable def gnMultiply (hs : HashSeed) : GN → GN → Py GN
  | .inl f, .inl g => do
    let r ← (gaussOps hs).multiply f g
    .ok (.inl r)
  | .inl f, .inr b => do
    let _ ← f.2.getCan
    let g ← nlgAsGauss hs b
    let r ← (gaussOps hs).multiply f g
    .ok (.inl r)
  | .inr a, .inl g => do
    let k ← g.2.copy
    let (_, r) ← NLG.multiply a ⟨_, k⟩
    .ok (.inr r)
  | .inr _, .inr _ => .error .notImplementedError

/-- `cancel`, which is `divide` (_factor.py 143-152; gaussian.py 596-603; nonlinear_gaussian.py 365-394). A
`NonLinearGaussian` has no attribute `_is_vacuous` (nonlinear_gaussian.py 374). -/
noncomputable def gnCancel (hs : HashSeed) : GN → GN → Py GN
  | .inl f, .inl g => do
    let r ← (gaussOps hs).cancel f g
    .ok (.inl r)
  | .inl f, .inr b => do
    let _ ← f.2.getCan
    let g ← nlgAsGauss hs b
    let r ← (gaussOps hs).cancel f g
    .ok (.inl r)
  | .inr a, .inl g => do
    let k ← g.2.copy
    let (_, r) ← NLG.divide hs a ⟨_, k⟩
    .ok (.inr r)
  | .inr _, .inr _ => .error .attributeError

/-- `marginalize(vrs, keep=True)` (gaussian.py 506-560; nonlinear_gaussian.py 411-439): always a `Gaussian`. -/
noncomputable def gnMarginalize (hs : HashSeed) : GN → List Var → Py GN
  | .inl f, vrs => do
    let r ← (gaussOps hs).marginalize f vrs
    .ok (.inl r)
  | .inr a, vrs => do
    let r ← NLG.marginalize hs a vrs true
    .ok (.inl r)

/-- `reduce` (gaussian.py 562-583; nonlinear_gaussian.py 396-409). -/
noncomputable def gnReduce (hs : HashSeed) : GN → List Var → List ℝ → Py GN
  | .inl f, vrs, vals => do
    let r ← (gaussOps hs).reduce f vrs vals
    .ok (.inl r)
  | .inr a, vrs, vals => do
    let r ← NLG.reduce a vrs vals
    .ok (.inr r)

/-- `var_names` (nonlinear_gaussian.py 64-66), without the observed variables. -/
def gnVars : GN → List Var
  | .inl f => f.2.vars
  | .inr a => nlgFree a

/-- The operations of `Gaussian` and `NonLinearGaussian` used by the cluster graph. `distance_from_vacuous` and
`kl_divergence` of a `NonLinearGaussian` raise `NotImplementedError` (nonlinear_gaussian.py 106-125); a `Gaussian`
asked for the divergence from a `NonLinearGaussian` reads the missing attribute `_is_vacuous` (gaussian.py 733). -/
noncomputable def gnOps (hs : HashSeed) : Ops GN ℝ EReal where
  vars := gnVars
  multiply := gnMultiply hs
  cancel := gnCancel hs
  marginalize := gnMarginalize hs
  reduce := gnReduce hs
  distVacuous := fun
    | .inl f => (gaussOps hs).distVacuous f
    | .inr _ => .error .notImplementedError
  kl := fun
    | .inl f, .inl g => (gaussOps hs).kl f g
    | .inl f, .inr b => if f.1 ≠ b.vars.length then .error .valueError else .error .attributeError
    | .inr _, _ => .error .notImplementedError

/-! ### What a non-linear Gaussian stands for -/

/-- The value of a part of a non-linear Gaussian (1 if it is absent). -/
noncomputable def partDen : Option AnyG → (Var → ℝ) → ℝ
  | none, _ => 1
  | some g, x => gaussDen g x

/-- The transform applied to a single point. -/
noncomputable def nlgMean (a : NLG) (z : Var → ℝ) : Fin a.q → ℝ :=
  match a.transform a.xs ⟨a.xs.length, [fun i => z a.xs[i]]⟩ with
  | .ok p => fun i => if h : i.1 < p.dim then (p.cols.headD 0) ⟨i.1, h⟩ else 0
  | .error _ => 0

/-- The function a non-linear Gaussian stands for: its weight, the conditioning factor, the update factor and the normal
density of the conditional variables around the transformed conditioning variables, at the evidence. -/
noncomputable def nlgDen (a : NLG) (x : Var → ℝ) : ℝ :=
  let z := Spec.override a.ev x
  Real.exp a.lw * partDen a.cond z * partDen a.upd z *
    Spec.normalDensity a.noise (nlgMean a z) fun i => z (a.ys.getD i.1 "")

/-- The function a factor stands for. -/
noncomputable def gnDen : GN → (Var → ℝ) → ℝ
  | .inl f => gaussDen f
  | .inr a => nlgDen a

end Verif.CG
