import Verif.SigmaModel
import Verif.MixModel

/-!
# Model of `veroku/factors/experimental/nonlinear_gaussian.py`, class `NonLinearGaussian`

The operands are Gaussians. Every method that can change an operand returns the changed operand beside its result;
the state in which an object is left when a method raises is not modelled. `copy.deepcopy` of the transform is the
transform. `equals` and the parameters are in `NlgReadModel.lean`, `sample` in `SampleModel.lean`;
`show` and `plot` are not modelled.
-/

namespace Verif
open Matrix Gauss

/-- `NonLinearGaussian` (nonlinear_gaussian.py 32-93). -/
structure NLG where
  /-- `conditioning_vars` -/
  xs : List Var
  /-- `conditional_vars` -/
  ys : List Var
  transform : Sigma.Transform
  /-- number of rows of the noise covariance -/
  q : ℕ
  noise : Matrix (Fin q) (Fin q) ℝ
  /-- `log_weight` -/
  lw : ℝ
  /-- `_joint_distribution` -/
  joint : AnyG
  /-- `conditional_update_factor` -/
  upd : Option AnyG
  /-- `conditioning_factor` -/
  cond : Option AnyG
  /-- `observed_evidence` -/
  ev : Dict Var ℝ

namespace NLG

/-- `var_names` (nonlinear_gaussian.py 64-66). -/
def vars (a : NLG) : List Var := a.xs ++ a.ys

/-- Copy of an optional factor (nonlinear_gaussian.py 78-84). -/
noncomputable def copyOpt : Option AnyG → Py (Option AnyG)
  | none => .ok none
  | some g => do
    let k ← Mix.copyG g
    .ok (some k)

/-- The joint stored by the constructor (nonlinear_gaussian.py 86-89). -/
noncomputable def initJoint (vars : List Var) : Option AnyG → Py AnyG
  | none => do
    let v ← makeVacuous vars
    .ok ⟨_, v⟩
  | some g => Mix.copyG g

/-- The constructor (nonlinear_gaussian.py 38-93; `Factor.__init__`, _factor.py 18-29). `noise_cov` is an array; a
number or list has no attribute `shape` and is not modelled. -/
noncomputable def make (xs ys : List Var) (T : Sigma.Transform) {q q' : ℕ} (noise : Matrix (Fin q) (Fin q') ℝ)
    (lw : ℝ := 0) (joint upd cond : Option AnyG := none) (ev : Dict Var ℝ := []) : Py NLG := do
  pyGuard .valueError (decide (∀ v ∈ xs, v ∉ ys))
  pyGuard .valueError (decide (xs ++ ys).Nodup)
  pyGuard .valueError (decide (q = ys.length))
  if h : q = q' then do
    let cond ← copyOpt cond
    let upd ← copyOpt upd
    let joint ← initJoint (xs ++ ys) joint
    .ok ⟨xs, ys, T, q, h ▸ noise, lw, joint, upd, cond, ev⟩
  else .error .assertionError

/-- `copy` (nonlinear_gaussian.py 127-145). -/
noncomputable def copy (a : NLG) : Py NLG :=
  make a.xs a.ys a.transform a.noise a.lw (some a.joint) a.upd a.cond a.ev

/-- `add_log_weight` (nonlinear_gaussian.py 212-218). -/
noncomputable def addLogWeight (a : NLG) (w : ℝ) : NLG := { a with lw := a.lw + w }

/-! ### The joint -/

/-- The observed variables in a list, in the order of the evidence dictionary (nonlinear_gaussian.py 226-236). -/
def observedIn (ev : Dict Var ℝ) (vs : List Var) : List Var := (Dict.keys ev).filter (· ∈ vs)

/-- The names of the conditioning factor (nonlinear_gaussian.py 245-247). -/
def condVars : Option AnyG → List Var
  | none => []
  | some g => g.2.vars

/-- The conditioning factor at the evidence (nonlinear_gaussian.py 257-265). -/
noncomputable def reducedCond (hs : HashSeed) (ev : Dict Var ℝ) (g : AnyG) : Py AnyG := do
  let k ← Mix.copyG g
  let obs := hs.strs.toList ((Dict.keys ev).filter (· ∈ k.2.vars))
  let vals ← obs.mapM (Dict.getItem ev)
  if obs = [] then .ok k
  else do
    let (_, r) ← k.2.reduce obs vals
    .ok r

/-- The points with the observed values in front (nonlinear_gaussian.py 270-274). -/
noncomputable def extendPoints (vals : List ℝ) (p : Sigma.Pts) : Sigma.Pts :=
  ⟨vals.length + p.dim, p.cols.map fun x => Fin.append (fun i => vals[i]) x⟩

/-- The points are left alone if there is no evidence (nonlinear_gaussian.py 270, 275-277). -/
noncomputable def extended (vals : List ℝ) (p : Sigma.Pts) : Sigma.Pts :=
  if vals = [] then p else extendPoints vals p

/-- The parameters without the first `nov` variables (nonlinear_gaussian.py 288-292). What is left must have as many
rows as there are names, or the assertion in `indexed_square_matrix_operation` fails (_factor_utils.py 205). -/
noncomputable def dropObserved {n : ℕ} (J : Matrix (Fin n) (Fin n) ℝ) (μ : Fin n → ℝ) (nov k : ℕ) :
    Py (Matrix (Fin k) (Fin k) ℝ × (Fin k → ℝ)) :=
  if h : nov + k = n then
    .ok (fun i j => J (Fin.cast h (Fin.natAdd nov i)) (Fin.cast h (Fin.natAdd nov j)),
      fun i => μ (Fin.cast h (Fin.natAdd nov i)))
  else .error .assertionError

/-- The check of the number of variables (nonlinear_gaussian.py 285-286). The covariance of a single variable is an
array without dimensions, so its shape has no element. -/
def checkShape (n : ℕ) (shape : List ℕ) (expected : ℕ) : Py Unit :=
  if n ≠ expected then .error .assertionError
  else match shape with
  | [] => .error .indexError
  | m :: _ => if m ≠ expected then .error .assertionError else .ok ()

/-- `conditioning_factor.log_weight` after the covariance parameters have been computed (nonlinear_gaussian.py 297). -/
def storedWeight {n : ℕ} (g : Gauss n) : Py ℝ :=
  match g.cov with
  | some v => .ok v.lw
  | none => .error .attributeError

/-- The noise is added and the joint made (nonlinear_gaussian.py 294-302). -/
noncomputable def withNoise (names ys : List Var) {q : ℕ} (C : Matrix (Fin names.length) (Fin names.length) ℝ)
    (m : Fin names.length → ℝ) (noise : Matrix (Fin q) (Fin q) ℝ) (w : ℝ) : Py AnyG := do
  let C' ← indexedMat C noise names ys (· + ·)
  let m' ← toVec (opVars names ys).length (List.ofFn m)
  let j ← mkCov (opVars names ys) ⟨C', m', w⟩
  .ok ⟨_, j⟩

/-- The joint of conditioning and conditional variables (nonlinear_gaussian.py 267-302), from the conditioning factor
at the evidence and the observed conditioning variables and values. -/
noncomputable def transformed (a : NLG) (k : AnyG) (obs : List Var) (vals : List ℝ) : Py AnyG := do
  let (k', p) ← Sigma.sigmaPoints k.2
  let ⟨n, ((J, shape), μ)⟩ ← Sigma.jointParams (extended vals p) a.transform (obs ++ k'.vars)
  checkShape n shape a.vars.length
  let names := k'.vars ++ a.ys
  let (C, m) ← dropObserved J μ obs.length names.length
  let w ← storedWeight k'
  withNoise names a.ys C m a.noise (a.lw + w)

/-- The conditional update factor is multiplied in (nonlinear_gaussian.py 303-304): the update factor afterwards, and
the product. -/
noncomputable def applyUpdate (j : AnyG) : Option AnyG → Py (Option AnyG × AnyG)
  | none => .ok (none, j)
  | some u => do
    let (_, u', r) ← j.2.multiply u.2
    .ok (some ⟨_, u'⟩, ⟨_, r⟩)

/-- The evidence about conditional variables (nonlinear_gaussian.py 305-308). -/
noncomputable def applyEvidence (j : AnyG) (obs : List Var) (vals : List ℝ) : Py AnyG :=
  if obs = [] then .ok j
  else do
    let (_, r) ← j.2.reduce obs vals
    .ok r

/-- `_recompute_joint` (nonlinear_gaussian.py 220-308). If there is no conditioning factor, the local variable
`conditioning_factor` is read before it is assigned (lines 274, 277). -/
noncomputable def recompute (hs : HashSeed) (a : NLG) : Py NLG := do
  let xo := observedIn a.ev a.xs
  let xvals ← xo.mapM (Dict.getItem a.ev)
  let yo := observedIn a.ev a.ys
  let yvals ← yo.mapM (Dict.getItem a.ev)
  if ¬ sameSet (condVars a.cond ++ xo) a.xs then do
    let v ← makeVacuous a.vars
    .ok { a with joint := ⟨_, v⟩ }
  else match a.cond with
  | none => .error .unboundLocalError
  | some g => do
    let k ← reducedCond hs a.ev g
    let j ← transformed a k xo xvals
    let (u, j) ← applyUpdate j a.upd
    let j ← applyEvidence j yo yvals
    .ok { a with joint := j, upd := u }

/-- `joint_distribution` (nonlinear_gaussian.py 147-156). -/
noncomputable def jointDistribution (hs : HashSeed) (a : NLG) : Py AnyG := do
  let k ← copy a
  let k ← recompute hs k
  .ok k.joint

/-- `normalize` (nonlinear_gaussian.py 310-318). -/
noncomputable def normalize (hs : HashSeed) (a : NLG) : Py AnyG := do
  let j ← jointDistribution hs a
  let r ← j.2.normalize
  .ok ⟨_, r⟩

/-! ### Operations -/

/-- Multiplication into one of the parts (nonlinear_gaussian.py 348-351, 353-356): the operand afterwards, and the
part. -/
noncomputable def mulPart (g : AnyG) : Option AnyG → Py (AnyG × Option AnyG)
  | none => do
    let k ← Mix.copyG g
    .ok (g, some k)
  | some p => do
    let (_, g', r) ← p.2.multiply g.2
    .ok (⟨_, g'⟩, some ⟨_, r⟩)

/-- `multiply` by a Gaussian (nonlinear_gaussian.py 320-363): the operand afterwards, and the result. -/
noncomputable def multiply (a : NLG) (g : AnyG) : Py (AnyG × NLG) := do
  let k ← copy a
  if g.2.vac then .ok (g, k)
  else if ∀ v ∈ g.2.vars, v ∈ k.ys then do
    let (g', u) ← mulPart g k.upd
    .ok (g', { k with upd := u })
  else if ∀ v ∈ g.2.vars, v ∈ k.xs then do
    let (g', c) ← mulPart g k.cond
    .ok (g', { k with cond := c })
  else .error .valueError

/-- Division of one of the parts (nonlinear_gaussian.py 382, 384-386), the exception if there is none. -/
noncomputable def divPart (e : PyErr) (g : AnyG) : Option AnyG → Py (AnyG × Option AnyG)
  | none => .error e
  | some p => do
    let (_, g', r) ← p.2.divide g.2
    .ok (⟨_, g'⟩, some ⟨_, r⟩)

/-- `divide` by a Gaussian (nonlinear_gaussian.py 365-394): the operand afterwards, and the result. -/
noncomputable def divide (hs : HashSeed) (a : NLG) (g : AnyG) : Py (AnyG × NLG) := do
  let k ← copy a
  if g.2.vac then .ok (g, k)
  else if ∀ v ∈ g.2.vars, v ∈ k.ys then do
    let (g', u) ← divPart .attributeError g k.upd
    let r ← recompute hs { k with upd := u }
    .ok (g', r)
  else if ∀ v ∈ g.2.vars, v ∈ k.xs then do
    let (g', c) ← divPart .notImplementedError g k.cond
    let r ← recompute hs { k with cond := c }
    .ok (g', r)
  else .error .valueError

/-- `reduce` (nonlinear_gaussian.py 396-409). Names without a value are ignored by `zip`, and so are values without a
name. -/
noncomputable def reduce (a : NLG) (vrs : List Var) (values : List ℝ) : Py NLG := do
  let k ← copy a
  .ok { k with ev := Dict.merge k.ev (Dict.ofPairs (vrs.zip values)) }

/-- Marginal of an optional part (nonlinear_gaussian.py 427-430, 432-436), if it has the variables. -/
noncomputable def partMarginal (hs : HashSeed) (keep : List Var) : Option AnyG → Option (Py AnyG)
  | none => none
  | some g =>
    if ∀ v ∈ keep, v ∈ g.2.vars then some (do
      let r ← g.2.marginalize hs keep true
      .ok ⟨_, r⟩)
    else none

/-- The marginal of the joint (nonlinear_gaussian.py 439). -/
noncomputable def jointMarginal (hs : HashSeed) (a : NLG) (keep : List Var) : Py AnyG := do
  let r ← a.joint.2.marginalize hs keep true
  .ok ⟨_, r⟩

/-- The second branch for a vacuous joint (nonlinear_gaussian.py 431-439), with the weight of the original factor. -/
noncomputable def updMarginal (hs : HashSeed) (a : NLG) (lw : ℝ) (keep : List Var) : Py AnyG :=
  if ∀ v ∈ keep, v ∈ a.ys then
    match partMarginal hs keep a.upd with
    | some r => do
      let m ← r
      .ok ⟨_, m.2.addLogWeight lw⟩
    | none => jointMarginal hs a keep
  else do
    let v ← makeVacuous keep
    .ok ⟨_, v⟩

/-- The marginal when the joint is vacuous (nonlinear_gaussian.py 425-439). -/
noncomputable def vacMarginal (hs : HashSeed) (a : NLG) (lw : ℝ) (keep : List Var) : Py AnyG :=
  match (if ∀ v ∈ keep, v ∈ a.xs then partMarginal hs keep a.cond else none) with
  | some r => r
  | none => updMarginal hs a lw keep

/-- `marginalize` (nonlinear_gaussian.py 411-439). -/
noncomputable def marginalize (hs : HashSeed) (a : NLG) (vrs : List Var) (keep : Bool := true) : Py AnyG := do
  let kv := Sparse.marginalVars hs a.vars vrs keep
  pyAssert (decide (∀ v ∈ kv, v ∈ a.vars))
  let k ← copy a
  let k ← recompute hs k
  if k.joint.2.vac then vacMarginal hs k a.lw kv
  else jointMarginal hs k kv

end NLG
end Verif
