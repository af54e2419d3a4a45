import Verif.NonLinModel

/-!
# Model of `veroku/factors/experimental/nonlinear_gaussian.py`, class `NonLinearGaussianMixture`

The state of an operand that a method can change is returned beside the result. The operands are Gaussians and Gaussian
mixtures; any other operand raises `NotImplementedError` and is not modelled. `sample` is in `SampleModel.lean`;
`plot` and `show` are not modelled.
-/

namespace Verif
open Matrix Gauss

/-- `NonLinearGaussianMixture` (nonlinear_gaussian.py 490-518). -/
structure NlgMix where
  /-- `var_names` -/
  vars : List Var
  nlgs : List NLG
  /-- `split_singles_before_absorb` -/
  split : Bool

namespace NlgMix

/-- The constructor (nonlinear_gaussian.py 495-518; `Factor.__init__`, _factor.py 18-29) for a list of non-linear
Gaussians. The names of a non-linear Gaussian have no duplicates. -/
noncomputable def make (fs : List NLG) (split : Bool := true) : Py NlgMix :=
  match fs with
  | [] => .error .valueError
  | f0 :: _ => do
    pyGuard .valueError (decide f0.vars.Nodup)
    let nlgs ← fs.mapM fun f => do
      pyGuard .valueError (sameSet f0.vars f.vars)
      f.copy
    .ok ⟨f0.vars, nlgs, split⟩

/-- The constructor for a list of Gaussians (nonlinear_gaussian.py 506-511). -/
def makeFromGaussians (gs : List AnyG) : Py NlgMix :=
  match gs with
  | [] => .error .valueError
  | g0 :: _ => do
    pyGuard .valueError (decide g0.2.vars.Nodup)
    .error .typeError

/-- `normalize` (nonlinear_gaussian.py 520-524). -/
def normalize (_ : NlgMix) : Py NlgMix := .error .notImplementedError

/-- `copy` (nonlinear_gaussian.py 526-533). -/
noncomputable def copy (a : NlgMix) : Py NlgMix := make a.nlgs

/-- `joint_distribution` (nonlinear_gaussian.py 535-540). -/
noncomputable def jointDistribution (hs : HashSeed) (a : NlgMix) : Py Mix := do
  let js ← a.nlgs.mapM (NLG.jointDistribution hs)
  Mix.make js

/-- The inner loop of `multiply` (nonlinear_gaussian.py 565-566): the component of the operand afterwards, and the
products. -/
noncomputable def mulRow : List NLG → AnyG → Py (AnyG × List NLG)
  | [], g => .ok (g, [])
  | f :: fs, g => do
    let (g', r) ← f.multiply g
    let (g'', rs) ← mulRow fs g'
    .ok (g'', r :: rs)

/-- The outer loop of `multiply` (nonlinear_gaussian.py 564-566). -/
noncomputable def mulAll (fs : List NLG) : List AnyG → Py (List AnyG × List NLG)
  | [] => .ok ([], [])
  | g :: gs => do
    let (g', rs) ← mulRow fs g
    let (gs', rs') ← mulAll fs gs
    .ok (g' :: gs', rs ++ rs')

/-- The components that are multiplied in, and the operand's components afterwards, as far as the splitting goes
(nonlinear_gaussian.py 559-561). -/
noncomputable def splitSingle (split : Bool) (m : Mix) : Py (Option AnyG × List AnyG) :=
  if split = true ∧ m.vars.length = 1 then
    match m.comps with
    | [g] => do
      let (g', l) ← g.2.split
      let r ← Mix.make (l.map fun c => ⟨_, c⟩)
      .ok (some ⟨_, g'⟩, r.comps)
    | cs => .ok (none, cs)
  else .ok (none, m.comps)

/-- `multiply` by a Gaussian mixture (nonlinear_gaussian.py 542-567): the operand afterwards, and the result. If the
only component of the operand has been split, the loop changes the parts and not the operand. -/
noncomputable def multiply (a : NlgMix) (m : Mix) : Py (Mix × NlgMix) := do
  let (s, cs) ← splitSingle a.split m
  let (cs', rs) ← mulAll a.nlgs cs
  let r ← make rs
  .ok ({ m with comps := match s with | some g => [g] | none => cs' }, r)

/-- `multiply` by a Gaussian (nonlinear_gaussian.py 552-553). `GaussianMixture([Gaussian])` is given the class, not the
factor, and calls its method `copy` without an object (gaussian_mixture.py 60). -/
def multiplyG (_ : NlgMix) (_ : AnyG) : Py NlgMix := .error .typeError

/-- The loop of `divide` (nonlinear_gaussian.py 584-586): the divisor afterwards, and the quotients. -/
noncomputable def divAll (hs : HashSeed) : List NLG → AnyG → Py (AnyG × List NLG)
  | [], g => .ok (g, [])
  | f :: fs, g => do
    let (g', r) ← f.divide hs g
    let (g'', rs) ← divAll hs fs g'
    .ok (g'', r :: rs)

/-- `divide` by a Gaussian (nonlinear_gaussian.py 569-587): the divisor afterwards, and the result. -/
noncomputable def divideG (hs : HashSeed) (a : NlgMix) (g : AnyG) : Py (AnyG × NlgMix) := do
  let (g', rs) ← divAll hs a.nlgs g
  let r ← make rs
  .ok (g', r)

/-- `divide` by a Gaussian mixture (nonlinear_gaussian.py 569-587): the divisor afterwards, and the result. -/
noncomputable def divide (hs : HashSeed) (a : NlgMix) (m : Mix) : Py (Mix × NlgMix) := do
  let (m', g) ← m.momentMatch
  let (_, r) ← divideG hs a ⟨_, g⟩
  .ok (m', r)

/-- `reduce` (nonlinear_gaussian.py 589-601). -/
noncomputable def reduce (a : NlgMix) (vrs : List Var) (values : List ℝ) : Py NlgMix := do
  let rs ← a.nlgs.mapM fun f => f.reduce vrs values
  make rs

/-- `marginalize` (nonlinear_gaussian.py 603-615). The marginals of non-linear Gaussians are Gaussians. -/
noncomputable def marginalize (hs : HashSeed) (a : NlgMix) (vrs : List Var) (keep : Bool := true) : Py NlgMix := do
  let rs ← a.nlgs.mapM fun f => f.marginalize hs vrs keep
  makeFromGaussians rs

end NlgMix
end Verif
