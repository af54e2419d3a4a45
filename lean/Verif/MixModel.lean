import Verif.GaussModel

/-!
# Model of `veroku/factors/experimental/gaussian_mixture.py`

A mixture holds copies of Gaussians. Reading parameters of a component may cache its other form, so the
operations also return the changed operands. Operands of binary operations are treated as different objects
(when an object is combined with itself only the cached forms could differ, not the results).
`sample` is in `SampleModel.lean`. `argmax` and the cancel methods 1 and 2 (here parameters of `divide`) are in
`MixDivModel.lean`. Not modelled: plotting.
-/

namespace Verif
open Matrix Gauss

/-- `GaussianMixture` (gaussian_mixture.py 39-68). -/
structure Mix where
  vars : List Var
  comps : List AnyG
  cancelMethod : ℕ

namespace Mix

/-- `gaussian.copy()` for one component. -/
noncomputable def copyG (g : AnyG) : Py AnyG := do
  let k ← g.2.copy
  .ok ⟨g.1, k⟩

/-- The constructor (gaussian_mixture.py 44-68; `Factor.__init__`, _factor.py 18-29). -/
noncomputable def make (gs : List AnyG) (cancelMethod : ℕ := 0) : Py Mix :=
  match gs with
  | [] => .error .assertionError
  | g0 :: gs => do
    let comps ← (g0 :: gs).mapM copyG
    if ∃ c ∈ comps, c.2.vars ≠ g0.2.vars then .error .valueError
    else if ¬ g0.2.vars.Nodup then .error .valueError
    else .ok ⟨g0.2.vars, comps, cancelMethod⟩

/-- One component in `from_sklearn_gmm` (gaussian_mixture.py 83-88). For a weight that is not positive numpy
gives `-inf` or `nan`, which is not modelled: the error value `nan`. -/
noncomputable def sklearnComp (vars : List Var) {n : ℕ} (p : (Fin n → ℝ) × Matrix (Fin n) (Fin n) ℝ × ℝ) : Py AnyG := do
  let lw ← npLog p.2.2
  let g ← Gauss.mkCov vars ⟨p.2.1, p.1, lw⟩
  .ok ⟨n, g⟩

/-- `from_sklearn_gmm` (gaussian_mixture.py 70-89), for the zipped means, covariances and weights. -/
noncomputable def fromSklearn (vars : List Var) {n : ℕ}
    (params : List ((Fin n → ℝ) × Matrix (Fin n) (Fin n) ℝ × ℝ)) : Py Mix := do
  let gs ← params.mapM (sklearnComp vars)
  make gs

/-- `copy` (gaussian_mixture.py 127-137). -/
noncomputable def copy (a : Mix) : Py Mix := do
  let cs ← a.comps.mapM copyG
  make cs

/-- One loop over components for an operation with one other Gaussian (gaussian_mixture.py 150-151,
154-155, 185-186): the components afterwards, the other operand afterwards, the results. -/
noncomputable def opEach (op : ℝ → ℝ → ℝ) : List AnyG → AnyG → Py (List AnyG × AnyG × List AnyG)
  | [], g => .ok ([], g, [])
  | c :: cs, g => do
    let (c', g', r) ← Gauss.absorbOrCancel op c.2 g.2
    let (cs', g'', rs) ← opEach op cs ⟨_, g'⟩
    .ok (⟨_, c'⟩ :: cs', g'', ⟨_, r⟩ :: rs)

/-- The inner loop of `multiply` (gaussian_mixture.py 154-155). -/
noncomputable def mulRow : AnyG → List AnyG → Py (AnyG × List AnyG × List AnyG)
  | g, [] => .ok (g, [], [])
  | g, c :: cs => do
    let (g', c', r) ← g.2.multiply c.2
    let (g'', cs', rs) ← mulRow ⟨_, g'⟩ cs
    .ok (g'', ⟨_, c'⟩ :: cs', ⟨_, r⟩ :: rs)

/-- The outer loop of `multiply` (gaussian_mixture.py 153-155). -/
noncomputable def mulAll : List AnyG → List AnyG → Py (List AnyG × List AnyG × List AnyG)
  | [], bs => .ok ([], bs, [])
  | a :: as, bs => do
    let (a', bs', rs) ← mulRow a bs
    let (as', bs'', rs') ← mulAll as bs'
    .ok (a' :: as', bs'', rs ++ rs')

/-- `multiply` by a Gaussian (gaussian_mixture.py 148-151, 158). -/
noncomputable def multiplyG (a : Mix) (g : AnyG) : Py (Mix × AnyG × Mix) := do
  let (cs, g', rs) ← opEach (· + ·) a.comps g
  let r ← make rs
  .ok ({ a with comps := cs }, g', r)

/-- `multiply` by a mixture (gaussian_mixture.py 148, 152-155, 158). -/
noncomputable def multiply (a b : Mix) : Py (Mix × Mix × Mix) := do
  let (as, bs, rs) ← mulAll a.comps b.comps
  let r ← make rs
  .ok ({ a with comps := as }, { b with comps := bs }, r)

/-- `reduce` of each component (gaussian_mixture.py 200-202). -/
noncomputable def reduceG (vrs : List Var) (values : List ℝ) (g : AnyG) : Py (AnyG × AnyG) := do
  let (g', r) ← g.2.reduce vrs values
  .ok (⟨_, g'⟩, r)

/-- `reduce` (gaussian_mixture.py 189-203). -/
noncomputable def reduce (a : Mix) (vrs : List Var) (values : List ℝ) : Py (Mix × Mix) := do
  let l ← a.comps.mapM (reduceG vrs values)
  let r ← make (l.map Prod.snd)
  .ok ({ a with comps := l.map Prod.fst }, r)

/-- `marginalize` of each component (gaussian_mixture.py 216-218). -/
noncomputable def marginalizeG (hs : HashSeed) (vrs : List Var) (keep : Bool) (g : AnyG) : Py AnyG := do
  let r ← g.2.marginalize hs vrs keep
  .ok ⟨_, r⟩

/-- `marginalize` (gaussian_mixture.py 205-219). -/
noncomputable def marginalize (hs : HashSeed) (a : Mix) (vrs : List Var) (keep : Bool := true) : Py Mix := do
  let l ← a.comps.mapM (marginalizeG hs vrs keep)
  make l

/-- `special.logsumexp` of finite numbers. -/
noncomputable def lse (l : List ℝ) : ℝ := Real.log (l.map Real.exp).sum

/-- `log_potential` (gaussian_mixture.py 242-255). -/
noncomputable def logPotential (a : Mix) (x : List ℝ) (vrs : Option (List Var) := none) : Py ℝ := do
  let l ← a.comps.mapM fun c => c.2.logPotential x vrs
  .ok (lse l)

/-- `potential` (gaussian_mixture.py 257-269). -/
noncomputable def potential (a : Mix) (x : List ℝ) : Py ℝ :=
  a.comps.foldlM (fun t c => do
    let p ← c.2.potential x
    .ok (t + p)) 0

/-- Reading the covariance parameters of one component. -/
noncomputable def readG (g : AnyG) : Py (Σ k, Gauss k × CovF k) := do
  let (g', v) ← g.2.getCov
  .ok ⟨g.1, g', v⟩

/-- `get_log_weight` (gaussian_mixture.py 294-304, 318-325): the mixture afterwards, and the log weight. -/
noncomputable def getLogWeight (a : Mix) : Py (Mix × ℝ) := do
  let l ← a.comps.mapM readG
  .ok ({ a with comps := l.map fun p => ⟨p.1, p.2.1⟩ }, lse (l.map fun p => p.2.2.lw))

/-- One component in `normalize` (gaussian_mixture.py 337-339). -/
noncomputable def shiftG (w : ℝ) (g : AnyG) : Py AnyG := do
  let k ← g.2.copy
  .ok ⟨g.1, k.addLogWeight w⟩

/-- `normalize` (gaussian_mixture.py 327-340): the mixture afterwards, and the result. -/
noncomputable def normalize (a : Mix) : Py (Mix × Mix) := do
  let (a, w) ← getLogWeight a
  let l ← a.comps.mapM (shiftG (-1 * w))
  let r ← make l
  .ok (a, r)

/-- `is_vacuous` (gaussian_mixture.py 342-356). -/
def isVacuous (a : Mix) : Bool := a.comps.all fun c => c.2.vac

/-- Parameters of one component as arrays of the dimension of the mixture; other shapes cannot be added. -/
noncomputable def readDim (n : ℕ) (g : AnyG) : Py (AnyG × CovF n) := do
  let ⟨k, g', v⟩ ← readG g
  if h : k = n then .ok (⟨k, g'⟩, h ▸ v) else .error .valueError

/-- The mean in `moment_match_to_single_gaussian` (gaussian_mixture.py 444-452). -/
noncomputable def mmMean {n : ℕ} (l : List (CovF n)) : Fin n → ℝ :=
  (1 / Real.exp (lse (l.map CovF.lw))) • (l.map fun v => Real.exp v.lw • v.mean).sum

/-- The covariance in `moment_match_to_single_gaussian` (gaussian_mixture.py 453-459). -/
noncomputable def mmCov {n : ℕ} (l : List (CovF n)) (mean : Fin n → ℝ) : Matrix (Fin n) (Fin n) ℝ :=
  (1 / Real.exp (lse (l.map CovF.lw))) •
    (l.map fun v => Real.exp v.lw • v.cov + Real.exp v.lw • vecMulVec (v.mean - mean) (v.mean - mean)).sum

/-- `moment_match_to_single_gaussian` (gaussian_mixture.py 436-462): the mixture afterwards, and the Gaussian. -/
noncomputable def momentMatch (a : Mix) : Py (Mix × Gauss a.vars.length) := do
  let l ← a.comps.mapM (readDim a.vars.length)
  let vs := l.map Prod.snd
  let mean := mmMean vs
  match a.comps with
  | [] => .error .indexError
  | c :: _ => do
    let g ← Gauss.mkCov c.2.vars ⟨mmCov vs mean, mean, lse (vs.map CovF.lw)⟩
    .ok ({ a with comps := l.map Prod.fst }, g)

/-- The loop of `divide` (gaussian_mixture.py 184-187). -/
noncomputable def divideLoop (a : Mix) (g : AnyG) : Py (Mix × AnyG × Mix) := do
  let (cs, g', rs) ← opEach (· - ·) a.comps g
  let r ← make rs
  .ok ({ a with comps := cs }, g', r)

/-- `divide` by a mixture (gaussian_mixture.py 160-187); `approx` stands for the cancel methods 1 and 2. The
mixture, the divisor afterwards, and the quotient. -/
noncomputable def divide (approx : ℕ → Mix → Mix → Py (Mix × Mix × Mix)) (a b : Mix) : Py (Mix × Mix × Mix) :=
  match b.comps with
  | [g] => do
    let (a', g', r) ← divideLoop a g
    .ok (a', { b with comps := [g'] }, r)
  | _ =>
    if a.cancelMethod = 0 then do
      let (b', g) ← momentMatch b
      let (a', _, r) ← divideLoop a ⟨_, g⟩
      .ok (a', b', r)
    else if a.cancelMethod = 1 ∨ a.cancelMethod = 2 then approx a.cancelMethod a b
    else .error .unboundLocalError

/-- The inner loop of `equals` (gaussian_mixture.py 108-111); the tolerances of the call are not passed on,
the components are compared with the default tolerances. -/
noncomputable def equalsRow : AnyG → List AnyG → Py (AnyG × List AnyG × Bool)
  | g, [] => .ok (g, [], false)
  | g, c :: cs => do
    let (g', c', r) ← Gauss.equals (1 / 10000) (1 / 10000) g.2 c.2
    let (g'', cs', f) ← equalsRow ⟨_, g'⟩ cs
    .ok (g'', ⟨_, c'⟩ :: cs', r || f)

/-- The outer loop of `equals` (gaussian_mixture.py 107-114) from index `i` on; the second list holds the
components of the argument from index `i` on. -/
noncomputable def equalsLoop : List AnyG → List AnyG → Py (List AnyG × List AnyG × Bool)
  | [], bs => .ok ([], bs, true)
  | a :: as, bs => do
    let (a', bs', found) ← equalsRow a bs
    if !found then .ok (a' :: as, bs', false)
    else do
      let (as', bs'', r) ← equalsLoop as bs'.tail
      .ok (a' :: as', bs'.take 1 ++ bs'', r)

/-- `equals` for two mixtures (gaussian_mixture.py 91-114): both operands afterwards, and the answer. -/
noncomputable def equals (a b : Mix) : Py (Mix × Mix × Bool) :=
  if b.comps.length ≠ a.comps.length then .ok (a, b, false)
  else do
    let (as, bs, r) ← equalsLoop a.comps b.comps
    .ok ({ a with comps := as }, { b with comps := bs }, r)

end Mix
end Verif
