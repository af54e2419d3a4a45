import Verif.MixModel

/-!
# Model of `argmax` and of the cancel methods 1 and 2 of `GaussianMixture`

`veroku/factors/experimental/gaussian_mixture.py` and the helpers in `veroku/factors/gaussian.py` they use.
`scipy.optimize.minimize` and `numdifftools.Hessian` are parameters: any functions of the objective and of the starting
point (a one dimensional array is the list of its entries) that may also raise. Warnings printed by the code are left out.
-/

namespace Verif
open Matrix Gauss

/-- `scipy.optimize.minimize(f, x0)`: the point found, and `res.success`. Starting points that are column vectors are
taken as the list of their entries. -/
abbrev Minimizer := (List ℝ → Py ℝ) → List ℝ → Py (List ℝ × Bool)

/-- `numdifftools.Hessian(f)(x)` for `n` variables. -/
abbrev Hessian := ∀ n : ℕ, (List ℝ → Py ℝ) → List ℝ → Py (Matrix (Fin n) (Fin n) ℝ)

/-! ### `argmax` -/

namespace Mix

/-- The loop of `argmax` (gaussian_mixture.py 477-490). The first list holds the components that have been visited (reading
the mean may have cached their covariance form), the option the best local optimum so far with its potential. The
components afterwards and the optimum. -/
noncomputable def argmaxLoop (min : Minimizer) (vars : List Var) (cm : ℕ) :
    List AnyG → List AnyG → Option (ℝ × List ℝ) → Py (List AnyG × Option (ℝ × List ℝ))
  | done, [], best => .ok (done, best)
  | done, c :: rest, best => do
    let (c', v) ← c.2.getCov
    let now : Mix := ⟨vars, done ++ ⟨c.1, c'⟩ :: rest, cm⟩
    let (x, success) ← min (fun x => do
      let l ← now.logPotential x
      .ok (-1 * l)) (List.ofFn v.mean)
    if success then do
      let p ← now.potential x
      match best with
      | none => argmaxLoop min vars cm (done ++ [⟨c.1, c'⟩]) rest (some (p, x))
      | some (q, y) =>
        if q < p then argmaxLoop min vars cm (done ++ [⟨c.1, c'⟩]) rest (some (p, x))
        else argmaxLoop min vars cm (done ++ [⟨c.1, c'⟩]) rest (some (q, y))
    else argmaxLoop min vars cm (done ++ [⟨c.1, c'⟩]) rest best

/-- `argmax` (gaussian_mixture.py 464-492): the mixture afterwards, and the point. `OptimizationFailedError` (lines 31-35)
is a subclass of `Exception`. -/
noncomputable def argmax (min : Minimizer) (a : Mix) : Py (Mix × List ℝ) := do
  let (cs, best) ← argmaxLoop min a.vars a.cancelMethod [] a.comps none
  match best with
  | some (_, x) => .ok ({ a with comps := cs }, x)
  | none => .error .exception

end Mix

/-! ### Cancel method 2 -/

/-- `_get_complex_log_weight` (gaussian.py 430-446): the factor afterwards, and the log weight. `cmath.log` is the principal
branch; its argument is not zero. -/
noncomputable def Gauss.complexLogWeight {n : ℕ} (a : Gauss n) : Py (Gauss n × ℂ) := do
  let (a, c) ← a.getCan
  let cov ← npInv c.prec
  let mean := cov *ᵥ c.h
  let utku := mean ⬝ᵥ c.prec *ᵥ mean
  .ok (a, c.g + 1 / 2 * utku + 1 / 2 * Complex.log (det2pi cov))

/-- `_get_complex_weight` (gaussian.py 421-428). -/
noncomputable def Gauss.complexWeight {n : ℕ} (a : Gauss n) : Py (Gauss n × ℂ) := do
  let (a, w) ← a.complexLogWeight
  .ok (a, Complex.exp w)

/-- `np.linalg.inv` of a complex matrix. -/
noncomputable def npInvC {n : ℕ} (m : Matrix (Fin n) (Fin n) ℂ) : Py (Matrix (Fin n) (Fin n) ℂ) :=
  if m.det = 0 then .error .linAlgError else .ok m⁻¹

/-- `.astype(complex)` of a vector. -/
def toC {n : ℕ} (x : Fin n → ℝ) : Fin n → ℂ := fun i => x i

/-- `.astype(complex)` of a matrix. -/
def toCM {n : ℕ} (m : Matrix (Fin n) (Fin n) ℝ) : Matrix (Fin n) (Fin n) ℂ := m.map fun r => (r : ℂ)

namespace Mix

/-- What the two loops of `_moment_match_complex_gaussian` compute from a component of dimension `n` (gaussian_mixture.py
536-538, 544-545, 547): the complex weight, the mean and the covariance. -/
noncomputable def complexMoments (n : ℕ) (g : AnyG) : Py (ℂ × (Fin n → ℂ) × Matrix (Fin n) (Fin n) ℂ) := do
  let (g', w) ← g.2.complexWeight
  let (_, c) ← g'.getCan
  let cov ← npInv c.prec
  if h : g.1 = n then .ok (w, toC (h ▸ cov *ᵥ c.h), toCM (h ▸ cov)) else .error .valueError

/-- `_complex_cov_form_to_real_canform` (gaussian_mixture.py 556-571). `cmath.log` and `np.log` of numbers that are
not zero are the principal branch of the logarithm. -/
noncomputable def complexToCan {n : ℕ} (cov : Matrix (Fin n) (Fin n) ℂ) (mean : Fin n → ℂ) (lw : ℂ) : Py (Can n) := do
  let prec ← npInvC cov
  let h := prec *ᵥ mean
  let utku := mean ⬝ᵥ prec *ᵥ mean
  let logDet := Complex.log ((((2 * Real.pi : ℝ) : ℂ) • cov).det)
  .ok ⟨prec.map Complex.re, fun i => (h i).re, ‖lw - 1 / 2 * utku - 1 / 2 * logDet‖⟩

/-- The canonical parameters computed in `_moment_match_complex_gaussian` from the moments of the components
(gaussian_mixture.py 532-553). If the weights sum to zero numpy goes on with NaN. -/
noncomputable def matchMoments {n : ℕ} (l : List (ℂ × (Fin n → ℂ) × Matrix (Fin n) (Fin n) ℂ)) : Py (Can n) :=
  let sum := (l.map fun p => p.1).sum
  if sum = 0 then .error .nan
  else
    let mean := (1 / sum) • (l.map fun p => p.1 • p.2.1).sum
    let cov := (1 / sum) • (l.map fun p => p.1 • p.2.2 + p.1 • vecMulVec (p.2.1 - mean) (p.2.1 - mean)).sum
    complexToCan cov mean (Complex.log sum)

/-- `_moment_match_complex_gaussian` (gaussian_mixture.py 522-554). The mixture is a local object of the caller, so its
state afterwards is left out. -/
noncomputable def complexMatch (a : Mix) : Py (Gauss a.vars.length) := do
  let l ← a.comps.mapM (complexMoments a.vars.length)
  let c ← matchMoments l
  match a.comps with
  | [] => .error .indexError
  | g :: _ => mkCan g.2.vars c

/-- The outer loop of `_gm_division_m2` (gaussian_mixture.py 670-685): the components of both mixtures afterwards, and
the results. -/
noncomputable def divM2Loop : List AnyG → List AnyG → Py (List AnyG × List AnyG × List AnyG)
  | [], bs => .ok ([], bs, [])
  | a :: as, bs => do
    let (bs', a', rs) ← opEach (· - ·) bs a
    let inv ← make rs
    let g ← complexMatch inv
    let k ← g.invert
    let (as', bs'', ks) ← divM2Loop as bs'
    .ok (a' :: as', bs'', ⟨_, k⟩ :: ks)

/-- `_gm_division_m2` (gaussian_mixture.py 645-688): the two mixtures afterwards, and the quotient. -/
noncomputable def divM2 (a b : Mix) : Py (Mix × Mix × Mix) := do
  let (as, bs, ks) ← divM2Loop a.comps b.comps
  let r ← make ks
  .ok ({ a with comps := as }, { b with comps := bs }, r)

/-! ### Cancel method 1 -/

/-- `get_mean` of a component, as the starting point of `_argmin` (gaussian.py 382-391, 567-583): the log weight computed
beside it is NaN if the determinant is negative, and not used. -/
noncomputable def meanOf (g : AnyG) : Py (List ℝ) :=
  if g.2.vac then .error .exception
  else match g.2.cov, g.2.can with
  | some v, _ => .ok (List.ofFn v.mean)
  | none, some c => do
    let cov ← npInv c.prec
    .ok (List.ofFn (cov *ᵥ c.h))
  | none, none => .error .assertionError

/-- The loop of `_argmin` (gaussian_mixture.py 509-517). The potentials are read from the canonical forms; that the
covariance forms get cached is left out. -/
noncomputable def argminLoop (min : Minimizer) (a : Mix) : List AnyG → Option (ℝ × List ℝ) → Py (Option (ℝ × List ℝ))
  | [], best => .ok best
  | c :: rest, best => do
    let x0 ← meanOf c
    let (x, success) ← min a.potential x0
    if success then do
      let p ← a.potential x
      match best with
      | none => argminLoop min a rest (some (p, x))
      | some (q, y) => if p < q then argminLoop min a rest (some (p, x)) else argminLoop min a rest (some (q, y))
    else argminLoop min a rest best

/-- `_argmin` (gaussian_mixture.py 494-520). -/
noncomputable def argmin (min : Minimizer) (a : Mix) : Py (List ℝ) := do
  let best ← argminLoop min a a.comps none
  match best with
  | some (_, x) => .ok x
  | none => .error .exception

/-- The truth value of `abs(x - y) <= tol` for two one dimensional arrays of the same length: an array with one entry has
one, longer arrays raise `ValueError` (_factor_utils.py 70). Arrays of different lengths do not occur. -/
noncomputable def arraysClose (tol : ℝ) (x y : List ℝ) : Py Bool :=
  match x, y with
  | [], [] => .ok false
  | [s], [t] => .ok (decide (|s - t| ≤ tol))
  | _, _ => .error .valueError

/-- The inner loop of `remove_duplicate_values` (_factor_utils.py 68-71) for arrays. -/
noncomputable def isDupArray (tol : ℝ) (unique : List (List ℝ)) (x : List ℝ) : Py Bool := do
  let l ← unique.mapM fun u => arraysClose tol u x
  .ok (l.any id)

/-- `remove_duplicate_values` (_factor_utils.py 61-74) for a list of arrays. -/
noncomputable def removeDupArrays (tol : ℝ) (l : List (List ℝ)) : Py (List (List ℝ)) :=
  match l with
  | [] => .error .indexError
  | a :: l => (a :: l).foldlM (fun unique x => do
      let d ← isDupArray tol unique x
      .ok (if d then unique else unique ++ [x])) [a]

/-- The first loop of `_get_inverse_gaussians` (gaussian_mixture.py 588-598): the components of both mixtures afterwards,
the inverse mixture of each component of the numerator, and the locations of their minima. -/
noncomputable def inverseLoop (min : Minimizer) :
    List AnyG → List AnyG → Py (List AnyG × List AnyG × List Mix × List (List ℝ))
  | [], bs => .ok ([], bs, [], [])
  | a :: as, bs => do
    let (bs', a', rs) ← opEach (· - ·) bs a
    let inv ← make rs
    let x ← argmin min inv
    let (as', bs'', invs, xs) ← inverseLoop min as bs'
    .ok (a' :: as', bs'', inv :: invs, x :: xs)

/-- The modes of the quotient (gaussian_mixture.py 600-616). -/
noncomputable def modes (min : Minimizer) (a b : Mix) : List (List ℝ) → Py (List (List ℝ))
  | [] => .ok []
  | x0 :: rest => do
    let (x, success) ← min (fun x => do
      let la ← a.logPotential x
      let lb ← b.logPotential x
      .ok (-1 * (la - lb))) x0
    let xs ← modes min a b rest
    .ok (if success then x :: xs else xs)

/-- `_get_inverse_gaussians` (gaussian_mixture.py 573-617). The list `inverse_gaussian_mixtures` is emptied in every
round of the loop (line 590), so only the mixture for the last component is returned. -/
noncomputable def inverseGaussians (min : Minimizer) (a b : Mix) : Py (Mix × Mix × List Mix × List (List ℝ)) := do
  let (as, bs, invs, xs) ← inverseLoop min a.comps b.comps
  let a' := { a with comps := as }
  let b' := { b with comps := bs }
  let ms ← modes min a' b' xs
  let us ← removeDupArrays (1 / 1000) ms
  .ok (a', b', invs.drop (invs.length - 1), us)

/-- One component of the result of `_gm_division_m1` (gaussian_mixture.py 632-643), for the function
`inv_gm.log_potential`. -/
noncomputable def laplace (hess : Hessian) (vars : List Var) (invLog : List ℝ → Py ℝ) (x : List ℝ) : Py AnyG := do
  let prec ← hess x.length invLog x
  let mean : Fin x.length → ℝ := fun i => x[i]
  let h := prec *ᵥ mean
  let utku := mean ⬝ᵥ prec *ᵥ mean
  let l ← npLog ((1 / (2 * Real.pi)) • prec).det
  let s ← invLog x
  let lw := -(1 / 2) * l * s
  let g ← mkCan vars ⟨prec, h, lw - 1 / 2 * utku + 1 / 2 * l⟩
  .ok ⟨_, g⟩

/-- `_gm_division_m1` (gaussian_mixture.py 619-643): the two mixtures afterwards, and the quotient.
`GaussianMixture(inverse_gaussian_mixtures)` is a mixture of (copies of) mixtures; only its log potential is used. -/
noncomputable def divM1 (min : Minimizer) (hess : Hessian) (a b : Mix) : Py (Mix × Mix × Mix) := do
  let (a', b', invs, us) ← inverseGaussians min a b
  if invs = [] then .error .assertionError
  else do
    let invs ← invs.mapM copy
    let invLog : List ℝ → Py ℝ := fun x => do
      let l ← invs.mapM fun m => m.logPotential x
      .ok (lse l)
    match a'.comps with
    | [] => .error .indexError
    | g :: _ => do
      let ks ← us.mapM (laplace hess g.2.vars invLog)
      let r ← make ks
      .ok (a', b', r)

/-- The cancel methods of `divide` (gaussian_mixture.py 178-182) for mixtures with several components. -/
noncomputable def approxDiv (min : Minimizer) (hess : Hessian) (cm : ℕ) (a b : Mix) : Py (Mix × Mix × Mix) :=
  if cm = 1 then divM1 min hess a b else divM2 a b

end Mix
end Verif
