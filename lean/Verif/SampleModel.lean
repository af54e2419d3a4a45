import Verif.SigmaModel
import Verif.MixModel
import Verif.NlgMixModel

/-!
# Model of the `sample` methods

The random numbers are an argument: the numbers `numpy.random` would return. An array of samples is the list of its
columns, one for each sample.
-/

namespace Verif
open Matrix Gauss

/-- `Gaussian.sample` (gaussian.py 633-647): the factor afterwards, and the samples. The argument lists the columns
of the array of standard normal numbers (line 642), as many as there are samples asked for. -/
noncomputable def Gauss.sample {d : ℕ} (a : Gauss d) (Z : List (Fin d → ℝ)) : Py (Gauss d × List (Fin d → ℝ)) := do
  let (a, v) ← a.getCov
  let chol ← Sigma.npChol v.cov
  .ok (a, Z.map fun z => chol *ᵥ z + v.mean)

/-- `np.cumsum`. -/
noncomputable def npCumsum (p : List ℝ) : List ℝ := (List.range p.length).map fun i => (p.take (i + 1)).sum

/-- `np.random.choice(range(len(p)), p=p)` for one uniform number `u` from `[0, 1)`: numpy rejects probabilities that
are negative or do not sum to one, and an empty range, and returns `cdf.searchsorted(u, side='right')`, which is the
number of entries that are not greater than `u`, for `cdf` the cumulative sums divided by the last one.
(numpy tests the sum up to a tolerance; here it is exact.) -/
noncomputable def npChoice (p : List ℝ) (u : ℝ) : Py ℕ :=
  if p = [] then .error .valueError
  else if ∃ t ∈ p, t < 0 then .error .valueError
  else if p.sum ≠ 1 then .error .valueError
  else
    let cdf := npCumsum p
    let cdf := cdf.map fun t => t / cdf.getLast?.getD 0
    .ok (cdf.countP fun t => decide (t ≤ u))

/-- One sample of a component, as a column of the dimension of the mixture: columns of other lengths cannot be
concatenated (gaussian_mixture.py 374-375). -/
noncomputable def Mix.sampleG (n : ℕ) (g : AnyG) (z : Fin n → ℝ) : Py (AnyG × (Fin n → ℝ)) := do
  if h : g.1 = n then do
    let (g', l) ← g.2.sample [h ▸ z]
    match l with
    | [y] => .ok (⟨g.1, g'⟩, h ▸ y)
    | _ => .error .valueError
  else .error .valueError

/-- The loop over the chosen components (gaussian_mixture.py 373-374), with the numbers each of them draws: the
components afterwards, and the samples. -/
noncomputable def Mix.sampleLoop (n : ℕ) : List AnyG → List (ℕ × (Fin n → ℝ)) → Py (List AnyG × List (Fin n → ℝ))
  | cs, [] => .ok (cs, [])
  | cs, (i, z) :: rest =>
    match cs[i]? with
    | none => .error .indexError
    | some c => do
      let (c', y) ← Mix.sampleG n c z
      let (cs', ys) ← Mix.sampleLoop n (cs.set i c') rest
      .ok (cs', y :: ys)

/-- `GaussianMixture.sample` (gaussian_mixture.py 306-316, 358-375): the mixture afterwards, and the samples. The
argument lists, for each sample, the uniform number that chooses the component and the normal numbers the component
draws. `np.concatenate` raises for an empty list. -/
noncomputable def Mix.sample (a : Mix) (ω : List (ℝ × (Fin a.vars.length → ℝ))) :
    Py (Mix × List (Fin a.vars.length → ℝ)) := do
  let l ← a.comps.mapM Mix.readG
  let weights := l.map fun p => Real.exp p.2.2.lw
  let idx ← ω.mapM fun p => npChoice (weights.map fun w => w / weights.sum) p.1
  let (cs, ys) ← Mix.sampleLoop a.vars.length (l.map fun p => ⟨p.1, p.2.1⟩) (idx.zip (ω.map Prod.snd))
  if ys = [] then .error .valueError else .ok ({ a with comps := cs }, ys)

/-- `NonLinearGaussian.sample` (nonlinear_gaussian.py 441-452): the factor afterwards, and the samples. The normal
numbers are given for every dimension, the joint distribution decides which ones are used. -/
noncomputable def NLG.sample (hs : HashSeed) (a : NLG) (Z : ∀ k, List (Fin k → ℝ)) :
    Py (NLG × Σ k, List (Fin k → ℝ)) := do
  let a ← a.recompute hs
  let (j, ys) ← a.joint.2.sample (Z a.joint.1)
  .ok ({ a with joint := ⟨_, j⟩ }, ⟨_, ys⟩)

/-- `np.concatenate` along the first axis, of two arrays with the same number of columns. -/
def npConcat0 (A B : Σ k, List (Fin k → ℝ)) : Py (Σ k, List (Fin k → ℝ)) :=
  if A.2.length = B.2.length then .ok ⟨A.1 + B.1, List.zipWith Fin.append A.2 B.2⟩ else .error .valueError

/-- The loop in `NonLinearGaussianMixture.sample` (nonlinear_gaussian.py 628-632): the factors afterwards, and the array
of each of them. -/
noncomputable def NlgMix.sampleAll (hs : HashSeed) :
    List NLG → (ℕ → ∀ k, List (Fin k → ℝ)) → Py (List NLG × List (Σ k, List (Fin k → ℝ)))
  | [], _ => .ok ([], [])
  | f :: fs, Z => do
    let (f', y) ← f.sample hs (Z 0)
    let (fs', ys) ← NlgMix.sampleAll hs fs fun i => Z (i + 1)
    .ok (f' :: fs', y :: ys)

/-- `NonLinearGaussianMixture.sample` (nonlinear_gaussian.py 617-633): the mixture afterwards, and the arrays of its
factors concatenated along the first axis. -/
noncomputable def NlgMix.sample (hs : HashSeed) (a : NlgMix) (Z : ℕ → ∀ k, List (Fin k → ℝ)) :
    Py (NlgMix × Σ k, List (Fin k → ℝ)) := do
  let (fs, ys) ← NlgMix.sampleAll hs a.nlgs Z
  match ys with
  | [] => .error .valueError
  | y :: ys => do
    let r ← ys.foldlM npConcat0 y
    .ok ({ a with nlgs := fs }, r)

end Verif
