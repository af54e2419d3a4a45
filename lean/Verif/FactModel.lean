import Verif.MixModel
import Verif.ClusterModel

/-!
# Model of `veroku/factors/experimental/factorised_factor.py`

A factorised factor of Gaussians (the class is written for these, see its TODO notes). Operands of binary
operations are Gaussians, except in `equals`. As in the model of Gaussians, reading parameters may cache a form
or reorder the variables, so operations return the changed operands. Copies made inside a method are dropped
when nothing refers to them afterwards. Operands are treated as different objects; in particular the result of
`multiply` may hold the operand itself, not a copy of it.
-/

namespace Verif
open Matrix Gauss

/-- `FactorizedFactor` (factorised_factor.py 16-39): `_var_names` and `factors`. -/
structure Fact where
  vars : List Var
  factors : List AnyG

namespace Fact

/-- The constructor (factorised_factor.py 24-39). The names come out of a set. -/
noncomputable def make (hs : HashSeed) (gs : List AnyG) : Py Fact := do
  let cs ← gs.mapM Mix.copyG
  .ok ⟨hs.strs.toList (gs.flatMap fun g => g.2.vars), cs⟩

/-- The loop of `joint_distribution` (factorised_factor.py 48-51): the factors afterwards, and the product. -/
noncomputable def jointLoop : AnyG → List AnyG → Py (List AnyG × AnyG)
  | r, [] => .ok ([], r)
  | r, f :: fs => do
    let (_, f', p) ← r.2.multiply f.2
    let (fs', q) ← jointLoop ⟨_, p⟩ fs
    .ok (⟨_, f'⟩ :: fs', q)

/-- `joint_distribution` (factorised_factor.py 41-51): the factor afterwards, and the joint. -/
noncomputable def joint (a : Fact) : Py (Fact × AnyG) :=
  match a.factors with
  | [] => .error .valueError
  | f :: fs => do
    let k ← Mix.copyG f
    let (fs', r) ← jointLoop k fs
    .ok ({ a with factors := f :: fs' }, r)

/-- `copy` (factorised_factor.py 53-63). -/
noncomputable def copy (hs : HashSeed) (a : Fact) : Py Fact := do
  let cs ← a.factors.mapM Mix.copyG
  make hs cs

/-- `_first_factor_with_vars_index` (factorised_factor.py 307-319). -/
def firstIndex (fs : List AnyG) (vars : List Var) : Option ℕ :=
  fs.findIdx? fun f => decide (∀ v ∈ vars, v ∈ f.2.vars)

/-- `multiply` by a Gaussian (factorised_factor.py 65-81): the operand afterwards, and the result. -/
noncomputable def multiply (hs : HashSeed) (a : Fact) (g : AnyG) : Py (AnyG × Fact) := do
  let k ← copy hs a
  match firstIndex k.factors g.2.vars with
  | some i => do
    let f ← pyGet k.factors i
    let (_, g', r) ← f.2.multiply g.2
    .ok (⟨_, g'⟩, { k with factors := k.factors.set i ⟨_, r⟩ })
  | none => .ok (g, { k with factors := k.factors ++ [g] })

/-- The loop of `divide` (factorised_factor.py 94-99) from index `i` on; `many` tells whether there is more than
one factor. The factors afterwards, the operand afterwards, and the index of the factor to delete. -/
noncomputable def findEqual (many : Bool) : List AnyG → AnyG → ℕ → Py (List AnyG × AnyG × Option ℕ)
  | [], g, _ => .ok ([], g, none)
  | f :: fs, g, i => do
    let (f', g', same) ← Gauss.equals (1 / 10000) (1 / 10000) f.2 g.2
    if same && many then .ok (⟨_, f'⟩ :: fs, ⟨_, g'⟩, some i)
    else do
      let (fs', g'', r) ← findEqual many fs ⟨_, g'⟩ (i + 1)
      .ok (⟨_, f'⟩ :: fs', g'', r)

/-- `divide` by a Gaussian (factorised_factor.py 83-104): the factor and the operand afterwards, and the
result. -/
noncomputable def divide (hs : HashSeed) (a : Fact) (g : AnyG) : Py (Fact × AnyG × Fact) := do
  let k ← copy hs a
  let (fs, g, del) ← findEqual (decide (1 < a.factors.length)) a.factors g 0
  match del with
  | some i => .ok ({ a with factors := fs }, g, { k with factors := k.factors.eraseIdx i })
  | none =>
    match firstIndex k.factors g.2.vars with
    | some i => do
      let f ← pyGet k.factors i
      let (_, g', r) ← f.2.divide g.2
      .ok ({ a with factors := fs }, ⟨_, g'⟩, { k with factors := k.factors.set i ⟨_, r⟩ })
    | none => .error .exception

/-- `is_vacuous` (factorised_factor.py 106-121). -/
def isVacuous (a : Fact) : Py Bool :=
  if a.factors.all fun f => f.2.vac then .ok true
  else if a.factors.all fun f => !f.2.vac then .ok false
  else .error .notImplementedError

/-- `distance_from_vacuous` (factorised_factor.py 123-131): the factor afterwards, and the distance. -/
noncomputable def distanceFromVacuous (a : Fact) : Py (Fact × XF ℝ) := do
  let (a, r) ← joint a
  .ok (a, r.2.distanceFromVacuous)

/-- `kl_divergence` (factorised_factor.py 133-143) from a Gaussian. -/
noncomputable def klDivergence (a : Fact) (g : AnyG) : Py (Fact × AnyG × XF ℝ) := do
  let (a, r) ← joint a
  let (_, g', d) ← Gauss.klDivergence r.2 g.2
  .ok (a, ⟨_, g'⟩, d)

/-- `get_cov`, `get_mean` (factorised_factor.py 207-223). -/
noncomputable def getCov (a : Fact) : Py (Fact × Σ k, CovF k) := do
  let (a, r) ← joint a
  let (_, v) ← r.2.getCov
  .ok (a, ⟨_, v⟩)

/-- `_merge_dependent_factors` (factorised_factor.py 225-244), which is called for its effect but has none: the
attribute `varnames` does not exist, so with two or more factors the loop raises. -/
noncomputable def mergeDependent (a : Fact) : Py Unit :=
  match a.factors with
  | [] => .ok ()
  | [f] => do
    let k ← Mix.copyG f
    let _ ← Mix.copyG k
    .ok ()
  | f :: _ :: _ => do
    let _ ← Mix.copyG f
    .error .attributeError

/-- `normalize` (factorised_factor.py 155-165). -/
noncomputable def normalize (hs : HashSeed) (a : Fact) : Py Fact := do
  let k ← copy hs a
  mergeDependent k
  let fs ← k.factors.mapM fun f => do
    let r ← f.2.normalize
    .ok (⟨_, r⟩ : AnyG)
  .ok { k with factors := fs }

/-! ### Marginalize -/

/-- The variables of a factor that are in the set (factorised_factor.py 258-260). -/
def inScope (out : List Var) (f : AnyG) : List Var := f.2.vars.filter (· ∈ out)

/-- The inner loop of `_merge_factors_with_shared_scope` (factorised_factor.py 267-272) for the numbered factors
that follow factor `i`: the product, and the indices already merged. -/
noncomputable def mergeInner (out : List Var) (si : List Var) : AnyG → List ℕ → List (ℕ × AnyG) → Py (AnyG × List ℕ)
  | m, done, [] => .ok (m, done)
  | m, done, (j, f) :: rest =>
    if j ∉ done ∧ ∃ v ∈ si, v ∈ inScope out f then do
      let (_, _, r) ← m.2.multiply f.2
      mergeInner out si ⟨_, r⟩ (done ++ [j]) rest
    else mergeInner out si m done rest

/-- The outer loop (factorised_factor.py 264-273). -/
noncomputable def mergeOuter (out : List Var) : List ℕ → List (ℕ × AnyG) → Py (List AnyG)
  | _, [] => .ok []
  | done, (i, f) :: rest =>
    if i ∈ done then mergeOuter out done rest
    else do
      let (m, done') ← mergeInner out (inScope out f) f done rest
      let ms ← mergeOuter out done' rest
      .ok (m :: ms)

/-- The factors after `_merge_factors_with_shared_scope` (factorised_factor.py 246-274). -/
noncomputable def merge (out : List Var) (fs : List AnyG) : Py (List AnyG) :=
  mergeOuter out [] ((List.range fs.length).zip fs)

/-- The loop over the merged factors in `marginalize` (factorised_factor.py 190-197): the additional log weight
and the marginals. -/
noncomputable def margLoop (hs : HashSeed) (out : List Var) : List AnyG → Py (ℝ × List AnyG)
  | [] => .ok (0, [])
  | f :: fs =>
    if ∀ v ∈ f.2.vars, v ∈ out then do
      let (_, v) ← f.2.getCov
      let (w, rs) ← margLoop hs out fs
      .ok (v.lw + w, rs)
    else do
      let r ← f.2.marginalize hs (hs.strs.toList (inScope out f)) false
      let (w, rs) ← margLoop hs out fs
      .ok (w, ⟨_, r⟩ :: rs)

/-- The result of `marginalize`: a Gaussian or a factorised factor. -/
inductive Res where
  | gauss (g : AnyG)
  | fact (a : Fact)

/-- The end of `marginalize` (factorised_factor.py 198-202). -/
noncomputable def margResult (hs : HashSeed) (w : ℝ) : List AnyG → Py Res
  | [] => .error .indexError
  | [r] => .ok (.gauss ⟨_, r.2.addLogWeight w⟩)
  | r :: rs => do
    let a ← make hs (⟨_, r.2.addLogWeight w⟩ :: rs)
    .ok (.fact a)

/-- `marginalize` (factorised_factor.py 167-202). -/
noncomputable def marginalize (hs : HashSeed) (a : Fact) (vrs : List Var) (keep : Bool := true) : Py Res := do
  let keepVars := Sparse.marginalVars hs a.vars vrs keep
  let out := a.vars.filter (· ∉ keepVars)
  pyGuard .exception (a.factors.any fun f => decide (∃ v ∈ keepVars, v ∈ f.2.vars))
  let k ← copy hs a
  let fs ← merge out k.factors
  let (w, rs) ← margLoop hs out fs
  margResult hs w rs

/-! ### Reduce -/

/-- The loop of `reduce` (factorised_factor.py 290-301): the factors afterwards, the additional log weight and the
reduced factors. -/
noncomputable def reduceLoop (vrs : List Var) (values : List ℝ) : List AnyG → Py (List AnyG × ℝ × List AnyG)
  | [] => .ok ([], 0, [])
  | f :: fs =>
    if sameSet vrs f.2.vars then do
      let p ← f.2.logPotential values (some vrs)
      let (fs', w, rs) ← reduceLoop vrs values fs
      .ok (f :: fs', p + w, rs)
    else if ∃ v ∈ vrs, v ∈ f.2.vars then do
      let ev := CG.subsetEvidence (Dict.ofPairs (vrs.zip values)) f.2.vars
      let (f', r) ← f.2.reduce (Dict.keys ev) (Dict.values ev)
      let (fs', w, rs) ← reduceLoop vrs values fs
      .ok (⟨_, f'⟩ :: fs', w, r :: rs)
    else do
      let r ← Mix.copyG f
      let (fs', w, rs) ← reduceLoop vrs values fs
      .ok (f :: fs', w, r :: rs)

/-- `reduce` (factorised_factor.py 276-305): the factor afterwards, and the result. -/
noncomputable def reduce (hs : HashSeed) (a : Fact) (vrs : List Var) (values : List ℝ) : Py (Fact × Fact) := do
  let (fs, w, rs) ← reduceLoop vrs values a.factors
  match rs with
  | [] => .error .indexError
  | r :: rs => do
    let b ← make hs (⟨_, r.2.addLogWeight w⟩ :: rs)
    .ok ({ a with factors := fs }, b)

/-! ### Comparison -/

/-- The inner loop of `equals` (factorised_factor.py 359-361): how often the factor is found. -/
noncomputable def countRow : AnyG → List AnyG → Py (AnyG × List AnyG × ℕ)
  | f, [] => .ok (f, [], 0)
  | f, g :: gs => do
    let (f', g', same) ← Gauss.equals (1 / 10000) (1 / 10000) f.2 g.2
    let (f'', gs', c) ← countRow ⟨_, f'⟩ gs
    .ok (f'', ⟨_, g'⟩ :: gs', (if same then 1 else 0) + c)

/-- The outer loop of `equals` (factorised_factor.py 357-361). The test that the index was not recorded earlier is
always passed. -/
noncomputable def countAll : List AnyG → List AnyG → Py (List AnyG × List AnyG × ℕ)
  | [], gs => .ok ([], gs, 0)
  | f :: fs, gs => do
    let (f', gs', c) ← countRow f gs
    let (fs', gs'', c') ← countAll fs gs'
    .ok (f' :: fs', gs'', c + c')

/-- `equals` for two factorised factors (factorised_factor.py 337-364): both operands afterwards, and the answer.
The tolerances of the call are not used. -/
noncomputable def equals (a b : Fact) : Py (Fact × Fact × Bool) :=
  if ¬ sameSet b.vars a.vars then .ok (a, b, false)
  else if a.factors.length ≠ b.factors.length then do
    let (a, ra) ← joint a
    let (b, rb) ← joint b
    let (_, _, r) ← Gauss.equals (1 / 10000) (1 / 10000) ra.2 rb.2
    .ok (a, b, r)
  else do
    let (fs, gs, c) ← countAll a.factors b.factors
    .ok ({ a with factors := fs }, { b with factors := gs }, decide (c = a.factors.length))

/-- `equals` for a factorised factor and a Gaussian (factorised_factor.py 348-350). -/
noncomputable def equalsG (hs : HashSeed) (a : Fact) (g : AnyG) : Py (Fact × Bool) := do
  let b ← make hs [g]
  let (a, _, r) ← equals a b
  .ok (a, r)

end Fact
end Verif
