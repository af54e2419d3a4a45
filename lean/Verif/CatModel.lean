import Verif.Tensor
import Verif.SparseModel

/-!
# Model of `veroku/factors/categorical.py`

Assignment names are ints or strings. Probabilities given to the constructor are reals. Argument type
checks (`isinstance`) are not modelled: operands are always dense factors.
-/

namespace Verif

/-- A name of a variable's value (categorical.py 136-143): default names are ints. -/
inductive AName
  | int (n : Nat)
  | str (s : String)
  deriving DecidableEq, Repr

/-- `Categorical` object state (categorical.py 121-146): `_var_names`, `log_probs_tensor`, `var_cards`
(with `cardinalities` as its values), `vars_assignments_names_dict`. -/
structure Cat (K : Type) where
  vars : List Var
  tensor : Tensor (XF K)
  varCards : Dict Var Nat
  names : Dict Var (List AName)

namespace Cat
variable {K : Type}

/-- The name handling at the end of the constructor (categorical.py 131-146). -/
def mkNames (vars : List Var) (cards : List Nat) (names : Option (List (List AName))) :
    Py (Dict Var (List AName)) :=
  match names with
  | none => .ok (Dict.ofPairs ((vars.zip cards).map fun e => (e.1, (List.range e.2).map AName.int)))
  | some ns => do
    pyAssert (ns.length == vars.length)
    let l ← (vars.zip (ns.zip cards)).mapM fun e => do
      pyAssert (e.2.2 == e.2.1.dedup.length)
      .ok (e.1, e.2.1)
    .ok (Dict.ofPairs l)

/-- `__init__` with `log_probs_tensor` (categorical.py 60-146; duplicate check from _factor.py 22-23).
`cardinalities` optional. -/
def ofTensor (vars : List Var) (t : Tensor (XF K)) (cards : Option (List Nat) := none)
    (names : Option (List (List AName)) := none) : Py (Cat K) := do
  pyGuard .valueError (vars.dedup.length == vars.length)
  let cs ← match cards with
    | none => .ok t.shape
    | some cs => do
      pyGuard .valueError (cs.length == vars.length)
      .ok cs
  pyGuard .valueError (t.ndim == vars.length)
  let nd ← mkNames vars cs names
  .ok ⟨vars, t, Dict.ofPairs (vars.zip cs), nd⟩

/-- `__init__` with `probs_table` (categorical.py 60-146). -/
noncomputable def ofTable (vars : List Var) (cards : List Nat) (table : Dict (List Int) ℝ)
    (names : Option (List (List AName)) := none) : Py (Cat ℝ) := do
  pyGuard .valueError (vars.dedup.length == vars.length)
  pyGuard .valueError (cards.length == vars.length)
  let pt ← table.foldlM (fun t e => Tensor.setIndex t e.1 e.2) (⟨cards, fun _ => (0 : ℝ)⟩ : Tensor ℝ)
  let nd ← mkNames vars cards names
  .ok ⟨vars, pt.map fun p => XF.log (.fin p), Dict.ofPairs (vars.zip cards), nd⟩

/-- The list of names in a given order, as in `[self.vars_assignments_names_dict[v] for v in vs]`
(categorical.py 183, 213, 280, 301, 340, 373, 395, 494). -/
def namesOf (d : Dict Var (List AName)) (vs : List Var) : Py (List (List AName)) :=
  vs.mapM (Dict.getItem d)

/-- `copy` (categorical.py 206-218). -/
def copy (f : Cat K) : Py (Cat K) := do
  let ns ← namesOf f.names f.vars
  ofTensor f.vars f.tensor none (some ns)

/-- `reorder` (categorical.py 148-184). -/
def reorder (f : Cat K) (newVars : List Var) : Py (Cat K) :=
  if newVars = f.vars then f.copy
  else do
    pyGuard .valueError (decide (∀ v ∈ newVars, v ∈ f.vars) && decide (∀ v ∈ f.vars, v ∈ newVars))
    let idx ← newVars.mapM (pyIndex f.vars)
    let t ← f.tensor.transpose idx
    let ns ← namesOf f.names newVars
    ofTensor newVars t none (some ns)

/-- `equals` (categorical.py 186-204) for a dense argument. -/
noncomputable def equals (rtol atol : ℝ) (f g : Cat ℝ) : Py Bool :=
  if ¬ ((∀ v ∈ f.vars, v ∈ g.vars) ∧ (∀ v ∈ g.vars, v ∈ f.vars)) then .ok false
  else do
    let g' ← g.reorder f.vars
    let t ← Tensor.zipOp (XF.isclose rtol atol) f.tensor g'.tensor
    .ok (t.entries.all id)

/-- `tensor_operation` (categorical.py 220-265). -/
def tensorOp (a b : Tensor (XF K)) (av bv : List Var) (op : XF K → XF K → XF K) :
    Py (Tensor (XF K) × List Var) :=
  if av = bv then do
    let r ← Tensor.zipOp op a b
    .ok (r, av)
  else do
    let rem1 := av.filter (fun v => ¬ (v ∈ av ∧ v ∈ bv))
    let rem2 := bv.filter (fun v => ¬ (v ∈ av ∧ v ∈ bv))
    let common := av.filter (fun v => v ∈ av ∧ v ∈ bv)
    let i1 ← (rem1 ++ common).mapM (pyIndex av)
    let t1 ← a.transpose i1
    let s1 := t1.expandDims (List.range rem2.length)
    let i2 ← (rem2 ++ common).mapM (pyIndex bv)
    let t2 ← b.transpose i2
    let s2 := t2.expandDims (List.range' rem2.length rem1.length)
    let r ← Tensor.zipOp op s1 s2
    .ok (r, rem2 ++ rem1 ++ common)

/-- `get_marginal_vars` (_factor.py 49-62) and `marginalize` (categorical.py 267-283). -/
noncomputable def marginalize (hs : HashSeed) (f : Cat ℝ) (vrs : List Var) (keep : Bool := true) :
    Py (Cat ℝ) := do
  let keepVars := Sparse.marginalVars hs f.vars vrs keep
  let out := f.vars.filter (· ∉ keepVars)
  let idx ← out.mapM (pyIndex f.vars)
  let t ← f.tensor.applyOverAxes idx
  let ns ← namesOf f.names keepVars
  ofTensor keepVars t.squeeze none (some ns)

/-- The index tuple of `reduce` and `potential` (categorical.py 295-299, 510). -/
def obsIndex (vars vrs : List Var) (values : List Int) : List (Option Int) :=
  let obs := Dict.ofPairs (vrs.zip values)
  vars.map fun v => Dict.get? obs v

/-- `reduce` (categorical.py 285-305). -/
def reduce (f : Cat K) (vrs : List Var) (values : List Int) : Py (Cat K) := do
  let unobs := f.vars.filter (· ∉ vrs)
  let t ← f.tensor.index (obsIndex f.vars vrs values)
  let ns ← namesOf f.names unobs
  ofTensor unobs t none (some ns)

/-- `_assert_consistent_cardinalities` (categorical.py 307-318). -/
def assertCards (f g : Cat K) : Py Unit :=
  f.vars.forM fun v => match Dict.get? g.varCards v with
    | none => .ok ()
    | some c => do
      let d ← Dict.getItem f.varCards v
      pyAssert (d == c)

/-- `_check_consistent_assignment_names` (categorical.py 40-52): the order of the loop over the union
of the keys does not matter as every failure raises the same exception. -/
def checkNames (a b : Dict Var (List AName)) : Py Unit :=
  (Dict.keys a ++ Dict.keys b).forM fun v => match Dict.get? a v, Dict.get? b v with
    | some x, some y => pyGuard .inconsistentNames (x == y)
    | _, _ => .ok ()

/-- `multiply` (categorical.py 320-344). -/
def multiply [Add K] (f g : Cat K) : Py (Cat K) := do
  assertCards f g
  let r ← tensorOp f.tensor g.tensor f.vars g.vars XF.add
  checkNames f.names g.names
  let ns ← namesOf (Dict.merge f.names g.names) r.2
  ofTensor r.2 r.1 none (some ns)

/-- The 0/0 patch at the start of `cancel` (categorical.py 359-368): `np.where` on the two tensors as
they are, without aligning the variables, and item assignment through the resulting index tuple. -/
def patchDivisor [DecidableEq K] [Zero K] (self g : Tensor (XF K)) : Py (Tensor (XF K)) := do
  let m ← Tensor.zipOp (fun a b => XF.eq a .ninf && XF.eq b .ninf) g self
  let special := (productRange m.shape).filter fun i => m.get i
  if special = [] then .ok g
  else if m.ndim = 0 ∨ g.ndim < m.ndim then .error .indexError
  else if special.all fun i => (List.zipWith (fun a b => decide (a < b)) i g.shape).all id then
    .ok ⟨g.shape, fun i => if i ∈ special then .fin 0 else g.get i⟩
  else .error .indexError

/-- `cancel` (categorical.py 346-376). -/
def cancel [DecidableEq K] [Zero K] [Sub K] (f g : Cat K) : Py (Cat K) := do
  let gt ← patchDivisor f.tensor g.tensor
  let r ← tensorOp f.tensor gt f.vars g.vars XF.sub
  checkNames f.names g.names
  let ns ← namesOf f.names r.2
  ofTensor r.2 r.1 none (some ns)

/-- `divide` (categorical.py 378-398). -/
def divide [Sub K] (f g : Cat K) : Py (Cat K) := do
  assertCards f g
  let r ← tensorOp f.tensor g.tensor f.vars g.vars XF.sub
  checkNames f.names g.names
  let ns ← namesOf f.names r.2
  ofTensor r.2 r.1 none (some ns)

/-- `argmax` (categorical.py 400-411). -/
def argmax [LT K] [DecidableLT K] (f : Cat K) : Py (List Nat) := do
  let i ← Tensor.argmaxFlat f.tensor.entries
  .ok (Tensor.unravel i f.tensor.shape)

/-- `argmax_assignment_names` (categorical.py 413-424). -/
def argmaxNames [LT K] [DecidableLT K] (f : Cat K) : Py (List AName) := do
  let i ← Tensor.argmaxFlat f.tensor.entries
  (f.vars.zip (Tensor.unravel i f.tensor.shape)).mapM fun e => do
    let ns ← Dict.getItem f.names e.1
    pyGet ns e.2

/-- `normalize` (categorical.py 426-436). -/
noncomputable def normalize (f : Cat ℝ) : Py (Cat ℝ) := do
  let c ← f.copy
  let logz ← XF.logsumexp f.tensor.entries
  .ok { c with tensor := c.tensor.map fun a => XF.sub a logz }

/-- `_raw_kld` (categorical.py 438-452). -/
noncomputable def rawKld (p q : Tensor (XF ℝ)) : Py (XF ℝ) := do
  let t ← Tensor.zipOp Sparse.kldElement p q
  .ok (XF.sum t.entries)

/-- `kl_divergence` (categorical.py 454-482). -/
noncomputable def klDivergence (f g : Cat ℝ) (normalizeFactor : Bool := true) : Py (XF ℝ) := do
  checkNames f.names g.names
  let p ← f.normalize
  let p ← p.reorder g.vars
  let q ← if normalizeFactor then g.normalize else .ok g
  let kld ← rawKld p.tensor q.tensor
  if XF.lt kld (.fin 0) then
    if XF.isclose (1/100000) (1/10000) kld (.fin 0) then .ok (.fin 0) else .error .valueError
  else .ok kld

/-- `distance_from_vacuous` (categorical.py 484-499). -/
noncomputable def distanceFromVacuous (f : Cat ℝ) : Py (XF ℝ) := do
  let lp := XF.neg (XF.log (.fin (f.tensor.shape.prod : ℕ)))
  let ns ← namesOf f.names f.vars
  let u ← ofTensor f.vars ⟨f.tensor.shape, fun _ => XF.mul (.fin 1) lp⟩ none (some ns)
  klDivergence f u false

/-- `potential` up to the final `np.exp` (categorical.py 501-511); the result is an array because
variables without a value are sliced. -/
def logPotential (f : Cat K) (vrs : List Var) (assignment : List Int) : Py (Tensor (XF K)) := do
  pyAssert (decide (∀ v ∈ vrs, v ∈ f.vars) && decide (∀ v ∈ f.vars, v ∈ vrs))
  f.tensor.index (obsIndex f.vars vrs assignment)

/-- `potential` (categorical.py 501-511). -/
noncomputable def potential (f : Cat ℝ) (vrs : List Var) (assignment : List Int) :
    Py (Tensor (XF ℝ)) := do
  let t ← f.logPotential vrs assignment
  .ok (t.map XF.exp)

end Cat
end Verif
