import Verif.SparseModel
import Mathlib.LinearAlgebra.Matrix.NonsingularInverse
import Mathlib.LinearAlgebra.Matrix.Trace
import Mathlib.Data.Matrix.Block
import Mathlib.Analysis.SpecialFunctions.Complex.Log
import Mathlib.Analysis.Real.Sqrt

/-!
# Model of `veroku/factors/gaussian.py`

Floating point numbers are real numbers. A `d × d` array is a `Matrix (Fin d) (Fin d) ℝ`, a column
vector a function on `Fin d`; conversions of scalars and lists to such arrays (`make_square_matrix`,
`make_column_vector`, `make_scalar`, _factor_utils.py 76-166) are not modelled. `np.linalg.inv` raises for
singular matrices only; `np.log` of a number that is not positive is not a real number, and the model
stops there (`PyErr.nan`).

A `Gaussian` object caches its two parameter forms lazily, so the accessors change the object. Every
method that can change an operand returns the changed operand beside its result.
-/

namespace Verif
open Matrix

/-! ### numpy -/

/-- `np.linalg.inv`, and `inv_matrix` (_factor_utils.py 330-342). -/
noncomputable def npInv {n : ℕ} (m : Matrix (Fin n) (Fin n) ℝ) : Py (Matrix (Fin n) (Fin n) ℝ) :=
  if m.det = 0 then .error .linAlgError else .ok m⁻¹

/-- `np.log` -/
noncomputable def npLog (x : ℝ) : Py ℝ := if x ≤ 0 then .error .nan else .ok (Real.log x)

/-- `_factor_utils.log` (_factor_utils.py 345-356). -/
noncomputable def utilsLog (x : ℝ) : Py ℝ := if x < 0 then .error .warning else npLog x

/-- `np.linalg.det(2.0 * np.pi * mat)` -/
noncomputable def det2pi {n : ℕ} (m : Matrix (Fin n) (Fin n) ℝ) : ℝ := ((2 * Real.pi) • m).det

/-- `np.isclose(x, y, rtol, atol)` for finite numbers. -/
noncomputable def iscloseR (rtol atol x y : ℝ) : Bool := decide (|x - y| ≤ atol + rtol * |y|)

/-- `np.allclose` for vectors. -/
noncomputable def allcloseV {n : ℕ} (rtol atol : ℝ) (x y : Fin n → ℝ) : Bool :=
  decide (∀ i, iscloseR rtol atol (x i) (y i))

/-- `np.allclose` for matrices. -/
noncomputable def allcloseM {n : ℕ} (rtol atol : ℝ) (x y : Matrix (Fin n) (Fin n) ℝ) : Bool :=
  decide (∀ i j, iscloseR rtol atol (x i j) (y i j))

/-- `is_pos_def` (_factor_utils.py 52-59): every (complex) eigenvalue `z` satisfies numpy's
`z > 0`, which compares complex numbers lexicographically. -/
def IsPosDef {n : ℕ} (m : Matrix (Fin n) (Fin n) ℝ) : Prop :=
  ∀ (z : ℂ) (v : Fin n → ℂ), v ≠ 0 → m.map (fun r : ℝ => (r : ℂ)) *ᵥ v = z • v →
    0 < z.re ∨ z.re = 0 ∧ 0 < z.im

/-! ### The object -/

/-- Canonical form parameters `prec`, `h_vec`, `g_val`. -/
structure Can (n : ℕ) where
  prec : Matrix (Fin n) (Fin n) ℝ
  h : Fin n → ℝ
  g : ℝ

/-- Covariance form parameters `cov`, `mean`, `log_weight`. -/
structure CovF (n : ℕ) where
  cov : Matrix (Fin n) (Fin n) ℝ
  mean : Fin n → ℝ
  lw : ℝ

/-- `Gaussian` (gaussian.py 134-205) with `_dim = n`. `can` is `none` when the flag `canform` is false,
`cov` is `none` when `covform` is false (stale values left in the attributes are never read). -/
structure Gauss (n : ℕ) where
  /-- `_var_names` -/
  vars : List Var
  can : Option (Can n)
  cov : Option (CovF n)
  /-- `_is_vacuous` -/
  vac : Bool

namespace Gauss
variable {n m : ℕ}

open Classical in
/-- The parameters are reported vacuous (gaussian.py 774-778): `np.allclose(prec, 0.0)` with the default
tolerances of numpy, and not positive definite. -/
noncomputable def vacParams (prec : Matrix (Fin n) (Fin n) ℝ) : Bool :=
  decide ((∀ i j, |prec i j| ≤ 1 / 100000000) ∧ ¬ IsPosDef prec)

/-- The constructor with covariance form parameters (gaussian.py 162-177; `Factor.__init__`,
_factor.py 18-29). -/
def mkCov (vars : List Var) (p : CovF n) : Py (Gauss n) :=
  if ¬ vars.Nodup then .error .valueError
  else if n ≠ vars.length then .error .assertionError
  else .ok ⟨vars, none, some p, false⟩

/-- The constructor with canonical form parameters (gaussian.py 162-166, 178-205). -/
noncomputable def mkCan (vars : List Var) (p : Can n) : Py (Gauss n) :=
  if ¬ vars.Nodup then .error .valueError
  else if n ≠ vars.length then .error .assertionError
  else .ok ⟨vars, some p, none, vacParams p.prec⟩

/-- `make_vacuous` (gaussian.py 207-226). -/
noncomputable def makeVacuous (vars : List Var) (g : ℝ := 0) : Py (Gauss vars.length) :=
  mkCan vars ⟨0, 0, g⟩

/-- `make_std_gaussian` (gaussian.py 55-69). -/
def makeStd (vars : List Var) : Py (Gauss vars.length) := do
  pyAssert (!vars.isEmpty)
  mkCov vars ⟨1, 0, 0⟩

/-- `copy` (gaussian.py 780-817). -/
noncomputable def copy (a : Gauss n) : Py (Gauss n) :=
  match a.cov, a.can with
  | some v, some c => do
    let k ← mkCov a.vars v
    .ok { k with can := some c }
  | some v, none => mkCov a.vars v
  | none, some c => mkCan a.vars c
  | none, none => .error .exception

/-- The parameters computed by `_update_canform` (gaussian.py 557-564). -/
noncomputable def canParams (v : CovF n) : Py (Can n) := do
  let prec ← npInv v.cov
  let h := prec *ᵥ v.mean
  let utku := v.mean ⬝ᵥ prec *ᵥ v.mean
  let l ← utilsLog (det2pi v.cov)
  .ok ⟨prec, h, v.lw - 1 / 2 * utku - 1 / 2 * l⟩

/-- `_update_canform` (gaussian.py 550-565). -/
noncomputable def updateCan (a : Gauss n) : Py (Gauss n) :=
  match a.can with
  | some _ => .ok a
  | none =>
    match a.cov with
    | none => .error .assertionError
    | some v => do
      let c ← canParams v
      .ok { a with can := some c }

/-- The parameters computed by `_update_covform` (gaussian.py 576-582). -/
noncomputable def covParams (c : Can n) : Py (CovF n) := do
  let cov ← npInv c.prec
  let mean := cov *ᵥ c.h
  let utku := mean ⬝ᵥ c.prec *ᵥ mean
  let l ← npLog (det2pi cov)
  .ok ⟨cov, mean, c.g + 1 / 2 * utku + 1 / 2 * l⟩

/-- `_update_covform` (gaussian.py 567-583). -/
noncomputable def updateCov (a : Gauss n) : Py (Gauss n) :=
  if a.vac then .error .exception
  else match a.cov with
  | some _ => .ok a
  | none =>
    match a.can with
    | none => .error .assertionError
    | some c => do
      let v ← covParams c
      .ok { a with cov := some v }

/-- The canonical parameters after `_update_canform`: the common part of `get_prec`, `get_h`, `get_g`
(gaussian.py 325-357). -/
noncomputable def getCan (a : Gauss n) : Py (Gauss n × Can n) := do
  let a' ← updateCan a
  match a'.can with
  | some c => .ok (a', c)
  | none => .error .assertionError

/-- The covariance parameters after `_update_covform`: the common part of `get_cov`, `get_mean`,
`get_log_weight` (gaussian.py 374-406). -/
noncomputable def getCov (a : Gauss n) : Py (Gauss n × CovF n) := do
  let a' ← updateCov a
  match a'.cov with
  | some v => .ok (a', v)
  | none => .error .assertionError

/-- `get_weight` (gaussian.py 473-480). -/
noncomputable def getWeight (a : Gauss n) : Py (Gauss n × ℝ) := do
  let (a', v) ← getCov a
  .ok (a', Real.exp v.lw)

/-- `_cov_exists` (gaussian.py 359-372). -/
noncomputable def covExists (a : Gauss n) : Bool :=
  match a.cov, a.can with
  | some _, _ => true
  | none, some c => decide (c.prec.det ≠ 0)
  | none, none => false

/-! ### Reordering -/

/-- The loop `new[order[i]] = old[i]` (gaussian.py 244-246, 254-256). -/
def scatterV (ord : Fin n → Fin n) (x : Fin n → ℝ) : Fin n → ℝ :=
  (List.finRange n).foldl (fun acc i => Function.update acc (ord i) (x i)) 0

/-- The loop `new[order[i], order[j]] = old[i, j]` (gaussian.py 245-248, 255-258). -/
def scatterM (ord : Fin n → Fin n) (x : Matrix (Fin n) (Fin n) ℝ) : Matrix (Fin n) (Fin n) ℝ :=
  (product2 (List.finRange n) (List.finRange n)).foldl
    (fun acc ij => Function.update acc (ord ij.1) (Function.update (acc (ord ij.1)) (ord ij.2) (x ij.1 ij.2))) 0

/-- `set(a) == set(b)` -/
def sameSet (a b : List Var) : Bool := decide (∀ v, v ∈ a ++ b → v ∈ a ∧ v ∈ b)

/-- `_reorder_parameters` (gaussian.py 228-261). -/
def reorder (a : Gauss n) (new : List Var) : Py (Gauss n) :=
  if new = a.vars then .ok a
  else if ¬ sameSet new a.vars then .error .assertionError
  else if h : a.vars.length = n ∧ ∀ v ∈ a.vars, new.idxOf v < n then
    let ord : Fin n → Fin n := fun i =>
      ⟨new.idxOf (a.vars[i.1]'(h.1.symm ▸ i.2)), h.2 _ (List.getElem_mem _)⟩
    .ok ⟨new, a.can.map fun c => ⟨scatterM ord c.prec, scatterV ord c.h, c.g⟩,
      a.cov.map fun v => ⟨scatterM ord v.cov, scatterV ord v.mean, v.lw⟩, a.vac⟩
  else .error .indexError

/-! ### Evaluation -/

/-- A list of numbers as a column vector of length `n`; numpy raises `ValueError` in the matrix products if
the length is different (broadcasting of a single number is not modelled). -/
def toVec (n : ℕ) (l : List ℝ) : Py (Fin n → ℝ) :=
  if h : l.length = n then .ok fun i => l[i.1]'(h ▸ i.2) else .error .valueError

/-- The covariance form log potential (gaussian.py 848-851). -/
noncomputable def evalCov (v : CovF n) (x : Fin n → ℝ) : Py ℝ := do
  let l ← npLog (det2pi v.cov)
  let prec ← npInv v.cov
  .ok (v.lw - 1 / 2 * l + (-1 / 2) * ((v.mean - x) ⬝ᵥ prec *ᵥ (v.mean - x)))

/-- The canonical form log potential (gaussian.py 852-853). -/
noncomputable def evalCan (c : Can n) (x : Fin n → ℝ) : ℝ :=
  (-1 / 2) * (x ⬝ᵥ c.prec *ᵥ x) + x ⬝ᵥ c.h + c.g

/-- The values given for the names `vrs`, in the order of the factor (gaussian.py 840-846). -/
def alignValues (vars : List Var) (x : List ℝ) : Option (List Var) → Py (List ℝ)
  | none => .ok x
  | some vrs => do
    pyAssert (sameSet vrs vars)
    pyAssert (x.length == vars.length)
    vars.mapM fun v => do
      let i ← pyIndex vrs v
      pyGet x i

/-- `log_potential` (gaussian.py 829-854). With both forms cached the covariance form value is computed
and then replaced. -/
noncomputable def logPotential (a : Gauss n) (x : List ℝ) (vrs : Option (List Var) := none) : Py ℝ := do
  let xs ← alignValues a.vars x vrs
  let y ← toVec n xs
  match a.cov, a.can with
  | some v, some c => do
    let _ ← evalCov v y
    .ok (evalCan c y)
  | some v, none => evalCov v y
  | none, some c => .ok (evalCan c y)
  | none, none => .error .unboundLocalError

/-- `potential` (gaussian.py 819-827). -/
noncomputable def potential (a : Gauss n) (x : List ℝ) : Py ℝ := do
  let l ← logPotential a x
  .ok (Real.exp l)

/-! ### Multiply and divide -/

/-- The variables of the result of an indexed operation (_factor_utils.py 209-215, 273-279). -/
def opVars (va vb : List Var) : List Var :=
  if ∀ v ∈ vb, v ∈ va then va
  else if ∀ v ∈ va, v ∈ vb then vb
  else pySorted (vb ++ va).dedup

/-- The entry of a matrix for a pair of names, zero if a name is absent (_factor_utils.py 221-226). -/
def entryM (m : Matrix (Fin n) (Fin n) ℝ) (vs : List Var) (hn : vs.length = n) (v w : Var) : ℝ :=
  if h : v ∈ vs ∧ w ∈ vs then
    m ⟨vs.idxOf v, hn ▸ List.idxOf_lt_length_of_mem h.1⟩ ⟨vs.idxOf w, hn ▸ List.idxOf_lt_length_of_mem h.2⟩
  else 0

/-- The entry of a vector for a name, zero if it is absent (_factor_utils.py 284-289). -/
def entryV (x : Fin n → ℝ) (vs : List Var) (hn : vs.length = n) (v : Var) : ℝ :=
  if h : v ∈ vs then x ⟨vs.idxOf v, hn ▸ List.idxOf_lt_length_of_mem h⟩ else 0

/-- `indexed_square_matrix_operation` (_factor_utils.py 169-229); the result's variables are
`opVars va vb`. -/
def indexedMat (a : Matrix (Fin n) (Fin n) ℝ) (b : Matrix (Fin m) (Fin m) ℝ) (va vb : List Var)
    (op : ℝ → ℝ → ℝ) : Py (Matrix (Fin (opVars va vb).length) (Fin (opVars va vb).length) ℝ) :=
  if h : va.length = n ∧ vb.length = m then
    .ok fun i j =>
      op (entryM a va h.1 (opVars va vb)[i] (opVars va vb)[j])
        (entryM b vb h.2 (opVars va vb)[i] (opVars va vb)[j])
  else .error .assertionError

/-- `indexed_column_vector_operation` (_factor_utils.py 232-292). -/
def indexedVec (a : Fin n → ℝ) (b : Fin m → ℝ) (va vb : List Var)
    (op : ℝ → ℝ → ℝ) : Py (Fin (opVars va vb).length → ℝ) :=
  if h : va.length = n ∧ vb.length = m then
    .ok fun i => op (entryV a va h.1 (opVars va vb)[i]) (entryV b vb h.2 (opVars va vb)[i])
  else .error .assertionError

/-- `_absorb_or_cancel` (gaussian.py 605-631): the two operands afterwards, and the result. -/
noncomputable def absorbOrCancel (op : ℝ → ℝ → ℝ) (a : Gauss n) (b : Gauss m) :
    Py (Gauss n × Gauss m × Gauss (opVars a.vars b.vars).length) := do
  let (a', ca) ← getCan a
  let (b', cb) ← getCan b
  let prec ← indexedMat ca.prec cb.prec a.vars b.vars op
  let h ← indexedVec ca.h cb.h a.vars b.vars op
  let r ← mkCan (opVars a.vars b.vars) ⟨prec, h, op ca.g cb.g⟩
  .ok (a', b', r)

/-- `multiply` (gaussian.py 585-594). -/
noncomputable def multiply (a : Gauss n) (b : Gauss m) :
    Py (Gauss n × Gauss m × Gauss (opVars a.vars b.vars).length) := absorbOrCancel (· + ·) a b

/-- `divide` (gaussian.py 596-603); also `cancel` (_factor.py 143-152). -/
noncomputable def divide (a : Gauss n) (b : Gauss m) :
    Py (Gauss n × Gauss m × Gauss (opVars a.vars b.vars).length) := absorbOrCancel (· - ·) a b

/-! ### Marginalize and reduce -/

/-- `[self.var_names.index(v) for v in vs]`, used as row or column numbers of an `n × n` array. -/
def positions (vars : List Var) (n : ℕ) (vs : List Var) : Py (Fin vs.length → Fin n) :=
  if ¬ ∀ v ∈ vs, v ∈ vars then .error .valueError
  else if h : ∀ v ∈ vs, vars.idxOf v < n then
    .ok fun i => ⟨vars.idxOf vs[i], h _ (List.getElem_mem _)⟩
  else .error .indexError

/-- `_canform_marginalise` (gaussian.py 482-504). -/
noncomputable def canMarginalize (vars : List Var) (c : Can n) (keep out : List Var) :
    Py (Gauss keep.length) := do
  let xx ← positions vars n keep
  let yy ← positions vars n out
  let precXX := c.prec.submatrix xx xx
  let precXY := c.prec.submatrix xx yy
  let precYX := precXYᵀ
  let precYY := c.prec.submatrix yy yy
  let invYY ← npInv precYY
  let hx := c.h ∘ xx
  let hy := c.h ∘ yy
  let q := precXY * invYY
  let prec := precXX - q * precYX
  let h := hx - q *ᵥ hy
  let l ← npLog (det2pi invYY)
  mkCan keep ⟨prec, h, c.g + 1 / 2 * (hy ⬝ᵥ invYY *ᵥ hy + l)⟩

/-- The covariance form branch of `marginalize` (gaussian.py 526-534). -/
noncomputable def covMarginalize (vars : List Var) (v : CovF n) (keep : List Var) : Py (Gauss keep.length) := do
  let xx ← positions vars n keep
  mkCov keep ⟨v.cov.submatrix xx xx, v.mean ∘ xx, v.lw⟩

/-- `marginalize` for a list of variables to keep (gaussian.py 518-534). -/
noncomputable def marginalizeTo (hs : HashSeed) (a : Gauss n) (keep : List Var) : Py (Gauss keep.length) :=
  if a.vac then makeVacuous keep
  else match a.can with
  | some c => canMarginalize a.vars c keep (hs.strs.toList (a.vars.filter (· ∉ keep)))
  | none =>
    match a.cov with
    | some v => covMarginalize a.vars v keep
    | none => .error .assertionError

/-- `marginalize` (gaussian.py 506-534). -/
noncomputable def marginalize (hs : HashSeed) (a : Gauss n) (vrs : List Var) (keep : Bool := true) :
    Py (Gauss (Sparse.marginalVars hs a.vars vrs keep).length) :=
  marginalizeTo hs a (Sparse.marginalVars hs a.vars vrs keep)

/-- A Gaussian of any dimension. -/
abbrev AnyG := Σ k, Gauss k

/-- The parameters for the unobserved variables (gaussian.py 660-674). -/
noncomputable def reduceParams {k l : ℕ} (c : Can n) (xx : Fin k → Fin n) (yy : Fin l → Fin n)
    (y : Fin l → ℝ) : Can k where
  prec := c.prec.submatrix xx xx
  h := c.h ∘ xx - c.prec.submatrix xx yy *ᵥ y
  g := c.g + (c.h ∘ yy) ⬝ᵥ y - 1 / 2 * (y ⬝ᵥ c.prec.submatrix yy yy *ᵥ y)

/-- `list(set(self._var_names) - set(vrs))`, sorted (gaussian.py 692-693). -/
def unobserved (vars vrs : List Var) : List Var := pySorted (vars.filter (· ∉ vrs)).dedup

/-- `reduce` (gaussian.py 649-703): the changed factor and the result. When nothing is left unobserved
the parameters `prec_reduced` and `h_reduced` stay the number zero, that is `1 × 1` arrays. -/
noncomputable def reduce (a : Gauss n) (vrs : List Var) (values : List ℝ) : Py (Gauss n × AnyG) := do
  pyAssert (decide (∀ v ∈ vrs, v ∈ a.vars))
  let yy ← positions a.vars n vrs
  let un := unobserved a.vars vrs
  let xx ← positions a.vars n un
  let (a', c) ← getCan a
  let y ← toVec vrs.length values
  let p := reduceParams c xx yy y
  if un = [] then do
    let r ← mkCan (n := 1) un ⟨0, 0, p.g⟩
    .ok (a', ⟨1, r⟩)
  else do
    let r ← mkCan un p
    .ok (a', ⟨_, r⟩)

/-! ### Normalisation and weights -/

/-- `normalize` (gaussian.py 408-419). -/
noncomputable def normalize (a : Gauss n) : Py (Gauss n) := do
  let k ← copy a
  let k ← updateCov k
  match k.cov with
  | some v => .ok ⟨k.vars, none, some { v with lw := 0 }, k.vac⟩
  | none => .error .assertionError

/-- `_invert` (gaussian.py 447-459). -/
noncomputable def invert (a : Gauss n) : Py (Gauss n) :=
  match a.can with
  | none => .error .assertionError
  | some c => do
    let k ← copy a
    .ok ⟨k.vars, some ⟨-c.prec, -c.h, -c.g⟩, none, k.vac⟩

/-- `_add_log_weight` (gaussian.py 461-471). -/
noncomputable def addLogWeight (a : Gauss n) (w : ℝ) : Gauss n :=
  ⟨a.vars, a.can.map fun c => { c with g := c.g + w }, a.cov.map fun v => { v with lw := v.lw + w }, a.vac⟩

/-! ### Comparison -/

/-- `_canform_equals` (gaussian.py 263-274), `c` being the parameters of the factor itself: the argument
afterwards, and the answer. -/
noncomputable def canEquals (rtol atol : ℝ) (vars : List Var) (c : Can n) (b : Gauss n) :
    Py (Gauss n × Bool) := do
  let (b, cb) ← getCan b
  if !iscloseR rtol atol c.g cb.g then .ok (b, false)
  else do
    let b ← reorder b vars
    let (b, cb) ← getCan b
    .ok (b, allcloseV rtol atol c.h cb.h && allcloseM rtol atol c.prec cb.prec)

/-- `_covform_equals` (gaussian.py 276-288), `v` being the parameters of the factor itself. -/
noncomputable def covEquals (rtol atol : ℝ) (vars : List Var) (v : CovF n) (b : Gauss n) :
    Py (Gauss n × Bool) := do
  let (b, w) ← getWeight b
  if !iscloseR rtol atol (Real.exp v.lw) w then .ok (b, false)
  else do
    let b ← reorder b vars
    let (b, vb) ← getCov b
    .ok (b, allcloseV rtol atol v.mean vb.mean && allcloseM rtol atol v.cov vb.cov)

/-- The part of `equals` after the vacuity test (gaussian.py 315-323). -/
noncomputable def equalsForms (rtol atol : ℝ) (a b : Gauss n) : Py (Gauss n × Gauss n × Bool) :=
  match a.can with
  | some c => do
    let (b, r) ← canEquals rtol atol a.vars c b
    .ok (a, b, r)
  | none => do
    let (a, v) ← getCov a
    let (b, r) ← covEquals rtol atol a.vars v b
    .ok (a, b, r)

/-- The copy of the argument, in the order of the factor (gaussian.py 310-312). -/
noncomputable def equalsCopy (vars : List Var) (b : Gauss m) : Py (Gauss m) := do
  let k ← copy b
  if vars ≠ b.vars then reorder k vars else .ok k

/-- `equals` (gaussian.py 290-323) for two Gaussians: both operands afterwards, and the answer. For factors
over the same set of distinct names the dimensions agree; otherwise numpy cannot compare the arrays
(broadcasting is not modelled). -/
noncomputable def equals (rtol atol : ℝ) (a : Gauss n) (b : Gauss m) : Py (Gauss n × Gauss m × Bool) :=
  if ¬ sameSet a.vars b.vars then .ok (a, b, false)
  else do
    let k ← equalsCopy a.vars b
    if k.vac && a.vac then .ok (a, b, true)
    else if h : m = n then do
      let (a', b', r) ← equalsForms rtol atol a (h ▸ b)
      .ok (a', h ▸ b', r)
    else .error .valueError

/-- `distance_from_vacuous` (gaussian.py 705-716). -/
def distanceFromVacuous (a : Gauss n) : XF ℝ := if a.vac then .fin 0 else .pinf

/-- `is_vacuous` (gaussian.py 762-778). -/
noncomputable def isVacuous (a : Gauss n) : Bool :=
  a.vac || match a.can with
    | some c => vacParams c.prec
    | none => false

/-- The formula of `kl_divergence` (gaussian.py 747-760). -/
noncomputable def klFormula (p : Can n) (pv : CovF n) (q : Can n) (qv : CovF n) : Py ℝ :=
  if q.prec.det = 0 then .error .assertionError
  else if p.prec.det / q.prec.det = 0 then .error .valueError
  else
    let detTerm : ℂ := 1 / 2 * Complex.log (p.prec.det / q.prec.det : ℝ)
    let traceTerm : ℝ := 1 / 2 * (q.prec * pv.cov).trace
    let mahalanobis : ℝ := 1 / 2 * ((pv.mean - qv.mean) ⬝ᵥ q.prec *ᵥ (pv.mean - qv.mean))
    .ok ‖detTerm + (traceTerm : ℂ) + (mahalanobis : ℂ) - 1 / 2 * (n : ℂ)‖

/-- The second operand of the formula (gaussian.py 741-744). -/
noncomputable def klOther (b : Gauss n) (normalizeFactor : Bool) : Py (Gauss n) :=
  if normalizeFactor then normalize b else .ok b

/-- `kl_divergence` after the vacuity tests (gaussian.py 737-760), for equal dimensions. -/
noncomputable def klCore (a b : Gauss n) (normalizeFactor : Bool) : Py (Gauss n × Gauss n × XF ℝ) := do
  let (a, b, same) ← equals (1 / 10000) (1 / 10000) a b
  if same then .ok (a, b, .fin 0)
  else do
    let p ← normalize a
    let q ← klOther b normalizeFactor
    let (q, qc) ← getCan q
    let (p, pc) ← getCan p
    let (_, pv) ← getCov p
    let (q, qv) ← getCov q
    let r ← klFormula pc pv qc qv
    .ok (a, if normalizeFactor then b else q, .fin r)

/-- `kl_divergence` (gaussian.py 718-760): both operands afterwards, and the divergence. -/
noncomputable def klDivergence (a : Gauss n) (b : Gauss m) (normalizeFactor : Bool := true) :
    Py (Gauss n × Gauss m × XF ℝ) :=
  if h : m = n then
    if a.vac && b.vac then .ok (a, b, .fin 0)
    else if a.vac || b.vac then .ok (a, b, .pinf)
    else do
      let (a', b', r) ← klCore a (h ▸ b) normalizeFactor
      .ok (a', h ▸ b', r)
  else .error .valueError

/-! ### Splitting -/

/-- `_split_gaussian` (gaussian.py 1019-1041): the changed factor and the components of the mixture. -/
noncomputable def split (a : Gauss n) : Py (Gauss n × List (Gauss n)) := do
  pyGuard .notImplementedError (n == 1)
  let (a', v) ← getCov a
  pyGuard .nan (decide (∀ i, 0 ≤ v.cov i i))
  let sd : Fin n → ℝ := fun i => Real.sqrt (v.cov i i)
  let comps ← [v.mean - sd, v.mean, v.mean + sd].mapM fun mu =>
    mkCov a'.vars ⟨(1 / 3 : ℝ) • v.cov, mu, Real.log (1 / 3)⟩
  .ok (a', comps)

end Gauss

/-! ### Linear Gaussians and templates -/

/-- The joint covariance of `x` and `A x + noise` for a standard normal `x`, as one array
(gaussian.py 96). -/
noncomputable def jointCov {d : ℕ} (a n : Matrix (Fin d) (Fin d) ℝ) : Matrix (Fin (d + d)) (Fin (d + d)) ℝ :=
  (Matrix.fromBlocks 1 (1 * aᵀ) (a * 1) (a * 1 * aᵀ + n)).submatrix finSumFinEquiv.symm finSumFinEquiv.symm

/-- `prec[:x_dim, :x_dim] -= prec_xx` (gaussian.py 99). -/
def subtractXX {d : ℕ} (p : Matrix (Fin (d + d)) (Fin (d + d)) ℝ) (q : Matrix (Fin d) (Fin d) ℝ) :
    Matrix (Fin (d + d)) (Fin (d + d)) ℝ := fun i j =>
  if h : i.1 < d ∧ j.1 < d then p i j - q ⟨i, h.1⟩ ⟨j, h.2⟩ else p i j

/-- `make_linear_gaussian` (gaussian.py 72-110) once the shapes are known to fit. -/
noncomputable def linearParams {d : ℕ} (a n : Matrix (Fin d) (Fin d) ℝ) : Py (Can (d + d)) := do
  let precXX ← npInv (1 : Matrix (Fin d) (Fin d) ℝ)
  let ux : Fin d → ℝ := 0
  let hx := precXX *ᵥ ux
  let lx ← npLog (det2pi (1 : Matrix (Fin d) (Fin d) ℝ))
  let gx := (-1 / 2) * (ux ⬝ᵥ hx) + Real.log 1 - 1 / 2 * lx
  let cov := jointCov a n
  let precJoint ← npInv cov
  let mean : Fin (d + d) → ℝ := Sum.elim ux (aᵀ *ᵥ ux) ∘ finSumFinEquiv.symm
  let hJoint := precJoint *ᵥ mean
  let hCpd : Fin (d + d) → ℝ := fun i => if h : i.1 < d then hJoint i - hx ⟨i, h⟩ else hJoint i
  let lj ← npLog (det2pi cov)
  let gJoint := 1 / 2 * (mean ⬝ᵥ precJoint *ᵥ mean) + Real.log 1 - 1 / 2 * lj
  .ok ⟨subtractXX precJoint precXX, hCpd, gJoint - gx⟩

/-- `make_linear_gaussian` (gaussian.py 72-110) for a `p × q` matrix `a` and a `p × p` noise covariance. The
product `cov_xx @ a_mat.T` needs `q` to be the number of conditioning variables, the product
`a_mat.T @ u_x` needs `p` to be. -/
noncomputable def makeLinearGaussian {p q : ℕ} (a : Matrix (Fin p) (Fin q) ℝ) (n : Matrix (Fin p) (Fin p) ℝ)
    (xs ys : List Var) : Py (Gauss (xs.length + xs.length)) :=
  if h : xs.length = q ∧ xs.length = p then do
    let c ← linearParams (a.submatrix (Fin.cast h.2) (Fin.cast h.1)) (n.submatrix (Fin.cast h.2) (Fin.cast h.2))
    Gauss.mkCan (xs ++ ys) c
  else .error .valueError

/-- `GaussianTemplate` (gaussian.py 1044-1066). -/
structure GTemplate (n : ℕ) where
  params : Can n
  varTemplates : List String

/-- `GaussianTemplate.make_factor` (gaussian.py 1068-1085) for given variable names (those produced by
formatting the templates, or passed by the caller). -/
noncomputable def GTemplate.makeFactor {n : ℕ} (t : GTemplate n) (names : List Var) : Py (Gauss n) := do
  let g ← Gauss.mkCan names t.params
  .ok { g with vac := true }

/-- `make_linear_gaussian_cpd_template` (gaussian.py 113-131). -/
noncomputable def makeLinearTemplate {p q : ℕ} (a : Matrix (Fin p) (Fin q) ℝ) (n : Matrix (Fin p) (Fin p) ℝ)
    (xs ys : List String) : Py (GTemplate (xs.length + xs.length)) := do
  pyAssert (xs.length == p)
  let g ← makeLinearGaussian a n xs ys
  let (_, c) ← g.getCan
  .ok ⟨{ c with g := 0 }, xs ++ ys⟩

end Verif
