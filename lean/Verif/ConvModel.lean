import Verif.GaussModel

/-!
# Model of the argument conversions (`_factor_utils.py` 77-166) and of the constructor of `Gaussian`

The parameters of a Gaussian can be given as numbers, (nested) lists or arrays. `Obj` is the type of these arguments;
strings and other objects are not modelled. Numbers are real numbers.
-/

namespace Verif.Conv
open Matrix

/-- A parameter as the caller writes it. -/
inductive Obj
  /-- An `int`, a `float` or something that is an instance of these (`bool`, `np.float64`). -/
  | num (x : ℝ)
  /-- Another numpy number (`np.int64`, `np.float32`), which is not an instance of `int` or `float`. -/
  | npnum (x : ℝ)
  /-- A `list`. -/
  | list (l : List Obj)
  /-- An `ndarray` with the given shape and the elements in row-major order; `f64` says that the elements are of type
  `np.float64`. -/
  | arr (f64 : Bool) (shape : List ℕ) (data : List ℝ) (h : data.length = shape.prod)

/-- A shape and the elements in row-major order. -/
abbrev Arr := List ℕ × List ℝ

mutual
/-- `np.array(obj)`; `none` stands for the `ValueError` for lists of different shapes. -/
def npArray : Obj → Option Arr
  | .num x => some ([], [x])
  | .npnum x => some ([], [x])
  | .arr _ s d _ => some (s, d)
  | .list l =>
    match npArrays l with
    | none => none
    | some [] => some ([0], [])
    | some (a :: as) =>
      if as.all (fun b => b.1 == a.1) then some ((as.length + 1) :: a.1, a.2 ++ (as.map Prod.snd).flatten) else none
/-- `np.array` of every element. -/
def npArrays : List Obj → Option (List Arr)
  | [] => some []
  | o :: l =>
    match npArray o, npArrays l with
    | some a, some as => some (a :: as)
    | _, _ => none
end

/-- `np.array(obj)` with the exception. -/
def npArrayPy (o : Obj) : Py Arr :=
  match npArray o with
  | some a => .ok a
  | none => .error .valueError

/-- `make_scalar` (_factor_utils.py 77-94). `len` of an array without dimensions raises `TypeError`; the minimum of an
array without elements raises `ValueError`. A list with one element that is not a number is returned as its element by the
code; the attribute is then no number and every later use fails, here the function fails at once. -/
noncomputable def makeScalar : Obj → Py ℝ
  | .arr _ s d _ =>
    match s with
    | [] => .error .typeError
    | k :: _ =>
      if k ≠ 1 then .error .valueError
      else
        match d with
        | [] => .error .valueError
        | x :: d => .ok (d.foldl min x)
  | .list l =>
    match l with
    | [.num x] => .ok x
    | [.npnum x] => .ok x
    | [_] => .error .typeError
    | _ => .error .valueError
  | .num x => .ok x
  | .npnum _ => .error .typeError

/-- A column vector: its length and its elements. -/
abbrev Vec := Σ n : ℕ, (Fin n → ℝ)

/-- The elements as a column vector (`ravel`, `np.expand_dims(array, axis=1)`). -/
def vecOf (d : List ℝ) : Vec := ⟨d.length, fun i => d.get i⟩

/-- `make_column_vector` (_factor_utils.py 97-113). -/
def makeColumn : Obj → Py Vec
  | .arr _ s d _ => do
    if 1 < s.length then pyAssert (!s.all (fun k => decide (1 < k)))
    .ok (vecOf d)
  | o => do
    let a ← npArrayPy o
    .ok (vecOf a.2)

/-- A square matrix: its size and its elements. -/
abbrev Mat := Σ n : ℕ, Matrix (Fin n) (Fin n) ℝ

/-- The square matrix of an array of shape `(n, n)`. -/
def matOf (n : ℕ) (d : List ℝ) : Mat := ⟨n, fun i j => d.getD (i * n + j) 0⟩

/-- `isinstance(obj, (int, float))` -/
def isNum : Obj → Bool
  | .num _ => true
  | _ => false

/-- `isinstance(obj, list)` and `len(obj) == n`, with the exceptions of the loop (_factor_utils.py 128-132). -/
def isRow (n : ℕ) : Obj → Bool
  | .list l => l.length == n
  | _ => false

/-- The first element `obj[0][0]` is a number (_factor_utils.py 138): for `np.ndarray` rows this depends on the type of
the elements. Only called if `len(obj[0]) == 1`. -/
def headIsNum : Obj → Bool
  | .list [o] => isNum o
  | .arr f64 [_] _ _ => f64
  | _ => false

/-- `len(obj)` (numbers have none). -/
def pyLen : Obj → Py ℕ
  | .list l => .ok l.length
  | .arr _ (k :: _) _ _ => .ok k
  | _ => .error .typeError

/-- The final check (_factor_utils.py 143-145). `shape[1]` of a shape with one element raises `IndexError`. -/
def checkSquare (a : Arr) : Py Mat :=
  match a.1 with
  | n :: m :: rest =>
    if n ≠ m ∨ rest ≠ [] then .error .valueError else .ok (matOf n a.2)
  | _ => .error .indexError

/-- `list_to_square_matrix` (_factor_utils.py 117-145). The variable `matrix` is not assigned if `obj[0]` has length one
but its element is not a number. -/
def listToSquare (l : List Obj) : Py Mat :=
  match l with
  | [] => .error .valueError
  | [o] =>
    if isNum o then do
      let a ← npArrayPy (.list [.list l])
      checkSquare a
    else do
      let k ← pyLen o
      if k = 1 then
        if headIsNum o then do
          let a ← npArrayPy (.list l)
          checkSquare a
        else .error .unboundLocalError
      else .error .valueError
  | _ =>
    if l.all (isRow l.length) then do
      let a ← npArrayPy (.list l)
      checkSquare a
    else .error .valueError

/-- `make_square_matrix` (_factor_utils.py 149-166). -/
def makeSquare : Obj → Py Mat
  | .num x => .ok (matOf 1 [x])
  | .list l => listToSquare l
  | .arr _ s d _ =>
    match s with
    | [n, m] => do
      pyAssert (decide (n = m))
      .ok (matOf n d)
    | _ => .error .valueError
  | .npnum _ => .error .valueError

/-! ### `Factor.__init__` and the constructor of `Gaussian` -/

/-- The argument `var_names`: `None`, one string or a list of strings. -/
inductive Names
  | none
  | one (s : String)
  | many (l : List Var)

/-- `Factor.__init__` (_factor.py 18-29): the names and `_dim`. `len` and `set` of a string speak about its
characters. -/
def factorInit : Names → Py (List Var × ℕ)
  | .none => .error .typeError
  | .one s => if s.toList.Nodup then .ok ([s], s.toList.length) else .error .valueError
  | .many l => if l.Nodup then .ok (l, l.length) else .error .valueError

/-- `Factor.get_marginal_vars` (_factor.py 49-63). -/
def getMarginalVars (so : SetOrder Var) (vars : List Var) (vrs : Names) (keep : Bool) : Py (List Var) :=
  match vrs with
  | .none => .error .attributeError
  | .one s => .ok (if keep then [s] else so.toList (vars.filter fun v => v ∉ [s]))
  | .many l => .ok (if keep then l else so.toList (vars.filter fun v => v ∉ l))

/-- The keyword arguments of the constructor of `Gaussian` (gaussian.py 139); `none` is `None`. -/
structure Args where
  cov : Option Obj := none
  mean : Option Obj := none
  logWeight : Option Obj := none
  prec : Option Obj := none
  hVec : Option Obj := none
  gVal : Option Obj := none
  varNames : Names := .none

/-- The constructor of `Gaussian` (gaussian.py 139-205). -/
noncomputable def mkGaussian (a : Args) : Py (Σ n : ℕ, Gauss n) := do
  match a.varNames with
  | .none => .error .valueError
  | vn =>
    let (vars, dim) ← factorInit vn
    match a.prec, a.hVec, a.gVal with
    | none, none, none =>
      match a.cov, a.mean, a.logWeight with
      | some cov, some mean, some lw =>
        let m ← makeSquare cov
        let v ← makeColumn mean
        if hm : m.1 = dim then
          if hv : v.1 = dim then
            let w ← makeScalar lw
            .ok ⟨dim, ⟨vars, none, some ⟨fun i j => m.2 (i.cast hm.symm) (j.cast hm.symm), fun i => v.2 (i.cast hv.symm), w⟩, false⟩⟩
          else .error .assertionError
        else .error .assertionError
      | _, _, _ => .error .valueError
    | some prec, some h, some g =>
      let m ← makeSquare prec
      let v ← makeColumn h
      if hm : m.1 = dim then
        if hv : v.1 = dim then
          let w ← makeScalar g
          let k : Matrix (Fin dim) (Fin dim) ℝ := fun i j => m.2 (i.cast hm.symm) (j.cast hm.symm)
          .ok ⟨dim, ⟨vars, some ⟨k, fun i => v.2 (i.cast hv.symm), w⟩, none, Gauss.vacParams k⟩⟩
        else .error .assertionError
      else .error .assertionError
    | _, _, _ => .error .valueError

end Verif.Conv
