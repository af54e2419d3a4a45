import Verif.GaussModel
import Mathlib.Analysis.SpecialFunctions.Sqrt
import Mathlib.Data.Fin.Tuple.Basic

/-!
# Model of `veroku/factors/_sigma_points.py`

An array whose columns are points is modelled by its number of rows and the list of its columns. A transform is any
function from variable names and such an array to such an array, and it may raise.
-/

namespace Verif.Sigma
open Matrix Gauss

variable {d : ℕ}

/-- An array with `dim` rows; the columns are listed. -/
structure Pts where
  dim : ℕ
  cols : List (Fin dim → ℝ)

/-- A transform (nonlinear_gaussian.py 33-70, _sigma_points.py 57): the columns of its argument are points, the
rows of which belong to the names. -/
abbrev Transform := List Var → Pts → Py Pts

/-- The symmetric matrix with the lower triangle of the argument: `numpy.linalg.cholesky` reads no other entry. -/
def lowerSym (S : Matrix (Fin d) (Fin d) ℝ) : Matrix (Fin d) (Fin d) ℝ := fun i j => if j ≤ i then S i j else S j i

/-- `L` is the Cholesky factor of `S`. -/
structure IsChol (L S : Matrix (Fin d) (Fin d) ℝ) : Prop where
  lower : ∀ i j, i < j → L i j = 0
  pos : ∀ i, 0 < L i i
  prod : L * Lᵀ = S

open Classical in
/-- `numpy.linalg.cholesky`, exact; it raises `LinAlgError` if there is no such factor. -/
noncomputable def npChol (S : Matrix (Fin d) (Fin d) ℝ) : Py (Matrix (Fin d) (Fin d) ℝ) :=
  if h : ∃ L, IsChol L (lowerSym S) then .ok h.choose else .error .linAlgError

/-- The points for a mean and a Cholesky factor (_sigma_points.py 20-24). -/
noncomputable def pointsOf (mean : Fin d → ℝ) (chol : Matrix (Fin d) (Fin d) ℝ) : List (Fin d → ℝ) :=
  let k := √(d + 1 / 2)
  (List.ofFn fun j => mean - k • chol.col j) ++ [mean] ++ (List.ofFn fun j => mean + k • chol.col j)

/-- `get_sigma_points_array` (_sigma_points.py 9-25): the factor afterwards, and the points. -/
noncomputable def sigmaPoints (g : Gauss d) : Py (Gauss d × Pts) := do
  let (g, v) ← g.getCov
  let chol ← npChol v.cov
  .ok (g, ⟨d, pointsOf v.mean chol⟩)

/-- `np.mean(..., axis=1)`. -/
noncomputable def meanOf (l : List (Fin d → ℝ)) : Fin d → ℝ := ((l.length : ℝ)⁻¹) • l.sum

/-- `np.cov(..., bias=1)`, the entries. -/
noncomputable def covOf (l : List (Fin d → ℝ)) : Matrix (Fin d) (Fin d) ℝ :=
  ((l.length : ℝ)⁻¹) • (l.map fun p => vecMulVec (p - meanOf l) (p - meanOf l)).sum

/-- The shape of the array returned by `np.cov`: for a single row it has no dimensions. -/
def covShape (d : ℕ) : List ℕ := if d = 1 then [] else [d, d]

/-- `sigma_point_array_to_gaussian_params` (_sigma_points.py 28-37): covariance (entries and shape) and mean. The
mean of no points is not a number. -/
noncomputable def gaussianParams (p : Pts) :
    Py ((Matrix (Fin p.dim) (Fin p.dim) ℝ × List ℕ) × (Fin p.dim → ℝ)) :=
  if p.cols = [] then .error .nan
  else .ok ((covOf p.cols, covShape p.dim), meanOf p.cols)

/-- `np.concatenate([a, b], axis=0)`. -/
def vcat (a b : Pts) : Py Pts :=
  if a.cols.length = b.cols.length then .ok ⟨a.dim + b.dim, List.zipWith Fin.append a.cols b.cols⟩
  else .error .valueError

/-- `np.concatenate(sigma_points, axis=1)` of arrays with the same number of rows (_sigma_points.py 47). -/
def hcat (l : List (List (Fin d → ℝ))) : Py Pts :=
  if l = [] then .error .valueError else .ok ⟨d, l.flatten⟩

/-- `sigma_points_to_gaussian_params` (_sigma_points.py 40-48). -/
noncomputable def listParams (l : List (List (Fin d → ℝ))) :
    Py (Σ n, (Matrix (Fin n) (Fin n) ℝ × List ℕ) × (Fin n → ℝ)) := do
  let p ← hcat l
  let r ← gaussianParams p
  .ok ⟨_, r⟩

/-- `sigma_points_array_to_joint_params` (_sigma_points.py 51-64). -/
noncomputable def jointParams (p : Pts) (T : Transform) (names : List Var) :
    Py (Σ n, (Matrix (Fin n) (Fin n) ℝ × List ℕ) × (Fin n → ℝ)) := do
  let t ← T names p
  let j ← vcat p t
  let r ← gaussianParams j
  .ok ⟨_, r⟩

end Verif.Sigma
