import Verif.Num
import Verif.Py

/-!
# The part of numpy arrays used by the dense categorical factor

Not code of /repo; this is the trusted reading of the numpy calls made there. An array is a shape and
an entry for every index list; only in-range indices are meaningful. Row-major order of all indices is
`productRange shape`.
-/

namespace Verif

/-- `numpy.ndarray`. -/
structure Tensor (α : Type) where
  shape : List Nat
  get : List Nat → α

namespace Tensor
variable {α β γ : Type}

/-- `a.ndim`. -/
def ndim (t : Tensor α) : Nat := t.shape.length

/-- Row-major list of entries. -/
def entries (t : Tensor α) : List α := (productRange t.shape).map t.get

/-- The index list lies in the shape. -/
def InShape (shape idx : List Nat) : Prop := List.Forall₂ (· < ·) idx shape

/-- `a.transpose(axes)`: `ValueError` unless `axes` is a permutation of the axes. -/
def transpose (t : Tensor α) (axes : List Nat) : Py (Tensor α) :=
  if axes.length = t.ndim ∧ (∀ k ∈ List.range t.ndim, k ∈ axes) then
    .ok ⟨axes.map fun k => t.shape.getD k 0,
      fun idx => t.get ((List.range t.ndim).map fun k => idx.getD (axes.idxOf k) 0)⟩
  else .error .valueError

/-- Positions of the original axes in `np.expand_dims(a, axis=axes)`. -/
def keepPos (n : Nat) (axes : List Nat) : List Nat := (List.range n).filter (· ∉ axes)

/-- `np.expand_dims(a, axis=axes)` for distinct valid axes (the only use). -/
def expandDims (t : Tensor α) (axes : List Nat) : Tensor α :=
  ⟨(List.range (t.ndim + axes.length)).map fun p =>
      if p ∈ axes then 1 else t.shape.getD ((keepPos (t.ndim + axes.length) axes).idxOf p) 0,
    fun idx => t.get ((keepPos (t.ndim + axes.length) axes).map fun p => idx.getD p 0)⟩

/-- Shape broadcasting of equally long shapes. -/
def bshapeEq : List Nat → List Nat → Py (List Nat)
  | a :: as, b :: bs => do
    let r ← bshapeEq as bs
    if a = b then .ok (a :: r) else if a = 1 then .ok (b :: r) else if b = 1 then .ok (a :: r)
    else .error .valueError
  | _, _ => .ok []

/-- Shape broadcasting: the shorter shape is padded with ones on the left. -/
def bshape (a b : List Nat) : Py (List Nat) :=
  bshapeEq (List.replicate (b.length - a.length) 1 ++ a) (List.replicate (a.length - b.length) 1 ++ b)

/-- The index of `t` used for the index `idx` of a broadcast result. -/
def bidx (shape idx : List Nat) : List Nat :=
  List.zipWith (fun s i => if s = 1 then 0 else i) shape (idx.drop (idx.length - shape.length))

/-- An elementwise binary ufunc with broadcasting. -/
def zipOp (op : α → β → γ) (a : Tensor α) (b : Tensor β) : Py (Tensor γ) := do
  let s ← bshape a.shape b.shape
  .ok ⟨s, fun idx => op (a.get (bidx a.shape idx)) (b.get (bidx b.shape idx))⟩

/-- `np.squeeze(a)`: drop all axes of length one. -/
def squeeze (t : Tensor α) : Tensor α :=
  let keep := (List.range t.ndim).filter fun p => t.shape.getD p 0 ≠ 1
  ⟨keep.map fun p => t.shape.getD p 0,
    fun idx => t.get ((List.range t.ndim).map fun p =>
      if t.shape.getD p 0 = 1 then 0 else idx.getD (keep.idxOf p) 0)⟩

/-- `scipy.special.logsumexp(a, axis)` followed by `np.expand_dims(res, axis)` as in
`np.apply_over_axes`; reducing an axis of length zero raises `ValueError`. -/
noncomputable def lseAxis (t : Tensor (XF ℝ)) (ax : Nat) : Py (Tensor (XF ℝ)) :=
  if t.shape.getD ax 0 = 0 then .error .valueError
  else .ok ⟨t.shape.set ax 1, fun idx => XF.log (XF.sum
    ((List.range (t.shape.getD ax 0)).map fun k => XF.exp (t.get (idx.set ax k))))⟩

/-- `np.apply_over_axes(special.logsumexp, a, axes)`. -/
noncomputable def applyOverAxes (t : Tensor (XF ℝ)) (axes : List Nat) : Py (Tensor (XF ℝ)) :=
  axes.foldlM (fun t ax => lseAxis t ax) t

/-- Normalise one integer index: negative values count from the end, anything outside is
`IndexError`. -/
def normIdx (n : Nat) (i : Int) : Py Nat :=
  if 0 ≤ i ∧ i < n then .ok i.toNat
  else if -(n : Int) ≤ i ∧ i < 0 then .ok (i + n).toNat
  else .error .indexError

/-- Resolve a tuple of integers and full slices against a shape. -/
def resolve : List Nat → List (Option Int) → Py (List (Option Nat))
  | _, [] => .ok []
  | [], _ :: _ => .error .indexError
  | _ :: s, none :: r => do
    let l ← resolve s r
    .ok (none :: l)
  | n :: s, some i :: r => do
    let k ← normIdx n i
    let l ← resolve s r
    .ok (some k :: l)

/-- Complete the indices of the sliced axes with the fixed ones. -/
def fill : List (Option Nat) → List Nat → List Nat
  | [], idx => idx
  | some a :: r, idx => a :: fill r idx
  | none :: r, [] => 0 :: fill r []
  | none :: r, j :: idx => j :: fill r idx

/-- `a[ix]` for a tuple of integers and full slices. -/
def index (t : Tensor α) (ix : List (Option Int)) : Py (Tensor α) := do
  let r ← resolve t.shape ix
  .ok ⟨((t.shape.zip (r ++ List.replicate (t.ndim - r.length) none)).filter fun e => e.2.isNone).map Prod.fst,
    fun idx => t.get (fill r idx)⟩

/-- `a[ix] = v` for a tuple of integers, possibly shorter than the number of axes. -/
def setIndex (t : Tensor α) (ix : List Int) (v : α) : Py (Tensor α) := do
  let r ← resolve t.shape (ix.map some)
  .ok ⟨t.shape, fun idx => if (idx.take r.length).map some = r then v else t.get idx⟩

/-- Elementwise function. -/
def map (t : Tensor α) (f : α → β) : Tensor β := ⟨t.shape, fun idx => f (t.get idx)⟩

/-- `np.argmax` of the flattened list: the first NaN if there is one, otherwise the first maximum;
`ValueError` for an empty array. -/
def argmaxFlat {K : Type} [LT K] [DecidableLT K] (l : List (XF K)) : Py Nat :=
  match l with
  | [] => .error .valueError
  | a :: l => .ok ((l.foldl (fun (s : Nat × Nat × XF K) b =>
      (s.1 + 1, if s.2.2.isNan then s.2 else if b.isNan || XF.lt s.2.2 b then (s.1, b) else s.2))
      (1, 0, a)).2.1)

/-- `np.unravel_index(i, shape)` for an in-range flat index. -/
def unravel : Nat → List Nat → List Nat
  | _, [] => []
  | i, _ :: s => i / s.prod :: unravel (i % s.prod) s

end Tensor
end Verif
