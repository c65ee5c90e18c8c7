import Verif.Model.Subspace
import Mathlib.Algebra.BigOperators.Group.List.Basic
import Mathlib.Algebra.BigOperators.Group.Finset.Basic
import Mathlib.Data.List.Permutation
import Mathlib.Algebra.Ring.Defs
/-!
# Model of the numpy array operations used by `numga/operator/*.py`

An n-dimensional array is a shape and a function on multi-indices (only read at indices inside the shape).
Entries are exact (integers for symbolic kernels, any commutative ring for backend kernels): the fixed-width
overflow of `int8` is excluded by property C27 (all entries of all kernels are -1, 0 or 1).
`none` results are Python exceptions.
-/
namespace Verif.Model

/-- An `ndarray`. -/
structure Tensor (K : Type) where
  shape : List Nat
  get : List Nat → K

variable {K : Type}

/-- `ndarray.ndim`. -/
def Tensor.ndim (t : Tensor K) : Nat := t.shape.length

/-- The multi-indices inside a shape, in C order: `np.ndindex`. -/
def allIdx : List Nat → List (List Nat)
  | [] => [[]]
  | s :: ss => (List.range s).flatMap fun i => (allIdx ss).map (i :: ·)

/-- `np.tensordot(a, b, axes=(-1, ax))`, as called in numga/operator/operator.py:133.
Raises if the contracted axes do not exist or differ in length. -/
def Tensor.tensordot [CommRing K] (a b : Tensor K) (ax : Nat) : Option (Tensor K) :=
  match a.shape.getLast?, b.shape[ax]? with
  | some d, some e =>
    if d = e then
      some { shape := a.shape.dropLast ++ b.shape.eraseIdx ax
             get := fun idx =>
               let i := idx.take (a.ndim - 1)
               let j := idx.drop (a.ndim - 1)
               ((List.range d).map fun m => a.get (i ++ [m]) * b.get (j.take ax ++ m :: j.drop ax)).sum }
    else none
  | _, _ => none

/-- `np.transpose(a, order)`: axis `i` of the result is axis `order[i]` of `a`. -/
def Tensor.transpose (a : Tensor K) (order : List Nat) : Tensor K :=
  { shape := order.map (a.shape.getD · 0)
    get := fun idx => a.get ((List.range a.ndim).map fun j => idx.getD (order.idxOf j) 0) }

/-- `for dest, src in pairs: order.insert(dest, src)`, the loop inside `np.moveaxis`. -/
def insertAll (rest : List Nat) (pairs : List (Nat × Nat)) : List Nat :=
  pairs.foldl (fun order p => order.insertIdx p.1 p.2) rest

/-- The axis order computed by `np.moveaxis(a, src, dst)`. -/
def moveOrder (n : Nat) (src dst : List Nat) : List Nat :=
  insertAll ((List.range n).filter (· ∉ src)) ((dst.zip src).insertionSort fun p q => p.1 ≤ q.1)

/-- `np.moveaxis(a, src, dst)` for non-negative axes.  Raises on repeated or out-of-range axes and on different
lengths. -/
def Tensor.moveaxis (a : Tensor K) (src dst : List Nat) : Option (Tensor K) :=
  if src.Nodup ∧ dst.Nodup ∧ (∀ i ∈ src, i < a.ndim) ∧ (∀ i ∈ dst, i < a.ndim) ∧ src.length = dst.length then
    some (a.transpose (moveOrder a.ndim src dst))
  else none

/-- Exchange of two positions of a list. -/
def swapAt (l : List Nat) (a b : Nat) : List Nat := (l.set a (l.getD b 0)).set b (l.getD a 0)

/-- `np.swapaxes(k, a, b)`, for axes inside the array. -/
def Tensor.swapaxes (t : Tensor K) (a b : Nat) : Option (Tensor K) :=
  if a < t.ndim ∧ b < t.ndim then
    some { shape := swapAt t.shape a b, get := fun idx => t.get (swapAt idx a b) }
  else none

/-- `k.take(idx, axis)`.  Raises on an index out of range. -/
def Tensor.take (t : Tensor K) (idx : List Nat) (axis : Nat) : Option (Tensor K) :=
  if axis < t.ndim ∧ ∀ i ∈ idx, i < t.shape.getD axis 0 then
    some { shape := t.shape.set axis idx.length
           get := fun i => t.get (i.set axis (idx.getD (i.getD axis 0) 0)) }
  else none

/-- Elementwise map, e.g. `k * s`, `k // s`, `k.astype(...)`. -/
def Tensor.map {L : Type} (t : Tensor K) (f : K → L) : Tensor L := { shape := t.shape, get := fun i => f (t.get i) }

/-- Elementwise `a + b` of arrays of equal shape (other shapes: numpy broadcasts or raises; not modelled,
the callers match the axes first). -/
def Tensor.add [Add K] (a b : Tensor K) : Option (Tensor K) :=
  if a.shape = b.shape then some { shape := a.shape, get := fun i => a.get i + b.get i } else none

/-- The all-zero array. -/
def Tensor.zeros [Zero K] (shape : List Nat) : Tensor K := { shape := shape, get := fun _ => 0 }

/-- `k.any(axis=inputs)`: for every index of the last axis, whether some entry is nonzero. -/
def Tensor.anyInputs [Zero K] [DecidableEq K] (t : Tensor K) (o : Nat) : Bool :=
  (allIdx t.shape.dropLast).any fun i => decide (t.get (i ++ [o]) ≠ 0)

end Verif.Model
