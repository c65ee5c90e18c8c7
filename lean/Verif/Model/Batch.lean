import Verif.Model.Backend
/-!
# Model of arrays of multivectors

The last axis of the array of values enumerates the subspace, the axes before it are broadcast: numga/backend/numpy/multivector.py,
numga/backend/{numpy,jax,torch}/operator.py.  `none` results are Python exceptions.
-/
namespace Verif.Model
variable {R : Type} [CommRing R]

/-- `np.broadcast_shapes` of two shapes, both given from the last axis on. -/
def bcRev : List Nat → List Nat → Option (List Nat)
  | [], t => some t
  | a :: s, [] => some (a :: s)
  | a :: s, b :: t =>
    if a = b ∨ b = 1 then (bcRev s t).map (a :: ·)
    else if a = 1 then (bcRev s t).map (b :: ·)
    else none

/-- `np.broadcast_shapes`, called in numga/backend/numpy/operator.py:45 (numga/backend/jax/operator.py:44,
numga/backend/torch/operator.py:29). -/
def broadcastShapes (shapes : List (List Nat)) : Option (List Nat) :=
  (shapes.foldlM (fun acc s => bcRev acc s.reverse) []).map List.reverse

/-- The index at which an array of shape `s` is read, when it is broadcast to a shape with the index `idx`. -/
def bcIdx (s idx : List Nat) : List Nat := clipIdx s (idx.drop (idx.length - s.length))

/-- Elementwise operation on two arrays, with broadcasting, e.g. `a * b`. -/
def Tensor.bin (f : R → R → R) (a b : Tensor R) : Option (Tensor R) :=
  (broadcastShapes [a.shape, b.shape]).map fun s => ⟨s, fun idx => f (a.get (bcIdx a.shape idx)) (b.get (bcIdx b.shape idx))⟩

/-- The array at an index of the leading axes: `t[i, j, ..]`. -/
def Tensor.lead (t : Tensor R) (b : List Nat) : Tensor R := ⟨t.shape.drop b.length, fun idx => t.get (b ++ idx)⟩

/-- An array of multivectors. -/
structure BMV (R : Type) where
  sub : SubSpace
  vals : Tensor R

/-- `shape`, numga/backend/numpy/multivector.py:41-44 (numga/backend/jax/multivector.py:40-43, numga/backend/torch/multivector.py:40-43). -/
def BMV.shape (x : BMV R) : List Nat := x.vals.shape.dropLast

/-- `construct`, numga/backend/numpy/multivector.py:11-29, with its assertion on the last axis; an array without axes raises.  (With
`values=None`: `MV.default`.) -/
def BMV.construct (vals : Tensor R) (sub : SubSpace) : Option (BMV R) :=
  if vals.shape.getLast? = some sub.blades.length then some ⟨sub, vals⟩ else none

/-- `x[i, j, ..]`, numga/backend/numpy/multivector.py:30-31, for an index of all the axes but the last. -/
def BMV.at (x : BMV R) (b : List Nat) : MV R := ⟨x.sub, (List.range x.sub.blades.length).map fun j => x.vals.get (b ++ [j])⟩

/-- `shape` of an operator, numga/backend/numpy/operator.py:15-18 (numga/backend/jax/operator.py:34-37,
numga/backend/torch/operator.py:15-18). -/
def Operator.batch (op : Operator R) : List Nat := op.kernel.shape.take (op.kernel.ndim - (op.arity + 1))

/-- `broadcast_allocate`, numga/backend/numpy/operator.py:40-49 (numga/backend/jax/operator.py:39-48,
numga/backend/torch/operator.py:24-33): an array of zeros. -/
def broadcastAllocate (op : Operator R) (args : List (BMV R)) : Option (BMV R) := do
  let s ← broadcastShapes (op.batch :: args.map BMV.shape)
  BMV.construct (Tensor.zeros (s ++ [op.output.blades.length])) op.output

/-- `np.einsum(expr, *ops)` where each term and the result of the expression start with `...`
(`broadcast_einsum`, numga/backend/numpy/operator.py:51-54): the leading axes that have no label are broadcast, and at each index of these
the expression is evaluated as without them. -/
def einsumB (e : EinsumExpr) (ops : List (Tensor R)) : Option (Tensor R) :=
  if e.terms.length = ops.length ∧ ∀ p ∈ e.terms.zip ops, p.1.length ≤ p.2.ndim then do
    let s ← broadcastShapes ((e.terms.zip ops).map fun p => p.2.shape.take (p.2.ndim - p.1.length))
    let at_ := fun b => einsum e ((e.terms.zip ops).map fun p => p.2.lead (bcIdx (p.2.shape.take (p.2.ndim - p.1.length)) b))
    let t ← at_ (s.map fun _ => 0)
    some ⟨s ++ t.shape, fun idx => ((at_ (idx.take s.length)).map fun t => t.get (idx.drop s.length)).getD 0⟩
  else none

/-- `NumpyEinsumOperator.__call__`, numga/backend/numpy/operator.py:117-132: the result must have the shape of the allocated array. -/
def einsumCallB (op : Operator R) (args : List (BMV R)) : Option (BMV R) := do
  let e ← precomputeEinsumPartial op.arity (List.range op.arity)
  let out ← broadcastAllocate op args
  let t ← einsumB e (op.kernel :: args.map (·.vals))
  if t.shape = out.vals.shape then BMV.construct t op.output else none

/-- `JaxEinsumOperator.__call__` and `TorchEinsumOperator.__call__`, numga/backend/jax/operator.py:162-176,
numga/backend/torch/operator.py:129-144. -/
def einsumCallJB (op : Operator R) (args : List (BMV R)) : Option (BMV R) := do
  let e ← precomputeEinsumPartial op.arity (List.range op.arity)
  BMV.construct (← einsumB e (op.kernel :: args.map (·.vals))) op.output

/-- `op[i, j, ..]`, numga/backend/numpy/operator.py:24-29 (numga/backend/jax/operator.py:56-59, numga/backend/torch/operator.py:41-48), for an
index of all broadcasting axes of the kernel. -/
def Operator.at (op : Operator R) (b : List Nat) : Operator R := ⟨op.kernel.lead b, op.axes⟩

/-- `partial`, numga/backend/numpy/operator.py:56-70 (numga/backend/jax/operator.py:70-85, numga/backend/torch/operator.py:59-77), on arrays of
multivectors; the dict as list of its items in insertion order. -/
def Operator.partialApplyB (op : Operator R) (inputs : List (Nat × BMV R)) : Option (Operator R) := do
  let e ← precomputeEinsumPartial op.arity (inputs.map (·.1))
  let k ← einsumB e (op.kernel :: inputs.map fun p => p.2.vals)
  some ⟨k, ((List.range op.axes.length).filter fun i => ! (inputs.map (·.1)).contains i).map fun i => op.axes.getD i ⟨[]⟩⟩

/-- `values[..., i]`. -/
def Tensor.component (t : Tensor R) (i : Nat) : Option (Tensor R) :=
  if i < t.shape.getLastD 0 then some ⟨t.shape.dropLast, fun b => t.get (b ++ [i])⟩ else none

/-- `math.prod((inp.values[..., ii] for inp, ii in zip(inputs, idx)), start=scalar)`, numga/backend/jax/operator.py:197,
numga/backend/torch/operator.py:154. -/
def termProdB (xs : List (Tensor R)) (idx : List Nat) (scalar : Int) : Option (Tensor R) :=
  (xs.zip idx).foldlM (fun acc p => do Tensor.bin (· * ·) acc (← p.1.component p.2)) ⟨[], fun _ => (scalar : R)⟩

/-- The same with `np.einsum(',...,... -> ...', scalar, ..)`, numga/backend/numpy/operator.py:156 and numga/operator/operator.py:240-243:
one operand per input of the operator. -/
def termProdEinsumB (arity : Nat) (xs : List (Tensor R)) (idx : List Nat) (scalar : Int) : Option (Tensor R) :=
  if (xs.zip idx).length = arity then termProdB xs idx scalar else none

/-- `sum(...)` of arrays, numga/backend/numpy/operator.py:149-159, numga/backend/jax/operator.py:196-199. -/
def rowSumB (f : List Nat → Int → Option (Tensor R)) (terms : List (List Nat × Int)) : Option (Tensor R) :=
  terms.foldlM (fun acc t => do Tensor.bin (· + ·) acc (← f t.1 t.2)) ⟨[], fun _ => 0⟩

/-- `values[..., i] = row`.  (numpy would also drop leading axes of length one of `row`; the rows here have no more axes than the output.) -/
def Tensor.setComponent (t : Tensor R) (i : Nat) (row : Tensor R) : Option (Tensor R) :=
  if i < t.shape.getLastD 0 ∧ broadcastShapes [t.shape.dropLast, row.shape] = some t.shape.dropLast then
    some ⟨t.shape, fun idx => if idx.getLastD 0 = i then row.get (bcIdx row.shape idx.dropLast) else t.get idx⟩
  else none

/-- The loop over the rows, numga/backend/numpy/operator.py:148-159, numga/backend/jax/operator.py:195-200,
numga/backend/torch/operator.py:152-157. -/
def fillRowsB (f : List Nat → Int → Option (Tensor R)) (rows : List (Nat × List (List Nat × Int))) (out : Tensor R) : Option (Tensor R) :=
  rows.foldlM (fun out p => do out.setComponent p.1 (← rowSumB f p.2)) out

/-- `NumpySparseOperator.__call__`, numga/backend/numpy/operator.py:143-160; for kernels without broadcasting axes. -/
def numpySparseCallB (op : Operator Int) (args : List (BMV R)) : Option (BMV R) := do
  let out ← broadcastAllocate (op.cast R) args
  some ⟨out.sub, ← fillRowsB (termProdEinsumB op.arity (args.map (·.vals))) (precomputeSparse op) out.vals⟩

/-- `JaxSparseOperator.__call__` and `TorchSparseOperator.__call__`, numga/backend/jax/operator.py:193-201,
numga/backend/torch/operator.py:150-158; for kernels without broadcasting axes. -/
def sparseCallB (op : Operator Int) (args : List (BMV R)) : Option (BMV R) := do
  let out ← broadcastAllocate (op.cast R) args
  some ⟨out.sub, ← fillRowsB (termProdB (args.map (·.vals))) (precomputeSparse op) out.vals⟩

/-- Multi-index of a position in C order, the inverse of `ravelIdx`; both shape and result from the last axis on. -/
def unravelRev : List Nat → Nat → List Nat
  | [], _ => []
  | d :: s, k => (k % d) :: unravelRev s (k / d)

/-- `a.reshape(s)`. -/
def Tensor.reshape (t : Tensor R) (s : List Nat) : Option (Tensor R) :=
  if t.shape.prod = s.prod then some ⟨s, fun idx => t.get (unravelRev t.shape.reverse (ravelIdx s idx)).reverse⟩ else none

/-- `JaxDenseOperator.__call__`, numga/backend/jax/operator.py:121-139: the inputs are reshaped to have the kernel's axes behind their
broadcasting axes; then the kernel's input axes, counted from the end, are summed. -/
def denseCallB (op : Operator R) (args : List (BMV R)) : Option (BMV R) := do
  let t ← (args.zip (broadcastingShapes op)).foldlM (fun acc p => do Tensor.bin (· * ·) acc (← p.1.vals.reshape (p.1.shape ++ p.2))) op.kernel
  let k := t.ndim - (op.arity + 1)
  BMV.construct ⟨t.shape.take k ++ [t.shape.getLastD 0], fun idx =>
    ((allIdx ((t.shape.drop k).dropLast)).map fun i => t.get (idx.take k ++ i ++ idx.drop k)).sum⟩ op.output

/-- `TorchDenseOperator.__call__`, numga/backend/torch/operator.py:105-120: here the inputs are reshaped to the kernel's axes alone, and the
first axes are summed. -/
def torchDenseCallB (op : Operator R) (args : List (BMV R)) : Option (BMV R) := do
  let t ← (args.zip (broadcastingShapes op)).foldlM (fun acc p => do Tensor.bin (· * ·) acc (← p.1.vals.reshape p.2)) op.kernel
  BMV.construct ⟨t.shape.drop op.arity, fun idx => ((allIdx (t.shape.take op.arity)).map fun i => t.get (i ++ idx)).sum⟩ op.output

namespace BMV

/-- `sum`, numga/backend/numpy/multivector.py:53-54 (numga/backend/jax/multivector.py:55-56, numga/backend/torch/multivector.py:55-56).
`axis` counts all axes of the array of values, from the end if negative. -/
def sum (x : BMV R) (axis : Int) : Option (BMV R) :=
  let n : Int := x.vals.ndim
  let a := if axis < 0 then axis + n else axis
  if 0 ≤ a ∧ a < n then
    construct ⟨x.vals.shape.eraseIdx a.toNat, fun idx =>
      ((List.range (x.vals.shape.getD a.toNat 0)).map fun k => x.vals.get (idx.insertIdx a.toNat k)).sum⟩ x.sub
  else none

/-- `concatenate`, numga/backend/numpy/multivector.py:37-39 (numga/backend/jax/multivector.py:50-52,
numga/backend/torch/multivector.py:50-52), for a nonnegative axis. -/
def concatenate (x y : BMV R) (axis : Nat) : Option (BMV R) :=
  if x.sub = y.sub ∧ axis < x.vals.ndim ∧ x.vals.shape.eraseIdx axis = y.vals.shape.eraseIdx axis ∧ x.vals.ndim = y.vals.ndim then
    let d := x.vals.shape.getD axis 0
    construct ⟨x.vals.shape.set axis (d + y.vals.shape.getD axis 0), fun idx =>
      if idx.getD axis 0 < d then x.vals.get idx else y.vals.get (idx.set axis (idx.getD axis 0 - d))⟩ x.sub
  else none

/-- `x[i]`, numga/backend/numpy/multivector.py:30-31 (numga/backend/jax/multivector.py:37-39), for one nonnegative integer. -/
def getItem (x : BMV R) (i : Nat) : Option (BMV R) :=
  if i < x.vals.shape.getD 0 0 then construct (x.vals.lead [i]) x.sub else none

/-- `x.at[i].set(y)`, numga/multivector/helper.py:1-22 and `set_array`, numga/backend/numpy/context.py:28-31, for one nonnegative integer:
the value is broadcast to the shape at `i`. -/
def atSet (x : BMV R) (i : Nat) (y : BMV R) : Option (BMV R) :=
  if i < x.vals.shape.getD 0 0 ∧ broadcastShapes [x.vals.shape.drop 1, y.vals.shape] = some (x.vals.shape.drop 1) then
    construct ⟨x.vals.shape, fun idx => if idx.headD 0 = i then y.vals.get (bcIdx y.vals.shape idx.tail) else x.vals.get idx⟩ x.sub
  else none

end BMV
end Verif.Model
