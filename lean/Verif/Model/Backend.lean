import Verif.Model.Multivector
/-!
# Model of the execution strategies of operators

numga/operator/abstract.py and numga/backend/{numpy,jax,torch,python}/operator.py.  An operator holds its kernel and its
axes; the arrays of multivectors have the one axis that enumerates the subspace.  The leading broadcasting axes (`...`
in einsum expressions) are obtained by taking for `R` a ring of arrays.  `none` results are Python exceptions.
-/
namespace Verif.Model
variable {R : Type} [CommRing R]

/-- An einsum expression: the labels of the axes of each operand, and of the result.  A label is the position of its
letter in `chars`, numga/util.py:3. -/
structure EinsumExpr where
  terms : List (List Nat)
  out : List Nat
  deriving DecidableEq

/-- `precompute_einsum_partial`, numga/operator/abstract.py:78-102.  The generator `o` is consumed after `i` was joined
to one string, so that `c not in i` looks for the letter in the joined string.  Without axes the expression is
`'ab..,->ab..'`, with one empty term.  `none`: more letters needed than `chars` has (`IndexError` for an axis; for the
kernel alone numpy would take further axes as broadcasting axes: not modelled). -/
def precomputeEinsumPartial (arity : Nat) (axes : List Nat) : Option EinsumExpr :=
  let k := List.range (arity + 1)
  if arity + 1 ≤ 26 ∧ ∀ a ∈ axes, a < 26 then
    let i := if axes = [] then [[]] else axes.map fun a => [a]
    some ⟨k :: i, k.filter fun c => ! axes.contains c⟩
  else none

/-- Position of a label's value: in the index of the result, or among the summed labels (`np.einsum`). -/
def einsumEnv (out idx summed t : List Nat) (c : Nat) : Nat :=
  if c ∈ out then idx.getD (out.idxOf c) 0 else t.getD (summed.idxOf c) 0

/-- Size of a label: the length of its axes other than one (`np.einsum`). -/
def einsumSize (labelled : List (Nat × Nat)) (c : Nat) : Nat :=
  ((labelled.filter fun p => p.1 == c && p.2 != 1).head?.map (·.2)).getD 1

/-- `np.einsum(expr, *ops)`, called in numga/backend/numpy/operator.py:62,124-130 (and its jax and torch versions).
It raises unless there is one operand per term, of the right number of axes; axes with the same label must have equal length, or length one
(which is repeated).  The result sums over all labels that are not in the output. -/
def einsum (e : EinsumExpr) (ops : List (Tensor R)) : Option (Tensor R) :=
  let labelled := (e.terms.zip ops).flatMap fun p => p.1.zip p.2.shape
  let size := einsumSize labelled
  let summed := (List.range 26).filter fun c => decide (c ∈ e.terms.flatten ∧ c ∉ e.out)
  if e.terms.map (·.length) = ops.map (·.ndim) ∧ (∀ p ∈ labelled, p.2 = 1 ∨ p.2 = size p.1) then
    some { shape := e.out.map size
           get := fun idx => ((allIdx (summed.map size)).map fun t =>
             ((e.terms.zip ops).map fun p => p.2.get
               (List.zipWith (fun c d => if d = 1 then 0 else einsumEnv e.out idx summed t c) p.1 p.2.shape)).prod).sum }
  else none

/-- The array of the values of a multivector. -/
def vecTensor (v : List R) : Tensor R := ⟨[v.length], fun idx => v.getD (idx.getD 0 0) 0⟩

/-- `NumpyEinsumOperator.__call__` on arrays, numga/backend/numpy/operator.py:117-132; the array allocated for the
output (numga/backend/numpy/operator.py:40-49) must fit the result.  The jax and torch versions
(numga/backend/jax/operator.py:162-176, numga/backend/torch/operator.py:129-144) allocate no output. -/
def einsumCall (op : Operator R) (xs : List (List R)) : Option (List R) := do
  let e ← precomputeEinsumPartial op.arity (List.range op.arity)
  let t ← einsum e (op.kernel :: xs.map vecTensor)
  if t.shape = [op.output.blades.length] then
    some ((List.range op.output.blades.length).map fun o => t.get [o])
  else none

/-- `NumpyEinsumOperator.__call__`, numga/backend/numpy/operator.py:117-132, on multivectors, with the assertion of
`construct`. -/
def einsumCallMV (op : Operator R) (args : List (MV R)) : Option (MV R) := do
  MV.construct (← einsumCall op (args.map (·.vals))) op.output

/-- `partial`, numga/backend/numpy/operator.py:56-70 (numga/backend/jax/operator.py:70-85,
numga/backend/torch/operator.py:59-77); the dict as list of its items in insertion order. -/
def Operator.partialApply (op : Operator R) (inputs : List (Nat × MV R)) : Option (Operator R) := do
  let e ← precomputeEinsumPartial op.arity (inputs.map (·.1))
  let k ← einsum e (op.kernel :: inputs.map fun p => vecTensor p.2.vals)
  some ⟨k, ((List.range op.axes.length).filter fun i => ! (inputs.map (·.1)).contains i).map fun i => op.axes.getD i ⟨[]⟩⟩

/-- `NumpyEinsumOperator.__call__` with some subspaces among the arguments, numga/backend/numpy/operator.py:117-121:
binds the multivectors. -/
def Operator.callMixed (op : Operator R) (args : List (SubSpace ⊕ MV R)) : Option (Operator R ⊕ MV R) :=
  if args.any Sum.isLeft then
    (op.partialApply (args.zipIdx.filterMap fun p => p.1.getRight?.map fun x => (p.2, x))).map .inl
  else (einsumCallMV op (args.filterMap Sum.getRight?)).map .inr

/-- `precompute_sparse`, numga/operator/abstract.py:119-151: for each output index the nonzero kernel entries; rows without
any are dropped. -/
def precomputeSparse (op : Operator Int) : List (Nat × List (List Nat × Int)) :=
  let si := op.kernel.shape.dropLast
  let so := op.kernel.shape.getLastD 0
  let rows := (List.range so).map fun io =>
    ((allIdx si).filter fun ii => op.kernel.get (ii ++ [io]) != 0).map fun ii => (ii, op.kernel.get (ii ++ [io]))
  (rows.mapIdx fun i row => (i, row)).filter fun p => p.2.length != 0

/-- `math.prod((inp.values[ii] for inp, ii in zip(inputs, idx)), start=scalar)`, numga/backend/python/operator.py:16,
numga/backend/jax/operator.py:197, numga/backend/torch/operator.py:154.  `none`: `IndexError`. -/
def termProd (xs : List (List R)) (idx : List Nat) (scalar : Int) : Option R :=
  (xs.zip idx).foldlM (fun acc p => (p.1[p.2]?).map (acc * ·)) (scalar : R)

/-- `np.einsum(expr, scalar, *(inp.values[..., ii] for inp, ii in zip(inputs, idx)))` with the expression of
`precompute_einsum_prod`, numga/backend/numpy/operator.py:156 and numga/operator/operator.py:240-243: raises unless
there is one operand per input of the operator. -/
def termProdEinsum (arity : Nat) (xs : List (List R)) (idx : List Nat) (scalar : Int) : Option R :=
  if (xs.zip idx).length = arity then termProd xs idx scalar else none

/-- `sum(... for (idx, scalar) in term)`, e.g. numga/backend/python/operator.py:15-18. -/
def rowSum (f : List Nat → Int → Option R) (terms : List (List Nat × Int)) : Option R :=
  terms.foldlM (fun acc t => (f t.1 t.2).map (acc + ·)) 0

/-- The loop that writes the rows into the output array, e.g. numga/backend/python/operator.py:14-18. -/
def fillRows (f : List Nat → Int → Option R) (rows : List (Nat × List (List Nat × Int))) (out : List R) : Option (List R) :=
  rows.foldlM (fun out p => (rowSum f p.2).map (out.set p.1 ·)) out

/-- `NumpySparseOperator.__call__`, numga/backend/numpy/operator.py:143-160. -/
def numpySparseCall (op : Operator Int) (args : List (MV R)) : Option (MV R) := do
  let out ← fillRows (termProdEinsum op.arity (args.map (·.vals))) (precomputeSparse op) (List.replicate op.output.blades.length 0)
  MV.construct out op.output

/-- `JaxSparseOperator.__call__` and `TorchSparseOperator.__call__`, numga/backend/jax/operator.py:193-201,
numga/backend/torch/operator.py:150-158. -/
def sparseCall (op : Operator Int) (args : List (MV R)) : Option (MV R) := do
  let out ← fillRows (termProd (args.map (·.vals))) (precomputeSparse op) (List.replicate op.output.blades.length 0)
  MV.construct out op.output

/-- `PythonSparseOperator.__call__`, numga/backend/python/operator.py:11-20; the output starts as the default multivector,
numga/backend/python/multivector.py:10-28. -/
def pythonSparseCall (op : Operator Int) (args : List (MV R)) : Option (MV R) := do
  let out ← fillRows (termProd (args.map (·.vals))) (precomputeSparse op) (MV.default op.output : MV R).vals
  MV.construct out op.output

/-- Index into an array that is broadcast. -/
def clipIdx (shape idx : List Nat) : List Nat := List.zipWith (fun d i => if d = 1 then 0 else i) shape idx

/-- `a * b` with broadcasting, for arrays with the same number of axes (as in numga/backend/jax/operator.py:132-135). -/
def Tensor.bmul (a b : Tensor R) : Option (Tensor R) :=
  if a.ndim = b.ndim ∧ ∀ p ∈ a.shape.zip b.shape, p.1 = p.2 ∨ p.1 = 1 ∨ p.2 = 1 then
    some { shape := List.zipWith (fun d e => if d = 1 then e else d) a.shape b.shape
           get := fun idx => a.get (clipIdx a.shape idx) * b.get (clipIdx b.shape idx) }
  else none

/-- Position of a multi-index in the flattened array, in C order. -/
def ravelIdx (shape idx : List Nat) : Nat := (shape.zip idx).foldl (fun acc p => acc * p.1 + p.2) 0

/-- `values.reshape(s)`. -/
def reshapeVec (v : List R) (s : List Nat) : Option (Tensor R) :=
  if v.length = s.prod then some ⟨s, fun idx => v.getD (ravelIdx s idx) 0⟩ else none

/-- `broadcasting_shapes`, numga/operator/abstract.py:62-76. -/
def broadcastingShapes (op : Operator R) : List (List Nat) :=
  (List.range op.arity).map fun i => (List.replicate op.kernel.ndim 1).set i (op.kernel.shape.getD i 0)

/-- `JaxDenseOperator.__call__` and `TorchDenseOperator.__call__`, numga/backend/jax/operator.py:121-139,
numga/backend/torch/operator.py:105-120: product of the kernel with the reshaped inputs, summed over the input axes. -/
def denseCall (op : Operator R) (args : List (MV R)) : Option (MV R) := do
  let t ← ((args.map (·.vals)).zip (broadcastingShapes op)).foldlM (fun acc p => do acc.bmul (← reshapeVec p.1 p.2)) op.kernel
  let vals := (List.range (t.shape.getLastD 0)).map fun o => ((allIdx t.shape.dropLast).map fun i => t.get (i ++ [o])).sum
  MV.construct vals op.output

namespace MV

/-- `sandwich_map`, numga/multivector/multivector.py:362-376. -/
def sandwichMap (A : Alg) (x : MV R) (v : SubSpace) : Option (Operator R) := do
  ((← Factory.sandwich A (.sub x.sub) v).cast R).partialApply [(0, x), (2, x)]

/-- `inertia_map`, numga/multivector/multivector.py:388-395. -/
def inertiaMap (A : Alg) (x : MV R) (b : SubSpace) : Option (Operator R) := do
  ((← Factory.inertia A (.sub x.sub) (.sub b)).cast R).partialApply [(0, x), (1, x)]

end MV
end Verif.Model
