import Verif.Model.Operator
import Mathlib.Data.BitVec
/-!
# Operator kernels as numpy stores them: `int8`

`numga/operator/sparse_tensor.py:28` and `numga/operator/factory.py` create kernels with `dtype=np.int8`.  Sums and products
of such arrays are again `int8` and wrap silently modulo 256.  An `int8` is a bit vector of width 8; `fuse`, `add`,
`mul`, `swapaxes` and `squeeze` of `Verif.Model.Operator` are generic in the entries and are used as they are.
-/
namespace Verif.Model

/-- `k // s`, numga/operator/operator.py:91-93, on an `int8` array: floor division of the signed values, wrapped. -/
def Operator.div8 (a : Operator (BitVec 8)) (s : Int) : Operator (BitVec 8) :=
  ⟨a.kernel.map fun x => BitVec.ofInt 8 (Int.fdiv x.toInt s), a.axes⟩

/-- `symmetry`, numga/operator/operator.py:108-128, with all arithmetic in `int8`: the sum over the permutations, the
floor division by their number, the product in the exactness test.  `none` also when the number of permutations is not
an `int8` (numpy 2 raises `OverflowError`; numpy 1 would widen the already wrapped sum). -/
def Operator.symmetry8 (A : Alg) (op : Operator (BitVec 8)) (axes : List Nat) : Option (Operator (BitVec 8)) := do
  let spaces ← axes.mapM (op.axes[·]?)
  let _ ← pyMatch spaces
  let k ← symmetrySum op.kernel axes
  let p : Int := axes.permutations'.length
  if 127 < p then none else
  let kernel := k.map fun x => BitVec.ofInt 8 (Int.fdiv x.toInt p)
  let exact := (allIdx k.shape).all fun i => decide (kernel.get i * BitVec.ofInt 8 p = k.get i)
  let final : Tensor (BitVec 8) :=
    if exact then kernel
    else { shape := op.kernel.shape
           get := fun idx => op.kernel.get idx * (if k.anyInputs (idx.getLastD 0) then 1 else 0) }
  Operator.squeeze A ⟨final, op.axes⟩

end Verif.Model
