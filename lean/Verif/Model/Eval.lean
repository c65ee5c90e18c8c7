import Verif.Model.Operator
/-!
# Model of operator application in the numpy backend

numga/backend/numpy/operator.py and numga/operator/abstract.py.  A multivector value is the list of its
coefficients; broadcasting axes are not modelled (every operation acts on them pointwise).
Coefficients are elements of an arbitrary commutative ring instead of floating-point numbers.
-/
namespace Verif.Model
variable {R : Type} [CommRing R]

/-- The kernel in the dtype of the context: `kernel.astype(dtype)`, numga/context.py (`coerce_array`). -/
def Operator.cast (R : Type) [CommRing R] (op : Operator Int) : Operator R := ⟨op.kernel.map (fun z => (z : R)), op.axes⟩

/-- The product `xs[0][idx[0]] * xs[1][idx[1]] * ...` of one einsum term. -/
def prodAt (xs : List (List R)) (idx : List Nat) : R := (List.zipWith (fun x i => x.getD i 0) xs idx).prod

/-- One output component of `np.einsum('ab..c,a,b..->c', kernel, *inputs)`. -/
def Operator.evalAt (op : Operator R) (xs : List (List R)) (o : Nat) : R :=
  ((allIdx op.kernel.shape.dropLast).map fun idx => op.kernel.get (idx ++ [o]) * prodAt xs idx).sum

/-- `NumpyEinsumOperator.__call__` with all inputs given, numga/backend/numpy/operator.py:117-132; the expression is
the one built by `precompute_einsum_partial`, numga/operator/abstract.py:78-102. -/
def Operator.eval (op : Operator R) (xs : List (List R)) : List R :=
  (List.range (op.kernel.shape.getLastD 0)).map (op.evalAt xs)

/-- Application of a symbolic operator through the numpy context. -/
def Operator.apply (R : Type) [CommRing R] (op : Operator Int) (xs : List (List R)) : List R := (op.cast R).eval xs

end Verif.Model
