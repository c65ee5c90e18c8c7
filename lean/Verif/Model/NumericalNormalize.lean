import Verif.Model.LeastSquares
import Verif.Model.LogExp
import Verif.Model.MultivectorFactory
/-!
# Model of `numga/multivector/numerical_normalize.py`

Arithmetic is exact, and the arrays have no broadcasting axes.
-/
namespace Verif.Model
variable {R : Type} [Field R] [DecidableEq R]

/-- `solve_newton_direct`, numga/multivector/numerical_normalize.py:4-6.  `none`: the shapes do not fit, or `np.linalg.solve` finds a
singular matrix. -/
noncomputable def solveNewtonDirect (J : Tensor R) (r : List R) : Option (List R) :=
  match J.shape with
  | [a, b] =>
    if r.length = b then do
      let gram := fun i k => ((List.range a).map fun j => J.get [j, i] * J.get [j, k]).sum
      let d ← linalgSolve b gram fun i => r.getD i 0
      some ((List.range a).map fun i => ((List.range b).map fun j => J.get [i, j] * d.getD j 0).sum)
    else none
  | _ => none

/-- `newton_step`, numga/multivector/numerical_normalize.py:27-38; `quadratic`, `S` and `rhs` are variables of the enclosing function. -/
noncomputable def newtonStep (A : Alg) (quadratic : Operator R) (S : SubSpace) (rhs x : MV R) : Option (MV R) := do
  let J ← quadratic.partialApply [(0, x)]
  let lhs ← J.partialApply [(0, x)]
  let d ← solveNewtonDirect J.kernel ((List.range S.blades.length).map fun i => lhs.kernel.get [i] - rhs.vals.getD i 0)
  x.add A (.mv (← MVFactory.multivector A (some (d.map fun a => -a / 2)) (some S)))

/-- The loop of `inverse_sandwich`, numga/multivector/numerical_normalize.py:40-43. -/
noncomputable def newtonLoop (A : Alg) (quadratic : Operator R) (S : SubSpace) (rhs : MV R) : Nat → MV R → Option (MV R)
  | 0, x => some x
  | n + 1, x => do newtonLoop A quadratic S rhs n (← newtonStep A quadratic S rhs x)

/-- `inverse_sandwich`, numga/multivector/numerical_normalize.py:9-43.  `none`: the assertion fails, or a singular matrix. -/
noncomputable def MV.inverseSandwich (A : Alg) (s : MV R) (n : Nat) : Option (MV R) := do
  let S := s.sub
  let sandwich ← Factory.fullSandwich A (.sub S) (.sub S)
  if sandwich.output ≠ S then none
  else
    let quadratic ← (sandwich.cast R).partialApply [(1, s)]
    let rhs ← MVFactory.multivector A none (some S)
    newtonLoop A quadratic S rhs n rhs

/-- The loop of `normalize_motor`, numga/multivector/numerical_normalize.py:61-64. -/
noncomputable def MV.sandwichLoop (A : Alg) (inner : Nat) : Nat → MV R → Option (MV R)
  | 0, m => some m
  | n + 1, m => do
    let s ← (← m.symmetricReverse A).inverseSandwich A inner
    MV.sandwichLoop A inner n (← s.mul A (.mv m))

/-- `normalize_motor`, numga/multivector/numerical_normalize.py:46-64. -/
noncomputable def MV.normalizeNumerical (A : Alg) (rt : Roots R) (fuel : Nat) (m : MV R) (inner outer : Nat) (scalarNorm : Bool) :
    Except Fail (MV R) := do
  let m ← if scalarNorm then do
      lift (m.mul A (.mv (← (← lift ((← lift (m.symmetricReverse A)).selectGrades A [0])).inverseSquareRoot A rt fuel)))
    else .ok m
  lift (m.sandwichLoop A inner outer)

end Verif.Model
