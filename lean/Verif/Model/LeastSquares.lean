import Verif.Model.Inverse
import Verif.Model.Backend
import Mathlib.LinearAlgebra.Matrix.Adjugate
/-!
# Model of the least-squares inverse of `numga/backend/numpy/multivector.py`

Arithmetic is exact, and the arrays have no broadcasting axes.
-/
namespace Verif.Model
variable {R : Type} [Field R] [DecidableEq R]

/-- `np.linalg.solve(m, b)` of a square matrix and a vector, as called in numga/backend/numpy/multivector.py:79-82: the solution by
Cramer's rule (numpy factorises the matrix); a singular matrix raises `LinAlgError`. -/
noncomputable def linalgSolve (n : Nat) (m : Nat → Nat → R) (b : Nat → R) : Option (List R) :=
  let M : Matrix (Fin n) (Fin n) R := Matrix.of fun i j => m i j
  if M.det = 0 then none else some (List.ofFn fun i => M.cramer (fun i => b i) i / M.det)

/-- `inverse_la`, numga/backend/numpy/multivector.py:70-84. -/
noncomputable def MV.inverseLa (A : Alg) (x : MV R) : Option (MV R) := do
  let inverseSubspace := (← Factory.inverseFactor A (.sub x.sub)).output
  let op ← Factory.product A (.sub x.sub) (.sub inverseSubspace)
  let k := (← (op.cast R).partialApply [(0, x)]).kernel
  match (List.range op.output.blades.length).filter fun i => op.output.blades.getD i 0 == 0 with
  | [idx] => do
    let gram := fun j l => ((List.range op.output.blades.length).map fun i => k.get [j, i] * k.get [l, i]).sum
    let r ← linalgSolve inverseSubspace.blades.length gram fun j => k.get [j, idx]
    MV.construct r inverseSubspace
  | _ => none

end Verif.Model
