import Verif.Model.Algebra
import Mathlib.LinearAlgebra.CliffordAlgebra.Basic
import Mathlib.LinearAlgebra.QuadraticForm.Basic
/-!
# Specification: the Clifford algebra of a signature

Independent of the model: only the signature list of the description is used.  The reference object is Mathlib's
`CliffordAlgebra` of the diagonal quadratic form `v ↦ ∑ i, sig i * v i * v i` on `R^n`.
-/
namespace Verif.Spec
open Verif.Model

variable (A : Alg) (R : Type*) [CommRing R]

/-- Square of basis vector `i`, as declared in the signature. -/
def metric (i : Nat) : R := ((A.desc.sig.getD i 0 : Int) : R)

/-- The diagonal quadratic form of the signature. -/
def Q : QuadraticForm R (Fin A.n → R) :=
  QuadraticMap.weightedSumSquares R (fun i : Fin A.n => metric A R i)

/-- The Clifford algebra a user means by the signature of `A`. -/
abbrev Cl := CliffordAlgebra (Q A R)

/-- Basis vector `i` as an element of the Clifford algebra. -/
def gen (i : Fin A.n) : Cl A R := CliffordAlgebra.ι (Q A R) (Pi.single i 1)

/-- The element denoted by bit pattern `b`: product of its basis vectors, in increasing order. -/
def blade (b : Nat) : Cl A R :=
  (((List.finRange A.n).filter fun i : Fin A.n => b.testBit i).map (gen A R)).prod

end Verif.Spec
