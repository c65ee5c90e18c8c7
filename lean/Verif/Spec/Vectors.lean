import Verif.Spec.Clifford
/-! # Specification vocabulary for vectors and their scalar product -/
namespace Verif.Spec
open Model

/-- The scalar product of two coordinate vectors, from the signature. -/
def dot (A : Alg) {R : Type*} [CommRing R] (u v : Fin A.n → R) : R := ∑ i : Fin A.n, metric A R i * u i * v i

/-- The element of the Clifford algebra with coordinates `u`. -/
def vec (A : Alg) {R : Type*} [CommRing R] (u : Fin A.n → R) : Cl A R := CliffordAlgebra.ι (Q A R) u

end Verif.Spec
