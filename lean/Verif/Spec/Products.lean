import Verif.Spec.Grades
import Verif.Spec.Multivector
import Mathlib.LinearAlgebra.CliffordAlgebra.Conjugation
/-! # Specification vocabulary for products -/
namespace Verif.Spec
open Model

/-- The same algebra with the null basis vectors squaring to one. -/
def unnull (A : Alg) : Alg := { A with desc := { A.desc with sig := A.desc.sig.map fun s => if s = 0 then 1 else s } }

/-- The same coefficients, read in the algebra without null vectors. -/
noncomputable def relabel (A : Alg) (R : Type) [CommRing R] : Cl A R →ₗ[R] Cl (unnull A) R := linExt A R (blade (unnull A) R)

/-- The element of the exterior algebra that a multivector stands for. -/
noncomputable def valExt (A : Alg) {R : Type} [CommRing R] (x : MV R) : Ext A R := denoteExt A R x.sub x.vals

/-- All blades of a multivector have grade `k`. -/
def Homogeneous {R : Type} (k : Nat) (x : MV R) : Prop := ∀ b ∈ x.sub.blades, popcount b = k

/-- A linear map of the Clifford algebra, for every ring of coefficients. -/
abbrev LinMap (A : Alg) := ∀ (R : Type) [CommRing R], Cl A R →ₗ[R] Cl A R

/-- The six maps `L` of the products `x * L x` used to test simplicity: identity, reversal, grade involution, Clifford
conjugation, negation of everything but the scalar, and negation of everything but scalar and pseudoscalar. -/
noncomputable def involutions (A : Alg) : List (LinMap A) :=
  [fun _ _ => LinearMap.id, fun _ _ => CliffordAlgebra.reverse, fun _ _ => CliffordAlgebra.involute.toLinearMap,
    fun _ _ => CliffordAlgebra.involute.toLinearMap.comp CliffordAlgebra.reverse,
    fun R _ => (2 : R) • gradePart A R 0 - LinearMap.id,
    fun R _ => (2 : R) • (gradePart A R 0 + gradePart A R A.n) - LinearMap.id]

/-- The element is a number. -/
def IsScalar {A : Alg} {R : Type} [CommRing R] (x : Cl A R) : Prop := ∃ c : R, x = c • (1 : Cl A R)

end Verif.Spec
