import Verif.Proofs.Clifford
import Verif.Spec.Subspace
import Mathlib.LinearAlgebra.Basis.Defs
import Mathlib.LinearAlgebra.ExteriorAlgebra.Basic
/-!
# Specification vocabulary: grades and exterior algebra

The coordinates used here need the fact that the blades are a basis of the Clifford algebra (`bladeBasis`).
-/
namespace Verif.Spec
open Model

variable (A : Alg) (R : Type) [CommRing R]

/-- The linear map with the given values on the blades of the algebra. -/
noncomputable def linExt {M : Type} [AddCommGroup M] [Module R M] (f : Nat → M) : Cl A R →ₗ[R] M :=
  (bladeBasis A R).constr R fun b => f b

/-- The grade `k` part: keeps the blades with `k` basis vectors. -/
noncomputable def gradePart (k : Nat) : Cl A R →ₗ[R] Cl A R :=
  linExt A R fun b => if popcount b = k then blade A R b else 0

/-- The product obtained from the Clifford product by keeping, for homogeneous factors of grades `i` and `j`, the
parts of the grades `k` with `sel i j k`, and summing over all grades of the factors. -/
noncomputable def gradedProduct (sel : Nat → Nat → Nat → Prop) [∀ i j k, Decidable (sel i j k)] (x y : Cl A R) : Cl A R :=
  ∑ i ∈ Finset.range (A.n + 1), ∑ j ∈ Finset.range (A.n + 1), ∑ k ∈ Finset.range (A.n + 1),
    if sel i j k then gradePart A R k (gradePart A R i x * gradePart A R j y) else 0

/-- The exterior algebra over the same vectors; it knows nothing about the signature. -/
abbrev Ext := ExteriorAlgebra R (Fin A.n → R)

/-- The element of the exterior algebra denoted by a bit pattern. -/
noncomputable def extBlade (b : Nat) : Ext A R :=
  (((List.finRange A.n).filter fun i : Fin A.n => b.testBit i).map fun i => ExteriorAlgebra.ι R (Pi.single i (1 : R))).prod

/-- The element of the exterior algebra that coefficients over a subspace stand for. -/
noncomputable def denoteExt (S : SubSpace) (v : List R) : Ext A R :=
  (List.zipWith (fun b x => x • extBlade A R b) S.blades v).sum

end Verif.Spec
