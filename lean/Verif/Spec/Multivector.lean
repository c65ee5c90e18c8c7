import Verif.Spec.Clifford
import Verif.Spec.Subspace
import Verif.Model.Multivector
/-! # Specification vocabulary for multivectors and operators -/
namespace Verif.Spec
open Model

/-- The element of the Clifford algebra that coefficients `v` over subspace `S` stand for. -/
def denote (A : Alg) (R : Type) [CommRing R] (S : SubSpace) (v : List R) : Cl A R :=
  (List.zipWith (fun b x => x • blade A R b) S.blades v).sum

/-- The inputs have the right number of coefficients. -/
def Fits {R : Type} (xs : List (List R)) (Ss : List SubSpace) : Prop :=
  List.Forall₂ (fun x S => x.length = S.blades.length) xs Ss

/-- Well-formed operator: well-formed axes, and a kernel whose shape agrees with them. -/
structure WfOp {K : Type} (A : Alg) (op : Operator K) : Prop where
  ne : op.axes ≠ []
  shape : op.kernel.shape = op.axes.map (·.blades.length)
  sub : ∀ S ∈ op.axes, WfSub A S

/-- Well-formed argument of a factory function. -/
def WfArg {K : Type} (A : Alg) : Arg K → Prop
  | .sub S => WfSub A S
  | .op O => WfOp A O

/-- Well-formed multivector: a well-formed subspace and one coefficient per blade (what `construct` asserts). -/
structure WfMV {R : Type} (A : Alg) (x : MV R) : Prop where
  sub : WfSub A x.sub
  len : x.vals.length = x.sub.blades.length

/-- The element of the Clifford algebra that a multivector stands for. -/
def val (A : Alg) {R : Type} [CommRing R] (x : MV R) : Cl A R := denote A R x.sub x.vals

/-- A call succeeds with a well-formed multivector that stands for `v`. -/
def Gives (A : Alg) {R : Type} [CommRing R] (r : Option (MV R)) (v : Cl A R) : Prop :=
  ∃ z, r = some z ∧ WfMV A z ∧ val A z = v

/-- A call succeeds with a well-formed multivector of subspace `S` that stands for `v`. -/
def GivesIn (A : Alg) {R : Type} [CommRing R] (r : Option (MV R)) (S : SubSpace) (v : Cl A R) : Prop :=
  ∃ z, r = some z ∧ z.sub = S ∧ WfMV A z ∧ val A z = v

/-- Two calls both succeed, with multivectors that stand for the same element. -/
def Agree (A : Alg) {R : Type} [CommRing R] (r s : Option (MV R)) : Prop := ∃ v, Gives A r v ∧ Gives A s v

/-- The coefficient of a multivector at a blade, zero if the blade is not stored. -/
def coeff {R : Type} [CommRing R] (x : MV R) (b : Nat) : R := ((x.sub.blades.zip x.vals).lookup b).getD 0

/-- An element that is represented by some multivector stored in the subspace. -/
def Within (A : Alg) {R : Type} [CommRing R] (S : SubSpace) (x : Cl A R) : Prop := ∃ z : MV R, WfMV A z ∧ z.sub = S ∧ val A z = x

/-- Products of elements of the subspace stay in the subspace, whatever the coefficients. -/
def Closed (A : Alg) (S : SubSpace) : Prop :=
  ∀ (R : Type) [CommRing R] (x y : Cl A R), Within A S x → Within A S y → Within A S (x * y)

/-- Contraction of an array with vectors, one axis after the other: `∑ i j .., x i * y j * .. * k i j ..`. -/
def contract {R : Type} [CommRing R] : List (List R) → (List Nat → R) → R
  | [], k => k []
  | x :: xs, k => ∑ i ∈ Finset.range x.length, x.getD i 0 * contract xs fun idx => k (i :: idx)

/-- All blades of the first subspace are blades of the second. -/
def SubOf (S T : SubSpace) : Prop := ∀ b ∈ S.blades, b ∈ T.blades

end Verif.Spec
