import Verif.Model.Batch
import Verif.Spec.Multivector
/-! # Specification of broadcasting

Axes are compared from the last one on; an axis of length one, or one that is absent, is repeated. -/
namespace Verif.Spec
open Model

/-- An array of shape `s` can be repeated to the shape `t`. -/
def Repeats (s t : List Nat) : Prop :=
  s.length ≤ t.length ∧ ∀ k < s.length, s.reverse.getD k 0 = 1 ∨ s.reverse.getD k 0 = t.reverse.getD k 0

/-- The smallest shape to which arrays of the given shapes can be repeated. -/
def Common (shapes : List (List Nat)) (t : List Nat) : Prop :=
  (∀ s ∈ shapes, Repeats s t) ∧ ∀ u, (∀ s ∈ shapes, Repeats s u) → Repeats t u

/-- The index `i` of an array of shape `s` that is repeated to the index `b` of a larger array. -/
def ReadAt (s b i : List Nat) : Prop :=
  i.length = s.length ∧ ∀ k < s.length, i.reverse.getD k 0 = if s.reverse.getD k 0 = 1 then 0 else b.reverse.getD k 0

section
variable {R : Type} [CommRing R]

/-- `y` is the multivector read from the array `x` at the index `b` of a larger array. -/
def IsSlice (b : List Nat) (x : BMV R) (y : MV R) : Prop := ∃ i, ReadAt x.shape b i ∧ y = x.at i

/-- The array `x` has one component per blade of the subspace `S`. -/
def FitsB (x : BMV R) (S : SubSpace) : Prop := x.sub.blades.length = S.blades.length ∧ x.vals.shape = x.shape ++ [S.blades.length]

/-- Well-formed operator with broadcasting axes. -/
structure WfBOp (A : Alg) (op : Operator R) : Prop where
  ne : op.axes ≠ []
  shape : op.kernel.shape = op.batch ++ op.axes.map (·.blades.length)
  sub : ∀ S ∈ op.axes, WfSub A S

end
end Verif.Spec
