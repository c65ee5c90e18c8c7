import Verif.Model.Roots
import Mathlib.Algebra.Order.Field.Basic
/-! # Specification of the square root of the numeric backend -/
namespace Verif.Spec
open Model

/-- The square root of the backend is exact where it returns a number. -/
def RootLaw {R : Type} [Field R] (rt : Roots R) : Prop := ∀ a r, rt.sqrt a = some r → r * r = a

/-- The square root of the backend is the one of the real numbers. -/
structure RealRoots {R : Type} [Field R] [LinearOrder R] (rt : Roots R) : Prop where
  nonneg : ∀ a, 0 ≤ a → ∃ r, rt.sqrt a = some r ∧ 0 ≤ r ∧ r * r = a
  neg : ∀ a, a < 0 → rt.sqrt a = none

end Verif.Spec
