import Verif.Spec.Clifford
import Mathlib.Analysis.Calculus.Deriv.Basic
import Mathlib.Data.Real.Basic
/-! # Specification of the exponential of an element of a real Clifford algebra -/
namespace Verif.Spec
open Model

/-- The curve `E` solves `E' = B E`, `E 0 = 1`; the derivative is taken of every linear functional of `E`. -/
structure IsExpCurve (A : Alg) (B : Cl A ℝ) (E : ℝ → Cl A ℝ) : Prop where
  zero : E 0 = 1
  deriv : ∀ (φ : Cl A ℝ →ₗ[ℝ] ℝ) (t : ℝ), HasDerivAt (fun t => φ (E t)) (φ (B * E t)) t

/-- `X` is the exponential of `B`. -/
def IsExp (A : Alg) (B X : Cl A ℝ) : Prop := ∃ E, IsExpCurve A B E ∧ E 1 = X

end Verif.Spec
