import Verif.Proofs.InverseSix
/-! # Evaluation of `inverse` in six dimensions: values -/
namespace Verif.Six
open Model

/-- `ab + cd + ef`. -/
def x6 : MV ℚ := ⟨⟨[3, 12, 48]⟩, [1, 1, 1]⟩
/-- `x ~x`. -/
def s6 : MV ℚ := ⟨⟨[0, 15, 51, 60]⟩, [1, -2, -2, -2]⟩
/-- The product of `x ~x` with the one where all but the scalar are negated. -/
def t6 : MV ℚ := ⟨⟨[0, 15]⟩, [1, 8]⟩

theorem x_value : x6.symmetricReverse a6 = some s6 := by decide +kernel
theorem s_negated : s6.scalarNegation a6 = some ⟨⟨[0, 15, 51, 60]⟩, [1, 2, 2, 2]⟩ := by decide +kernel
theorem s_value : s6.symmetricScalarNegation a6 = some t6 := by decide +kernel

end Verif.Six
