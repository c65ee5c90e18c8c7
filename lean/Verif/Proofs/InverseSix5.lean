import Verif.Proofs.InverseSix4
/-! # Evaluation of `inverse` in six dimensions: values -/
namespace Verif.Six
open Model

theorem t_negated : t6.scalarNegation a6 = some ⟨⟨[0, 15]⟩, [1, -8]⟩ := by decide +kernel
theorem t_value : t6.symmetricScalarNegation a6 = some ⟨⟨[0]⟩, [1]⟩ := by decide +kernel
theorem s_product : (⟨⟨[0, 15, 51, 60]⟩, [1, 2, 2, 2]⟩ : MV ℚ).product a6 ⟨⟨[0, 15]⟩, [1, -8]⟩ = some ⟨⟨[0, 15, 51, 60]⟩, [1, -6, 2, 2]⟩ := by decide +kernel
theorem s_neg : (⟨⟨[0, 15, 51, 60]⟩, [1, -6, 2, 2]⟩ : MV ℚ).neg = some ⟨⟨[0, 15, 51, 60]⟩, [-1, 6, -2, -2]⟩ := by decide +kernel

theorem y_value : x6.bivectorProduct a6 ⟨⟨[0, 15, 51, 60]⟩, [-1, 6, -2, -2]⟩ = some ⟨⟨[3, 12, 48]⟩, [1, 1, -1]⟩ := by decide +kernel
/-- The inverse. -/
def z6 : MV ℚ := ⟨⟨[3, 12, 48, 63]⟩, [1, 1, -1, 2]⟩
theorem z_left : (x6.product a6 z6).map (·.vals) = some [1, 0, 0, 0] := by decide +kernel

end Verif.Six
