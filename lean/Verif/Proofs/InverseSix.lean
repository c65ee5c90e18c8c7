import Verif.Model.Inverse
/-! # Evaluation of `inverse` in six dimensions: subspaces -/
namespace Verif.Six
open Model

/-- The signature `0+0+++`. -/
def a6 : Alg := ⟨⟨["a".toList, "b".toList, "c".toList, "d".toList, "e".toList, "f".toList], [0, 1, 0, 1, 1, 1]⟩, 1, 1⟩

theorem x_squared : (⟨[3, 12, 48]⟩ : SubSpace).squared a6 = some ⟨[0, 15, 51, 60]⟩ := by decide +kernel
theorem x_reverse : (⟨[3, 12, 48]⟩ : SubSpace).symmetricReverse a6 = some ⟨[0, 15, 51, 60]⟩ := by decide +kernel
theorem x_conjugate : (⟨[3, 12, 48]⟩ : SubSpace).symmetricConjugate a6 = some ⟨[0, 15, 51, 60]⟩ := by decide +kernel
theorem x_scalar : (⟨[3, 12, 48]⟩ : SubSpace).symmetricScalarNegation a6 = some ⟨[0, 15, 51, 60]⟩ := by decide +kernel
theorem x_pseudoscalar : (⟨[3, 12, 48]⟩ : SubSpace).symmetricPseudoscalarNegation a6 = some ⟨[0, 15, 51, 60]⟩ := by decide +kernel
theorem x_involute : (⟨[3, 12, 48]⟩ : SubSpace).symmetricInvolute a6 = some ⟨[0, 15, 51, 60]⟩ := by decide +kernel

theorem t_squared : (⟨[0, 15]⟩ : SubSpace).squared a6 = some ⟨[0, 15]⟩ := by decide +kernel
theorem t_reverse : (⟨[0, 15]⟩ : SubSpace).symmetricReverse a6 = some ⟨[0, 15]⟩ := by decide +kernel
theorem t_conjugate : (⟨[0, 15]⟩ : SubSpace).symmetricConjugate a6 = some ⟨[0, 15]⟩ := by decide +kernel
theorem t_scalar : (⟨[0, 15]⟩ : SubSpace).symmetricScalarNegation a6 = some ⟨[0]⟩ := by decide +kernel
theorem t_pseudoscalar : (⟨[0, 15]⟩ : SubSpace).symmetricPseudoscalarNegation a6 = some ⟨[0]⟩ := by decide +kernel
theorem t_involute : (⟨[0, 15]⟩ : SubSpace).symmetricInvolute a6 = some ⟨[0, 15]⟩ := by decide +kernel

theorem scalar6 : a6.scalar = some ⟨[0]⟩ := by decide +kernel
theorem empty6 : a6.empty = some ⟨[]⟩ := by decide +kernel

end Verif.Six
