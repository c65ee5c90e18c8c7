import Verif.Proofs.InverseSix
/-! # Evaluation of `inverse` in six dimensions -/
namespace Verif.Six
open Model

theorem s_squared : (⟨[0, 15, 51, 60]⟩ : SubSpace).squared a6 = some ⟨[0, 15, 51, 60]⟩ := by decide +kernel
theorem s_reverse : (⟨[0, 15, 51, 60]⟩ : SubSpace).symmetricReverse a6 = some ⟨[0, 15, 51, 60]⟩ := by decide +kernel
theorem s_conjugate : (⟨[0, 15, 51, 60]⟩ : SubSpace).symmetricConjugate a6 = some ⟨[0, 15, 51, 60]⟩ := by decide +kernel
theorem s_scalar : (⟨[0, 15, 51, 60]⟩ : SubSpace).symmetricScalarNegation a6 = some ⟨[0, 15]⟩ := by decide +kernel
theorem s_pseudoscalar : (⟨[0, 15, 51, 60]⟩ : SubSpace).symmetricPseudoscalarNegation a6 = some ⟨[0, 15]⟩ := by decide +kernel
theorem s_involute : (⟨[0, 15, 51, 60]⟩ : SubSpace).symmetricInvolute a6 = some ⟨[0, 15, 51, 60]⟩ := by decide +kernel

end Verif.Six
