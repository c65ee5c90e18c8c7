import Verif.Model.Pga2d
import Verif.Model.OperatorFactory
/-! # Layouts in the algebra `w0x+y+` -/
namespace Verif.Pga2d
open Model Model.Pga2d

theorem l24 : (⟨[2]⟩ : SubSpace).union pga ⟨[4]⟩ = some ⟨[2, 4]⟩ := by decide +kernel
theorem l124 : (⟨[2, 4]⟩ : SubSpace).union pga ⟨[1]⟩ = some ⟨[1, 2, 4]⟩ := by decide +kernel
theorem l03 : (⟨[3]⟩ : SubSpace).union pga ⟨[0]⟩ = some ⟨[0, 3]⟩ := by decide +kernel
theorem l035 : (⟨[0, 3]⟩ : SubSpace).union pga ⟨[5]⟩ = some ⟨[0, 3, 5]⟩ := by decide +kernel
theorem l06 : (⟨[6]⟩ : SubSpace).union pga ⟨[0]⟩ = some ⟨[0, 6]⟩ := by decide +kernel
theorem oOrigin : (Factory.sandwich pga (.sub ⟨[0, 3, 5]⟩) ⟨[6]⟩).map (·.output) = some ⟨[3, 5, 6]⟩ := by decide +kernel
theorem oShifts : (Factory.product pga (.sub ⟨[0, 3, 5]⟩) (.sub ⟨[0, 3, 5]⟩)).map (·.output) = some ⟨[0, 3, 5]⟩ := by decide +kernel
theorem oTurns : (Factory.product pga (.sub ⟨[0, 6]⟩) (.sub ⟨[0, 6]⟩)).map (·.output) = some ⟨[0, 6]⟩ := by decide +kernel
theorem oIncident : (Factory.wedge pga (.sub ⟨[1, 2, 4]⟩) (.sub ⟨[3, 5, 6]⟩)).map (·.output) = some ⟨[7]⟩ := by decide +kernel
theorem oLines : (Factory.wedge pga (.sub ⟨[1, 2, 4]⟩) (.sub ⟨[1, 2, 4]⟩)).map (·.output) = some ⟨[3, 5, 6]⟩ := by decide +kernel
theorem w24 : (Factory.wedge pga (.sub ⟨[2]⟩) (.sub ⟨[4]⟩)).map (·.output) = some ⟨[6]⟩ := by decide +kernel
theorem w42 : (Factory.wedge pga (.sub ⟨[4]⟩) (.sub ⟨[2]⟩)).map (·.output) = some ⟨[6]⟩ := by decide +kernel
theorem w12 : (Factory.wedge pga (.sub ⟨[1]⟩) (.sub ⟨[2]⟩)).map (·.output) = some ⟨[3]⟩ := by decide +kernel
theorem w14 : (Factory.wedge pga (.sub ⟨[1]⟩) (.sub ⟨[4]⟩)).map (·.output) = some ⟨[5]⟩ := by decide +kernel
theorem lEven : (⟨[3, 5, 6]⟩ : SubSpace).union pga ⟨[0]⟩ = some ⟨[0, 3, 5, 6]⟩ := by decide +kernel

/-- The layouts of bivectors with an `xy` part. -/
def turning : List SubSpace := [⟨[6]⟩, ⟨[3, 6]⟩, ⟨[5, 6]⟩, ⟨[3, 5, 6]⟩]

theorem turning_option : ∀ S ∈ turning, Dispatch.matchLoop S (Model.Pga2d.expOptions pga) = some none := by decide +kernel
theorem turning_symmetric : ∀ S ∈ turning, S.symmetricReverse pga = some ⟨[0]⟩ := by decide +kernel
theorem turning_union : ∀ S ∈ turning, S.union pga ⟨[0]⟩ = some ⟨0 :: S.blades⟩ := by decide +kernel

/-- The layouts of bivectors without an `xy` part. -/
def shifting : List SubSpace := [⟨[3]⟩, ⟨[5]⟩, ⟨[3, 5]⟩]

theorem shifting_option : ∀ S ∈ shifting, Dispatch.matchLoop S (Model.Pga2d.expOptions pga) = some none := by decide +kernel
theorem shifting_symmetric : ∀ S ∈ shifting, S.symmetricReverse pga = some ⟨[]⟩ := by decide +kernel
theorem empty_rule : Dispatch.matchLoop (⟨[]⟩ : SubSpace) (sqrtOptions pga) = some .scalar := by decide +kernel

end Verif.Pga2d
