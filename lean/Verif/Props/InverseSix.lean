import Verif.Proofs.InverseSix6
import Verif.Props.Inverse
/-! # C47: the bound on the dimension -/
namespace Verif.Props
open Model Spec Six

theorem wf_a6 : WfAlg a6 := by constructor <;> decide
theorem wf_x6 : WfMV a6 x6 := ⟨wfSub_of_B (by decide +kernel), rfl⟩
theorem wf_z6 : WfMV a6 z6 := ⟨wfSub_of_B (by decide +kernel), rfl⟩

/-- C47: the bound on the dimension is needed: with signature `0+0+++`, `ab + cd + ef` has the inverse `ab + cd - ef + 2 abcdef`, but `inverse` returns
`ab + cd - ef`, without dividing by zero. -/
theorem C47_dim6 (fuel : Nat) : ∃ y, x6.inverse a6 (fuel + 1 + 1 + 1) = .ok y ∧ y = ⟨⟨[3, 12, 48]⟩, [1, 1, -1]⟩ ∧
    val a6 x6 * val a6 z6 = 1 ∧ val a6 x6 * val a6 y ≠ 1 ∧ val a6 y * val a6 x6 ≠ 1 := by
  have hz : val a6 x6 * val a6 z6 = 1 := by
    obtain ⟨p, p1, p2, p3⟩ := product_gives wf_a6 wf_x6 wf_z6
    have h := z_left
    rw [p1] at h
    have hv : p.vals = [1, 0, 0, 0] := Option.some.inj h
    rw [← p3]
    have hs : p.sub = ⟨[0, 15, 51, 60]⟩ := by
      have := congrArg (Option.map (·.sub)) p1
      exact (Option.some.inj (this.symm.trans (by decide +kernel)))
    obtain ⟨S, v⟩ := p
    simp only at hv hs
    subst hv hs
    simp [val, denote, blade_zero]
  have hzl : val a6 z6 * val a6 x6 = 1 := mul_eq_one_comm.1 hz
  have hy : WfMV a6 (⟨⟨[3, 12, 48]⟩, [1, 1, -1]⟩ : MV ℚ) := ⟨wf_x6.sub, rfl⟩
  have hne : val a6 (⟨⟨[3, 12, 48]⟩, [1, 1, -1]⟩ : MV ℚ) ≠ val a6 z6 := by
    intro e
    have := congrArg (coef a6 ℚ 63) e
    rw [← coeff_eq hy, ← coeff_eq wf_z6] at this
    exact absurd this (by decide +kernel)
  refine ⟨_, x_inverse fuel, rfl, hz, fun h => hne ?_, fun h => hne ?_⟩
  · calc _ = val a6 z6 * val a6 x6 * val a6 (⟨⟨[3, 12, 48]⟩, [1, 1, -1]⟩ : MV ℚ) := by rw [hzl, one_mul]
      _ = val a6 z6 := by rw [mul_assoc, h, mul_one]
  · calc _ = val a6 (⟨⟨[3, 12, 48]⟩, [1, 1, -1]⟩ : MV ℚ) * (val a6 x6 * val a6 z6) := by rw [hz, mul_one]
      _ = val a6 z6 := by rw [← mul_assoc, h, one_mul]

end Verif.Props
