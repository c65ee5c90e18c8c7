import Verif.Proofs.Shirokov2
/-! # C59: `inverse_shirokov` -/
namespace Verif.Props
open Verif Model Spec Model.Factory

variable {A : Alg} {R : Type} [Field R] [DecidableEq R] [CharZero R]

/-- C59: in every dimension and every signature, `inverse_shirokov` returns the two-sided inverse of `x` or divides by zero; it has
no other outcome. -/
theorem C59_inverse (hA : WfAlg A) (h1 : 1 ≤ A.n) {fuel : Nat} (hf : 1 ≤ fuel) {x : MV R} (hx : WfMV A x) :
    (∃ y, x.inverseShirokov A fuel = .ok y ∧ WfMV A y ∧ val A x * val A y = 1 ∧ val A y * val A x = 1) ∨
      x.inverseShirokov A fuel = .error .divZero := by
  obtain ⟨a, b⟩ := inverseShirokov_spec hA h1 hf hx
  by_cases h : fin A ((A.n + 1) / 2) (val A x) = 0
  · exact Or.inr (b h)
  · obtain ⟨y, y1, y2, y3⟩ := a h
    exact Or.inl ⟨y, y1, y2, y3, mul_eq_one_comm.1 y3⟩

/-- C59: it divides by zero only if `x` has no inverse. -/
theorem C59_complete (hA : WfAlg A) (h1 : 1 ≤ A.n) {fuel : Nat} (hf : 1 ≤ fuel) {x : MV R} (hx : WfMV A x) :
    (∃ y, x.inverseShirokov A fuel = .ok y) ↔ IsUnit (val A x) := by
  constructor
  · rintro ⟨y, hy⟩
    rcases C59_inverse hA h1 hf hx with ⟨z, _, _, h, h'⟩ | h
    · exact ⟨⟨_, _, h, h'⟩, rfl⟩
    · rw [hy] at h; cases h
  · intro hu
    obtain ⟨a, _⟩ := inverseShirokov_spec hA h1 hf hx
    obtain ⟨y, y1, _⟩ := a (fin_unit A (by omega) (by omega) hu)
    exact ⟨y, y1⟩

omit [CharZero R] in
/-- C59: in the algebra without generators the loop does not run and the method raises. -/
theorem C59_dim0 (h0 : A.n = 0) (fuel : Nat) (x : MV R) : x.inverseShirokov A fuel = .error .raised := by
  rw [MV.inverseShirokov, h0]; rfl

example : WfMV euc4 exQ ∧ 1 ≤ euc4.n ∧ exQ.inverseShirokov euc4 1 = .ok ⟨⟨[0, 15]⟩, [2 / 3, -1 / 3]⟩ ∧
    (⟨⟨[0, 15]⟩, [1, 1]⟩ : MV ℚ).inverseShirokov euc4 1 = .error .divZero := by
  refine ⟨wf_exQ, by decide, ?_, ?_⟩ <;> decide +kernel

end Verif.Props
