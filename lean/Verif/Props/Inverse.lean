import Verif.Proofs.Inverse3
import Mathlib.Algebra.Field.Rat
/-! # Properties C47 – C49: inverses and division

Coefficients are in a field in which `2 ≠ 0`; a division by zero, where numpy would go on with `inf` or `nan`, is `Fail.divZero`.
-/
namespace Verif.Props
open Verif Model Spec Model.Factory

variable {A : Alg} {R : Type} [Field R] [DecidableEq R]

/-- C47: in dimension below six, `inverse` of any multivector finds implementations all the way down (no `Fail.noMatch`,
no exception, and a depth of four calls is enough), and returns a two-sided inverse unless it divides by zero. -/
theorem C47_inverse (hA : WfAlg A) (h5 : A.n < 6) (h2 : (2 : R) ≠ 0) {fuel : Nat} (hf : 4 ≤ fuel) {x : MV R} (hx : WfMV A x) :
    (∃ y, x.inverse A fuel = .ok y ∧ WfMV A y ∧ val A x * val A y = 1 ∧ val A y * val A x = 1) ∨ x.inverse A fuel = .error .divZero := by
  rcases inverse_works hA (by omega) h2 3 (le_refl _) fuel hf hx (nsimple_dim5 hA (by omega) hx.sub) with ⟨y, y1, y2, y3⟩ | h
  · exact Or.inl ⟨y, y1, y2, y3, mul_eq_one_comm.1 y3⟩
  · exact Or.inr h

/-- C47: dispatch finds an implementation for every subspace in dimension below six. -/
theorem C47_dispatch (hA : WfAlg A) (h5 : A.n < 6) {S : SubSpace} (hS : WfSub A S) :
    ∃ rule, Dispatch.matchLoop S (inverseOptions A) = some rule := by
  by_cases h3 : 3 ≤ A.n
  · obtain ⟨o, _, h, _⟩ := dispatch_cases hA hS (j := 2) (by omega) (Or.inl h3) (nsimple_dim5 hA (by omega) hS)
    exact ⟨_, h⟩
  · obtain ⟨o, _, h, _⟩ := dispatch_cases hA hS (j := 0) (by omega) (Or.inr rfl) (nsimple_dim2 hA (by omega) hS 0)
    exact ⟨_, h⟩

/-- C47: in dimension at most four `inverse` succeeds exactly on the invertible elements of the algebra. -/
theorem C47_complete (hA : WfAlg A) (h4 : A.n ≤ 4) (h2 : (2 : R) ≠ 0) {fuel : Nat} (hf : 4 ≤ fuel) {x : MV R} (hx : WfMV A x) :
    (∃ y, x.inverse A fuel = .ok y) ↔ IsUnit (val A x) := by
  constructor
  · rintro ⟨y, hy⟩
    rcases C47_inverse hA (by omega) h2 hf hx with ⟨z, _, _, h1, h3⟩ | h
    · exact ⟨⟨_, _, h1, h3⟩, rfl⟩
    · rw [hy] at h; cases h
  · exact fun hu => inverse_ok2 hA h4 h2 (by omega) hx hu

/-- C47: in every dimension, on subspaces that simplify in one step, `inverse` succeeds on all invertible elements (the
values of the recursive calls are not needed). -/
theorem C47_simple (hA : WfAlg A) (fuel : Nat) {x : MV R} (hx : WfMV A x) (hs : SubSpace.isNSimple A 1 x.sub = some true)
    (hu : IsUnit (val A x)) : ∃ y, x.inverse A (fuel + 1) = .ok y := inverse_ok1 hA fuel hx hs hu

/-- C47: the inverse of the empty multivector is a division by zero. -/
theorem C47_empty (hA : WfAlg A) (fuel : Nat) {x : MV R} (hs : x.sub = ⟨[]⟩) : x.inverse A (fuel + 1) = .error .divZero :=
  inverse_empty hA fuel hs

deriving instance DecidableEq for MV, Except

/-- `x = 2 + xyz` over the rationals, invertible in 3d projective algebra. -/
def exI : MV ℚ := ⟨⟨[0, 14]⟩, [2, 1]⟩
/-- Five dimensional algebra. -/
def euc5 : Alg := ⟨⟨["v".toList, "w".toList, "x".toList, "y".toList, "z".toList], [1, 1, 1, 1, 0]⟩, 1, 1⟩
theorem wf_exI : WfMV pga3 exI := ⟨wfSub_of_B (by decide), by decide⟩

example : WfMV pga3 exI ∧ exI.inverse pga3 4 = .ok ⟨⟨[0, 14]⟩, [2 / 5, -1 / 5]⟩ := ⟨wf_exI, by decide +kernel⟩
/-- A non-invertible vector. -/
example : (⟨⟨[1]⟩, [1]⟩ : MV ℚ).inverse pga3 4 = .error .divZero := by decide +kernel
/-- A general bivector in five dimensions: the special case. -/
example : (⟨⟨[3, 12]⟩, [1, 2]⟩ : MV ℚ).inverse euc5 4 = .ok ⟨⟨[3, 12]⟩, [1 / 3, -2 / 3]⟩ := by decide +kernel

/-- Three dimensional Euclidean algebra. -/
def euc3 : Alg := ⟨⟨["x".toList, "y".toList, "z".toList], [1, 1, 1]⟩, 1, 1⟩
/-- Four dimensional Euclidean algebra. -/
def euc4 : Alg := ⟨⟨["w".toList, "x".toList, "y".toList, "z".toList], [1, 1, 1, 1]⟩, 1, 1⟩
/-- `2 + xyz`. -/
def exI3 : MV ℚ := ⟨⟨[0, 7]⟩, [2, 1]⟩
/-- `2 + wxyz`. -/
def exQ : MV ℚ := ⟨⟨[0, 15]⟩, [2, 1]⟩

/-- C48: in dimension below four `inverse_hitzer` returns a two-sided inverse unless it divides by zero, and it divides by
zero exactly if there is no inverse. -/
theorem C48_hitzer (hA : WfAlg A) (h3 : A.n < 4) (h2 : (2 : R) ≠ 0) {fuel : Nat} (hf : 1 ≤ fuel) {x : MV R} (hx : WfMV A x) :
    (∃ y, x.inverseHitzer A fuel = .ok y ∧ WfMV A y ∧ val A x * val A y = 1 ∧ val A y * val A x = 1) ∨
      (x.inverseHitzer A fuel = .error .divZero ∧ ¬ IsUnit (val A x)) := by
  obtain ⟨i, s, c, i2, s2, s3, s4, e, i3, h⟩ := hitzer_spec hA (by omega) h2 fuel hx
  obtain ⟨fuel, rfl⟩ : ∃ f, fuel = f + 1 := ⟨fuel - 1, by omega⟩
  have hu : c = 0 → ¬ IsUnit (val A x) := by
    rintro rfl hu
    rw [zero_smul] at e
    apply unit_ne_zero (((isUnit_reverse hu).mul (isUnit_involute (isUnit_reverse (hu.mul (isUnit_reverse hu))))))
    rw [← i3]
    exact hu.mul_right_eq_zero.1 e
  rw [h, MV.divideWith, (scalar_eq hA).1, lift_some]
  simp only [bind, Except.bind]
  rcases s3 with s3 | ⟨s3, s5⟩
  · right
    rw [if_neg (by rw [s3]; simp), inverse_empty hA fuel s3]
    exact ⟨rfl, hu (by
      rw [val_empty s3] at s4
      by_contra hc
      exact one_ne_zero' A R ((smul_eq_zero.1 s4.symm).resolve_left hc))⟩
  · rw [if_pos s3]
    obtain ⟨d, hd, hv⟩ := val_scalar s2 s3
    have hdc : d = c := by
      rw [s4] at hv
      have := congrArg (coef A R 0) hv
      rw [map_smul, map_smul, ← blade_zero, coef_blade _ _ (by simp)] at this
      simpa using this.symm
    subst hdc
    by_cases h0 : d = 0
    · right
      refine ⟨?_, hu h0⟩
      rw [MV.divValues, hd]
      simp only
      rw [if_pos ⟨h0, s5⟩]
    · left
      obtain ⟨y, y1, y2, _, y3⟩ := divValues_spec i2 hd (fun h => absurd h h0)
      have e2 : val A x * val A y = 1 := by rw [y3, mul_smul_comm, e, smul_smul, inv_mul_cancel₀ h0, one_smul]
      exact ⟨y, y1, y2, e2, mul_eq_one_comm.1 e2⟩

example : exI3.inverseHitzer euc3 1 = .ok ⟨⟨[0, 7]⟩, [2 / 5, -1 / 5]⟩ := by decide +kernel

/-- C49: wherever `y.inverse()` is an inverse, `x / y` is the quotient. -/
theorem C49_quotient (hA : WfAlg A) {fuel : Nat} {x y i : MV R} (hx : WfMV A x) (hs : y.sub ≠ ⟨[0]⟩) (hi : y.inverse A fuel = .ok i)
    (wi : WfMV A i) (h : val A i * val A y = 1) :
    ∃ z, x.truediv A fuel (.mv y) = .ok z ∧ WfMV A z ∧ val A z = val A x * val A i ∧ val A z * val A y = val A x := by
  obtain ⟨z, z1, z2, z3⟩ := product_gives hA hx wi
  refine ⟨z, ?_, z2, z3, by rw [z3, mul_assoc, h, mul_one]⟩
  simp only [MV.truediv, MV.upcast, lift_some, bind, Except.bind, MV.divideWith, (scalar_eq hA).1]
  rw [if_neg hs, hi]
  simp only [z1]
  rfl

/-- C49: dividing by a nonzero scalar or number divides every coefficient, in the same subspace. -/
theorem C49_scalar (hA : WfAlg A) (fuel : Nat) {x : MV R} (hx : WfMV A x) {c : R} (h0 : c ≠ 0) :
    x.truediv A fuel (.mv ⟨⟨[0]⟩, [c]⟩) = .ok ⟨x.sub, x.vals.map (· / c)⟩ ∧
    x.truediv A fuel (.num c) = .ok ⟨x.sub, x.vals.map (· / c)⟩ := by
  have h : x.divideWith A (MV.inverse A fuel) ⟨⟨[0]⟩, [c]⟩ = .ok ⟨x.sub, x.vals.map (· / c)⟩ := by
    rw [MV.divideWith, (scalar_eq hA).1, lift_some]
    simp only [bind, Except.bind, if_true, MV.divValues]
    rw [if_neg (fun h => h0 h.1), MV.copy, MV.construct, if_pos (by simp [hx.len])]
    rfl
  constructor
  · simpa only [MV.truediv, MV.upcast, lift_some, bind, Except.bind] using h
  · have : MV.upcast A (.num c) = some ⟨⟨[0]⟩, [c]⟩ := by
      rw [MV.upcast, (scalar_eq hA).1]
      rfl
    simpa only [MV.truediv, this, lift_some, bind, Except.bind] using h

/-- C49: in dimension below six, `x / y` returns the quotient unless it divides by zero. -/
theorem C49_div (hA : WfAlg A) (h5 : A.n < 6) (h2 : (2 : R) ≠ 0) {fuel : Nat} (hf : 4 ≤ fuel) {x y : MV R} (hx : WfMV A x) (hy : WfMV A y) :
    (∃ z, x.truediv A fuel (.mv y) = .ok z ∧ WfMV A z ∧ val A z * val A y = val A x) ∨ x.truediv A fuel (.mv y) = .error .divZero := by
  by_cases hs : y.sub = ⟨[0]⟩
  · obtain ⟨c, hc, hv⟩ := val_scalar hy hs
    by_cases h0 : c = 0 ∧ x.vals ≠ []
    · right
      simp only [MV.truediv, MV.upcast, lift_some, bind, Except.bind, MV.divideWith, (scalar_eq hA).1]
      rw [if_pos hs, MV.divValues, hc]
      simp only
      rw [if_pos h0]
    · left
      obtain ⟨z, z1, z2, _, z3⟩ := divValues_spec hx hc (fun h => by by_contra hn; exact h0 ⟨h, hn⟩)
      refine ⟨z, ?_, z2, ?_⟩
      · simp only [MV.truediv, MV.upcast, lift_some, bind, Except.bind, MV.divideWith, (scalar_eq hA).1]
        rw [if_pos hs, z1]
      · rw [z3, hv, smul_mul_smul_comm, mul_one]
        by_cases hc0 : c = 0
        · have hx0 : x.vals = [] := by by_contra hn; exact h0 ⟨hc0, hn⟩
          have : val A x = 0 := by rw [val, hx0]; simp [denote]
          rw [this, smul_zero]
        · rw [inv_mul_cancel₀ hc0, one_smul]
  · rcases C47_inverse hA h5 h2 hf hy with ⟨i, i1, i2, _, i3⟩ | h
    · obtain ⟨z, z1, z2, _, z3⟩ := C49_quotient hA hx hs i1 i2 i3
      exact Or.inl ⟨z, z1, z2, z3⟩
    · right
      simp only [MV.truediv, MV.upcast, lift_some, bind, Except.bind, MV.divideWith, (scalar_eq hA).1]
      rw [if_neg hs, h]

/-- C49: `c / x` for a number `c`: `c` times the inverse of `x`. -/
theorem C49_rdiv (hA : WfAlg A) (h5 : A.n < 6) (h2 : (2 : R) ≠ 0) {fuel : Nat} (hf : 4 ≤ fuel) {x : MV R} (hx : WfMV A x) (c : R) :
    (∃ z, x.rtruediv A fuel (.num c) = .ok z ∧ WfMV A z ∧ val A z * val A x = algebraMap R _ c) ∨ x.rtruediv A fuel (.num c) = .error .divZero := by
  obtain ⟨u, u1, u2, u3⟩ := upcast_gives hA c
  have e : x.rtruediv A fuel (.num c) = u.truediv A fuel (.mv x) := by
    rw [MV.rtruediv, u1]; rfl
  rw [e, ← u3]
  exact C49_div hA h5 h2 hf u2 hx

example : exI.truediv pga3 4 (.mv exI) = .ok ⟨⟨[0, 14]⟩, [1, 0]⟩ ∧ exI.rtruediv pga3 4 (.num 5) = .ok ⟨⟨[0, 14]⟩, [2, -1]⟩ := by
  decide +kernel

end Verif.Props
