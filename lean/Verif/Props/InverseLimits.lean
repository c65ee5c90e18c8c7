import Verif.Props.Inverse
/-! # Limits of the inverses: higher dimensions -/
namespace Verif.Props
open Verif Model Spec Model.Factory

section
variable {A : Alg} {R : Type} [Field R]

theorem gradePart_zero_eq (hA : WfAlg A) (z : Cl A R) : gradePart A R 0 z = coef A R 0 z • 1 := by
  have h : gradePart A R 0 = (LinearMap.toSpanSingleton R (Cl A R) 1).comp (coef A R 0) := by
    apply lin_ext
    intro a ha
    rw [gradePart_blade _ ha, LinearMap.comp_apply, coef_blade _ _ ha, LinearMap.toSpanSingleton_apply]
    by_cases h0 : 0 = a
    · subst h0; rw [if_pos (by decide), if_pos rfl, one_smul, blade_zero]
    · rw [if_neg h0, if_neg, zero_smul]
      intro h
      exact h0 ((popcount_eq_zero hA.le32 ha).1 h).symm
  rw [h]; rfl

/-- C48: in every dimension, `inverse_hitzer` returns the factor `f = ~x conjugate(x ~x)` divided by the scalar part of
`x f`, and divides by zero exactly if that is zero. -/
theorem C48_value [DecidableEq R] (hA : WfAlg A) {fuel : Nat} (hf : 1 ≤ fuel) {x : MV R} (hx : WfMV A x) {f : Cl A R}
    (hfac : f = CliffordAlgebra.reverse (val A x) *
      CliffordAlgebra.involute (CliffordAlgebra.reverse (val A x * CliffordAlgebra.reverse (val A x)))) :
    (coef A R 0 (val A x * f) ≠ 0 →
      ∃ y, x.inverseHitzer A fuel = .ok y ∧ WfMV A y ∧ val A y = (coef A R 0 (val A x * f))⁻¹ • f) ∧
    (coef A R 0 (val A x * f) = 0 → x.inverseHitzer A fuel = .error .divZero) := by
  obtain ⟨fuel, rfl⟩ : ∃ f, fuel = f + 1 := ⟨fuel - 1, by omega⟩
  have hC : Cond.eqOn A [0, 1, 2] R [val A x, val A x, val A x] := by
    intro i hi j hj; simp at hi hj; rcases hi with rfl | rfl | rfl <;> rcases hj with rfl | rfl | rfl <;> rfl
  obtain ⟨i, i1, i2, i3⟩ := call_gives3 (inverseFactor_sem hA hx.sub) hx hx hx hC
  obtain ⟨s, s1, s2, s4⟩ := bin_gives (scalarProduct_bin hA) hx i2
  simp only [List.headD_cons] at i3
  rw [← hfac] at i3
  rw [scalarProduct_eq hA, i3, gradePart_zero_eq hA] at s4
  have s3 := scalarProduct_sub hA hx i2 s1
  have h : MV.inverseHitzer A (fuel + 1) x = i.divideWith A (MV.inverse A (fuel + 1)) s := by
    rw [MV.inverseHitzer, MV.inverseFactor, i1]
    simp only [lift_some, bind, Except.bind, MV.truediv, MV.upcast]
    rw [show x.scalarProduct A i = some s from s1]
    rfl
  generalize coef A R 0 (val A x * f) = c at s4 ⊢
  rw [h, MV.divideWith, (scalar_eq hA).1, lift_some]
  simp only [bind, Except.bind]
  rcases s3 with s3 | ⟨s3, s5⟩
  · rw [if_neg (by rw [s3]; simp), inverse_empty hA fuel s3]
    have hc : c = 0 := by
      rw [val_empty s3] at s4
      by_contra hc
      exact one_ne_zero' A R ((smul_eq_zero.1 s4.symm).resolve_left hc)
    exact ⟨fun h => absurd hc h, fun _ => rfl⟩
  · rw [if_pos s3]
    obtain ⟨d, hd, hv⟩ := val_scalar s2 s3
    have hdc : d = c := by
      rw [s4] at hv
      have := congrArg (coef A R 0) hv
      rw [map_smul, map_smul, ← blade_zero, coef_blade _ _ (by simp)] at this
      simpa using this.symm
    subst hdc
    refine ⟨fun h0 => ?_, fun h0 => ?_⟩
    · obtain ⟨y, y1, y2, _, y3⟩ := divValues_spec i2 hd (fun h => absurd h h0)
      exact ⟨y, y1, y2, by rw [y3, i3]⟩
    · rw [MV.divValues, hd]
      simp only
      rw [if_pos ⟨h0, s5⟩]

end

theorem wf_euc4 : WfAlg euc4 := by constructor <;> decide
theorem wf_exQ : WfMV euc4 exQ := ⟨wfSub_of_B (by decide +kernel), rfl⟩

/-- C48: the bound on the dimension is needed: in four dimensions, `2 + wxyz` is invertible and `inverse` finds
the inverse, but `inverse_hitzer` returns something else without raising. -/
theorem C48_dim4 : (∃ y, exQ.inverseHitzer euc4 4 = .ok y ∧ val euc4 exQ * val euc4 y ≠ 1 ∧ val euc4 y * val euc4 exQ ≠ 1) ∧
    exQ.inverse euc4 4 = .ok ⟨⟨[0, 15]⟩, [2 / 3, -1 / 3]⟩ ∧
    val euc4 exQ * val euc4 (⟨⟨[0, 15]⟩, [2 / 3, -1 / 3]⟩ : MV ℚ) = 1 := by
  have hI : blade euc4 ℚ 15 * blade euc4 ℚ 15 = 1 := by
    rw [blade_mul wf_euc4, show sgn euc4 15 15 = 1 by decide +kernel]
    simp [blade_zero]
  have hr : CliffordAlgebra.reverse (blade euc4 ℚ 15) = blade euc4 ℚ 15 := by
    rw [reverse_blade, show pc euc4.n 15 = 4 by decide +kernel]; norm_num
  have hi : CliffordAlgebra.involute (blade euc4 ℚ 15) = blade euc4 ℚ 15 := by
    rw [involute_blade, show pc euc4.n 15 = 4 by decide +kernel]; norm_num
  have hv : ∀ a b : ℚ, val euc4 (⟨⟨[0, 15]⟩, [a, b]⟩ : MV ℚ) = a • 1 + b • blade euc4 ℚ 15 := by
    intro a b
    simp [val, denote, blade_zero]
  have hx : val euc4 exQ = (2 : ℚ) • 1 + (1 : ℚ) • blade euc4 ℚ 15 := hv 2 1
  have hm : ∀ a b c d : ℚ, (a • (1 : Cl euc4 ℚ) + b • blade euc4 ℚ 15) * (c • 1 + d • blade euc4 ℚ 15) =
      (a * c + b * d) • 1 + (a * d + b * c) • blade euc4 ℚ 15 := by
    intro a b c d
    simp only [mul_add, add_mul, smul_mul_smul_comm, one_mul, mul_one, hI]
    module
  have hrev : ∀ a b : ℚ, CliffordAlgebra.reverse (a • (1 : Cl euc4 ℚ) + b • blade euc4 ℚ 15) = a • 1 + b • blade euc4 ℚ 15 := by
    intro a b
    rw [map_add, map_smul, map_smul, hr, CliffordAlgebra.reverse.map_one]
  have hinv : ∀ a b : ℚ, CliffordAlgebra.involute (a • (1 : Cl euc4 ℚ) + b • blade euc4 ℚ 15) = a • 1 + b • blade euc4 ℚ 15 := by
    intro a b
    rw [map_add, map_smul, map_smul, hi, map_one]
  have hc : ∀ a b : ℚ, coef euc4 ℚ 0 (a • (1 : Cl euc4 ℚ) + b • blade euc4 ℚ 15) = a ∧
      coef euc4 ℚ 15 (a • (1 : Cl euc4 ℚ) + b • blade euc4 ℚ 15) = b := by
    intro a b
    rw [← blade_zero, map_add, map_smul, map_smul, map_add, map_smul, map_smul, coef_blade _ _ (by decide +kernel), coef_blade _ _ (by decide +kernel),
      coef_blade _ _ (by decide +kernel), coef_blade _ _ (by decide +kernel)]
    simp
  have hne : ∀ a b : ℚ, b ≠ 0 → a • (1 : Cl euc4 ℚ) + b • blade euc4 ℚ 15 ≠ 1 := by
    intro a b hb e
    have h1 := (hc a b).2
    have h2 := (hc 1 0).2
    rw [e] at h1
    rw [one_smul, zero_smul, add_zero] at h2
    exact hb (h1.symm.trans h2)
  refine ⟨?_, by decide +kernel, ?_⟩
  · have hf : CliffordAlgebra.reverse (val euc4 exQ) * CliffordAlgebra.involute (CliffordAlgebra.reverse
        (val euc4 exQ * CliffordAlgebra.reverse (val euc4 exQ))) = (14 : ℚ) • 1 + (13 : ℚ) • blade euc4 ℚ 15 := by
      rw [hx, hrev, hm, hrev, hinv, hm]; norm_num
    obtain ⟨y, y1, y2, y3⟩ := (C48_value wf_euc4 (fuel := 4) (by norm_num) wf_exQ hf.symm).1 (by
      rw [hx, hm, (hc _ _).1]; norm_num)
    rw [hx, hm, (hc _ _).1, smul_add, smul_smul, smul_smul] at y3
    refine ⟨y, y1, ?_, ?_⟩
    · rw [y3, hx, hm]
      exact hne _ _ (by norm_num)
    · rw [y3, hx, hm]
      exact hne _ _ (by norm_num)
  · rw [hx, hv, hm]; norm_num

end Verif.Props
