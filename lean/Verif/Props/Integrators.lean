import Verif.Proofs.RungeKutta2
import Mathlib.Analysis.SpecialFunctions.Exponential
import Mathlib.Analysis.SpecialFunctions.ExpDeriv
import Mathlib.Analysis.Calculus.Deriv.Inv
/-!
# Runge-Kutta methods (C92)

The state is a multivector stored on a subspace `S`, the right hand side keeps the subspace and acts on the coefficients as an analytic
function.  One step from `y₀` is compared with an arbitrary solution of the differential equation through `y₀`.
-/
namespace Verif.Props
open Model Spec Factory Asymptotics Filter Topology

variable {A : Alg} {S : SubSpace} {f : MV ℝ → Except Fail (MV ℝ)} {F : (Fin S.blades.length → ℝ) → Fin S.blades.length → ℝ}
variable {y₀ : Fin S.blades.length → ℝ} {y : ℝ → Fin S.blades.length → ℝ}

private theorem close {n : ℕ} {a b : ℝ → Fin S.blades.length → ℝ} {c : ℕ → Fin S.blades.length → ℝ} (h : RK.J n a c) (h' : RK.J n b c) :
    (fun t => a t - b t) =O[𝓝 0] fun t => t ^ n :=
  (IsBigO.sub h h').congr_left fun t => by simp

/-- C92, Euler's method: one step stays on the subspace of the state and differs from the exact solution by `O(h²)`. -/
theorem C92_rk1 (hA : WfAlg A) (hS : WfSub A S) (hf : ActsAs S f F) (hF : AnalyticAt ℝ F y₀) (h0 : y 0 = y₀)
    (hy : ∀ᶠ t in 𝓝 0, HasDerivAt y (F (y t)) t) :
    ∃ z : ℝ → Fin S.blades.length → ℝ, (∀ h, Integrators.RK1 A f (mvOf S y₀) h = .ok (mvOf S (z h))) ∧
      (fun h => z h - y h) =O[𝓝 0] fun h => h ^ 2 := by
  obtain ⟨p, hp⟩ := hF
  exact ⟨_, fun h => RK1_mvOf hA hS hf y₀ h, close (RK.rk1_jet hp) ((RK.exact_solution hp h0 hy).mono (by omega))⟩

/-- C92, the classical method: one step stays on the subspace of the state and differs from the exact solution by `O(h⁵)`. -/
theorem C92_rk4 (hA : WfAlg A) (hS : WfSub A S) (hf : ActsAs S f F) (hF : AnalyticAt ℝ F y₀) (h0 : y 0 = y₀)
    (hy : ∀ᶠ t in 𝓝 0, HasDerivAt y (F (y t)) t) :
    ∃ z : ℝ → Fin S.blades.length → ℝ, (∀ h, Integrators.RK4 A f (mvOf S y₀) h = .ok (mvOf S (z h))) ∧
      (fun h => z h - y h) =O[𝓝 0] fun h => h ^ 5 := by
  obtain ⟨p, hp⟩ := hF
  exact ⟨_, fun h => RK4_mvOf hA hS hf y₀ h, close (RK.rk4_jet hp) (RK.exact_solution hp h0 hy)⟩

/-- C92, the method called `RK8`: one step stays on the subspace of the state and differs from the exact solution by `O(h⁴)`.  No higher
power is possible: `C92_rk8_order`. -/
theorem C92_rk8 (hA : WfAlg A) (hS : WfSub A S) (hf : ActsAs S f F) (hF : AnalyticAt ℝ F y₀) (h0 : y 0 = y₀)
    (hy : ∀ᶠ t in 𝓝 0, HasDerivAt y (F (y t)) t) :
    ∃ z : ℝ → Fin S.blades.length → ℝ, (∀ h, Integrators.RK8 A f (mvOf S y₀) h = .ok (mvOf S (z h))) ∧
      (fun h => z h - y h) =O[𝓝 0] fun h => h ^ 4 := by
  obtain ⟨p, hp⟩ := hF
  refine ⟨_, fun h => RK8_mvOf hA hS hf y₀ h, close ((RK.rk8_jet hp).mono (n := 4) (by omega)) (((RK.exact_solution hp h0 hy).mono (by omega)).coeffs ?_)⟩
  intro i hi _
  interval_cases i <;> simp [RK.K]

/-- C92, the step of `RK8` for a linear right hand side: the coefficients of the exponential series, except those of degree four, nine and
ten. -/
theorem C92_rk8_linear (hA : WfAlg A) (hS : WfSub A S) (L : (Fin S.blades.length → ℝ) →ₗ[ℝ] Fin S.blades.length → ℝ) (hf : ActsAs S f L) :
    ∃ z : ℝ → Fin S.blades.length → ℝ, (∀ h, Integrators.RK8 A f (mvOf S y₀) h = .ok (mvOf S (z h))) ∧ ∀ h,
      z h = y₀ + h • L y₀ + (h ^ 2 / 2) • (L ^ 2) y₀ + (h ^ 3 / 6) • (L ^ 3) y₀ + (1397 / 33600 * h ^ 4) • (L ^ 4) y₀ + (h ^ 5 / 120) • (L ^ 5) y₀ +
      (h ^ 6 / 720) • (L ^ 6) y₀ + (h ^ 7 / 5040) • (L ^ 7) y₀ + (h ^ 8 / 40320) • (L ^ 8) y₀ + (h ^ 9 / 2177280) • (L ^ 9) y₀ + (h ^ 10 / 2177280) • (L ^ 10) y₀ := by
  refine ⟨_, fun h => RK8_mvOf hA hS hf y₀ h, fun h => ?_⟩
  rw [RK.rk8_linear L y₀ h (fun k => (L ^ k) y₀) (by simp) (fun k => by rw [pow_succ']; rfl)]
  simp only [pow_zero, pow_one, Module.End.one_apply]
  module

/-- C92, the order of `RK8` is three only: for `y' = y` and any start other than zero the error of a step is not `O(h⁵)`. -/
theorem C92_rk8_order (hA : WfAlg A) (hS : WfSub A S) (hy₀ : y₀ ≠ 0) :
    ∃ z : ℝ → Fin S.blades.length → ℝ, (∀ h, Integrators.RK8 A .ok (mvOf S y₀) h = .ok (mvOf S (z h))) ∧
      ¬ (fun h => z h - Real.exp h • y₀) =O[𝓝 0] fun h => h ^ 5 := by
  obtain ⟨z, h1, h2⟩ := C92_rk8_linear (y₀ := y₀) (f := .ok) hA hS LinearMap.id (fun u => rfl)
  refine ⟨z, h1, fun hO => ?_⟩
  obtain ⟨i, hi⟩ : ∃ i, y₀ i ≠ 0 := by
    by_contra hc
    exact hy₀ (funext fun i => by by_contra h; exact hc ⟨i, h⟩)
  have e1 : ∀ h, (z h - Real.exp h • y₀) i = (1 + h + h ^ 2 / 2 + h ^ 3 / 6 + 1397 / 33600 * h ^ 4 + h ^ 5 / 120 + h ^ 6 / 720 + h ^ 7 / 5040 +
      h ^ 8 / 40320 + h ^ 9 / 2177280 + h ^ 10 / 2177280 - Real.exp h) * y₀ i := by
    intro h
    rw [h2 h]
    simp only [← Module.End.one_eq_id, one_pow, Module.End.one_apply, Pi.sub_apply, Pi.add_apply, Pi.smul_apply, smul_eq_mul]
    ring
  have a1 : (fun h => (z h - Real.exp h • y₀) i) =O[𝓝 0] fun h : ℝ => h ^ 5 :=
    IsBigO.trans (IsBigO.of_bound 1 (Eventually.of_forall fun h => by rw [one_mul]; exact norm_le_pi_norm _ i)) hO
  have a2 : (fun h => 1 + h + h ^ 2 / 2 + h ^ 3 / 6 + 1397 / 33600 * h ^ 4 + h ^ 5 / 120 + h ^ 6 / 720 + h ^ 7 / 5040 +
      h ^ 8 / 40320 + h ^ 9 / 2177280 + h ^ 10 / 2177280 - Real.exp h) =O[𝓝 0] fun h : ℝ => h ^ 5 := by
    refine (a1.const_mul_left (y₀ i)⁻¹).congr_left fun h => ?_
    rw [e1]
    field_simp
  have a3 := Real.exp_sub_sum_range_isBigO_pow 5
  have a4 : (fun h : ℝ => h ^ 5 / 120 + h ^ 6 / 720 + h ^ 7 / 5040 + h ^ 8 / 40320 + h ^ 9 / 2177280 + h ^ 10 / 2177280) =O[𝓝 0] fun h : ℝ => h ^ 5 := by
    have c : Continuous fun h : ℝ => 1 / 120 + h / 720 + h ^ 2 / 5040 + h ^ 3 / 40320 + h ^ 4 / 2177280 + h ^ 5 / 2177280 := by fun_prop
    refine (RK.smul_O (m := 5) le_rfl (RK.bdd c)).congr_left fun h => ?_
    rw [smul_eq_mul]
    ring
  have a5 : (fun h : ℝ => h ^ 4) =O[𝓝 0] fun h : ℝ => h ^ 5 := by
    refine (((a2.sub a4).add a3).const_mul_left (-11200)).congr_left fun h => ?_
    simp only [Finset.sum_range_succ, Finset.sum_range_zero, Nat.factorial]
    push_cast
    ring
  obtain ⟨c, hc⟩ := a5.bound
  rw [Metric.eventually_nhds_iff] at hc
  obtain ⟨ε, he, hc⟩ := hc
  have hm : 0 < min (ε / 2) (1 / (|c| + 1)) := by positivity
  have hd := hc (y := min (ε / 2) (1 / (|c| + 1))) (by
    rw [Real.dist_eq, sub_zero, abs_of_pos hm]
    exact lt_of_le_of_lt (min_le_left _ _) (by linarith))
  have hm2 : min (ε / 2) (1 / (|c| + 1)) ≤ 1 / (|c| + 1) := min_le_right _ _
  generalize min (ε / 2) (1 / (|c| + 1)) = m at hm hd hm2
  rw [Real.norm_of_nonneg (by positivity), Real.norm_of_nonneg (by positivity), pow_succ m 4] at hd
  have hp : 0 < m ^ 4 := by positivity
  have h1' : 1 ≤ c * m := by nlinarith
  have h2' : (|c| + 1) * m ≤ 1 := by
    rw [le_div_iff₀ (by positivity)] at hm2
    linarith
  nlinarith [le_abs_self c]

/-! A case for C92: rotors of the plane, the quadratic right hand side `v ↦ ⟨v⟩₀ v` computed by the model, and the solution `(1, 2) / (1 - t)`. -/
section
private def plane : SubSpace := ⟨[0, 3]⟩
private noncomputable def grow (v : MV ℝ) : Except Fail (MV ℝ) := Integrators.scale euc2 (v.vals.headD 0) v
private noncomputable def start : Fin plane.blades.length → ℝ := ![1, 2]

private theorem plane_ok : WfSub euc2 plane := wfSub_of_B (by decide +kernel)
private theorem grow_acts : ActsAs plane grow (fun u => u ⟨0, by decide⟩ • u) := fun u => by
  rw [grow, scale_mvOf wf_euc2 plane_ok]
  rfl
private theorem grow_analytic : AnalyticAt ℝ (fun u : Fin plane.blades.length → ℝ => u ⟨0, by decide⟩ • u) start :=
  ((ContinuousLinearMap.proj (R := ℝ) (φ := fun _ : Fin plane.blades.length => ℝ) ⟨0, by decide⟩).analyticAt start).smul analyticAt_id
private theorem grow_solution : ∀ᶠ t in 𝓝 (0 : ℝ), HasDerivAt (fun t : ℝ => (1 - t)⁻¹ • start) (((1 - t)⁻¹ • start) ⟨0, by decide⟩ • (1 - t)⁻¹ • start) t := by
  have h : ∀ᶠ t in 𝓝 (0 : ℝ), t ≠ 1 := isOpen_ne.mem_nhds (by norm_num)
  filter_upwards [h] with t ht
  have h1 : (1 - t) ≠ 0 := sub_ne_zero.2 (Ne.symm ht)
  have := ((((hasDerivAt_id t).const_sub 1).inv h1).smul_const start)
  refine this.congr_deriv ?_
  have : start ⟨0, by decide⟩ = 1 := rfl
  simp only [Pi.smul_apply, this, smul_eq_mul, smul_smul, id]
  congr 1
  field_simp

example : ∃ z : ℝ → Fin plane.blades.length → ℝ, (∀ h, Integrators.RK1 euc2 grow (mvOf plane start) h = .ok (mvOf plane (z h))) ∧
    (fun h => z h - (1 - h)⁻¹ • start) =O[𝓝 0] fun h => h ^ 2 :=
  C92_rk1 wf_euc2 plane_ok grow_acts grow_analytic (by simp) grow_solution
example : ∃ z : ℝ → Fin plane.blades.length → ℝ, (∀ h, Integrators.RK4 euc2 grow (mvOf plane start) h = .ok (mvOf plane (z h))) ∧
    (fun h => z h - (1 - h)⁻¹ • start) =O[𝓝 0] fun h => h ^ 5 :=
  C92_rk4 wf_euc2 plane_ok grow_acts grow_analytic (by simp) grow_solution
example : ∃ z : ℝ → Fin plane.blades.length → ℝ, (∀ h, Integrators.RK8 euc2 grow (mvOf plane start) h = .ok (mvOf plane (z h))) ∧
    (fun h => z h - (1 - h)⁻¹ • start) =O[𝓝 0] fun h => h ^ 4 :=
  C92_rk8 wf_euc2 plane_ok grow_acts grow_analytic (by simp) grow_solution
example : ActsAs plane (Integrators.scale euc2 (3 : ℝ)) ((3 : ℝ) • LinearMap.id : (Fin plane.blades.length → ℝ) →ₗ[ℝ] Fin plane.blades.length → ℝ) :=
  fun u => scale_mvOf wf_euc2 plane_ok 3 u
example : start ≠ 0 := fun h => by
  have h1 : start ⟨0, by decide⟩ = 0 := congrFun h ⟨0, by decide⟩
  have h2 : start ⟨0, by decide⟩ = 1 := rfl
  exact one_ne_zero (h2.symm.trans h1)
end

end Verif.Props
