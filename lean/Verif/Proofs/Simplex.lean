import Verif.Spec.Simplex
/-! # Second moments of simplices -/
namespace Verif.Spec
open scoped Nat

theorem beta0 (t : ℝ) (m : ℕ) : ∫ x in (0 : ℝ)..t, (t - x) ^ m / m ! = t ^ (m + 1) / (m + 1)! := by
  rw [intervalIntegral.integral_comp_sub_left (fun x => x ^ m / m !) t, intervalIntegral.integral_div, integral_pow]
  rw [Nat.factorial_succ]
  push_cast
  have : (m ! : ℝ) ≠ 0 := by positivity
  field_simp
  simp

theorem beta1 (t : ℝ) (m : ℕ) : ∫ x in (0 : ℝ)..t, x * ((t - x) ^ m / m !) = t ^ (m + 2) / (m + 2)! := by
  have e := intervalIntegral.integral_comp_sub_left (a := 0) (b := t) (fun x : ℝ => (t - x) * (x ^ m / m !)) t
  simp only [sub_sub_cancel, sub_self, sub_zero] at e
  rw [e, show (fun x : ℝ => (t - x) * (x ^ m / m !)) = fun x => t * x ^ m / (m !) - x ^ (m + 1) / (m !) by funext x; ring]
  rw [intervalIntegral.integral_sub (Continuous.intervalIntegrable (by fun_prop) _ _) (Continuous.intervalIntegrable (by fun_prop) _ _), intervalIntegral.integral_div, intervalIntegral.integral_div,
    intervalIntegral.integral_const_mul, integral_pow, integral_pow]
  rw [Nat.factorial_succ, Nat.factorial_succ]
  push_cast
  have : (m ! : ℝ) ≠ 0 := by positivity
  field_simp
  simp
  ring

theorem beta2 (t : ℝ) (m : ℕ) : ∫ x in (0 : ℝ)..t, x * x * ((t - x) ^ m / m !) = 2 * t ^ (m + 3) / (m + 3)! := by
  have e := intervalIntegral.integral_comp_sub_left (a := 0) (b := t) (fun x : ℝ => (t - x) * (t - x) * (x ^ m / m !)) t
  simp only [sub_sub_cancel, sub_self, sub_zero] at e
  rw [e, show (fun x : ℝ => (t - x) * (t - x) * (x ^ m / m !)) = fun x => (t * t * x ^ m / (m !) - 2 * t * x ^ (m + 1) / (m !)) + x ^ (m + 2) / (m !) by funext x; ring]
  rw [intervalIntegral.integral_add (Continuous.intervalIntegrable (by fun_prop) _ _) (Continuous.intervalIntegrable (by fun_prop) _ _), intervalIntegral.integral_sub (Continuous.intervalIntegrable (by fun_prop) _ _) (Continuous.intervalIntegrable (by fun_prop) _ _), intervalIntegral.integral_div,
    intervalIntegral.integral_div, intervalIntegral.integral_div,
    intervalIntegral.integral_const_mul, intervalIntegral.integral_const_mul, integral_pow, integral_pow, integral_pow]
  rw [Nat.factorial_succ, Nat.factorial_succ, Nat.factorial_succ]
  push_cast
  have : (m ! : ℝ) ≠ 0 := by positivity
  field_simp
  simp
  ring

/-- Integrals of quadratic polynomials. -/
theorem simplex_quad (n : ℕ) : ∀ (t c : ℝ) (a : Fin n → ℝ) (b : Fin n → Fin n → ℝ),
    simplexIntegral n t (fun v => c + ∑ i, a i * v i + ∑ i, ∑ j, b i j * (v i * v j)) =
      c * (t ^ n / n !) + (∑ i, a i) * (t ^ (n + 1) / (n + 1)!) + (∑ i, ∑ j, b i j + ∑ i, b i i) * (t ^ (n + 2) / (n + 2)!) := by
  induction n with
  | zero => intro t c a b; simp [simplexIntegral]
  | succ n ih =>
    intro t c a b
    rw [simplexIntegral]
    have e : ∀ x : ℝ, (simplexIntegral n (t - x) fun v => c + ∑ i, a i * (Fin.cons x v : Fin (n + 1) → ℝ) i +
        ∑ i, ∑ j, b i j * ((Fin.cons x v : Fin (n + 1) → ℝ) i * (Fin.cons x v : Fin (n + 1) → ℝ) j)) =
        (c * ((t - x) ^ n / n !) + a 0 * (x * ((t - x) ^ n / n !)) + b 0 0 * (x * x * ((t - x) ^ n / n !))) +
        ((∑ i : Fin n, a i.succ) * ((t - x) ^ (n + 1) / (n + 1)!) + (∑ i : Fin n, (b 0 i.succ + b i.succ 0)) * (x * ((t - x) ^ (n + 1) / (n + 1)!))) +
        (∑ i : Fin n, ∑ j : Fin n, b i.succ j.succ + ∑ i : Fin n, b i.succ i.succ) * ((t - x) ^ (n + 2) / (n + 2)!) := by
      intro x
      have := ih (t - x) (c + a 0 * x + b 0 0 * (x * x)) (fun i => a i.succ + (b 0 i.succ + b i.succ 0) * x) (fun i j => b i.succ j.succ)
      rw [show (fun v : Fin n → ℝ => c + ∑ i, a i * (Fin.cons x v : Fin (n + 1) → ℝ) i +
        ∑ i, ∑ j, b i j * ((Fin.cons x v : Fin (n + 1) → ℝ) i * (Fin.cons x v : Fin (n + 1) → ℝ) j)) = fun v =>
          (c + a 0 * x + b 0 0 * (x * x)) + ∑ i, (a i.succ + (b 0 i.succ + b i.succ 0) * x) * v i + ∑ i, ∑ j, b i.succ j.succ * (v i * v j) from ?_, this]
      · rw [Finset.sum_add_distrib, ← Finset.sum_mul]
        ring
      · funext v
        simp only [Fin.sum_univ_succ, Fin.cons_zero, Fin.cons_succ]
        simp only [add_mul, Finset.sum_add_distrib]
        have h1 : ∑ i : Fin n, b 0 i.succ * (x * v i) = ∑ i : Fin n, b 0 i.succ * x * v i := Finset.sum_congr rfl fun i _ => by ring
        have h2 : ∑ i : Fin n, b i.succ 0 * (v i * x) = ∑ i : Fin n, b i.succ 0 * x * v i := Finset.sum_congr rfl fun i _ => by ring
        rw [h1, h2]
        ring
    simp only [e]
    rw [intervalIntegral.integral_add (Continuous.intervalIntegrable (by fun_prop) _ _) (Continuous.intervalIntegrable (by fun_prop) _ _), intervalIntegral.integral_add (Continuous.intervalIntegrable (by fun_prop) _ _) (Continuous.intervalIntegrable (by fun_prop) _ _),
      intervalIntegral.integral_add (Continuous.intervalIntegrable (by fun_prop) _ _) (Continuous.intervalIntegrable (by fun_prop) _ _), intervalIntegral.integral_add (Continuous.intervalIntegrable (by fun_prop) _ _) (Continuous.intervalIntegrable (by fun_prop) _ _),
      intervalIntegral.integral_add (Continuous.intervalIntegrable (by fun_prop) _ _) (Continuous.intervalIntegrable (by fun_prop) _ _)]
    simp only [intervalIntegral.integral_const_mul, beta0, beta1, beta2]
    simp only [Fin.sum_univ_succ, Finset.sum_add_distrib]
    ring

/-- The mean of a quadratic form of the barycentric coordinates. -/
theorem simplex_mean (n : ℕ) (β : Fin (n + 1) → Fin (n + 1) → ℝ) :
    simplexMean n (fun w => ∑ i, ∑ j, β i j * (w i * w j)) = (∑ i, ∑ j, β i j + ∑ i, β i i) / ((n + 1) * (n + 2)) := by
  have e1 : (simplexIntegral n 1 fun _ => 1) = 1 / n ! := by
    have := simplex_quad n 1 1 (fun _ => 0) (fun _ _ => 0)
    simpa using this
  have e2 := simplex_quad n 1 (β 0 0) (fun i => β 0 i.succ + β i.succ 0 - 2 * β 0 0) (fun i j => β i.succ j.succ - β 0 j.succ - β i.succ 0 + β 0 0)
  rw [simplexMean, e1]
  rw [show (fun v : Fin n → ℝ => ∑ i, ∑ j, β i j * ((Fin.cons (1 - ∑ i, v i) v : Fin (n + 1) → ℝ) i * (Fin.cons (1 - ∑ i, v i) v : Fin (n + 1) → ℝ) j)) =
    _ from ?_, e2]
  · simp only [Finset.sum_add_distrib, Finset.sum_sub_distrib, Fin.sum_univ_succ, Finset.sum_const, Finset.card_univ, Fintype.card_fin, nsmul_eq_mul,
      Nat.factorial_succ, one_pow, ← Finset.mul_sum]
    push_cast
    have : (n ! : ℝ) ≠ 0 := by positivity
    field_simp
    ring
  · funext v
    simp only [Fin.sum_univ_succ, Fin.cons_zero, Fin.cons_succ, Finset.sum_add_distrib]
    have h7 : ∑ i : Fin n, (β 0 i.succ + β i.succ 0 - 2 * β 0 0) * v i = ∑ i : Fin n, β 0 i.succ * v i + ∑ i : Fin n, β i.succ 0 * v i - ∑ i : Fin n, 2 * β 0 0 * v i := by
      simp only [add_mul, sub_mul, Finset.sum_add_distrib, Finset.sum_sub_distrib]
    have h8 : ∑ i : Fin n, ∑ j : Fin n, (β i.succ j.succ - β 0 j.succ - β i.succ 0 + β 0 0) * (v i * v j) =
        ∑ i : Fin n, ∑ j : Fin n, β i.succ j.succ * (v i * v j) - ∑ i : Fin n, ∑ j : Fin n, β 0 j.succ * (v i * v j) -
          ∑ i : Fin n, ∑ j : Fin n, β i.succ 0 * (v i * v j) + ∑ i : Fin n, ∑ j : Fin n, β 0 0 * (v i * v j) := by
      simp only [add_mul, sub_mul, Finset.sum_add_distrib, Finset.sum_sub_distrib]
    have h1 : ∑ i : Fin n, β 0 i.succ * ((1 - ∑ i, v i) * v i) = (1 - ∑ i, v i) * ∑ i : Fin n, β 0 i.succ * v i := by
      rw [Finset.mul_sum]; exact Finset.sum_congr rfl fun i _ => by ring
    have h2 : ∑ i : Fin n, β i.succ 0 * (v i * (1 - ∑ i, v i)) = (1 - ∑ i, v i) * ∑ i : Fin n, β i.succ 0 * v i := by
      rw [Finset.mul_sum]; exact Finset.sum_congr rfl fun i _ => by ring
    have h3 : ∑ i : Fin n, ∑ j : Fin n, β 0 j.succ * (v i * v j) = (∑ i, v i) * ∑ i : Fin n, β 0 i.succ * v i := by
      rw [Finset.sum_mul_sum]; exact Finset.sum_congr rfl fun i _ => Finset.sum_congr rfl fun j _ => by ring
    have h4 : ∑ i : Fin n, ∑ j : Fin n, β i.succ 0 * (v i * v j) = (∑ i, v i) * ∑ i : Fin n, β i.succ 0 * v i := by
      rw [mul_comm, Finset.sum_mul_sum]; exact Finset.sum_congr rfl fun i _ => Finset.sum_congr rfl fun j _ => by ring
    have h5 : ∑ i : Fin n, ∑ j : Fin n, β 0 0 * (v i * v j) = β 0 0 * ((∑ i, v i) * ∑ i : Fin n, v i) := by
      rw [Finset.sum_mul_sum, Finset.mul_sum]; exact Finset.sum_congr rfl fun i _ => by rw [Finset.mul_sum]
    have h6 : ∑ i : Fin n, 2 * β 0 0 * v i = 2 * β 0 0 * ∑ i, v i := by rw [Finset.mul_sum]
    rw [h1, h2, h7, h8, h3, h4, h5, h6]
    ring

end Verif.Spec
