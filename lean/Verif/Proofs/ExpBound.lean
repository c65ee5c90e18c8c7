import Mathlib.Analysis.SpecialFunctions.Exponential
import Mathlib.Analysis.Complex.Exponential
import Mathlib.Analysis.SpecialFunctions.Exp
import Mathlib.Analysis.SpecificLimits.Normed
import Mathlib.Tactic.NoncommRing
/-! # How far a power of the Cayley transform is from the exponential, in a Banach algebra -/
namespace Verif.ExpBound
open Finset NormedSpace
open scoped Nat

variable {E : Type*} [NormedRing E] [NormedAlgebra ℝ E] [CompleteSpace E] [NormOneClass E]

omit [NormOneClass E] in
theorem hasSum_exp (x : E) : HasSum (fun n : ℕ => (n !⁻¹ : ℝ) • x ^ n) (exp x) := exp_series_hasSum_exp' (𝕂 := ℝ) x

theorem real_hasSum (t : ℝ) : HasSum (fun n : ℕ => (n !⁻¹ : ℝ) * t ^ n) (Real.exp t) := by
  have := hasSum_exp (E := ℝ) t
  simpa [Real.exp_eq_exp_ℝ] using this

/-- The remainder of the exponential series. -/
theorem remainder (x : E) {t : ℝ} (ht : ‖x‖ ≤ t) (k : ℕ) :
    ‖exp x - ∑ m ∈ range k, (m !⁻¹ : ℝ) • x ^ m‖ ≤ Real.exp t - ∑ m ∈ range k, (m !⁻¹ : ℝ) * t ^ m := by
  have h1 := (hasSum_nat_add_iff' (f := fun n : ℕ => (n !⁻¹ : ℝ) • x ^ n) k).2 (hasSum_exp x)
  have h2 := (hasSum_nat_add_iff' (f := fun n : ℕ => (n !⁻¹ : ℝ) * t ^ n) k).2 (real_hasSum t)
  rw [← h1.tsum_eq]
  refine tsum_of_norm_bounded h2 fun n => ?_
  rw [norm_smul]
  refine mul_le_mul (by simp) ((norm_pow_le _ _).trans (pow_le_pow_left₀ (norm_nonneg _) ht _)) (norm_nonneg _) (by positivity)

theorem norm_exp (x : E) {t : ℝ} (ht : ‖x‖ ≤ t) : ‖exp x‖ ≤ Real.exp t := by simpa using remainder x ht 0

theorem remainder_two (x : E) {t : ℝ} (ht : ‖x‖ ≤ t) (h1 : t ≤ 1) : ‖exp x - (1 + x + (2⁻¹ : ℝ) • x ^ 2)‖ ≤ 2 / 9 * t ^ 3 := by
  have h0 : 0 ≤ t := (norm_nonneg x).trans ht
  have h := remainder x ht 3
  have h2 := Real.exp_bound' h0 h1 (n := 3) (by norm_num)
  simp [sum_range_succ, Nat.factorial] at h h2
  refine h.trans ?_
  linarith

omit [NormedAlgebra ℝ E] [CompleteSpace E] [NormOneClass E] in
theorem pow_sub_pow {u v : E} [NormOneClass E] {M : ℝ} (h1 : 1 ≤ M) (hu : ‖u‖ ≤ M) (hv : ‖v‖ ≤ M) (N : ℕ) :
    ‖u ^ N - v ^ N‖ ≤ N * M ^ N * ‖u - v‖ := by
  have hM : 0 ≤ M := by linarith
  induction N with
  | zero => simp
  | succ N ih =>
    have e : u ^ (N + 1) - v ^ (N + 1) = u ^ N * (u - v) + (u ^ N - v ^ N) * v := by rw [pow_succ, pow_succ]; noncomm_ring
    rw [e]
    have a1 : ‖u ^ N * (u - v)‖ ≤ M ^ N * ‖u - v‖ :=
      (norm_mul_le _ _).trans (mul_le_mul_of_nonneg_right ((norm_pow_le _ _).trans (pow_le_pow_left₀ (norm_nonneg _) hu _)) (norm_nonneg _))
    have a2 : ‖(u ^ N - v ^ N) * v‖ ≤ N * M ^ N * ‖u - v‖ * M :=
      (norm_mul_le _ _).trans (mul_le_mul ih hv (norm_nonneg _) (by positivity))
    have a3 : M ^ N * ‖u - v‖ ≤ M ^ (N + 1) * ‖u - v‖ :=
      mul_le_mul_of_nonneg_right (pow_le_pow_right₀ h1 (Nat.le_succ N)) (norm_nonneg _)
    refine (norm_add_le _ _).trans ((add_le_add (a1.trans a3) a2).trans (le_of_eq ?_))
    push_cast
    ring

/-- One Cayley step. -/
theorem cayley {h u : E} {T : ℝ} (hT : ‖h‖ ≤ T) (h1 : T ≤ 1 / 2) (hu : u * ((1 + h) * (1 - h)) = (1 + h) * (1 + h)) :
    ‖u‖ ≤ Real.exp (3 * T) ∧ ‖u - exp ((2 : ℝ) • h)‖ ≤ 6 * T ^ 3 ∧ ‖u - 1‖ ≤ Real.exp (3 * T) - 1 := by
  have h0 : 0 ≤ T := (norm_nonneg h).trans hT
  have hlt : ‖h‖ < 1 := by linarith
  have hlt' : ‖-h‖ < 1 := by rwa [norm_neg]
  obtain ⟨g, hg⟩ : ∃ g : E, (1 - h) * g = 1 :=
    ⟨_, (Units.oneSub h hlt).mul_inv⟩
  obtain ⟨f, hf⟩ : ∃ f : E, (1 + h) * f = 1 := by
    have := (Units.oneSub (-h) hlt').mul_inv
    rw [Units.val_oneSub, sub_neg_eq_add] at this
    exact ⟨_, this⟩
  have hu2 : u = (1 + h) * g := by
    have a : u * (1 + h) = (1 + h) * (1 + h) * g := by
      rw [← hu, mul_assoc, mul_assoc (1 + h), hg, mul_one]
    have c : (1 + h) * g = g * (1 + h) := by
      have hg' : g * (1 - h) = 1 := by
        have := (Units.oneSub h hlt).inv_mul
        have e : g = ((Units.oneSub h hlt)⁻¹ : Eˣ) := by
          calc g = ((Units.oneSub h hlt)⁻¹ : Eˣ) * ((1 - h) * g) := by
                rw [← mul_assoc]
                have : (((Units.oneSub h hlt)⁻¹ : Eˣ) : E) * (1 - h) = 1 := this
                rw [this, one_mul]
            _ = _ := by rw [hg, mul_one]
        rw [e]; exact this
      calc (1 + h) * g = g * (1 - h) * ((1 + h) * g) := by rw [hg', one_mul]
        _ = g * ((1 + h) * ((1 - h) * g)) := by noncomm_ring
        _ = _ := by rw [hg, mul_one]
    have a' : u * (1 + h) = (1 + h) * g * (1 + h) := by rw [a, mul_assoc, mul_assoc, c]
    calc u = u * (1 + h) * f := by rw [mul_assoc, hf, mul_one]
      _ = _ := by rw [a', mul_assoc, hf, mul_one]
  have hgn : ‖g‖ * (1 - T) ≤ 1 := by
    have e : g = 1 + h * g := by rw [sub_mul, one_mul, sub_eq_iff_eq_add] at hg; exact hg
    have : ‖g‖ ≤ 1 + T * ‖g‖ := by
      conv_lhs => rw [e]
      refine (norm_add_le _ _).trans ?_
      rw [norm_one]
      exact add_le_add le_rfl ((norm_mul_le _ _).trans (mul_le_mul_of_nonneg_right hT (norm_nonneg _)))
    linarith
  have hgn2 : ‖g‖ ≤ 2 := by nlinarith [norm_nonneg g]
  have q := Real.quadratic_le_exp_of_nonneg (x := 3 * T) (by linarith)
  have b3 : (1 + T) ≤ (1 - T) * Real.exp (3 * T) := by
    have : (1 - T) * (1 + 3 * T + (3 * T) ^ 2 / 2) ≤ (1 - T) * Real.exp (3 * T) := mul_le_mul_of_nonneg_left q (by linarith)
    nlinarith [mul_nonneg h0 (sub_nonneg.2 h1), mul_nonneg (mul_nonneg h0 h0) (sub_nonneg.2 h1)]
  have eu : u = (2 : ℝ) • g - 1 := by
    have e : h * g = g - 1 := by rw [sub_mul, one_mul, sub_eq_iff_eq_add] at hg; exact eq_sub_of_add_eq' hg.symm
    rw [hu2, add_mul, one_mul, e, two_smul]; abel
  refine ⟨?_, ?_, ?_⟩
  · have b1 : ‖1 + h‖ ≤ 1 + T := (norm_add_le _ _).trans (by rw [norm_one]; linarith)
    have b2 : ‖u‖ ≤ (1 + T) * ‖g‖ := by
      rw [hu2]
      exact (norm_mul_le _ _).trans (mul_le_mul_of_nonneg_right b1 (norm_nonneg _))
    calc ‖u‖ ≤ (1 + T) * ‖g‖ := b2
      _ ≤ (1 - T) * Real.exp (3 * T) * ‖g‖ := mul_le_mul_of_nonneg_right b3 (norm_nonneg _)
      _ = Real.exp (3 * T) * (‖g‖ * (1 - T)) := by ring
      _ ≤ Real.exp (3 * T) * 1 := mul_le_mul_of_nonneg_left hgn (Real.exp_pos _).le
      _ = _ := mul_one _
  · have e1 : u - (1 + (2 : ℝ) • h + (2⁻¹ : ℝ) • ((2 : ℝ) • h) ^ 2) = (2 : ℝ) • (h ^ 3 * g) := by
      have eg : g = 1 + h + h ^ 2 + h ^ 3 * g := by
        have e : g = 1 + h * g := by rw [sub_mul, one_mul, sub_eq_iff_eq_add] at hg; exact hg
        calc g = 1 + h * (1 + h * (1 + h * g)) := by rw [← e, ← e, ← e]
          _ = _ := by noncomm_ring
      have e2 : (2⁻¹ : ℝ) • ((2 : ℝ) • h) ^ 2 = (2 : ℝ) • h ^ 2 := by rw [smul_pow, smul_smul]; norm_num
      rw [eu, e2]
      conv_lhs => rw [eg]
      simp only [two_smul]
      abel
    have e3 : ‖u - (1 + (2 : ℝ) • h + (2⁻¹ : ℝ) • ((2 : ℝ) • h) ^ 2)‖ ≤ 4 * T ^ 3 := by
      rw [e1, norm_smul]
      have : ‖h ^ 3 * g‖ ≤ T ^ 3 * 2 := (norm_mul_le _ _).trans
        (mul_le_mul ((norm_pow_le _ _).trans (pow_le_pow_left₀ (norm_nonneg _) hT _)) hgn2 (norm_nonneg _) (by positivity))
      simp only [Real.norm_ofNat]
      linarith
    have hn : ‖(2 : ℝ) • h‖ ≤ 2 * T := by rw [norm_smul, Real.norm_ofNat]; linarith
    have e4 := remainder_two ((2 : ℝ) • h) hn (by linarith)
    have e5 : u - exp ((2 : ℝ) • h) = (u - (1 + (2 : ℝ) • h + (2⁻¹ : ℝ) • ((2 : ℝ) • h) ^ 2)) -
        (exp ((2 : ℝ) • h) - (1 + (2 : ℝ) • h + (2⁻¹ : ℝ) • ((2 : ℝ) • h) ^ 2)) := by abel
    rw [e5]
    refine (norm_sub_le _ _).trans ((add_le_add e3 e4).trans ?_)
    nlinarith [pow_nonneg h0 3]
  · have e : u - 1 = (2 : ℝ) • (h * g) := by
      have e : h * g = g - 1 := by rw [sub_mul, one_mul, sub_eq_iff_eq_add] at hg; exact eq_sub_of_add_eq' hg.symm
      rw [eu, e, smul_sub, two_smul, two_smul]; abel
    have e1 : ‖u - 1‖ ≤ 2 * (T * ‖g‖) := by
      rw [e, norm_smul, Real.norm_ofNat]
      exact mul_le_mul_of_nonneg_left ((norm_mul_le _ _).trans (mul_le_mul_of_nonneg_right hT (norm_nonneg _))) (by norm_num)
    have e2 : (Real.exp (3 * T) - 1) * (‖g‖ * (1 - T)) ≤ (Real.exp (3 * T) - 1) * 1 :=
      mul_le_mul_of_nonneg_left hgn (sub_nonneg.2 (Real.one_le_exp (by linarith)))
    nlinarith [norm_nonneg g]

omit [NormedAlgebra ℝ E] [CompleteSpace E] in
theorem pow_sub_one {u : E} {M : ℝ} (h1 : 1 ≤ M) (hu : ‖u - 1‖ ≤ M - 1) (j : ℕ) : ‖u ^ j - 1‖ ≤ M ^ j - 1 := by
  have hM : 0 ≤ M := by linarith
  have hn : ‖u‖ ≤ M := by
    have : ‖u‖ ≤ ‖u - 1‖ + ‖(1 : E)‖ := by simpa using norm_add_le (u - 1) 1
    rw [norm_one] at this
    linarith
  induction j with
  | zero => simp
  | succ j ih =>
    have e : u ^ (j + 1) - 1 = u ^ j * (u - 1) + (u ^ j - 1) := by rw [pow_succ]; noncomm_ring
    rw [e]
    have a1 : ‖u ^ j * (u - 1)‖ ≤ M ^ j * (M - 1) :=
      (norm_mul_le _ _).trans (mul_le_mul ((norm_pow_le _ _).trans (pow_le_pow_left₀ (norm_nonneg _) hn _)) hu (norm_nonneg _) (by positivity))
    refine (norm_add_le _ _).trans ((add_le_add a1 ih).trans (le_of_eq ?_))
    ring

omit [NormedAlgebra ℝ E] [CompleteSpace E] in
theorem inverse_sub_one {x y : E} (h : y * x = 1) {d : ℝ} (hd : ‖x - 1‖ ≤ d) : ‖y - 1‖ * (1 - d) ≤ d := by
  have h0 : 0 ≤ d := (norm_nonneg _).trans hd
  have e : y - 1 = -((y - 1) * (x - 1)) - (x - 1) := by
    have : (y - 1) * (x - 1) = 1 - y - x + 1 := by rw [sub_mul, mul_sub, h]; noncomm_ring
    rw [this]; abel
  have : ‖y - 1‖ ≤ ‖y - 1‖ * d + d := by
    conv_lhs => rw [e]
    refine (norm_sub_le _ _).trans (add_le_add ?_ hd)
    rw [norm_neg]
    exact (norm_mul_le _ _).trans (mul_le_mul_of_nonneg_left hd (norm_nonneg _))
  linarith

/-- The `N`-th power of the Cayley transform of `B / N`, against the exponential of `B`. -/
theorem power {B h u : E} {β : ℝ} {N : ℕ} (hN : 0 < N) (hβ : ‖B‖ ≤ β) (hle : β ≤ N) (hB : B = (2 * N : ℝ) • h)
    (hu : u * ((1 + h) * (1 - h)) = (1 + h) * (1 + h)) : ‖u ^ N - exp B‖ ≤ β ^ 3 * Real.exp (3 / 2 * β) / N ^ 2 := by
  have hN' : (0 : ℝ) < N := by exact_mod_cast hN
  have h0 : 0 ≤ β := (norm_nonneg B).trans hβ
  have hT : ‖h‖ ≤ β / (2 * N) := by
    rw [le_div_iff₀ (by positivity)]
    rw [hB, norm_smul, Real.norm_of_nonneg (by positivity)] at hβ
    linarith
  have h1 : β / (2 * N) ≤ 1 / 2 := by rw [div_le_div_iff₀ (by positivity) (by norm_num)]; linarith
  obtain ⟨c1, c2, -⟩ := cayley hT h1 hu
  have hv : ‖exp ((2 : ℝ) • h)‖ ≤ Real.exp (3 * (β / (2 * N))) := by
    refine norm_exp _ ?_
    rw [norm_smul, Real.norm_ofNat]
    have : 0 ≤ β / (2 * N) := by positivity
    linarith
  have hp : exp ((2 : ℝ) • h) ^ N = exp B := by
    letI : NormedAlgebra ℚ E := NormedAlgebra.restrictScalars ℚ ℝ E
    rw [hB, mul_comm, mul_smul, Nat.cast_smul_eq_nsmul ℝ, exp_nsmul]
  have := pow_sub_pow (Real.one_le_exp (by positivity)) c1 hv N
  rw [hp] at this
  refine this.trans ?_
  rw [← Real.exp_nat_mul, show (N : ℝ) * (3 * (β / (2 * N))) = 3 / 2 * β by field_simp]
  refine (mul_le_mul_of_nonneg_left c2 (by positivity)).trans ?_
  rw [div_pow, le_div_iff₀ (by positivity)]
  have : (N : ℝ) * Real.exp (3 / 2 * β) * (6 * (β ^ 3 / (2 * N) ^ 3)) * N ^ 2 = 3 / 4 * (β ^ 3 * Real.exp (3 / 2 * β)) := by
    field_simp; ring
  rw [this]
  have : 0 ≤ β ^ 3 * Real.exp (3 / 2 * β) := by positivity
  linarith

end Verif.ExpBound
