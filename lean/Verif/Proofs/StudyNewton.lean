import Mathlib.Algebra.QuadraticAlgebra.Basic
import Mathlib.Analysis.SpecialFunctions.Pow.Real
import Mathlib.Tactic.LinearCombination
import Mathlib.Tactic.Linarith
import Mathlib.Tactic.FieldSimp
/-! # Newton's iteration for an inverse square root in the real numbers with an element whose square is `l` -/
namespace Verif.StudyNewton
open QuadraticAlgebra

/-- The numbers `u + v q`, `q² = l`. -/
abbrev K (l : ℝ) := QuadraticAlgebra ℝ l 0

variable {l : ℝ}

/-- The norm of `K`. -/
abbrev nm (z : K l) : ℝ := QuadraticAlgebra.norm z

theorem nm_eq (z : K l) : nm z = z.re * z.re - l * z.im * z.im := by
  rw [nm, norm_def]; ring

/-- Positive real part and positive norm. -/
def Pos (z : K l) : Prop := 0 < z.re ∧ 0 < nm z

/-- The inverse, if the norm is not zero. -/
noncomputable def inv (z : K l) : K l := (nm z)⁻¹ • star z

theorem re_inv (z : K l) : (inv z).re = (nm z)⁻¹ * z.re := by simp [inv]
theorem im_inv (z : K l) : (inv z).im = -((nm z)⁻¹ * z.im) := by simp [inv]

theorem mul_inv {z : K l} (h : nm z ≠ 0) : z * inv z = 1 := by
  have e := nm_eq z
  ext
  · simp only [re_mul, re_inv, im_inv, re_one]
    field_simp
    rw [e]; ring
  · simp only [im_mul, re_inv, im_inv, im_one]
    ring

theorem nm_mul (z w : K l) : nm (z * w) = nm z * nm w := map_mul _ _ _

theorem nm_inv {z : K l} (h : nm z ≠ 0) : nm (inv z) = (nm z)⁻¹ := by
  have := congrArg nm (mul_inv h)
  rw [nm_mul, show nm (1 : K l) = 1 from QuadraticAlgebra.norm_one] at this
  exact eq_inv_of_mul_eq_one_right this

theorem mul_cancel {z a b : K l} (h : nm z ≠ 0) (e : z * a = z * b) : a = b := by
  have := congrArg (inv z * ·) e
  simp only [← mul_assoc, mul_comm (inv z) z, mul_inv h, one_mul] at this
  exact this

theorem Pos.ne {z : K l} (h : Pos z) : nm z ≠ 0 := h.2.ne'

theorem Pos.inv {z : K l} (h : Pos z) : Pos (inv z) := by
  refine ⟨?_, ?_⟩
  · rw [re_inv]; exact mul_pos (inv_pos.2 h.2) h.1
  · rw [nm_inv h.ne]; exact inv_pos.2 h.2

theorem Pos.cross {z w : K l} (hl : 0 ≤ l) (hz : Pos z) (hw : Pos w) : |l * z.im * w.im| < z.re * w.re := by
  obtain ⟨z1, z2⟩ := hz
  obtain ⟨w1, w2⟩ := hw
  rw [nm_eq] at z2 w2
  have h0 : 0 < z.re * w.re := mul_pos z1 w1
  refine abs_lt_of_sq_lt_sq ?_ h0.le
  have k1 : 0 ≤ l * z.im * z.im := by rw [mul_assoc]; exact mul_nonneg hl (mul_self_nonneg _)
  have k2 : 0 ≤ l * w.im * w.im := by rw [mul_assoc]; exact mul_nonneg hl (mul_self_nonneg _)
  have k3 : (l * z.im * z.im) * (l * w.im * w.im) < (z.re * z.re) * (w.re * w.re) :=
    mul_lt_mul'' (by linarith) (by linarith) k1 k2
  calc (l * z.im * w.im) ^ 2 = (l * z.im * z.im) * (l * w.im * w.im) := by ring
    _ < _ := k3
    _ = _ := by ring

theorem Pos.add {z w : K l} (hz : Pos z) (hw : Pos w) : Pos (z + w) := by
  have z1 := hz.1
  have w1 := hw.1
  refine ⟨by rw [re_add]; linarith, ?_⟩
  rw [nm_eq, re_add, im_add]
  rcases le_total 0 l with hl | hl
  · have := (abs_lt.1 (Pos.cross hl hz hw)).2
    have z2 := hz.2
    have w2 := hw.2
    rw [nm_eq] at z2 w2
    nlinarith
  · have h1 : 0 < (z.re + w.re) * (z.re + w.re) := by positivity
    have h2 : l * (z.im + w.im) * (z.im + w.im) ≤ 0 := by
      rw [mul_assoc]; exact mul_nonpos_of_nonpos_of_nonneg hl (mul_self_nonneg _)
    linarith

theorem Pos.smul {z : K l} (hz : Pos z) {c : ℝ} (hc : 0 < c) : Pos (c • z) := by
  obtain ⟨z1, z2⟩ := hz
  rw [nm_eq] at z2
  refine ⟨by simpa using mul_pos hc z1, ?_⟩
  rw [nm_eq]
  simp only [re_smul, im_smul, smul_eq_mul]
  have := mul_pos (mul_pos hc hc) z2
  nlinarith

theorem Pos.one : Pos (1 : K l) := ⟨by simp [re_one], by simp [nm]⟩

theorem Pos.mul {z w : K l} (hl : 0 ≤ l) (hz : Pos z) (hw : Pos w) : Pos (z * w) := by
  refine ⟨?_, by rw [nm_mul]; exact mul_pos hz.2 hw.2⟩
  have := (abs_lt.1 (Pos.cross hl hz hw)).1
  rw [re_mul]
  linarith

/-- One step for `t = x s x`. -/
noncomputable def next (t : K l) : K l := (1 / 4 : ℝ) • ((1 + 1) + (t + inv t))

theorem next_eq {t : K l} (h : nm t ≠ 0) : 4 * (t * (next t - 1)) = (t - 1) * (t - 1) := by
  have e := mul_inv h
  have h4 : (4 : K l) * (1 / 4 : ℝ) • (1 : K l) = 1 := by
    ext <;> simp
  have : next t = ((1 / 4 : ℝ) • (1 : K l)) * ((1 + 1) + (t + inv t)) := by rw [next, smul_mul_assoc, one_mul]
  rw [this]
  linear_combination (t * (2 + t + inv t)) * h4 + e

theorem next_unique {t t' : K l} (h : nm t ≠ 0) (e : 4 * (t * (t' - 1)) = (t - 1) * (t - 1)) : t' = next t := by
  have h4 : nm (4 * t) ≠ 0 := by
    rw [nm_mul]
    refine mul_ne_zero ?_ h
    have := norm_natCast (R := ℝ) (a := l) (b := 0) 4
    push_cast at this
    rw [nm, this]; norm_num
  have := mul_cancel h4 (a := t' - 1) (b := next t - 1) (by rw [mul_assoc, mul_assoc, e, next_eq h])
  exact sub_left_injective this

theorem Pos.next {t : K l} (h : Pos t) : Pos (next t) :=
  ((Pos.one.add Pos.one).add (h.add h.inv)).smul (by norm_num)

/-- The step at `x`, for the square `s`. -/
noncomputable def step (s x : K l) : K l := (1 / 2 : ℝ) • (x + inv (x * s))

theorem two_step {s x : K l} (h : nm (x * s) ≠ 0) : 2 * (x * s * step s x) = x * s * x + 1 := by
  have e := mul_inv h
  have h2 : (2 : K l) * (1 / 2 : ℝ) • (1 : K l) = 1 := by
    ext <;> simp
  have : step s x = ((1 / 2 : ℝ) • (1 : K l)) * (x + inv (x * s)) := by rw [step, smul_mul_assoc, one_mul]
  rw [this]
  linear_combination (x * s * (x + inv (x * s))) * h2 + e

/-- The invariant of the iteration. -/
structure Ok (s x : K l) : Prop where
  ps : Pos s
  pt : Pos (x * s * x)
  pc : 0 ≤ l → Pos (x * s)

theorem Ok.nm_c {s x : K l} (h : Ok s x) : nm (x * s) ≠ 0 := by
  intro h0
  have := h.pt.2
  rw [nm_mul, h0, zero_mul] at this
  exact lt_irrefl _ this

theorem Ok.re_c {s x : K l} (h : Ok s x) : (x * s).re ≠ 0 := by
  rcases le_total 0 l with hl | hl
  · exact (h.pc hl).1.ne'
  intro h0
  have e : (x * s) * (x * s) = (x * s * x) * s := by ring
  have e1 := congrArg QuadraticAlgebra.re e
  have e2 := congrArg QuadraticAlgebra.im e
  obtain ⟨c, hc⟩ : ∃ c, c = x * s := ⟨_, rfl⟩
  obtain ⟨t, ht⟩ : ∃ t, t = x * s * x := ⟨_, rfl⟩
  rw [← hc] at h0
  have t1 := h.pt.1
  rw [← ht] at t1
  have s1 := h.ps.1
  rw [← ht, ← hc, re_mul, re_mul, h0] at e1
  rw [← ht, ← hc, im_mul, im_mul, h0] at e2
  simp only [zero_mul, mul_zero, add_zero, zero_add] at e1 e2
  have k : l * c.im * c.im ≤ 0 := by rw [mul_assoc]; exact mul_nonpos_of_nonpos_of_nonneg hl (mul_self_nonneg _)
  have k2 : (t.re * s.re + l * t.im * s.im) * s.re ≤ 0 := mul_nonpos_of_nonpos_of_nonneg (by linarith) s1.le
  have k3 : l * s.im * s.im ≤ 0 := by rw [mul_assoc]; exact mul_nonpos_of_nonpos_of_nonneg hl (mul_self_nonneg _)
  have k4 : t.im * s.re = -(t.re * s.im) := by linarith
  have : (t.re * s.re + l * t.im * s.im) * s.re = t.re * (s.re * s.re - l * s.im * s.im) := by linear_combination (l * s.im) * k4
  have h5 : 0 < t.re * (s.re * s.re - l * s.im * s.im) := mul_pos t1 (by nlinarith)
  linarith

theorem Ok.t_next {s x : K l} (h : Ok s x) : step s x * s * step s x = next (x * s * x) := by
  have e := two_step h.nm_c
  refine next_unique h.pt.ne ?_
  linear_combination (2 * (x * s * step s x) + x * s * x + 1) * e

theorem Ok.step {s x : K l} (h : Ok s x) : Ok s (step s x) := by
  refine ⟨h.ps, by rw [h.t_next]; exact h.pt.next, fun hl => ?_⟩
  have e : StudyNewton.step s x * s = (1 / 2 : ℝ) • (x * s + StudyNewton.inv (x * s) * s) := by
    rw [StudyNewton.step, smul_mul_assoc, add_mul]
  rw [e]
  exact ((h.pc hl).add ((h.pc hl).inv.mul hl h.ps)).smul (by norm_num)

theorem Ok.one {s : K l} (h : Pos s) : Ok s 1 := ⟨h, by rwa [one_mul, mul_one], fun _ => by rwa [one_mul]⟩

/-! ### rate of convergence -/

/-- Sequences that are at least squared. -/
theorem rate_of {a : ℕ → ℝ} (h0 : ∀ n, 0 ≤ a n) (h1 : ∀ n, a (n + 1) ≤ a n / 4) (h2 : ∀ n, a (n + 1) ≤ a n * a n / 2) :
    ∃ n0, ∀ n, a (n0 + n) ≤ 2 * (1 / 2) ^ 2 ^ n := by
  have hb : ∀ n, a n ≤ a 0 * (1 / 4) ^ n := by
    intro n
    induction n with
    | zero => simp
    | succ n ih => rw [pow_succ]; linarith [h1 n]
  obtain ⟨n0, hn0⟩ : ∃ n0, a n0 ≤ 1 := by
    obtain ⟨n, hn⟩ := exists_pow_lt_of_lt_one (show (0 : ℝ) < 1 / (a 0 + 1) by have := h0 0; positivity) (show (1 / 4 : ℝ) < 1 by norm_num)
    refine ⟨n, (hb n).trans ?_⟩
    have := h0 0
    have k : (a 0 + 1) * (1 / 4) ^ n ≤ 1 := by
      rw [lt_div_iff₀ (by positivity)] at hn
      linarith
    have : (0 : ℝ) ≤ (1 / 4) ^ n := by positivity
    linarith
  refine ⟨n0, fun n => ?_⟩
  induction n with
  | zero => simpa using hn0
  | succ n ih =>
    rw [← add_assoc, pow_succ 2 n, pow_mul]
    have := h2 (n0 + n)
    have k : a (n0 + n) * a (n0 + n) ≤ (2 * (1 / 2) ^ 2 ^ n) * (2 * (1 / 2) ^ 2 ^ n) := mul_le_mul ih ih (h0 _) (by positivity)
    nlinarith

theorem half_lt {t : K l} (h : Pos t) : 1 / 2 < (next t).re := by
  have h1 := h.1
  have h2 := h.inv.1
  simp only [next, re_smul, re_add, re_one, smul_eq_mul]
  linarith

theorem comp {r r' t : K l} (ht : t = 1 + r) (h : 4 * (t * r') = r * r) :
    4 * ((1 + r.re) * r'.re + l * r.im * r'.im) = r.re * r.re + l * r.im * r.im ∧
    4 * ((1 + r.re) * r'.im + r.im * r'.re) = 2 * r.re * r.im := by
  subst ht
  have e : ((4 : ℝ) • ((1 + r) * r')) = r * r := by
    rw [← h]
    have : (4 : K l) = (4 : ℝ) • (1 : K l) := by ext <;> simp
    rw [this, smul_mul_assoc, one_mul]
  have e1 := congrArg QuadraticAlgebra.re e
  have e2 := congrArg QuadraticAlgebra.im e
  simp only [re_smul, im_smul, re_mul, im_mul, re_add, im_add, re_one, im_one, smul_eq_mul, zero_mul, add_zero, zero_add] at e1 e2
  exact ⟨by linear_combination e1, by linear_combination e2⟩

/-- The residual vanishes quadratically from every positive number. -/
theorem rate {t : ℕ → K l} (h0 : Pos (t 0)) (hn : ∀ n, t (n + 1) = next (t n)) :
    ∃ C n0, 0 ≤ C ∧ ∀ n, |(t (n0 + n) - 1).re| ≤ C * (1 / 2) ^ 2 ^ n ∧ |(t (n0 + n) - 1).im| ≤ C * (1 / 2) ^ 2 ^ n := by
  have hp : ∀ n, Pos (t n) := by
    intro n
    induction n with
    | zero => exact h0
    | succ n ih => rw [hn]; exact ih.next
  obtain ⟨r, hr⟩ : ∃ r : ℕ → K l, ∀ n, r n = t (n + 1) - 1 := ⟨fun n => t (n + 1) - 1, fun _ => rfl⟩
  have ht : ∀ n, t (n + 1) = 1 + r n := fun n => by rw [hr]; ring
  have hh : ∀ n, -(1 / 2) < (r n).re := by
    intro n
    have := half_lt (hp n)
    rw [← hn, ht, re_add, re_one] at this
    linarith
  have hc : ∀ n, 4 * ((1 + (r n).re) * (r (n + 1)).re + l * (r n).im * (r (n + 1)).im) = (r n).re * (r n).re + l * (r n).im * (r n).im ∧
      4 * ((1 + (r n).re) * (r (n + 1)).im + (r n).im * (r (n + 1)).re) = 2 * (r n).re * (r n).im := by
    intro n
    refine comp (ht n) ?_
    have := next_eq (hp (n + 1)).ne
    rw [← hn, ← hr (n + 1), ← hr n] at this
    exact this
  have hs : ∀ n, 4 * ((t n).re * (r n).re + l * (t n).im * (r n).im) = ((t n).re - 1) * ((t n).re - 1) + l * (t n).im * (t n).im ∧
      4 * ((t n).re * (r n).im + (t n).im * (r n).re) = 2 * ((t n).re - 1) * (t n).im := by
    intro n
    have := next_eq (hp n).ne
    rw [← hn, ← hr n] at this
    have := comp (r := t n - 1) (by ring) this
    simpa [re_one, im_one] using this
  -- it suffices to bound both parts by a sequence that is squared
  suffices H : ∃ (a : ℕ → ℝ) (C : ℝ), 0 ≤ C ∧ (∀ n, 0 ≤ a n) ∧ (∀ n, a (n + 1) ≤ a n / 4) ∧ (∀ n, a (n + 1) ≤ a n * a n / 2) ∧
      ∀ n, |(r n).re| ≤ C * a n ∧ |(r n).im| ≤ C * a n by
    obtain ⟨a, C, c0, a0, a1, a2, a3⟩ := H
    obtain ⟨n0, h⟩ := rate_of a0 a1 a2
    refine ⟨2 * C, n0 + 1, by positivity, fun n => ?_⟩
    have e : t (n0 + 1 + n) - 1 = r (n0 + n) := by rw [hr, show n0 + 1 + n = n0 + n + 1 by omega]
    rw [e]
    have := mul_le_mul_of_nonneg_left (h n) c0
    obtain ⟨b1, b2⟩ := a3 (n0 + n)
    constructor <;> linarith
  rcases lt_trichotomy l 0 with hl | hl | hl
  · -- complex numbers
    have N0 : ∀ n, 0 ≤ (r n).re * (r n).re - l * (r n).im * (r n).im := by
      intro n
      nlinarith [mul_self_nonneg (r n).re, mul_self_nonneg (r n).im]
    have key : ∀ n, 16 * ((1 + (r n).re) * (1 + (r n).re) - l * (r n).im * (r n).im) * ((r (n + 1)).re * (r (n + 1)).re - l * (r (n + 1)).im * (r (n + 1)).im) =
        ((r n).re * (r n).re - l * (r n).im * (r n).im) * ((r n).re * (r n).re - l * (r n).im * (r n).im) := by
      intro n
      obtain ⟨e1, e2⟩ := hc n
      linear_combination (4 * ((1 + (r n).re) * (r (n + 1)).re + l * (r n).im * (r (n + 1)).im) + (r n).re * (r n).re + l * (r n).im * (r n).im) * e1 -
        l * (4 * ((1 + (r n).re) * (r (n + 1)).im + (r n).im * (r (n + 1)).re) + 2 * (r n).re * (r n).im) * e2
    refine ⟨fun n => Real.sqrt ((r n).re * (r n).re - l * (r n).im * (r n).im), 1 + 1 / Real.sqrt (-l), by positivity, fun n => Real.sqrt_nonneg _, ?_, ?_, ?_⟩
    · intro n
      have s := Real.sq_sqrt (N0 n)
      refine Real.sqrt_le_iff.2 ⟨by positivity, ?_⟩
      rw [div_pow, s]
      have k1 := N0 n
      have k2 := N0 (n + 1)
      have k3 := key n
      have k4 := hh n
      by_contra hcon
      push Not at hcon
      have : 0 < (1 + (r n).re) * (1 + (r n).re) - l * (r n).im * (r n).im := by nlinarith [mul_self_nonneg (r n).im]
      nlinarith [mul_lt_mul_of_pos_left hcon this]
    · intro n
      have s := Real.mul_self_sqrt (N0 n)
      rw [s]
      refine Real.sqrt_le_iff.2 ⟨by have := N0 n; positivity, ?_⟩
      have k2 := N0 (n + 1)
      have k3 := key n
      have k4 := hh n
      have : 1 / 4 ≤ (1 + (r n).re) * (1 + (r n).re) - l * (r n).im * (r n).im := by nlinarith [mul_self_nonneg (r n).im]
      nlinarith [mul_le_mul_of_nonneg_right this k2]
    · intro n
      have k1 : |(r n).re| ≤ Real.sqrt ((r n).re * (r n).re - l * (r n).im * (r n).im) := by
        refine Real.le_sqrt_of_sq_le ?_
        rw [sq_abs]
        nlinarith [mul_self_nonneg (r n).im]
      have k2 : |(r n).im| * Real.sqrt (-l) ≤ Real.sqrt ((r n).re * (r n).re - l * (r n).im * (r n).im) := by
        refine Real.le_sqrt_of_sq_le ?_
        rw [mul_pow, sq_abs, Real.sq_sqrt (by linarith)]
        nlinarith [mul_self_nonneg (r n).re]
      have s0 : 0 < Real.sqrt (-l) := Real.sqrt_pos.2 (by linarith)
      have s1 := Real.sqrt_nonneg ((r n).re * (r n).re - l * (r n).im * (r n).im)
      have k3 := (le_div_iff₀ s0).2 k2
      have k4 : 0 ≤ Real.sqrt ((r n).re * (r n).re - l * (r n).im * (r n).im) / Real.sqrt (-l) := by positivity
      constructor
      · rw [add_mul, one_mul, one_div_mul_eq_div]; linarith
      · rw [add_mul, one_mul, one_div_mul_eq_div]; linarith
  · -- dual numbers
    subst hl
    simp only [zero_mul, add_zero] at hc
    simp only [zero_mul, add_zero] at hs
    have u0 : ∀ n, 0 ≤ (r n).re := by
      intro n
      have h1 := (hp n).1
      have h2 := (hs n).1
      have h3 := mul_self_nonneg ((t n).re - 1)
      rw [← h2] at h3
      exact nonneg_of_mul_nonneg_right (by linarith) h1
    have v1 : ∀ n, |(r (n + 1)).im| * (4 * ((1 + (r n).re) * (1 + (r n).re))) = |(r n).im| * ((r n).re * (r n).re + 2 * (r n).re) := by
      intro n
      obtain ⟨e1, e2⟩ := hc n
      have h1 := u0 n
      have h3 : (r (n + 1)).im * (4 * ((1 + (r n).re) * (1 + (r n).re))) = (r n).im * ((r n).re * (r n).re + 2 * (r n).re) := by
        linear_combination (1 + (r n).re) * e2 - (r n).im * e1
      have := congrArg abs h3
      rwa [abs_mul, abs_mul (r n).im, abs_of_nonneg (a := 4 * ((1 + (r n).re) * (1 + (r n).re))) (by positivity),
        abs_of_nonneg (a := (r n).re * (r n).re + 2 * (r n).re) (by positivity)] at this
    have bu : ∀ n, (r (n + 1)).re ≤ (r n).re / 4 ∧ (r (n + 1)).re ≤ (r n).re * (r n).re / 4 := by
      intro n
      have e1 := (hc n).1
      have h1 := u0 n
      have h2 := u0 (n + 1)
      constructor
      · by_contra hcon
        push Not at hcon
        nlinarith
      · nlinarith
    have bv : ∀ n, |(r (n + 1)).im| ≤ |(r n).im| / 4 ∧ |(r (n + 1)).im| ≤ |(r n).im| * (r n).re / 2 := by
      intro n
      have e1 := v1 n
      have h1 := u0 n
      have h2 := abs_nonneg (r n).im
      have h3 := abs_nonneg (r (n + 1)).im
      have hpos : 0 < 4 * ((1 + (r n).re) * (1 + (r n).re)) := by positivity
      constructor
      · refine le_of_mul_le_mul_right ?_ hpos
        rw [e1]
        nlinarith
      · refine le_of_mul_le_mul_right ?_ hpos
        rw [e1]
        have : 0 ≤ |(r n).im| * ((r n).re * ((r n).re * (3 + 2 * (r n).re))) := by positivity
        nlinarith
    refine ⟨fun n => (r n).re + |(r n).im|, 1, zero_le_one, fun n => add_nonneg (u0 n) (abs_nonneg _), ?_, ?_, ?_⟩
    · intro n
      have := (bu n).1
      have := (bv n).1
      show _ + _ ≤ (_ + _) / 4
      linarith
    · intro n
      have := (bu n).2
      have := (bv n).2
      have := u0 n
      have := abs_nonneg (r n).im
      show _ + _ ≤ (_ + _) * (_ + _) / 2
      nlinarith
    · intro n
      rw [one_mul, abs_of_nonneg (u0 n)]
      have := u0 n
      have := abs_nonneg (r n).im
      constructor <;> linarith
  · -- split numbers
    obtain ⟨k, k0, kl⟩ : ∃ k, 0 < k ∧ k * k = l := ⟨Real.sqrt l, Real.sqrt_pos.2 hl, Real.mul_self_sqrt hl.le⟩
    subst kl
    have tp : ∀ n, 0 < (t n).re + k * (t n).im ∧ 0 < (t n).re - k * (t n).im := by
      intro n
      have h1 := (hp n).1
      have h2 := (hp n).2
      rw [nm_eq] at h2
      have : |k * (t n).im| < (t n).re := abs_lt_of_sq_lt_sq (by nlinarith) h1.le
      rw [abs_lt] at this
      constructor <;> linarith
    have rp : ∀ n, 0 ≤ (r n).re + k * (r n).im ∧ 0 ≤ (r n).re - k * (r n).im := by
      intro n
      obtain ⟨e1, e2⟩ := hs n
      obtain ⟨t1, t2⟩ := tp n
      constructor
      · have : 4 * ((t n).re + k * (t n).im) * ((r n).re + k * (r n).im) = ((t n).re - 1 + k * (t n).im) * ((t n).re - 1 + k * (t n).im) := by
          linear_combination e1 + k * e2
        have h := mul_self_nonneg ((t n).re - 1 + k * (t n).im)
        rw [← this, mul_assoc] at h
        exact nonneg_of_mul_nonneg_right (by linarith) t1
      · have : 4 * ((t n).re - k * (t n).im) * ((r n).re - k * (r n).im) = ((t n).re - 1 - k * (t n).im) * ((t n).re - 1 - k * (t n).im) := by
          linear_combination e1 - k * e2
        have h := mul_self_nonneg ((t n).re - 1 - k * (t n).im)
        rw [← this, mul_assoc] at h
        exact nonneg_of_mul_nonneg_right (by linarith) t2
    have one : ∀ {x y : ℝ}, 0 ≤ x → 0 ≤ y → 4 * ((1 + x) * y) = x * x → y ≤ x / 4 ∧ y ≤ x * x / 4 := by
      intro x y hx hy h
      constructor
      · by_contra hcon
        push Not at hcon
        nlinarith
      · nlinarith
    have both : ∀ n, ((r (n + 1)).re + k * (r (n + 1)).im ≤ ((r n).re + k * (r n).im) / 4 ∧
          (r (n + 1)).re + k * (r (n + 1)).im ≤ ((r n).re + k * (r n).im) * ((r n).re + k * (r n).im) / 4) ∧
        ((r (n + 1)).re - k * (r (n + 1)).im ≤ ((r n).re - k * (r n).im) / 4 ∧
          (r (n + 1)).re - k * (r (n + 1)).im ≤ ((r n).re - k * (r n).im) * ((r n).re - k * (r n).im) / 4) := by
      intro n
      obtain ⟨e1, e2⟩ := hc n
      exact ⟨one (rp n).1 (rp (n + 1)).1 (by linear_combination e1 + k * e2), one (rp n).2 (rp (n + 1)).2 (by linear_combination e1 - k * e2)⟩
    refine ⟨fun n => 2 * (r n).re, 1 / 2 + 1 / (2 * k), by positivity, fun n => by linarith [(rp n).1, (rp n).2], ?_, ?_, ?_⟩
    · intro n
      linarith [(both n).1.1, (both n).2.1]
    · intro n
      have h1 := (both n).1.2
      have h2 := (both n).2.2
      obtain ⟨p1, p2⟩ := rp n
      have : 0 ≤ ((r n).re + k * (r n).im) * ((r n).re - k * (r n).im) := mul_nonneg p1 p2
      nlinarith [mul_self_nonneg (r n).re]
    · intro n
      obtain ⟨p1, p2⟩ := rp n
      have h0 : 0 ≤ (r n).re := by linarith
      have h1 : k * |(r n).im| ≤ (r n).re := by
        rw [show k * |(r n).im| = |k * (r n).im| by rw [abs_mul, abs_of_pos k0], abs_le]
        constructor <;> linarith
      have h2 : |(r n).im| ≤ (r n).re / k := by
        rw [le_div_iff₀ k0, mul_comm]; exact h1
      have h3 : 0 ≤ (r n).re / k := by positivity
      have e : (1 / 2 + 1 / (2 * k)) * (2 * (r n).re) = (r n).re + (r n).re / k := by field_simp
      rw [e, abs_of_nonneg h0]
      constructor <;> linarith

end Verif.StudyNewton
