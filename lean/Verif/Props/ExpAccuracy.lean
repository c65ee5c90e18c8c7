import Verif.Props.LogExp
import Verif.Props.OptimizedExp
import Verif.Proofs.ExpMatrix
import Verif.Proofs.LeastSquares
/-! # C82: `exp` against the exponential -/
namespace Verif.Props
open Model Spec ExpMatrix

variable {A : Alg}

/-- The sum of the absolute values of the coefficients. -/
def size1 (b : MV ℝ) : ℝ := (b.vals.map fun a => |a|).sum

theorem size1_eq {b : MV ℝ} (hb : WfMV A b) : size1 b = ∑ c ∈ Finset.range (2 ^ A.n), |coef A ℝ c (val A b)| := by
  rw [sum_space hb.sub (f := fun c => |coef A ℝ c (val A b)|) (fun c hc h => by
    show |coef A ℝ c (val A b)| = 0
    rw [← coeff_eq hb, coeff_notMem h, abs_zero])]
  rw [size1, ← lsum_range, ← hb.len]
  conv_lhs => rw [← map_getD_range b.vals 0, List.map_map]
  congr 1
  apply List.map_congr_left
  intro i hi
  rw [List.mem_range, hb.len] at hi
  simp only [Function.comp]
  rw [val, coef_denote_getD hb.sub hb.len hi]

/-- C82: every element has an exponential (and only one, `C79_unique`). -/
theorem C82_exists (B : Cl A ℝ) : ∃ X, IsExp A B X := ⟨_, _, curve_exp B, rfl⟩

theorem coef_exp {B X : Cl A ℝ} (h : IsExp A B X) (i : Fin (2 ^ A.n)) : coef A ℝ i X = NormedSpace.exp (mat A B) i (zero A) := by
  have : X = curve A B 1 := isExp_unique h ⟨_, curve_exp B, rfl⟩
  rw [this, coef_curve, one_smul]

open scoped Matrix.Norms.Operator in
/-- C82: the error of `exp_bisect` with `n` steps, in dimension below six: for a bivector whose coefficients have absolute values with sum at most
`β ≤ 2 ^ n` there is a result, and each of its coefficients is within `β³ exp(3 β / 2) / 4ⁿ` of that of the exponential. -/
theorem C82_bisect (hA : WfAlg A) (h5 : A.n < 6) {fuel : Nat} (hf : 4 ≤ fuel) {n : Nat} {b : MV ℝ} (hb : WfMV A b) (hh : Homogeneous 2 b) {β : ℝ}
    (hβ : size1 b ≤ β) (hn : β ≤ 2 ^ n) :
    ∃ m, b.expBisect A fuel n = .ok m ∧ WfMV A m ∧ val A m * CliffordAlgebra.reverse (val A m) = 1 ∧
      ∀ X, IsExp A (val A b) X → ∀ c < 2 ^ A.n, |coeff m c - coef A ℝ c X| ≤ β ^ 3 * Real.exp (3 / 2 * β) / 4 ^ n := by
  have h2 : (2 : ℝ) ≠ 0 := two_ne_zero
  have hn2 : (2 : ℝ) ^ n ≠ 0 := pow_ne_zero _ h2
  obtain ⟨e, e1, e2, e3, e4⟩ := div_num hA fuel hb hn2
  have he : Homogeneous 2 e := fun a ha => hh a (e3 ▸ ha)
  obtain ⟨c, hc⟩ : ∃ c : Cl A ℝ, c = (2 : ℝ)⁻¹ • val A e := ⟨_, rfl⟩
  have hc' : val A e = (2 : ℝ) • c := by rw [hc, smul_smul, mul_inv_cancel₀ h2, one_smul]
  have hcb : val A b = (2 * ((2 ^ n : ℕ) : ℝ)) • c := by
    rw [hc, e4, smul_smul, smul_smul]
    push_cast
    rw [show (2 : ℝ) * 2 ^ n * 2⁻¹ * (2 ^ n)⁻¹ = 1 by field_simp, one_smul]
  have hB : ‖mat A (val A b)‖ ≤ β := (mat_val hA hb).trans hβ
  have hN : (0 : ℝ) < ((2 ^ n : ℕ) : ℝ) := by positivity
  have hsm : ‖mat A c‖ < 1 := by
    have : ‖mat A (val A b)‖ = 2 * ((2 ^ n : ℕ) : ℝ) * ‖mat A c‖ := by
      rw [hcb, map_smul, norm_smul, Real.norm_of_nonneg (by positivity)]
    have hle : 2 * ((2 ^ n : ℕ) : ℝ) * ‖mat A c‖ ≤ ((2 ^ n : ℕ) : ℝ) * 1 := by
      rw [← this, mul_one]; push_cast; exact hB.trans hn
    rw [mul_comm 2, mul_assoc] at hle
    have := le_of_mul_le_mul_left hle hN
    linarith
  rcases expCayley_spec hA h5 h2 hf e2 he hc' with ⟨k, k1, k2, _, _, k5⟩ | ⟨_, hd⟩
  swap
  · exact absurd (isUnit_cayley hsm) hd
  obtain ⟨s, s1, s2, s3⟩ := squareLoop_spec hA n k2
  have hs : b.expBisect A fuel n = .ok s := by simp only [MV.expBisect, e1, k1, s1, bind, Except.bind]
  refine ⟨s, hs, s2, (C52_unit hA h5 h2 hf n hb hh hs).2, fun X hX i hi => ?_⟩
  have hk : mat A (val A k) * ((1 + mat A c) * (1 - mat A c)) = (1 + mat A c) * (1 + mat A c) := by
    have := congrArg (mat A) k5
    simpa only [map_mul, map_add, map_sub, map_one] using this
  have key := ExpBound.power (E := Mat A) (N := 2 ^ n) (Nat.two_pow_pos n) hB (by push_cast; exact hn) (by rw [hcb, map_smul]) hk
  rw [← map_pow, ← s3] at key
  have e := entry_le (mat A (val A s) - NormedSpace.exp (mat A (val A b))) ⟨i, hi⟩ (zero A)
  rw [Matrix.sub_apply, mat_zero, ← coef_exp hX ⟨i, hi⟩] at e
  rw [coeff_eq s2]
  refine e.trans (key.trans (le_of_eq ?_))
  push_cast
  rw [← pow_mul, mul_comm n 2, pow_mul]
  norm_num

/-- C82: with more and more bisection steps `exp_bisect` of a bivector converges to the exponential. -/
theorem C82_limit (hA : WfAlg A) (h5 : A.n < 6) {fuel : Nat} (hf : 4 ≤ fuel) {b : MV ℝ} (hb : WfMV A b) (hh : Homogeneous 2 b) {X : Cl A ℝ}
    (hX : IsExp A (val A b) X) {ε : ℝ} (hε : 0 < ε) :
    ∃ n₀, ∀ n ≥ n₀, ∃ m, b.expBisect A fuel n = .ok m ∧ WfMV A m ∧ ∀ c < 2 ^ A.n, |coeff m c - coef A ℝ c X| < ε := by
  obtain ⟨β, hβ⟩ : ∃ β, β = size1 b := ⟨_, rfl⟩
  obtain ⟨k, hk⟩ : ∃ k, k = β ^ 3 * Real.exp (3 / 2 * β) := ⟨_, rfl⟩
  obtain ⟨n1, h1⟩ := exists_nat_gt β
  obtain ⟨n2, h2⟩ := exists_nat_gt (k / ε)
  refine ⟨max n1 n2, fun n hn => ?_⟩
  have a1 : (n1 : ℝ) ≤ n := by exact_mod_cast (le_max_left n1 n2).trans hn
  have a2 : (n2 : ℝ) ≤ n := by exact_mod_cast (le_max_right n1 n2).trans hn
  have p2 : (n : ℝ) < 2 ^ n := by exact_mod_cast Nat.lt_two_pow_self
  have p4 : (n : ℝ) < 4 ^ n := by exact_mod_cast Nat.lt_pow_self (by norm_num : 1 < 4)
  obtain ⟨m, m1, m2, _, m3⟩ := C82_bisect hA h5 hf hb hh hβ.ge (by linarith : β ≤ 2 ^ n)
  refine ⟨m, m1, m2, fun c hc => (m3 X hX c hc).trans_lt ?_⟩
  rw [← hk, div_lt_iff₀ (by positivity)]
  rw [div_lt_iff₀ hε] at h2
  nlinarith

/-- C82: the exponential of the result of `motor_log_bisect` is the motor up to the same error. -/
theorem C82_log (hA : WfAlg A) (h5 : A.n < 6) (h2n : 2 ≤ A.n) {rt : Roots ℝ} (hr : RootLaw rt) {fuel : Nat} (hf : 4 ≤ fuel) {n : Nat} {m b : MV ℝ}
    (hm : WfMV A m) (h1 : val A m * CliffordAlgebra.reverse (val A m) = 1) (h : m.motorLogBisect A rt fuel n = .ok b) {β : ℝ}
    (hβ : size1 b ≤ β) (hn : β ≤ 2 ^ n) :
    ∀ X, IsExp A (val A b) X → ∀ c < 2 ^ A.n, |coeff m c - coef A ℝ c X| ≤ β ^ 3 * Real.exp (3 / 2 * β) / 4 ^ n := by
  obtain ⟨b1, b2, m', m1, m2, m3⟩ := C52_bisect hA h5 h2n two_ne_zero hr hf n hm h1 h
  obtain ⟨k, k1, k2, _, k3⟩ := C82_bisect hA h5 hf b1 b2 hβ hn
  cases k1.symm.trans m1
  intro X hX c hc
  have := k3 X hX c hc
  rwa [coeff_eq k2, m3, ← coeff_eq hm] at this

theorem isExp_scalar (A : Alg) (a : ℝ) : IsExp A (a • 1) (Real.exp a • 1) := by
  refine ⟨fun t => Real.exp (t * a) • 1, ⟨by simp, fun φ t => ?_⟩, by simp⟩
  have h : HasDerivAt (fun t => Real.exp (t * a)) (Real.exp (t * a) * (1 * a)) t := ((hasDerivAt_id t).mul_const a).exp
  simp only [map_smul, smul_eq_mul]
  refine (h.mul_const _).congr_deriv ?_
  rw [smul_mul_smul_comm, one_mul, map_smul, smul_eq_mul]
  ring

theorem isExp_null {B : Cl A ℝ} (h : B * B = 0) : IsExp A B (1 + B) := by
  refine ⟨fun t => 1 + t • B, ⟨by simp, fun φ t => ?_⟩, by simp⟩
  have : HasDerivAt (fun t => φ 1 + t * φ B) (1 * φ B) t := ((hasDerivAt_id t).mul_const _).const_add _
  simp only [map_add, map_smul, smul_eq_mul]
  refine this.congr_deriv ?_
  rw [mul_add, mul_one, mul_smul_comm, h, smul_zero, add_zero, one_mul]

/-- C82: `exp` of an empty multivector is `1`, of a scalar its exponential, and with at most one null basis vector the exponential of a multivector
all of whose blades contain it: these are exact. -/
theorem C82_exact (hA : WfAlg A) (fuel n : Nat) {b : MV ℝ} (hb : WfMV A b)
    (h : b.sub = ⟨[]⟩ ∨ b.sub = ⟨[0]⟩ ∨ OneNull A ∧ ∀ a ∈ b.sub.blades, NullBlade A a) :
    ∃ m, b.exp A fuel Real.exp n = .ok m ∧ WfMV A m ∧ IsExp A (val A b) (val A m) := by
  by_cases he : b.sub = ⟨[]⟩
  · have e0 : equalsEmpty A b.sub = some true := by rw [equalsEmpty, empty_eq hA, he]; rfl
    refine ⟨⟨⟨[0]⟩, [1]⟩, ?_, ⟨wf_scalar, rfl⟩, ?_⟩
    · rw [MV.exp]
      simp only [expOptions, Dispatch.matchLoop, e0, (scalar_eq hA).1, lift_some, bind, Except.bind]
      rfl
    · have e1 : val A (⟨⟨[0]⟩, [1]⟩ : MV ℝ) = 1 + val A b := by rw [val_empty he]; simp [val, denote, blade_zero]
      rw [e1]
      exact isExp_null (by rw [val_empty he, mul_zero])
  · have e0 : equalsEmpty A b.sub = some false := by
      rw [equalsEmpty, empty_eq hA, Option.bind_eq_bind, Option.bind_some, Option.some_inj, beq_eq_false_iff_ne]; exact he
    rcases h with h | h | ⟨h1, h0⟩
    · exact absurd h he
    · obtain ⟨a, a1, a2⟩ := val_scalar hb h
      have e1 : equalsScalar A b.sub = some true := by rw [equalsScalar, (scalar_eq hA).1, h]; rfl
      refine ⟨⟨⟨[0]⟩, [Real.exp a]⟩, ?_, ⟨wf_scalar, rfl⟩, ?_⟩
      · rw [MV.exp]
        simp only [expOptions, Dispatch.matchLoop, e0, e1]
        rw [a1, MV.copy, MV.construct, h, if_pos (by simp)]
        rfl
      · have e2 : val A (⟨⟨[0]⟩, [Real.exp a]⟩ : MV ℝ) = Real.exp a • 1 := by simp [val, denote, blade_zero]
        rw [e2, a2]
        exact isExp_scalar A a
    · obtain ⟨m, m1, m2, m3⟩ := exp_degenerate hA fuel n Real.exp hb he h0
      exact ⟨m, m1, m2, m3 ▸ isExp_null (null_mul hA h1 hb hb h0 h0)⟩

/-- C82: `exp` of any bivector, with at most one null basis vector and in dimension below six: the coefficients are those of the exponential up to the
error of `C82_bisect`; the code has `n = 15`, an error of `β³ exp(3 β / 2) / 2³⁰`. -/
theorem C82_exp (hA : WfAlg A) (h5 : A.n < 6) (h1 : OneNull A) {fuel : Nat} (hf : 4 ≤ fuel) {n : Nat} {b : MV ℝ} (hb : WfMV A b)
    (hh : Homogeneous 2 b) {β : ℝ} (hβ : size1 b ≤ β) (hn : β ≤ 2 ^ n) :
    ∃ m, b.exp A fuel Real.exp n = .ok m ∧ WfMV A m ∧
      ∀ X, IsExp A (val A b) X → ∀ c < 2 ^ A.n, |coeff m c - coef A ℝ c X| ≤ β ^ 3 * Real.exp (3 / 2 * β) / 4 ^ n := by
  have h0 : 0 ≤ β := (List.sum_nonneg (by simp)).trans hβ
  by_cases hN : ∀ a ∈ b.sub.blades, NullBlade A a
  · obtain ⟨m, m1, m2, m3⟩ := C82_exact hA fuel n hb (Or.inr (Or.inr ⟨h1, hN⟩))
    refine ⟨m, m1, m2, fun X hX c _ => ?_⟩
    rw [coeff_eq m2, isExp_unique m3 hX, sub_self, abs_zero]
    positivity
  · push Not at hN
    obtain ⟨a, a1, a2⟩ := hN
    have hs : b.sub ≠ ⟨[0]⟩ := by
      intro h
      have := hh 0 (by rw [h]; simp)
      exact absurd this (by decide)
    rw [C53_default hA fuel n Real.exp hb ⟨a, a1, a2⟩ hs]
    obtain ⟨m, m1, m2, _, m3⟩ := C82_bisect hA h5 hf hb hh hβ hn
    exact ⟨m, m1, m2, m3⟩

/-! ### examples -/

/-- A quarter turn in the plane: the fifteen bisections of the code give the exponential up to `10⁻⁷`. -/
example : ∃ m, (⟨⟨[3]⟩, [Real.pi / 2]⟩ : MV ℝ).exp euc2 4 Real.exp 15 = .ok m ∧
    ∀ X, IsExp euc2 (val euc2 (⟨⟨[3]⟩, [Real.pi / 2]⟩ : MV ℝ)) X → ∀ c < 4, |coeff m c - coef euc2 ℝ c X| ≤ 2 ^ 3 * Real.exp (3 / 2 * 2) / 4 ^ 15 := by
  obtain ⟨m, m1, _, m2⟩ := C82_exp wf_euc2 (by decide) (by unfold OneNull; decide) (le_refl 4) (n := 15) (b := ⟨⟨[3]⟩, [Real.pi / 2]⟩) (β := 2)
    ⟨wfSub_of_B (by decide +kernel), rfl⟩ (by intro a ha; simp only [List.mem_singleton] at ha; subst ha; decide)
    (by simp only [size1, List.map_cons, List.map_nil, List.sum_cons, List.sum_nil]
        rw [abs_of_nonneg (by positivity)]; linarith [Real.pi_le_four])
    (by norm_num)
  exact ⟨m, m1, m2⟩
/-- `exp` of the number `2`. -/
example : ∃ m, (⟨⟨[0]⟩, [2]⟩ : MV ℝ).exp euc2 4 Real.exp 15 = .ok m ∧ WfMV euc2 m ∧ IsExp euc2 (val euc2 (⟨⟨[0]⟩, [2]⟩ : MV ℝ)) (val euc2 m) :=
  C82_exact wf_euc2 4 15 ⟨wf_scalar, rfl⟩ (Or.inr (Or.inl rfl))

end Verif.Props
