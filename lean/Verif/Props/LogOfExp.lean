import Verif.Props.ExpAccuracy
import Verif.Proofs.Principal
import Verif.Props.InverseLimits
/-! # C83: the logarithm of the exponential of a small bivector -/
namespace Verif.Props
open Model Spec ExpMatrix
open scoped Matrix.Norms.Operator

variable {A : Alg}

theorem exp_small : Real.exp (3 / 16) ≤ 5 / 4 := by
  have := Real.exp_bound' (x := 3 / 16) (by norm_num) (by norm_num) (n := 2) (by norm_num)
  simp [Finset.sum_range_succ, Nat.factorial] at this
  norm_num at this
  linarith

/-- The self-reverse part of a unit motor near one. -/
theorem near_one (hA : WfAlg A) (h5 : A.n < 6) {u : Cl A ℝ} (hu : u * CliffordAlgebra.reverse u = 1) (he : CliffordAlgebra.involute u = u)
    (hd : ‖mat A u - 1‖ ≤ 1 / 4) :
    ∃ (α κ : ℝ) (ν : Cl A ℝ), u + CliffordAlgebra.reverse u = α • 1 + ν ∧ gradePart A ℝ 0 ν = 0 ∧ ν * ν = κ • 1 ∧ 0 < α ∧ κ < α * α := by
  obtain ⟨r, hr⟩ : ∃ r, r = CliffordAlgebra.reverse u := ⟨_, rfl⟩
  rw [← hr] at hu ⊢
  have hu' := mul_eq_one_comm.1 hu
  have hrr : CliffordAlgebra.reverse r = u := by rw [hr]; exact CliffordAlgebra.reverse_reverse u
  have hre : CliffordAlgebra.involute r = r := by rw [hr, ← CliffordAlgebra.reverse_involute, he]
  obtain ⟨κ, ν, h1, h2, h3⟩ := study_split hA h5 (two_ne_zero (α := ℝ)) (w := u + r) (by rw [map_add, hrr, ← hr, add_comm]) (by rw [map_add, he, hre])
  refine ⟨_, κ, ν, h1, h2, h3, ?_⟩
  obtain ⟨α, hα⟩ : ∃ α, α = coef A ℝ 0 (u + r) := ⟨_, rfl⟩
  rw [← hα] at h1 ⊢
  have d1 := ExpBound.inverse_sub_one (x := mat A u) (y := mat A r) (by rw [← map_mul, hu', map_one]) hd
  have d2 : ‖mat A r - 1‖ ≤ 1 / 3 := by linarith
  have hW : ‖mat A (u + r - (2 : ℝ) • 1)‖ ≤ 7 / 12 := by
    have e : mat A (u + r - (2 : ℝ) • 1) = (mat A u - 1) + (mat A r - 1) := by
      rw [map_sub, map_add, map_smul, map_one, two_smul]; abel
    rw [e]
    refine (norm_add_le _ _).trans ?_
    linarith
  have ha : |α - 2| ≤ 7 / 12 := by
    have e := entry_le (mat A (u + r - (2 : ℝ) • 1)) (zero A) (zero A)
    rw [mat_zero] at e
    have e2 : coef A ℝ ((zero A : Fin (2 ^ A.n)) : Nat) (u + r - (2 : ℝ) • 1) = α - 2 := by
      show coef A ℝ 0 _ = _
      rw [map_sub, ← hα, map_smul, ← blade_zero, coef_blade A ℝ (Nat.two_pow_pos _), if_pos rfl, smul_eq_mul, mul_one]
    rw [e2] at e
    exact e.trans hW
  have hν : ‖mat A ν‖ ≤ 7 / 6 := by
    have e : ν = (u + r - (2 : ℝ) • 1) - (α - 2) • 1 := by rw [h1]; module
    rw [e, map_sub, map_smul, map_one]
    refine (norm_sub_le _ _).trans ?_
    rw [norm_smul, norm_one, mul_one, Real.norm_eq_abs]
    linarith
  have hκ : κ ≤ 7 / 6 * (7 / 6) := by
    have e := entry_le (mat A (ν * ν)) (zero A) (zero A)
    rw [mat_zero, h3] at e
    have e2 : coef A ℝ ((zero A : Fin (2 ^ A.n)) : Nat) (κ • (1 : Cl A ℝ)) = κ := by
      show coef A ℝ 0 _ = _
      rw [map_smul, ← blade_zero, coef_blade A ℝ (Nat.two_pow_pos _), if_pos rfl, smul_eq_mul, mul_one]
    rw [e2, ← h3, map_mul] at e
    exact (le_abs_self κ).trans (e.trans ((norm_mul_le _ _).trans (mul_le_mul hν hν (norm_nonneg _) (by norm_num))))
  have ha' := (abs_le.1 ha).1
  constructor
  · linarith
  · nlinarith

/-- The loop of `motor_log_bisect` undoes the squarings, near one. -/
theorem rootLoop_small (hA : WfAlg A) (h5 : A.n < 6) {rt : Roots ℝ} (hr : RealRoots rt) {fuel : Nat} (hf : 2 ≤ fuel) {u : Cl A ℝ}
    (hu : u * CliffordAlgebra.reverse u = 1) (he : CliffordAlgebra.involute u = u) (n : Nat) (hd : ∀ j < n, ‖mat A (u ^ 2 ^ j) - 1‖ ≤ 1 / 4)
    {m : MV ℝ} (hm : WfMV A m) (hme : EvenSub m.sub) (hv : val A m = u ^ 2 ^ n) :
    ∃ y, m.rootLoop A rt fuel n = .ok y ∧ WfMV A y ∧ EvenSub y.sub ∧ val A y = u := by
  induction n generalizing m with
  | zero => exact ⟨m, rfl, hm, hme, by rw [hv]; simp⟩
  | succ n ih =>
    have hrev : CliffordAlgebra.reverse (u ^ 2 ^ n) = CliffordAlgebra.reverse u ^ 2 ^ n := by
      generalize 2 ^ n = k
      induction k with
      | zero => simp
      | succ k ih => rw [pow_succ', CliffordAlgebra.reverse.map_mul, ih, pow_succ]
    have hu1 : u ^ 2 ^ n * CliffordAlgebra.reverse (u ^ 2 ^ n) = 1 := by
      have hc : Commute u (CliffordAlgebra.reverse u) := hu.trans (mul_eq_one_comm.1 hu).symm
      rw [hrev, ← hc.mul_pow, hu, one_pow]
    have he1 : CliffordAlgebra.involute (u ^ 2 ^ n) = u ^ 2 ^ n := by rw [map_pow, he]
    obtain ⟨α, κ, ν, w1, w2, w3, w4, w5⟩ := near_one hA h5 hu1 he1 (hd n (Nat.lt_succ_self n))
    obtain ⟨y, y1, y2, y3, y4⟩ := motorRoot_principal hA h5 hr hf hm hme hu1 (by rw [hv, pow_succ, pow_mul, pow_two]) w1 w2 w3 w4 w5
    obtain ⟨z, z1, z2, z3, z4⟩ := ih (fun j hj => hd j (by omega)) y2 y3 y4
    refine ⟨z, ?_, z2, z3, z4⟩
    rw [MV.rootLoop, y1]
    exact z1

/-- C83: for a bivector whose coefficients have absolute values with sum at most `1 / 8`, in every signature of dimension below six, `exp_bisect` and
`motor_log_bisect` return, and the logarithm of the exponential is the bivector; exactly, for every number of bisection steps. -/
theorem C83_log_exp (hA : WfAlg A) (h5 : A.n < 6) (h2n : 2 ≤ A.n) {rt : Roots ℝ} (hr : RealRoots rt) {fuel : Nat} (hf : 4 ≤ fuel) (n : Nat)
    {b : MV ℝ} (hb : WfMV A b) (hh : Homogeneous 2 b) (hβ : size1 b ≤ 1 / 8) :
    ∃ m b', b.expBisect A fuel n = .ok m ∧ WfMV A m ∧ m.motorLogBisect A rt fuel n = .ok b' ∧ WfMV A b' ∧ val A b' = val A b := by
  have h2 : (2 : ℝ) ≠ 0 := two_ne_zero
  have hn2 : (2 : ℝ) ^ n ≠ 0 := pow_ne_zero _ h2
  obtain ⟨e, e1, e2, e3, e4⟩ := div_num hA fuel hb hn2
  have he : Homogeneous 2 e := fun a ha => hh a (e3 ▸ ha)
  obtain ⟨c, hc⟩ : ∃ c : Cl A ℝ, c = (2 : ℝ)⁻¹ • val A e := ⟨_, rfl⟩
  have hc' : val A e = (2 : ℝ) • c := by rw [hc, smul_smul, mul_inv_cancel₀ h2, one_smul]
  have hcb : val A b = (2 * (2 : ℝ) ^ n) • c := by
    rw [hc, e4, smul_smul, smul_smul]
    rw [show (2 : ℝ) * 2 ^ n * 2⁻¹ * (2 ^ n)⁻¹ = 1 by field_simp, one_smul]
  have hB : ‖mat A (val A b)‖ ≤ 1 / 8 := (mat_val hA hb).trans hβ
  have hN : (1 : ℝ) ≤ 2 ^ n := one_le_pow₀ (by norm_num)
  have hN0 : (0 : ℝ) < 2 ^ n := by positivity
  have hT : ‖mat A c‖ ≤ 1 / (16 * 2 ^ n) := by
    have : ‖mat A (val A b)‖ = 2 * (2 : ℝ) ^ n * ‖mat A c‖ := by
      rw [hcb, map_smul, norm_smul, Real.norm_of_nonneg (by positivity)]
    rw [le_div_iff₀ (by positivity)]
    linarith
  have hT1 : 1 / (16 * (2 : ℝ) ^ n) ≤ 1 / 2 := by
    rw [div_le_div_iff₀ (by positivity) (by norm_num)]; linarith
  rcases expCayley_spec hA h5 h2 hf e2 he hc' with ⟨k, k1, k2, k3, k4, k5⟩ | ⟨_, hd⟩
  swap
  · exact absurd (isUnit_cayley (by linarith)) hd
  obtain ⟨s, s1, s2, s3⟩ := squareLoop_spec hA n k2
  have hs : b.expBisect A fuel n = .ok s := by simp only [MV.expBisect, e1, k1, s1, bind, Except.bind]
  have hk0 : e.expBisect A fuel 0 = .ok k := by
    obtain ⟨e', e1', e2', e3', e4'⟩ := div_num hA fuel e2 (one_ne_zero (α := ℝ))
    have : e' = e := by
      have := (C49_scalar hA fuel e2 (one_ne_zero (α := ℝ))).2
      rw [e1'] at this
      injection this with this
      rw [this]
      obtain ⟨es, ev⟩ := e
      simp
    subst this
    simp only [MV.expBisect, pow_zero, e1', k1, bind, Except.bind]
    rfl
  have hku := (C52_unit hA h5 h2 hf 0 e2 he hk0).2
  have hki := val_even hA k2 k3
  have hk : mat A (val A k) * ((1 + mat A c) * (1 - mat A c)) = (1 + mat A c) * (1 + mat A c) := by
    have := congrArg (mat A) k5
    simpa only [map_mul, map_add, map_sub, map_one] using this
  obtain ⟨_, _, q⟩ := ExpBound.cayley (E := Mat A) hT hT1 hk
  have hsm : ∀ j ≤ n, ‖mat A (val A k ^ 2 ^ j) - 1‖ ≤ 1 / 4 := by
    intro j hj
    rw [map_pow]
    refine (ExpBound.pow_sub_one (Real.one_le_exp (by positivity)) q (2 ^ j)).trans ?_
    rw [← Real.exp_nat_mul]
    have : ((2 ^ j : ℕ) : ℝ) * (3 * (1 / (16 * 2 ^ n))) ≤ 3 / 16 := by
      have hj2 : (2 : ℝ) ^ j ≤ 2 ^ n := pow_le_pow_right₀ (by norm_num) hj
      push_cast
      rw [show (2 : ℝ) ^ j * (3 * (1 / (16 * 2 ^ n))) = 3 / 16 * (2 ^ j / 2 ^ n) by field_simp]
      have : (2 : ℝ) ^ j / 2 ^ n ≤ 1 := (div_le_one hN0).2 hj2
      linarith
    have := (Real.exp_le_exp.2 this).trans exp_small
    linarith
  have hse : EvenSub s.sub := by
    clear s3 hs
    have : ∀ (n : Nat) {k s : MV ℝ}, WfMV A k → EvenSub k.sub → k.squareLoop A n = .ok s → EvenSub s.sub := by
      intro n
      induction n with
      | zero => intro k s hk he h; cases h; exact he
      | succ n ih =>
        intro k s hk he h
        obtain ⟨t, t1, t2, t3, t4⟩ := squared_even hA hk he
        rw [MV.squareLoop, t1] at h
        exact ih t2 t4 h
    exact this n k2 k3 s1
  obtain ⟨y, y1, y2, y3, y4⟩ := rootLoop_small hA h5 hr (fuel := fuel) (by omega) hku hki n (fun j hj => hsm j hj.le) s2 hse s3
  obtain ⟨α, κ, ν, w1, w2, w3, w4, w5⟩ := near_one hA h5 hku hki (by simpa using hsm 0 (Nat.zero_le n))
  have hpos : 0 < (2 + α) * (2 + α) - κ := by nlinarith
  obtain ⟨t, ht⟩ := C51_exists hA h5 hr (fuel := fuel) (by omega) y2 y3 (a := 2 + α) (q := κ) (n := ν) (s := Real.sqrt ((2 + α) * (2 + α) - κ))
    (by
      have e : (val A k + 1) * (CliffordAlgebra.reverse (val A k) + 1) =
          val A k * CliffordAlgebra.reverse (val A k) + (val A k + CliffordAlgebra.reverse (val A k)) + 1 := by noncomm_ring
      rw [y4, map_add, CliffordAlgebra.reverse.map_one, e, hku, w1]
      module) w2 w3 (Real.sqrt_pos.2 hpos) (Real.mul_self_sqrt hpos.le) (by positivity)
  obtain ⟨z, z1, z2, z3⟩ := cayley_log hA h5 h2n h2 hr.law hf e2 he hc' y2 k4 (by rw [y4]; exact k5) ht
  obtain ⟨v, v1, v2, _, v3⟩ := mul_num hA z2 ((2 : ℝ) ^ n)
  refine ⟨s, v, hs, s2, ?_, v2, ?_⟩
  · rw [MV.motorLogBisect, (insideEven_iff hA s2.sub).2 hse]
    simp only [require, y1, z1, v1, bind, Except.bind, lift_some]
  · rw [v3, z3, e4, smul_smul, mul_inv_cancel₀ hn2, one_smul]

/-- A bivector of a four-dimensional space that is not a product of vectors. -/
example : ∃ m b', (⟨⟨[3, 5, 12]⟩, [1/20, -1/30, 1/40]⟩ : MV ℝ).expBisect euc4 4 15 = .ok m ∧ WfMV euc4 m ∧
    m.motorLogBisect euc4 (realRoots 1000) 4 15 = .ok b' ∧ WfMV euc4 b' ∧ val euc4 b' = val euc4 (⟨⟨[3, 5, 12]⟩, [1/20, -1/30, 1/40]⟩ : MV ℝ) :=
  C83_log_exp wf_euc4 (by decide) (by decide) (realRoots_law 1000) (le_refl 4) 15 ⟨wfSub_of_B (by decide +kernel), rfl⟩
    (by intro a ha; fin_cases ha <;> decide)
    (by simp only [size1, List.map_cons, List.map_nil, List.sum_cons, List.sum_nil]
        rw [abs_of_nonneg (by norm_num), abs_of_nonpos (by norm_num), abs_of_nonneg (by norm_num)]; norm_num)

/-- The hypotheses of `C82_log` hold for the motor of this bivector. -/
example : ∃ m b', m.motorLogBisect euc4 (realRoots 1000) 4 15 = .ok b' ∧ val euc4 b' = val euc4 (⟨⟨[3, 5, 12]⟩, [1/20, -1/30, 1/40]⟩ : MV ℝ) ∧
    ∀ X, IsExp euc4 (val euc4 b') X → ∀ c < 2 ^ euc4.n, |coeff m c - coef euc4 ℝ c X| ≤ size1 b' ^ 3 * Real.exp (3 / 2 * size1 b') / 4 ^ 15 := by
  have hb : WfMV euc4 (⟨⟨[3, 5, 12]⟩, [1/20, -1/30, 1/40]⟩ : MV ℝ) := ⟨wfSub_of_B (by decide +kernel), rfl⟩
  have hh : Homogeneous 2 (⟨⟨[3, 5, 12]⟩, [1/20, -1/30, 1/40]⟩ : MV ℝ) := by intro a ha; fin_cases ha <;> decide
  have hs : size1 (⟨⟨[3, 5, 12]⟩, [1/20, -1/30, 1/40]⟩ : MV ℝ) ≤ 1 / 8 := by
    simp only [size1, List.map_cons, List.map_nil, List.sum_cons, List.sum_nil]
    rw [abs_of_nonneg (by norm_num), abs_of_nonpos (by norm_num), abs_of_nonneg (by norm_num)]; norm_num
  obtain ⟨m, b', m1, m2, b1, b2, b3⟩ := C83_log_exp wf_euc4 (by decide) (by decide) (realRoots_law 1000) (le_refl 4) 15 hb hh hs
  refine ⟨m, b', b1, b3, ?_⟩
  have hu := (C52_unit wf_euc4 (by decide) two_ne_zero (le_refl 4) 15 hb hh m1).2
  refine C82_log wf_euc4 (by decide) (by decide) (realRoots_law 1000).law (le_refl 4) m2 hu b1 le_rfl ?_
  rw [size1_eq b2, b3, ← size1_eq hb]
  linarith

end Verif.Props
