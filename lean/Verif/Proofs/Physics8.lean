import Verif.Proofs.Physics7
/-! # Steps of motors exist -/
namespace Verif
open Model Spec Model.Factory Props

variable {A : Alg} {R : Type} [Field R] [LinearOrder R] [IsStrictOrderedRing R]

theorem coef_one : coef A R 0 (1 : Cl A R) = 1 := by rw [← blade_zero, coef_blade A R (Nat.two_pow_pos _), if_pos rfl]

/-- Without negative basis vectors the scalar part of `~y y` is not negative. -/
theorem NonNeg.norm_nonneg (hA : WfAlg A) (hN : NonNeg A) (y : Cl A R) : 0 ≤ coef A R 0 (CliffordAlgebra.reverse y * y) := by
  have key : ((LinearMap.mul R (Cl A R)).compl₁₂ (CliffordAlgebra.reverse (Q := Q A R)) LinearMap.id).compr₂ (coef A R 0) =
      ∑ b ∈ Finset.range (2 ^ A.n), (coef A R 0 (CliffordAlgebra.reverse (blade A R b) * blade A R b)) •
        (LinearMap.mul R R).compl₁₂ (coef A R b) (coef A R b) := by
    apply lin_ext₂
    intro a ha c hc
    simp only [LinearMap.compr₂_apply, LinearMap.compl₁₂_apply, LinearMap.mul_apply', LinearMap.id_apply, LinearMap.sum_apply, LinearMap.smul_apply,
      coef_blade A R ha, coef_blade A R hc, smul_eq_mul]
    by_cases h : a = c
    · subst h
      rw [Finset.sum_eq_single a]
      · rw [if_pos rfl, mul_one, mul_one]
      · intro b _ hb
        rw [if_neg hb, mul_zero, mul_zero]
      · intro h; exact absurd (Finset.mem_range.2 ha) h
    · rw [Finset.sum_eq_zero, reverse_blade, smul_mul_assoc, blade_mul hA, map_smul, map_smul, coef_blade A R (xor_lt ha hc), if_neg, smul_zero, smul_zero]
      · intro h0
        have k : a ^^^ (a ^^^ c) = c := by rw [← Nat.xor_assoc, Nat.xor_self, Nat.zero_xor]
        rw [← h0, Nat.xor_zero] at k
        exact h k
      · intro b _
        by_cases h1 : b = a
        · rw [if_neg (fun h2 : b = c => h (h1.symm.trans h2)), mul_zero, mul_zero]
        · rw [if_neg h1, zero_mul, mul_zero]
  have e := LinearMap.congr_fun₂ key y y
  simp only [LinearMap.compr₂_apply, LinearMap.compl₁₂_apply, LinearMap.mul_apply', LinearMap.id_apply, LinearMap.sum_apply, LinearMap.smul_apply, smul_eq_mul] at e
  rw [e]
  refine Finset.sum_nonneg fun b hb => mul_nonneg ?_ (mul_self_nonneg _)
  rw [Finset.mem_range] at hb
  by_cases h : NullBlade A b
  · have h0 : sgn A b b = 0 := by
      by_contra h0
      rw [← ne_eq, sgn_ne_zero hA hb] at h0
      obtain ⟨i, hi, h1, h2⟩ := h
      exact h0 ⟨i, hi, h1, h1, h2⟩
    rw [reverse_blade, smul_mul_assoc, blade_mul hA, h0]
    simp
  · rw [rev_mul_blade hA hb h, hN.pc hA, pow_zero, one_smul, coef_one]
    exact zero_le_one

/-- Without negative basis vectors `(1 + b)(1 - b)` has a positive root. -/
theorem exp_norm (hA : WfAlg A) (h5 : A.n < 6) (hN : NonNeg A) {rt : Roots R} (hr : RealRoots rt) {b : Cl A R} (h1 : CliffordAlgebra.reverse b = -b)
    (h2 : CliffordAlgebra.involute b = b) :
    ∃ (a q s : R) (n : Cl A R), (1 + b) * (1 - b) = a • 1 + n ∧ gradePart A R 0 n = 0 ∧ n * n = q • 1 ∧ 0 < s ∧ s * s = a * a - q ∧ 0 < a + s := by
  obtain ⟨κ, ν, e, hν, hκ⟩ := study_split hA h5 (two_ne_zero (α := R)) (w := -(b * b)) (by
    rw [map_neg, CliffordAlgebra.reverse.map_mul, h1, neg_mul_neg]) (by rw [map_neg, map_mul, h2])
  obtain ⟨β, hβ⟩ : ∃ β, β = coef A R 0 (-(b * b)) := ⟨_, rfl⟩
  rw [← hβ] at e
  have h0 : coef A R 0 ν = 0 := by
    rw [gradePart_zero_eq hA] at hν
    have := congrArg (coef A R 0) hν
    simpa [coef_one] using this
  have hb0 : 0 ≤ β := by
    have := hN.norm_nonneg hA b
    rwa [h1, neg_mul, ← hβ] at this
  have hbν : b * ν = ν * b := by
    have e' : ν = -(b * b) - β • 1 := by rw [e]; abel
    rw [e']
    simp only [mul_sub, sub_mul, mul_neg, neg_mul, mul_assoc, mul_smul_comm, smul_mul_assoc, mul_one, one_mul]
  have hrν : CliffordAlgebra.reverse ν = ν := by
    have e' : ν = -(b * b) - β • 1 := by rw [e]; abel
    rw [e', map_sub, map_neg, CliffordAlgebra.reverse.map_mul, h1, neg_mul_neg, map_smul, CliffordAlgebra.reverse.map_one]
  have hk : κ < (1 + β) * (1 + β) := by
    rcases le_or_gt κ 0 with hk | hk
    · exact hk.trans_lt (by positivity)
    obtain ⟨t, -, t1, t2⟩ := hr.nonneg κ hk.le
    have ht : 0 < t := lt_of_le_of_ne t1 (by rintro rfl; rw [mul_zero] at t2; exact hk.ne t2)
    have hy := hN.norm_nonneg hA (b * (t • 1 - ν))
    have e2 : CliffordAlgebra.reverse (b * (t • 1 - ν)) * (b * (t • 1 - ν)) = (2 * t * (β - t)) • (t • 1 - ν) := by
      rw [CliffordAlgebra.reverse.map_mul, map_sub, map_smul, CliffordAlgebra.reverse.map_one, hrν, h1]
      have : (t • 1 - ν) * -b * (b * (t • 1 - ν)) = (t • 1 - ν) * (-(b * b)) * (t • 1 - ν) := by
        simp only [mul_assoc, neg_mul, mul_neg]
      rw [this, e]
      simp only [mul_sub, sub_mul, mul_add, add_mul, smul_mul_assoc, mul_smul_comm, one_mul, mul_one, smul_sub, smul_add, smul_smul, ← mul_assoc, hκ]
      rw [← t2]
      module
    rw [e2, map_smul, map_sub, map_smul, h0, coef_one, smul_eq_mul, smul_eq_mul, mul_one, sub_zero] at hy
    have hle : t ≤ β := by
      by_contra hc
      push Not at hc
      have : 2 * t * (β - t) * t < 0 := by
        have : 0 < t - β := sub_pos.2 hc
        have h3 : 0 < 2 * t * (t - β) * t := by positivity
        linarith
      linarith
    rw [← t2]
    nlinarith
  obtain ⟨s, -, s1, s2⟩ := hr.nonneg ((1 + β) * (1 + β) - κ) (by linarith)
  have s0 : 0 < s := lt_of_le_of_ne s1 (by rintro rfl; rw [mul_zero] at s2; linarith)
  refine ⟨1 + β, κ, s, ν, ?_, hν, hκ, s0, s2, by linarith⟩
  rw [add_smul, one_smul, add_assoc, ← e]
  noncomm_ring

theorem RealRoots.law {rt : Roots R} (hr : RealRoots rt) : RootLaw rt := by
  intro a r h
  rcases lt_or_ge a 0 with h0 | h0
  · rw [hr.neg a h0] at h; cases h
  · obtain ⟨r', h1, -, h2⟩ := hr.nonneg a h0
    cases h1.symm.trans h
    exact h2

/-- Without negative basis vectors `motor_add_step` has a result. -/
theorem addStep_exists (hA : WfAlg A) (h5 : A.n < 6) (hn : 2 ≤ A.n) (hN : NonNeg A) {rt : Roots R} (hr : RealRoots rt) {fuel : Nat} (hf : 2 ≤ fuel)
    {m s : MV R} (hm : WfMV A m) (hs : WfMV A s) (hs2 : Homogeneous 2 s) : ∃ m', motorAddStep A rt fuel m s = .ok m' := by
  obtain ⟨t, t1, t2, t3, t4⟩ := mul_num hA hs (-1 / 2 : R)
  have hh : Homogeneous 2 t := fun a ha => hs2 a (t3 a ha)
  obtain ⟨x, x1, x2, x3, x4⟩ := add_num_even hA t2 hh.even (1 : R)
  have e : val A x * CliffordAlgebra.reverse (val A x) = (1 + val A t) * (1 - val A t) := by
    rw [x3, map_add, map_smul, CliffordAlgebra.reverse.map_one, bivector_rev hA t2 hh, one_smul, add_comm, add_comm (-val A t), sub_eq_add_neg]
  obtain ⟨a, q, r, n, n1, n2, n3, n4, n5, n6⟩ := exp_norm hA h5 hN hr (bivector_rev hA t2 hh) (val_even hA t2 hh.even)
  obtain ⟨⟨T, T1, T2, -, T3⟩, -⟩ := selfProduct_even hA x2.sub x4
  obtain ⟨y, hy⟩ := C63_exists hA hr hf x2 T1 (study_even hA h5 T2 T3) (e.trans n1) n2 n3 n4 n5 n6
  have he : t.expLinearNormalized A rt fuel = .ok y := by
    rw [MV.expLinearNormalized, (insideBivector_iff hA hn t2.sub).2 hh, require, x1]
    exact hy
  obtain ⟨y1, -⟩ := exp_split hA hn two_ne_zero hr.law hf t2 he
  obtain ⟨z, z1, -⟩ := product_gives hA hm y1
  refine ⟨z, ?_⟩
  simp only [motorAddStep, t1, lift_some, bind, Except.bind, he]
  rw [MV.mul]
  simp only [MV.upcast, Option.bind_eq_bind, Option.bind_some, z1, lift_some]

/-- `normalized` of a unit even multivector has a result. -/
theorem normalized_unit_exists (hA : WfAlg A) (h5 : A.n < 6) {rt : Roots R} (hr : RealRoots rt) {fuel : Nat} (hf : 2 ≤ fuel)
    {m : MV R} (hm : WfMV A m) (he : EvenSub m.sub) (h1 : val A m * CliffordAlgebra.reverse (val A m) = 1) : ∃ m', m.normalized A rt fuel = .ok m' := by
  obtain ⟨⟨T, T1, T2, -, T3⟩, -⟩ := selfProduct_even hA hm.sub he
  exact C63_exists hA hr hf hm T1 (study_even hA h5 T2 T3) (a := 1) (q := 0) (s := 1) (n := 0) (by rw [h1, one_smul, add_zero]) (map_zero _)
    (by rw [mul_zero, zero_smul]) one_pos (by ring) (by norm_num)

end Verif
