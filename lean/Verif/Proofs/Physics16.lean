import Verif.Proofs.Physics15
/-! # Joins in another frame, and lines through a common point -/
namespace Verif
open Model Spec Model.Factory Props

variable {A : Alg} {R : Type}

section
variable [CommRing R]

/-- The commutator of two basis vectors. -/
theorem comm_pow {i k : Nat} (hi : i < A.n) (hk : k < A.n) (hik : i ≠ k) :
    comm A R (blade A R (2 ^ i)) (blade A R (2 ^ k)) = (-1 : R) ^ inv A.n (2 ^ i) (2 ^ k) • blade A R (2 ^ i ^^^ 2 ^ k) := by
  have li : 2 ^ i < 2 ^ A.n := Nat.pow_lt_pow_right (by norm_num) hi
  have lk : 2 ^ k < 2 ^ A.n := Nat.pow_lt_pow_right (by norm_num) hk
  have s1 : sgn A (2 ^ k) (2 ^ i) = - sgn A (2 ^ i) (2 ^ k) := by
    rw [sgn_disjoint (pow_and hik), sgn_disjoint (pow_and hik.symm), ← neg_one_mul ((-1 : ℤ) ^ _), ← pow_succ']
    apply sign_congr
    have := i2_swap A.n (2 ^ i) (2 ^ k)
    rw [pow_and hik, p2_pow hi, p2_pow hk] at this
    have w4 : p2 A.n 0 = 0 := by simp [p2]
    push_cast
    simp only [← i2.eq_1]
    linear_combination (norm := (ring_nf; reduce_mod_char)) this + w4
  have h := halfSign_two (s := -1) (Or.inr rfl) (sgn_swap A (2 ^ i) (2 ^ k))
  rw [s1] at h
  have h' : halfSign (sgn A) (-1) (2 ^ i) (2 ^ k) = sgn A (2 ^ i) (2 ^ k) := by omega
  rw [comm_blade_cast li lk, h', sgn_disjoint (pow_and hik)]
  push_cast
  rfl

theorem meet_off (hA : WfAlg A) {l c : Nat} (hl : l < A.n) (hc : c < 2 ^ A.n) (h : c.testBit l = false) :
    meet A R (blade A R (A.pss ^^^ 2 ^ l)) (blade A R c) = 0 := by
  have ll : 2 ^ l < 2 ^ A.n := Nat.pow_lt_pow_right (by norm_num) hl
  rw [meet_blade hA (xor_lt (pss_lt A) ll) hc, if_neg]
  intro h0
  have := congrArg (·.testBit l) h0
  simp only [Nat.testBit_and, Nat.testBit_two_pow_self, Nat.testBit_xor, Nat.zero_testBit, Alg.pss, Nat.testBit_two_pow_sub_one] at this
  simp [h, hl] at this

/-- The join of a point with a basis vector in it. -/
theorem meet_on (hA : WfAlg A) {i k : Nat} (hi : i < A.n) (hk : k < A.n) (hik : i ≠ k) :
    meet A R (blade A R (A.pss ^^^ 2 ^ i)) (comm A R (blade A R (2 ^ i)) (blade A R (2 ^ k))) =
      - (meet A R (blade A R (A.pss ^^^ 2 ^ i)) (blade A R (2 ^ i)) * blade A R (2 ^ k)) := by
  have hP := pss_lt A
  have li : 2 ^ i < 2 ^ A.n := Nat.pow_lt_pow_right (by norm_num) hi
  have lk : 2 ^ k < 2 ^ A.n := Nat.pow_lt_pow_right (by norm_num) hk
  have e1 : A.pss ^^^ 2 ^ i ^^^ A.pss = 2 ^ i := by rw [Nat.xor_comm A.pss, Nat.xor_assoc, Nat.xor_self, Nat.xor_zero]
  have e2 : A.pss ^^^ 2 ^ i ^^^ (2 ^ i ^^^ 2 ^ k) = A.pss ^^^ 2 ^ k := by
    rw [Nat.xor_assoc, ← Nat.xor_assoc (2 ^ i), Nat.xor_self, Nat.zero_xor]
  have e3 : A.pss ^^^ 2 ^ k ^^^ A.pss = 2 ^ k := by rw [Nat.xor_comm A.pss, Nat.xor_assoc, Nat.xor_self, Nat.xor_zero]
  have e4 : A.pss ^^^ 2 ^ i ^^^ 2 ^ i = A.pss := by rw [Nat.xor_assoc, Nat.xor_self, Nat.xor_zero]
  have a1 : 2 ^ i &&& (2 ^ i ^^^ 2 ^ k ^^^ A.pss) = 0 := by
    rw [Nat.and_xor_distrib_left, Nat.and_xor_distrib_left, Nat.and_self, pow_and hik, and_pss_pow hi, Nat.xor_zero, Nat.xor_self]
  have a2 : 2 ^ i &&& (2 ^ i ^^^ A.pss) = 0 := by
    rw [Nat.and_xor_distrib_left, Nat.and_self, and_pss_pow hi, Nat.xor_self]
  rw [comm_pow hi hk hik, map_smul, meet_blade hA (xor_lt hP li) (xor_lt li lk), meet_blade hA (xor_lt hP li) li, e1, e2, e3, e4, Nat.xor_self, if_pos a1, if_pos a2,
    blade_zero, smul_mul_assoc, one_mul, smul_smul, ← neg_smul, ← pow_add, ← neg_one_mul ((-1 : R) ^ _), ← pow_succ']
  congr 1
  apply sign_congr
  push_cast
  simp only [← i2.eq_1, ← p2.eq_1, i2_left, i2_right, p2_and_xor, i2_pow]
  have w2 := i2_swap A.n (2 ^ i) (2 ^ k)
  rw [pow_and hik, p2_pow hi, p2_pow hk] at w2
  have w4 : p2 A.n 0 = 0 := by simp [p2]
  have w5 : p2 A.n (0 &&& A.negatives) = 0 := by rw [Nat.zero_and, w4]
  have w6 : i2 A.n 0 A.pss = 0 := by
    have := i2_left A.n 0 0 A.pss
    rw [Nat.xor_self] at this
    exact left_eq_add.1 this
  rw [w5, w6]
  linear_combination (norm := (ring_nf; reduce_mod_char)) w2 + w4

/-- The join of a point with the meet of two planes: blades. -/
theorem point_comm_blade (hA : WfAlg A) {a i k : Nat} (ha : a < 2 ^ A.n) (h : popcount a = A.n - 1) (hi : i < A.n) (hk : k < A.n) :
    meet A R (blade A R a) (comm A R (blade A R (2 ^ i)) (blade A R (2 ^ k))) =
      meet A R (blade A R a) (blade A R (2 ^ k)) * blade A R (2 ^ i) - meet A R (blade A R a) (blade A R (2 ^ i)) * blade A R (2 ^ k) := by
  have hn := hA.pos
  have li : 2 ^ i < 2 ^ A.n := Nat.pow_lt_pow_right (by norm_num) hi
  have lk : 2 ^ k < 2 ^ A.n := Nat.pow_lt_pow_right (by norm_num) hk
  have ga := compl_pop hA ha
  obtain ⟨l, hl, el⟩ := one_bit hA (xor_lt ha (pss_lt A)) (by omega)
  obtain rfl : a = A.pss ^^^ 2 ^ l := by rw [← el, Nat.xor_comm, xor_xor_pss]
  by_cases hik : i = k
  · subst hik
    have h := halfSign_two (s := -1) (Or.inr rfl) (sgn_swap A (2 ^ i) (2 ^ i))
    have h' : halfSign (sgn A) (-1) (2 ^ i) (2 ^ i) = 0 := by omega
    rw [sub_self, comm_blade_cast li li, h']
    simp
  by_cases h1 : l = i
  · subst h1
    rw [meet_on hA hl hk hik, meet_off hA hl lk (by rw [Nat.testBit_two_pow]; simp; omega), zero_mul, zero_sub]
  by_cases h2 : l = k
  · subst h2
    rw [comm_swap hA, map_neg, meet_on hA hl hi (Ne.symm hik), meet_off hA hl li (by rw [Nat.testBit_two_pow]; simp; omega), zero_mul, sub_zero, neg_neg]
  · rw [comm_pow hi hk hik, map_smul, meet_off hA hl (xor_lt li lk), meet_off hA hl li, meet_off hA hl lk]
    · simp
    all_goals simp only [Nat.testBit_xor, Nat.testBit_two_pow]; simp; try omega

/-- The join of a point with the meet of two planes. -/
theorem point_comm (hA : WfAlg A) {q u v : Cl A R} (hq : gradePart A R (A.n - 1) q = q) (hu : gradePart A R 1 u = u) (hv : gradePart A R 1 v = v) :
    meet A R q (comm A R u v) = meet A R q v * u - meet A R q u * v := by
  have h1 : ∀ i < A.n, ∀ k < A.n, meet A R q (comm A R (blade A R (2 ^ i)) (blade A R (2 ^ k))) =
      meet A R q (blade A R (2 ^ k)) * blade A R (2 ^ i) - meet A R q (blade A R (2 ^ i)) * blade A R (2 ^ k) := by
    intro i hi k hk
    have : ((meet A R).flip (comm A R (blade A R (2 ^ i)) (blade A R (2 ^ k)))).comp (gradePart A R (A.n - 1)) =
        ((LinearMap.mul R (Cl A R)).flip (blade A R (2 ^ i)) ∘ₗ (meet A R).flip (blade A R (2 ^ k)) -
          (LinearMap.mul R (Cl A R)).flip (blade A R (2 ^ k)) ∘ₗ (meet A R).flip (blade A R (2 ^ i))).comp (gradePart A R (A.n - 1)) := by
      apply lin_ext
      intro a ha
      simp only [LinearMap.comp_apply, LinearMap.sub_apply, LinearMap.flip_apply, LinearMap.mul_apply', gradePart_blade _ ha]
      by_cases h : popcount a = A.n - 1
      · rw [if_pos h]
        exact point_comm_blade hA ha h hi hk
      · rw [if_neg h]; simp
    have := LinearMap.congr_fun this q
    simpa only [LinearMap.comp_apply, LinearMap.sub_apply, LinearMap.flip_apply, LinearMap.mul_apply', hq] using this
  have : ((comm A R).compr₂ (meet A R q)).compl₁₂ (gradePart A R 1) (gradePart A R 1) =
      (((LinearMap.mul R (Cl A R)).comp (meet A R q)).flip - (LinearMap.mul R (Cl A R)).comp (meet A R q)).compl₁₂ (gradePart A R 1) (gradePart A R 1) := by
    apply lin_ext₂
    intro a ha c hc
    simp only [LinearMap.compl₁₂_apply, LinearMap.compr₂_apply, LinearMap.sub_apply, LinearMap.comp_apply, LinearMap.flip_apply, LinearMap.mul_apply',
      gradePart_blade _ ha, gradePart_blade _ hc]
    by_cases h : popcount a = 1
    · by_cases h' : popcount c = 1
      · rw [if_pos h, if_pos h']
        obtain ⟨i, hi, rfl⟩ := one_bit hA ha h
        obtain ⟨k, hk, rfl⟩ := one_bit hA hc h'
        exact h1 i hi k hk
      · rw [if_neg h']; simp
    · rw [if_neg h]; simp
  have := LinearMap.congr_fun₂ this u v
  simpa only [LinearMap.compl₁₂_apply, LinearMap.compr₂_apply, LinearMap.sub_apply, LinearMap.comp_apply, LinearMap.flip_apply, LinearMap.mul_apply', hu, hv] using this

/-- The coefficient of the pseudoscalar of a product does not depend on the order, in even dimension. -/
theorem pss_trace (hA : WfAlg A) (h4 : A.n = 4) (x y : Cl A R) : coef A R A.pss (x * y) = coef A R A.pss (y * CliffordAlgebra.involute x) := by
  have hP := pss_lt A
  have : (LinearMap.mul R (Cl A R)).compr₂ (coef A R A.pss) =
      ((LinearMap.mul R (Cl A R)).flip.comp (CliffordAlgebra.involute (Q := Q A R)).toLinearMap).compr₂ (coef A R A.pss) := by
    apply lin_ext₂
    intro a ha c hc
    simp only [LinearMap.compr₂_apply, LinearMap.mul_apply', LinearMap.comp_apply, LinearMap.flip_apply, AlgHom.toLinearMap_apply]
    rw [involute_blade, mul_smul_comm, blade_mul hA, blade_mul hA, map_smul, map_smul, map_smul, Nat.xor_comm c a, coef_blade A R (xor_lt ha hc)]
    by_cases h : A.pss = a ^^^ c
    · rw [if_pos h, smul_eq_mul, smul_eq_mul, smul_eq_mul, mul_one, mul_one]
      obtain rfl : c = a ^^^ A.pss := by rw [h, ← Nat.xor_assoc, Nat.xor_self, Nat.zero_xor]
      have h0 : a &&& (a ^^^ A.pss) = 0 := and_compl ha
      rw [sgn_disjoint h0, sgn_disjoint (Nat.and_comm _ _ ▸ h0)]
      push_cast
      rw [← pow_add]
      refine sign_congr ?_
      have w := i2_swap A.n a (a ^^^ A.pss)
      rw [h0, p2_xor, p2_pss, h4] at w
      have w4 : p2 4 0 = 0 := by simp [p2]
      rw [w4] at w
      rw [h4]
      push_cast at w ⊢
      simp only [← i2.eq_1, ← p2.eq_1] at w ⊢
      revert w
      generalize i2 4 a (a ^^^ A.pss) = u
      generalize i2 4 (a ^^^ A.pss) a = v
      generalize p2 4 a = w
      revert u v w
      decide
    · rw [if_neg h]; simp
  exact LinearMap.congr_fun₂ this x y

end
section
variable [Field R]

/-- An element of the second grade that meets none is zero. -/
theorem meet_nondegenerate (hA : WfAlg A) (h4 : A.n = 4) {y : Cl A R} (hy : gradePart A R 2 y = y) (h : ∀ b, gradePart A R 2 b = b → meet A R y b = 0) : y = 0 := by
  have hP := pss_lt A
  apply ext_coef
  intro b hb
  rw [map_zero]
  by_cases hp : popcount b = 2
  swap
  · rw [← hy, gradePart_eq_proj, coef_proj, if_neg hp]
  have hc : b ^^^ A.pss < 2 ^ A.n := xor_lt hb hP
  have hpc : popcount (b ^^^ A.pss) = 2 := by
    rw [Alg.pss, h4] at *
    revert b
    decide +kernel
  have e0 : b ^^^ (b ^^^ A.pss) ^^^ A.pss = 0 := by rw [← Nat.xor_assoc b b, Nat.xor_self, Nat.zero_xor, Nat.xor_self]
  have e1 : (b ^^^ A.pss) &&& (b ^^^ A.pss ^^^ A.pss) = 0 := by
    rw [Alg.pss, h4] at *
    clear hp hpc hc e0 hP
    revert b
    decide +kernel
  obtain ⟨s, hs⟩ : ∃ s, s = coef A R 0 (meet A R (blade A R b) (blade A R (b ^^^ A.pss))) := ⟨_, rfl⟩
  have hs0 : s ≠ 0 := by
    rw [hs, meet_blade hA hb hc, if_pos e1, map_smul, e0, coef_blade A R (Nat.two_pow_pos _), if_pos rfl, smul_eq_mul, mul_one]
    exact pow_ne_zero _ (neg_ne_zero.2 one_ne_zero)
  have e : (coef A R 0).comp ((meet A R).flip (blade A R (b ^^^ A.pss))) = s • coef A R b := by
    refine lin_ext fun a ha => ?_
    rw [LinearMap.comp_apply, LinearMap.flip_apply, LinearMap.smul_apply, coef_blade A R ha]
    by_cases hab : b = a
    · subst hab
      rw [if_pos rfl, smul_eq_mul, mul_one, hs]
    · rw [if_neg hab, smul_zero, meet_blade hA ha hc]
      split_ifs
      · rw [map_smul, coef_blade A R (xor_lt (xor_lt ha hc) hP), if_neg, smul_zero]
        intro h
        rw [Nat.xor_assoc, Nat.xor_assoc, Nat.xor_self, Nat.xor_zero] at h
        have h' := congrArg (· ^^^ b) h
        simp only [Nat.xor_assoc, Nat.xor_self, Nat.xor_zero, Nat.zero_xor] at h'
        exact hab h'
      · exact map_zero _
  have := LinearMap.congr_fun e y
  rw [LinearMap.comp_apply, LinearMap.flip_apply, h _ (by rw [gradePart_blade _ hc, if_pos hpc]), map_zero, LinearMap.smul_apply, smul_eq_mul] at this
  exact (mul_eq_zero.1 this.symm).resolve_left hs0

/-- Turning with an even element of norm one in space. -/
structure Turns (A : Alg) (R : Type) [Field R] (M : Cl A R) : Prop where
  even : CliffordAlgebra.involute M = M
  unit : M * CliffordAlgebra.reverse M = 1

namespace Turns
variable {M : Cl A R} (hM : Turns A R M)
include hM

theorem unit' : CliffordAlgebra.reverse M * M = 1 := mul_eq_one_comm.1 hM.unit

theorem evenRev : CliffordAlgebra.involute (CliffordAlgebra.reverse M) = CliffordAlgebra.reverse M := by
  rw [← CliffordAlgebra.reverse_involute, hM.even]

theorem rev : Turns A R (CliffordAlgebra.reverse M) := ⟨hM.evenRev, by rw [CliffordAlgebra.reverse_reverse, hM.unit']⟩

theorem mul (x y : Cl A R) : M * (x * y) * CliffordAlgebra.reverse M = (M * x * CliffordAlgebra.reverse M) * (M * y * CliffordAlgebra.reverse M) := by
  have : (M * x * CliffordAlgebra.reverse M) * (M * y * CliffordAlgebra.reverse M) = M * x * (CliffordAlgebra.reverse M * M) * y * CliffordAlgebra.reverse M := by
    simp only [mul_assoc]
  rw [this, hM.unit', mul_one, mul_assoc M x y]

theorem back (x : Cl A R) : M * (CliffordAlgebra.reverse M * x * M) * CliffordAlgebra.reverse M = x := by
  rw [← mul_assoc, ← mul_assoc, hM.unit, one_mul, mul_assoc, hM.unit, mul_one]

theorem comm (hA : WfAlg A) (h2 : (2 : R) ≠ 0) (x y : Cl A R) :
    M * comm A R x y * CliffordAlgebra.reverse M = Verif.comm A R (M * x * CliffordAlgebra.reverse M) (M * y * CliffordAlgebra.reverse M) := by
  rw [← sub_eq_zero]
  apply halving h2
  rw [smul_sub, two_comm hA, ← hM.mul, ← hM.mul, ← smul_mul_assoc, ← mul_smul_comm, two_comm hA, mul_sub, sub_mul, sub_self]

/-- Grades between the ends are kept. -/
theorem grade (hA : WfAlg A) (h4 : A.n = 4) (h2 : (2 : R) ≠ 0) {k : Nat} (h0 : 0 < k) (hk : k < 4) {d : Cl A R} (hd : gradePart A R k d = d) :
    gradePart A R k (M * d * CliffordAlgebra.reverse M) = M * d * CliffordAlgebra.reverse M := by
  classical
  have hz : ∀ b < 2 ^ A.n, popcount b ≠ k → coef A R b d = 0 := fun b hb hp => by
    rw [← hd, gradePart_eq_proj, coef_proj, if_neg hp]
  have r1 : CliffordAlgebra.reverse d = (-1 : R) ^ (k / 2) • d := by
    apply ext_coef
    intro b hb
    rw [coef_reverse hA R hb, map_smul, smul_eq_mul]
    by_cases hp : popcount b = k
    · rw [hp]
    · rw [hz b hb hp, mul_zero, mul_zero]
  have r2 : CliffordAlgebra.involute d = (-1 : R) ^ k • d := by
    apply ext_coef
    intro b hb
    rw [coef_involute hA R hb, map_smul, smul_eq_mul]
    by_cases hp : popcount b = k
    · rw [hp]
    · rw [hz b hb hp, mul_zero, mul_zero]
  obtain ⟨t, ht⟩ : ∃ t, t = M * d * CliffordAlgebra.reverse M := ⟨_, rfl⟩
  have t1 : CliffordAlgebra.reverse t = (-1 : R) ^ (k / 2) • t := by
    rw [ht, CliffordAlgebra.reverse.map_mul, CliffordAlgebra.reverse.map_mul, CliffordAlgebra.reverse_reverse, r1, smul_mul_assoc, mul_smul_comm, mul_assoc]
  have t2 : CliffordAlgebra.involute t = (-1 : R) ^ k • t := by
    rw [ht, map_mul, map_mul, hM.evenRev, hM.even, r2, mul_smul_comm, smul_mul_assoc]
  rw [← ht]
  apply gradePart_of hA
  intro b hb hp
  by_contra hc
  have hl : popcount b ≤ A.n := by rw [popcount_of_lt hA.le32 hb]; exact pc_le A.n b
  have e1 := congrArg (coef A R b) t1
  have e2 := congrArg (coef A R b) t2
  rw [coef_reverse hA R hb, map_smul, smul_eq_mul] at e1
  rw [coef_involute hA R hb, map_smul, smul_eq_mul] at e2
  have e1 := mul_right_cancel₀ hc e1
  have e2 := mul_right_cancel₀ hc e2
  have k1 : (1 : R) ≠ -1 := fun h => h2 (by linear_combination h)
  rw [neg_one_pow_mod, neg_one_pow_mod (k / 2)] at e1
  rw [neg_one_pow_mod, neg_one_pow_mod k] at e2
  split_ifs at e1 e2 <;> first | exact k1 e1 | exact k1 e1.symm | exact k1 e2 | exact k1 e2.symm | omega

/-- The pairing of complementary grades is kept. -/
theorem pair (hA : WfAlg A) (h4 : A.n = 4) (h2 : (2 : R) ≠ 0) {j k : Nat} (hjk : j + k = A.n) (hj : 0 < j) (hk : 0 < k) {x y : Cl A R}
    (hx : gradePart A R j x = x) (hy : gradePart A R k y = y) :
    meet A R (M * x * CliffordAlgebra.reverse M) (M * y * CliffordAlgebra.reverse M) = meet A R x y := by
  have scal : ∀ {x y : Cl A R}, gradePart A R j x = x → gradePart A R k y = y → meet A R x y = coef A R 0 (meet A R x y) • 1 := fun {x y} hx hy => by
    rw [meet_wedge hA hjk hx hy, map_smul, ← blade_zero, coef_blade A R (Nat.two_pow_pos _), if_pos rfl, smul_eq_mul, mul_one]
  rw [scal (hM.grade hA h4 h2 hj (by omega) hx) (hM.grade hA h4 h2 hk (by omega) hy), scal hx hy, coef_meet hA, coef_meet hA, ← hM.mul, mul_assoc, pss_trace hA h4, hM.even,
    mul_assoc, hM.unit', mul_one]

/-- The join of a point with a line is kept. -/
theorem join (hA : WfAlg A) (h4 : A.n = 4) (h2 : (2 : R) ≠ 0) {q b : Cl A R} (hq : gradePart A R 3 q = q) (hb : gradePart A R 2 b = b) :
    meet A R (M * q * CliffordAlgebra.reverse M) (M * b * CliffordAlgebra.reverse M) = M * meet A R q b * CliffordAlgebra.reverse M := by
  have h31 : 3 = A.n - 1 := by omega
  have key : ∀ {u v : Cl A R}, gradePart A R 1 u = u → gradePart A R 1 v = v →
      meet A R (M * q * CliffordAlgebra.reverse M) (M * Verif.comm A R u v * CliffordAlgebra.reverse M) = M * meet A R q (Verif.comm A R u v) * CliffordAlgebra.reverse M := by
    intro u v hu hv
    have gu := hM.grade hA h4 h2 one_pos (by omega) hu
    have gv := hM.grade hA h4 h2 one_pos (by omega) hv
    have gq := hM.grade hA h4 h2 (show 0 < 3 by omega) (by omega) hq
    have sc : ∀ {x : Cl A R}, gradePart A R 1 x = x → ∃ c : R, meet A R q x = c • 1 := fun hx => ⟨_, meet_wedge hA (show 3 + 1 = A.n by omega) hq hx⟩
    rw [hM.comm hA h2, point_comm hA (h31 ▸ gq) gu gv, point_comm hA (h31 ▸ hq) hu hv, hM.pair hA h4 h2 (by omega) (by omega) (by omega) hq hu,
      hM.pair hA h4 h2 (by omega) (by omega) (by omega) hq hv]
    obtain ⟨c, hc⟩ := sc hu
    obtain ⟨d, hd⟩ := sc hv
    rw [hc, hd]
    simp only [smul_mul_assoc, one_mul, mul_sub, sub_mul, mul_smul_comm]
  have : ((meet A R (M * q * CliffordAlgebra.reverse M)).comp ((LinearMap.mulRight R (CliffordAlgebra.reverse M)).comp (LinearMap.mulLeft R M))).comp (gradePart A R 2) =
      (((LinearMap.mulRight R (CliffordAlgebra.reverse M)).comp (LinearMap.mulLeft R M)).comp (meet A R q)).comp (gradePart A R 2) := by
    apply lin_ext
    intro a ha
    simp only [LinearMap.comp_apply, LinearMap.mulLeft_apply, LinearMap.mulRight_apply, gradePart_blade _ ha]
    by_cases hp : popcount a = 2
    · rw [if_pos hp]
      obtain ⟨i, k, hi, hk, hik, rfl⟩ : ∃ i k, i < A.n ∧ k < A.n ∧ i ≠ k ∧ a = 2 ^ i ^^^ 2 ^ k := by
        rw [h4] at ha ⊢
        have : ∀ a < 2 ^ 4, popcount a = 2 → ∃ i < 4, ∃ k < 4, i ≠ k ∧ a = 2 ^ i ^^^ 2 ^ k := by decide +kernel
        obtain ⟨i, hi, k, hk, h⟩ := this a ha hp
        exact ⟨i, k, hi, hk, h⟩
      have gv : ∀ {i}, i < A.n → gradePart A R 1 (blade A R (2 ^ i)) = blade A R (2 ^ i) := fun {i} hi => by
        rw [gradePart_blade _ (Nat.pow_lt_pow_right (by norm_num) hi), if_pos (popcount_two_pow hA hi)]
      have e : blade A R (2 ^ i ^^^ 2 ^ k) = (-1 : R) ^ inv A.n (2 ^ i) (2 ^ k) • Verif.comm A R (blade A R (2 ^ i)) (blade A R (2 ^ k)) := by
        rw [comm_pow hi hk hik, smul_smul, ← pow_add, ← two_mul, pow_mul]
        simp
      rw [e]
      simp only [map_smul, mul_smul_comm, smul_mul_assoc]
      rw [key (gv hi) (gv hk)]
    · rw [if_neg hp]; simp
  have := LinearMap.congr_fun this b
  simpa only [LinearMap.comp_apply, LinearMap.mulLeft_apply, LinearMap.mulRight_apply, hb] using this

/-- The join of two points is kept. -/
theorem join2 (hA : WfAlg A) (h4 : A.n = 4) (h2 : (2 : R) ≠ 0) {q x : Cl A R} (hq : gradePart A R 3 q = q) (hx : gradePart A R 3 x = x) :
    M * meet A R q x * CliffordAlgebra.reverse M = meet A R (M * q * CliffordAlgebra.reverse M) (M * x * CliffordAlgebra.reverse M) := by
  have gm : gradePart A R 2 (meet A R q x) = meet A R q x := meet_grade hA hq hx (by omega) (by omega) (by omega)
  have gt := hM.grade hA h4 h2 (show 0 < 2 by omega) (by omega) gm
  have gq := hM.grade hA h4 h2 (show 0 < 3 by omega) (by omega) hq
  have gx := hM.grade hA h4 h2 (show 0 < 3 by omega) (by omega) hx
  have gj : gradePart A R 2 (meet A R (M * q * CliffordAlgebra.reverse M) (M * x * CliffordAlgebra.reverse M)) = _ :=
    meet_grade hA gq gx (by omega) (by omega) (by omega)
  rw [← sub_eq_zero]
  refine meet_nondegenerate hA h4 (by rw [map_sub, gt, gj]) fun b hb => ?_
  have hb' : gradePart A R 2 (CliffordAlgebra.reverse M * b * M) = CliffordAlgebra.reverse M * b * M := by
    have := hM.rev.grade hA h4 h2 (show 0 < 2 by omega) (by omega) hb
    rwa [CliffordAlgebra.reverse_reverse] at this
  have gl : gradePart A R 1 (meet A R x (CliffordAlgebra.reverse M * b * M)) = _ := meet_grade hA hx hb' (by omega) (by omega) (by omega)
  rw [map_sub, LinearMap.sub_apply, sub_eq_zero, meet_assoc hA]
  conv_lhs => rw [← hM.back b]
  conv_rhs => rw [← hM.back b]
  rw [hM.pair hA h4 h2 (by omega) (by omega) (by omega) gm hb', hM.join hA h4 h2 hx hb', hM.pair hA h4 h2 (by omega) (by omega) (by omega) hq gl, meet_assoc hA]

/-- The momentum of a point, turned. -/
theorem momentum (hA : WfAlg A) (h4 : A.n = 4) (h2 : (2 : R) ≠ 0) {q r : Cl A R} (hq : gradePart A R 3 q = q) (hr : gradePart A R 2 r = r) :
    gradePart A R 3 (Verif.comm A R (M * q * CliffordAlgebra.reverse M) (M * r * CliffordAlgebra.reverse M)) = Verif.comm A R (M * q * CliffordAlgebra.reverse M) (M * r * CliffordAlgebra.reverse M) ∧
    M * meet A R q (Verif.comm A R q r) * CliffordAlgebra.reverse M =
      meet A R (M * q * CliffordAlgebra.reverse M) (Verif.comm A R (M * q * CliffordAlgebra.reverse M) (M * r * CliffordAlgebra.reverse M)) := by
  have hg : ∀ {q r : Cl A R}, gradePart A R 3 q = q → gradePart A R 2 r = r → gradePart A R 3 (Verif.comm A R q r) = Verif.comm A R q r := fun {q r} hq hr => by
    rw [comm_swap hA, map_neg, comm_grade hA hr hq]
  refine ⟨hg (hM.grade hA h4 h2 (by omega) (by omega) hq) (hM.grade hA h4 h2 (by omega) (by omega) hr), ?_⟩
  rw [hM.join2 hA h4 h2 hq (hg hq hr), hM.comm hA h2]

end Turns
end
end Verif
