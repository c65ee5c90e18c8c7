import Verif.Props.Physics5
/-! # Motors of the plane keep joins -/
namespace Verif
open Model Spec Model.Factory Props

variable {A : Alg} {R : Type}

section
variable [CommRing R]

/-- The coefficient of the pseudoscalar of a product does not depend on the order, in three dimensions. -/
theorem pss_trace3 (hA : WfAlg A) (h3 : A.n = 3) (x y : Cl A R) : coef A R A.pss (x * y) = coef A R A.pss (y * x) := by
  have hP := pss_lt A
  have : (LinearMap.mul R (Cl A R)).compr₂ (coef A R A.pss) =
      (LinearMap.mul R (Cl A R)).flip.compr₂ (coef A R A.pss) := by
    apply lin_ext₂
    intro a ha c hc
    simp only [LinearMap.compr₂_apply, LinearMap.mul_apply', LinearMap.flip_apply]
    rw [blade_mul hA, blade_mul hA, map_smul, map_smul, Nat.xor_comm c a, coef_blade A R (xor_lt ha hc)]
    by_cases h : A.pss = a ^^^ c
    · rw [if_pos h, smul_eq_mul, smul_eq_mul, mul_one, mul_one]
      obtain rfl : c = a ^^^ A.pss := by rw [h, ← Nat.xor_assoc, Nat.xor_self, Nat.zero_xor]
      have h0 : a &&& (a ^^^ A.pss) = 0 := and_compl ha
      rw [sgn_disjoint h0, sgn_disjoint (Nat.and_comm _ _ ▸ h0)]
      push_cast
      refine sign_congr ?_
      have w := i2_swap A.n a (a ^^^ A.pss)
      rw [h0, p2_xor, p2_pss, h3] at w
      have w4 : p2 3 0 = 0 := by simp [p2]
      rw [w4] at w
      rw [h3]
      push_cast at w ⊢
      simp only [← i2.eq_1, ← p2.eq_1] at w ⊢
      revert w
      generalize i2 3 a (a ^^^ A.pss) = u
      generalize i2 3 (a ^^^ A.pss) a = v
      generalize p2 3 a = w
      revert u v w
      decide
    · rw [if_neg h]; simp
  exact LinearMap.congr_fun₂ this x y

end

section
variable [Field R]

namespace Turns
variable {M : Cl A R} (hM : Turns A R M)
include hM

/-- Grades between the ends are kept. -/
theorem grade3 (hA : WfAlg A) (h3 : A.n = 3) (h2 : (2 : R) ≠ 0) {k : Nat} (h0 : 0 < k) (hk : k < 3) {d : Cl A R} (hd : gradePart A R k d = d) :
    gradePart A R k (M * d * CliffordAlgebra.reverse M) = M * d * CliffordAlgebra.reverse M := by
  classical
  have hz : ∀ b < 2 ^ A.n, popcount b ≠ k → coef A R b d = 0 := fun b hb hp => by
    rw [← hd, gradePart_eq_proj, coef_proj, if_neg hp]
  have r1 : CliffordAlgebra.reverse d = (-1 : R) ^ (k / 2) • d := by
    apply ext_coef
    intro b hb
    rw [coef_reverse hA R hb, map_smul, smul_eq_mul]
    by_cases hp : popcount b = k
    · rw [hp]
    · rw [hz b hb hp, mul_zero, mul_zero]
  have r2 : CliffordAlgebra.involute d = (-1 : R) ^ k • d := by
    apply ext_coef
    intro b hb
    rw [coef_involute hA R hb, map_smul, smul_eq_mul]
    by_cases hp : popcount b = k
    · rw [hp]
    · rw [hz b hb hp, mul_zero, mul_zero]
  obtain ⟨t, ht⟩ : ∃ t, t = M * d * CliffordAlgebra.reverse M := ⟨_, rfl⟩
  have t1 : CliffordAlgebra.reverse t = (-1 : R) ^ (k / 2) • t := by
    rw [ht, CliffordAlgebra.reverse.map_mul, CliffordAlgebra.reverse.map_mul, CliffordAlgebra.reverse_reverse, r1, smul_mul_assoc, mul_smul_comm, mul_assoc]
  have t2 : CliffordAlgebra.involute t = (-1 : R) ^ k • t := by
    rw [ht, map_mul, map_mul, hM.evenRev, hM.even, r2, mul_smul_comm, smul_mul_assoc]
  rw [← ht]
  apply gradePart_of hA
  intro b hb hp
  by_contra hc
  have hl : popcount b ≤ A.n := by rw [popcount_of_lt hA.le32 hb]; exact pc_le A.n b
  have e1 := congrArg (coef A R b) t1
  have e2 := congrArg (coef A R b) t2
  rw [coef_reverse hA R hb, map_smul, smul_eq_mul] at e1
  rw [coef_involute hA R hb, map_smul, smul_eq_mul] at e2
  have e1 := mul_right_cancel₀ hc e1
  have e2 := mul_right_cancel₀ hc e2
  have k1 : (1 : R) ≠ -1 := fun h => h2 (by linear_combination h)
  rw [neg_one_pow_mod, neg_one_pow_mod (k / 2)] at e1
  rw [neg_one_pow_mod, neg_one_pow_mod k] at e2
  split_ifs at e1 e2 <;> first | exact k1 e1 | exact k1 e1.symm | exact k1 e2 | exact k1 e2.symm | omega

/-- The pairing of complementary grades is kept. -/
theorem pair3 (hA : WfAlg A) (h3 : A.n = 3) (h2 : (2 : R) ≠ 0) {j k : Nat} (hjk : j + k = A.n) (hj : 0 < j) (hk : 0 < k) {x y : Cl A R}
    (hx : gradePart A R j x = x) (hy : gradePart A R k y = y) :
    meet A R (M * x * CliffordAlgebra.reverse M) (M * y * CliffordAlgebra.reverse M) = meet A R x y := by
  have scal : ∀ {x y : Cl A R}, gradePart A R j x = x → gradePart A R k y = y → meet A R x y = coef A R 0 (meet A R x y) • 1 := fun {x y} hx hy => by
    rw [meet_wedge hA hjk hx hy, map_smul, ← blade_zero, coef_blade A R (Nat.two_pow_pos _), if_pos rfl, smul_eq_mul, mul_one]
  rw [scal (hM.grade3 hA h3 h2 hj (by omega) hx) (hM.grade3 hA h3 h2 hk (by omega) hy), scal hx hy, coef_meet hA, coef_meet hA, ← hM.mul, mul_assoc, pss_trace3 hA h3,
    mul_assoc, hM.unit', mul_one]

/-- The join of a point with a line is kept. -/
theorem join3 (hA : WfAlg A) (h3 : A.n = 3) (h2 : (2 : R) ≠ 0) {q b : Cl A R} (hq : gradePart A R 2 q = q) (hb : gradePart A R 2 b = b) :
    meet A R (M * q * CliffordAlgebra.reverse M) (M * b * CliffordAlgebra.reverse M) = M * meet A R q b * CliffordAlgebra.reverse M := by
  have h31 : 2 = A.n - 1 := by omega
  have key : ∀ {u v : Cl A R}, gradePart A R 1 u = u → gradePart A R 1 v = v →
      meet A R (M * q * CliffordAlgebra.reverse M) (M * Verif.comm A R u v * CliffordAlgebra.reverse M) = M * meet A R q (Verif.comm A R u v) * CliffordAlgebra.reverse M := by
    intro u v hu hv
    have gu := hM.grade3 hA h3 h2 one_pos (by omega) hu
    have gv := hM.grade3 hA h3 h2 one_pos (by omega) hv
    have gq := hM.grade3 hA h3 h2 (show 0 < 2 by omega) (by omega) hq
    have sc : ∀ {x : Cl A R}, gradePart A R 1 x = x → ∃ c : R, meet A R q x = c • 1 := fun hx => ⟨_, meet_wedge hA (show 2 + 1 = A.n by omega) hq hx⟩
    rw [hM.comm hA h2, point_comm hA (h31 ▸ gq) gu gv, point_comm hA (h31 ▸ hq) hu hv, hM.pair3 hA h3 h2 (by omega) (by omega) (by omega) hq hu,
      hM.pair3 hA h3 h2 (by omega) (by omega) (by omega) hq hv]
    obtain ⟨c, hc⟩ := sc hu
    obtain ⟨d, hd⟩ := sc hv
    rw [hc, hd]
    simp only [smul_mul_assoc, one_mul, mul_sub, sub_mul, mul_smul_comm]
  have : ((meet A R (M * q * CliffordAlgebra.reverse M)).comp ((LinearMap.mulRight R (CliffordAlgebra.reverse M)).comp (LinearMap.mulLeft R M))).comp (gradePart A R 2) =
      (((LinearMap.mulRight R (CliffordAlgebra.reverse M)).comp (LinearMap.mulLeft R M)).comp (meet A R q)).comp (gradePart A R 2) := by
    apply lin_ext
    intro a ha
    simp only [LinearMap.comp_apply, LinearMap.mulLeft_apply, LinearMap.mulRight_apply, gradePart_blade _ ha]
    by_cases hp : popcount a = 2
    · rw [if_pos hp]
      obtain ⟨i, k, hi, hk, hik, rfl⟩ : ∃ i k, i < A.n ∧ k < A.n ∧ i ≠ k ∧ a = 2 ^ i ^^^ 2 ^ k := by
        rw [h3] at ha ⊢
        have : ∀ a < 2 ^ 3, popcount a = 2 → ∃ i < 3, ∃ k < 3, i ≠ k ∧ a = 2 ^ i ^^^ 2 ^ k := by decide +kernel
        obtain ⟨i, hi, k, hk, h⟩ := this a ha hp
        exact ⟨i, k, hi, hk, h⟩
      have gv : ∀ {i}, i < A.n → gradePart A R 1 (blade A R (2 ^ i)) = blade A R (2 ^ i) := fun {i} hi => by
        rw [gradePart_blade _ (Nat.pow_lt_pow_right (by norm_num) hi), if_pos (popcount_two_pow hA hi)]
      have e : blade A R (2 ^ i ^^^ 2 ^ k) = (-1 : R) ^ inv A.n (2 ^ i) (2 ^ k) • Verif.comm A R (blade A R (2 ^ i)) (blade A R (2 ^ k)) := by
        rw [comm_pow hi hk hik, smul_smul, ← pow_add, ← two_mul, pow_mul]
        simp
      rw [e]
      simp only [map_smul, mul_smul_comm, smul_mul_assoc]
      rw [key (gv hi) (gv hk)]
    · rw [if_neg hp]; simp
  have := LinearMap.congr_fun this b
  simpa only [LinearMap.comp_apply, LinearMap.mulLeft_apply, LinearMap.mulRight_apply, hb] using this

end Turns

end

section
variable [Field R] [DecidableEq R]

/-- Where an anchor is, in the plane. -/
theorem anchor_in3 (hA : WfAlg A) (h3 : A.n = 3) (h2 : (2 : R) ≠ 0) {b : Body R} {ps : List (Cl A R)} {B L : SubSpace} (hb : Live A b ps B L)
    (u : val A b.motor * CliffordAlgebra.reverse (val A b.motor) = 1) {anchor : MV R} (ha : WfMV A anchor) (hs : A.antivector = some anchor.sub) :
    Turns A R (val A b.motor) ∧ gradePart A R 2 (val A anchor) = val A anchor ∧
    GivesIn A (b.motor.sandwich A anchor) anchor.sub (val A b.motor * val A anchor * CliffordAlgebra.reverse (val A b.motor)) := by
  obtain ⟨-, -, -, -, -, -, ⟨V, v1, v2⟩, -⟩ := id (C14_named hA)
  have s0 : anchor.sub = V := Option.some.inj (hs.symm.trans v1)
  have hV : IsSpace A anchor.sub fun b => popcount b = 2 := s0 ▸ v2.congr fun b _ => by omega
  have hT : Turns A R (val A b.motor) := ⟨val_even hA hb.motorWf hb.motorEven, u⟩
  have hg : gradePart A R 2 (val A anchor) = val A anchor := within_grade hV ⟨anchor, ha, rfl, rfl⟩
  refine ⟨hT, hg, ?_⟩
  have := (turn_in hA hb.motorWf hb.motorZero ha hV).1
  rwa [hT.grade3 hA h3 h2 (by omega) (by omega) hg] at this

/-- The velocity of an anchor in the plane, seen from the world. -/
theorem Turns.momentum3 (hA : WfAlg A) (h3 : A.n = 3) (h2 : (2 : R) ≠ 0) {M : Cl A R} (hM : Turns A R M) {q r : Cl A R} (hq : gradePart A R 2 q = q) (hr : gradePart A R 2 r = r) :
    M * meet A R q (Verif.comm A R q r) * CliffordAlgebra.reverse M =
      meet A R (M * q * CliffordAlgebra.reverse M) (Verif.comm A R (M * q * CliffordAlgebra.reverse M) (M * r * CliffordAlgebra.reverse M)) := by
  rw [← hM.comm hA h2, hM.join3 hA h3 h2 hq (by rw [comm_swap hA, map_neg, comm_grade hA hr hq])]

end
end Verif
