import Verif.Proofs.Chain7
/-! # Free fall in a flat space: the algebra -/
namespace Verif
open Model Spec Model.Factory Props

/-- The rate of a translation along an axis. -/
noncomputable def Spec.slide (A : Alg) (R : Type) [CommRing R] (i : Fin A.n) : Cl A R := gen A R i * last A R

namespace Spec.Flat
variable {A : Alg} {d : Nat} (h : Flat A d) {R : Type} [Field R] [DecidableEq R] {i : Fin A.n} (hi : i ≠ h.iw)
include h hi

omit [DecidableEq R] in
theorem single_iw : (Pi.single i 1 : Fin A.n → R) h.iw = 0 := by
  rw [Pi.single_apply, if_neg (Ne.symm hi)]

/-- The direction of a point moved along an axis does not depend on the point. -/
theorem comm_place (h2 : (2 : R) ≠ 0) {v : List R} (hv : v.length = d) : comm A R (place A v) (slide A R i) = -rhInv A R (gen A R i) := by
  have hs := h.single_iw (R := R) hi
  have e1 : slide A R i * blade A R (2 ^ d - 1) = -(blade A R (2 ^ d - 1) * slide A R i) := h.vw_E (u := Pi.single i 1) hs
  have e2 : slide A R i * (arm A v * last A R) = 0 := h.vw_vw (u := Pi.single i 1) (v := fun i : Fin A.n => v.getD i 0) (h.arm_last hv)
  have e3 : arm A v * last A R * slide A R i = 0 := h.vw_vw (u := fun i : Fin A.n => v.getD i 0) (v := Pi.single i 1) hs
  have e4 : blade A R (2 ^ d - 1) * slide A R i = -(slide A R i * blade A R (2 ^ d - 1)) := by rw [e1, neg_neg]
  have e5 : rhInv A R (gen A R i) = (hodgeSign A (2 ^ d - 1) : R) • (slide A R i * blade A R (2 ^ d - 1)) := h.rhInv_axis hi
  have key : place A v * slide A R i - slide A R i * place A v = (2 : R) • -rhInv A R (gen A R i) := by
    rw [h.place_eq hv, e5, smul_mul_assoc, mul_smul_comm, add_mul, mul_add, ← mul_assoc (slide A R i), e2, zero_mul, mul_assoc (arm A v * last A R), e4, mul_neg,
      ← mul_assoc, e3, zero_mul, neg_zero, add_zero, add_zero, smul_neg, two_smul]
    abel
  have := two_comm h.wf (place A v) (slide A R i)
  rw [key] at this
  exact smul_right_injective _ h2 this

/-- The join of the origin and the direction of an axis. -/
theorem meet_axis : meet A R (rhInv A R (last A R)) (rhInv A R (gen A R i)) = -rhInv A R (slide A R i) := by
  have hw := wedge_vec h.wf (Pi.single h.iw 1 : Fin A.n → R) (Pi.single i 1)
  have hd : dot A (Pi.single h.iw 1 : Fin A.n → R) (Pi.single i 1) = 0 := by
    refine Finset.sum_eq_zero fun j _ => ?_
    by_cases hj : j = i
    · rw [hj, Pi.single_apply, if_neg hi, mul_zero, zero_mul]
    · rw [Pi.single_apply i, if_neg hj, mul_zero]
  rw [hd, map_zero, sub_zero] at hw
  have hw : wedgeMap A R (gen A R h.iw) (gen A R i) = gen A R h.iw * gen A R i := hw
  rw [meet_eq, rh_rhInv, rh_rhInv, h.last_eq, hw, gen_anti A R _ _ (Ne.symm hi), map_neg, slide, h.last_eq]

theorem slide_blade : ∃ s : R, slide A R i = s • blade A R (2 ^ (i : Nat) ^^^ 2 ^ d) := by
  rw [slide, h.last_eq, ← blade_two_pow, ← blade_two_pow, blade_mul h.wf]
  exact ⟨_, rfl⟩

omit [DecidableEq R] in
theorem slide_ne : (i : Nat) ≠ d := fun e => hi (Fin.ext e)

omit [DecidableEq R] in
theorem slide_pop : popcount (2 ^ (i : Nat) ^^^ 2 ^ d) = 2 := by
  have hx := popcount_xor (2 ^ (i : Nat)) (2 ^ d)
  have p0 : popcount 0 = 0 := by decide
  rw [pow_and (h.slide_ne hi), p0, popcount_two_pow h.wf i.2, popcount_two_pow h.wf (by rw [h.n]; omega)] at hx
  omega

omit [DecidableEq R] in
theorem slide_lt : 2 ^ (i : Nat) ^^^ 2 ^ d < 2 ^ A.n := xor_lt (pow_lt i) h.ltW

theorem slide_grade : gradePart A R 2 (slide A R i) = slide A R i := by
  obtain ⟨s, hs⟩ := h.slide_blade (R := R) hi
  rw [hs, map_smul, gradePart_blade _ (h.slide_lt hi), if_pos (h.slide_pop hi)]

theorem slide_sq : slide A R i * slide A R i = 0 := h.vw_vw (u := Pi.single i 1) (v := Pi.single i 1) (h.single_iw (R := R) hi)

theorem slide_rev : CliffordAlgebra.reverse (slide A R i) = -slide A R i := h.rev_vw (u := Pi.single i 1) (h.single_iw (R := R) hi)

/-- A momentum along an axis commutes with the translation along it. -/
theorem comm_momentum (h2 : (2 : R) ≠ 0) : comm A R (rhInv A R (slide A R i)) (slide A R i) = 0 := by
  obtain ⟨s, hs⟩ := h.slide_blade (R := R) hi
  set b := 2 ^ (i : Nat) ^^^ 2 ^ d with hb
  have hlt : b ^^^ A.pss < 2 ^ A.n := xor_lt (h.slide_lt hi) (pss_lt A)
  have t1 : (b ^^^ A.pss).testBit i = false := by
    rw [hb, Nat.testBit_xor, Nat.testBit_xor, Nat.testBit_two_pow_self, Nat.testBit_two_pow_of_ne (Ne.symm (h.slide_ne hi)), pss_testBit i.2]; rfl
  have t2 : (b ^^^ A.pss).testBit d = false := by
    rw [hb, Nat.testBit_xor, Nat.testBit_xor, Nat.testBit_two_pow_self, Nat.testBit_two_pow_of_ne (h.slide_ne hi), pss_testBit (by rw [h.n]; omega)]; rfl
  have c : slide A R i * blade A R (b ^^^ A.pss) = blade A R (b ^^^ A.pss) * slide A R i := by
    have g1 := gen_comm (R := R) h.wf i hlt
    have g2 := gen_comm (R := R) h.wf h.iw hlt
    rw [if_neg (by rw [t1]; decide), add_zero] at g1
    rw [if_neg (by show ¬ (b ^^^ A.pss).testBit d = true; rw [t2]; decide), add_zero] at g2
    rw [slide, h.last_eq, mul_assoc, g2, mul_smul_comm, ← mul_assoc, g1, smul_mul_assoc, smul_smul, ← mul_pow, neg_one_mul, neg_neg, one_pow, one_smul, mul_assoc]
  have e : rhInv A R (slide A R i) * slide A R i = slide A R i * rhInv A R (slide A R i) := by
    have : rhInv A R (slide A R i) = (s * (hodgeSign A (b ^^^ A.pss) : R)) • blade A R (b ^^^ A.pss) := by
      rw [hs, map_smul, rhInv, compl_blade _ (h.slide_lt hi), smul_smul]
    rw [this, smul_mul_assoc, mul_smul_comm, c]
  have := two_comm h.wf (rhInv A R (slide A R i)) (slide A R i)
  rw [e, sub_self] at this
  exact halving h2 _ this

/-- Without negative basis vectors the two duals of a rate of translation agree. -/
theorem rh_slide (hN : NonNeg A) : rhMap A R (slide A R i) = rhInv A R (slide A R i) := by
  obtain ⟨s, hs⟩ := h.slide_blade (R := R) hi
  set b := 2 ^ (i : Nat) ^^^ 2 ^ d with hb
  have hlt : b < 2 ^ A.n := h.slide_lt hi
  have hlt' : b ^^^ A.pss < 2 ^ A.n := xor_lt hlt (pss_lt A)
  have hx : b ^^^ A.pss ^^^ A.pss = b := by rw [Nat.xor_assoc, Nat.xor_self, Nat.xor_zero]
  have hsw : swapSign A (b ^^^ A.pss) b = swapSign A b (b ^^^ A.pss) := by
    rw [swapSign_eq h.wf hlt', swapSign_eq h.wf hlt]
    have e := inv_add A.n b (b ^^^ A.pss)
    have e0 : b &&& (b ^^^ A.pss) = 0 := by rw [Nat.and_xor_distrib_left, Nat.and_self, pc_and_pss hlt, Nat.xor_self]
    have e1 : pc A.n 0 = 0 := by simp [pc]
    have e2 : pc A.n b = 2 := by rw [← popcount_of_lt h.wf.le32 hlt]; exact h.slide_pop hi
    rw [e0, e1, e2, add_zero] at e
    refine neg_one_pow_congr ?_
    clear_value b
    generalize inv A.n b (b ^^^ A.pss) = x at *
    generalize inv A.n (b ^^^ A.pss) b = y at *
    generalize pc A.n (b ^^^ A.pss) = z at *
    clear * - e
    rw [Nat.even_iff, Nat.even_iff]
    omega
  have hh : hodgeSign A b = hodgeSign A (b ^^^ A.pss) := by
    rw [hodgeSign, hodgeSign, hx, negSign_eq h.wf hlt, negSign_eq h.wf hlt', hN.pc h.wf, hN.pc h.wf, hsw]
  rw [hs, map_smul, map_smul, rhMap_blade A hlt, rhInv, compl_blade _ hlt, hh]

/-- Translations do not turn the direction of an axis. -/
theorem carry_axis {v : List R} (hv : v.length = d) :
    CliffordAlgebra.reverse (trans A v) * rhInv A R (gen A R i) * trans A v = rhInv A R (gen A R i) := by
  have hs := h.single_iw (R := R) hi
  have e1 : arm A v * last A R * blade A R (2 ^ d - 1) = -(blade A R (2 ^ d - 1) * (arm A v * last A R)) := h.vw_E (u := fun i : Fin A.n => v.getD i 0) (h.arm_last hv)
  have e2 : slide A R i * (arm A v * last A R) = 0 := h.vw_vw (u := Pi.single i 1) (v := fun i : Fin A.n => v.getD i 0) (h.arm_last hv)
  have e3 : arm A v * last A R * slide A R i = 0 := h.vw_vw (u := fun i : Fin A.n => v.getD i 0) (v := Pi.single i 1) hs
  have e5 : rhInv A R (gen A R i) = (hodgeSign A (2 ^ d - 1) : R) • (slide A R i * blade A R (2 ^ d - 1)) := h.rhInv_axis hi
  have e6 : CliffordAlgebra.reverse (arm A v * last A R) = -(arm A v * last A R) := h.rev_vw (u := fun i : Fin A.n => v.getD i 0) (h.arm_last hv)
  have l : (arm A v * last A R) * (slide A R i * blade A R (2 ^ d - 1)) = 0 := by rw [← mul_assoc, e3, zero_mul]
  have r : (slide A R i * blade A R (2 ^ d - 1)) * (arm A v * last A R) = 0 := by
    rw [mul_assoc, show blade A R (2 ^ d - 1) * (arm A v * last A R) = -(arm A v * last A R * blade A R (2 ^ d - 1)) by rw [e1, neg_neg], mul_neg, ← mul_assoc, e2,
      zero_mul, neg_zero]
  rw [Spec.trans_def, e5, map_add, map_smul, e6, CliffordAlgebra.reverse.map_one, mul_smul_comm, smul_mul_assoc, add_mul, one_mul, smul_mul_assoc, neg_mul, l, neg_zero,
    smul_zero, add_zero, mul_add, mul_one, mul_smul_comm, r, smul_zero, add_zero]

end Spec.Flat
end Verif
