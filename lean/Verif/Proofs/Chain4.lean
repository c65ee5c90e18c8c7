import Verif.Proofs.Chain3
import Verif.Props.System
/-! # The points of the cube are not degenerate -/
namespace Verif
open Model Spec Props Model.Chain

section
variable {A : Alg} {R : Type} [CommRing R]

theorem wedge_add_left (x y z : Cl A R) : wedgeMap A R (x + y) z = wedgeMap A R x z + wedgeMap A R y z := by
  rw [wedgeMap, wedgeMap, wedgeMap, ← gradedProductₗ_apply, map_add, LinearMap.add_apply, gradedProductₗ_apply, gradedProductₗ_apply]
theorem wedge_smul_left (c : R) (x z : Cl A R) : wedgeMap A R (c • x) z = c • wedgeMap A R x z := by
  rw [wedgeMap, wedgeMap, ← gradedProductₗ_apply, map_smul, LinearMap.smul_apply, gradedProductₗ_apply]
theorem wedge_smul_right (c : R) (x z : Cl A R) : wedgeMap A R x (c • z) = c • wedgeMap A R x z := by
  rw [wedgeMap, wedgeMap, ← gradedProductₗ_apply, map_smul, gradedProductₗ_apply]

/-- A component of the wedge product with a basis vector. -/
theorem coef_gen_wedge (hA : WfAlg A) (i : Fin A.n) {b : Nat} (hb : b.testBit i = false) (x : Cl A R) :
    coef A R (2 ^ (i : Nat) ^^^ b) (wedgeMap A R (gen A R i) x) = (-1) ^ inv A.n (2 ^ (i : Nat)) b * coef A R b x := by
  have : (coef A R (2 ^ (i : Nat) ^^^ b)).comp (gradedProductₗ A R (fun i j k => i + j = k) (gen A R i)) = ((-1 : R) ^ inv A.n (2 ^ (i : Nat)) b) • coef A R b := by
    apply lin_ext
    intro c hc
    rw [LinearMap.comp_apply, gradedProductₗ_apply, ← wedgeMap, ← blade_two_pow, wedge_blade hA (pow_lt i) hc, LinearMap.smul_apply, coef_blade A R hc, smul_eq_mul]
    by_cases e : b = c
    · subst e
      rw [if_pos, map_smul, coef_blade A R (xor_lt (pow_lt i) hc), if_pos rfl, if_pos rfl, smul_eq_mul]
      rw [Nat.and_comm, and_two_pow, hb]; rfl
    · rw [if_neg e, mul_zero]
      split_ifs
      · rw [map_smul, coef_blade A R (xor_lt (pow_lt i) hc), if_neg, smul_zero]
        intro e'
        apply e
        have := congrArg (2 ^ (i : Nat) ^^^ ·) e'
        simpa [← Nat.xor_assoc] using this
      · rw [map_zero]
  have := congrArg (fun f => f x) this
  rwa [LinearMap.comp_apply, gradedProductₗ_apply, LinearMap.smul_apply, smul_eq_mul] at this

/-- An element without pseudoscalar part that all basis vectors annihilate is zero. -/
theorem gen_wedge_zero (hA : WfAlg A) {x : Cl A R} (hp : coef A R A.pss x = 0) (h : ∀ i, wedgeMap A R (gen A R i) x = 0) : x = 0 := by
  rw [sum_coef A R x]
  refine Finset.sum_eq_zero fun b hb => ?_
  have hb : b < 2 ^ A.n := Finset.mem_range.1 hb
  by_cases e : b = A.pss
  · subst e; rw [hp, zero_smul]
  · obtain ⟨i, hi⟩ : ∃ i : Fin A.n, b.testBit i = false := by
      by_contra hn
      push Not at hn
      apply e
      apply Nat.eq_of_testBit_eq
      intro j
      by_cases hj : j < A.n
      · rw [pss_testBit hj]; simpa using hn ⟨j, hj⟩
      · have hle := Nat.pow_le_pow_right (by norm_num : 0 < 2) (Nat.le_of_not_lt hj)
        rw [Nat.testBit_lt_two_pow (lt_of_lt_of_le hb hle), Nat.testBit_lt_two_pow (lt_of_lt_of_le (pss_lt A) hle)]
    have := coef_gen_wedge hA i hi x
    rw [h i, map_zero] at this
    have hu : IsUnit ((-1 : R) ^ inv A.n (2 ^ (i : Nat)) b) := (isUnit_one.neg).pow _
    rw [hu.mul_right_eq_zero.1 this.symm, zero_smul]
end

namespace Spec.Flat
variable {A : Alg} {d : Nat} (h : Flat A d) {R : Type} [Field R] [LinearOrder R] [IsStrictOrderedRing R]
include h

omit [IsStrictOrderedRing R] in
theorem arm_grade (v : List R) : gradePart A R 1 (last A R + arm A v) = last A R + arm A v := by
  rw [map_add, h.last_eq, ← blade_two_pow, gradePart_blade _ (pow_lt h.iw), if_pos (popcount_gen h.wf _), arm, vec_eq_sum, map_sum]
  congr 1
  refine Finset.sum_congr rfl fun i _ => ?_
  rw [map_smul, ← blade_two_pow, gradePart_blade _ (pow_lt i), if_pos (popcount_gen h.wf i)]

theorem wedge_E {v : List R} (hv : v.length = d) (c : R) (hc : wedgeMap A R (last A R + arm A v) (c • blade A R (2 ^ d - 1)) = 0) : c = 0 := by
  have h1 : wedgeMap A R (arm A v) (blade A R (2 ^ d - 1)) = 0 := by
    rw [arm, vec_eq_sum, wedgeMap, ← gradedProductₗ_apply, map_sum, LinearMap.sum_apply]
    refine Finset.sum_eq_zero fun i _ => ?_
    rw [map_smul, LinearMap.smul_apply, gradedProductₗ_apply, ← wedgeMap]
    by_cases hi : i = h.iw
    · rw [hi, show v.getD (h.iw : Nat) 0 = 0 from h.arm_last hv, zero_smul]
    · have hd : (i : Nat) < d := by
        have h1 := i.2
        have h2 : (i : Nat) ≠ d := fun e => hi (Fin.ext e)
        have := h.n
        omega
      rw [← blade_two_pow, wedge_blade h.wf (pow_lt i) h.ltE, if_neg, smul_zero]
      rw [Nat.and_comm, and_two_pow, Nat.testBit_two_pow_sub_one, decide_eq_true hd]
      simp
  rw [wedge_smul_right, wedge_add_left, h1, add_zero, h.last_eq, ← blade_two_pow, wedge_blade h.wf (pow_lt h.iw) h.ltE, if_pos, smul_smul] at hc
  · have := congrArg (coef A R (2 ^ (h.iw : Nat) ^^^ (2 ^ d - 1))) hc
    rw [map_smul, map_zero, coef_blade A R (xor_lt (pow_lt h.iw) h.ltE), if_pos rfl, smul_eq_mul, mul_one] at this
    rcases mul_eq_zero.1 this with e | e
    · exact e
    · exact absurd e (by simp)
  · rw [Nat.and_comm, and_two_pow, show (h.iw : Nat) = d from rfl, Nat.testBit_two_pow_sub_one]
    simp

/-- A point whose join with `x` has square zero lies on `x`. -/
theorem join_zero (hN : NonNeg A) {v : List R} (hv : v.length = d) {x : Cl A R} (hx : gradePart A R 2 x = x)
    (h0 : meet A R (place A v) x * meet A R (place A v) x = 0) : wedgeMap A R (last A R + arm A v) (rhMap A R x) = 0 := by
  have hp : gradePart A R d (place A v) = place A v := h.grade_place
  have hg := meet_grade h.wf (l := 1) hp hx (by rw [h.n]; omega) (by rw [h.n]; have := h.pos; omega) (by rw [h.n])
  obtain ⟨u, hu⟩ := exists_vec h.wf hg
  rw [hu, vec_sq] at h0
  have h0 : dot A u u = 0 := by
    have := congrArg (coef A R 0) h0
    rw [map_smul, map_zero, ← blade_zero A R, coef_blade A R (by positivity), if_pos rfl, smul_eq_mul, mul_one] at this
    exact this
  have hz : ∀ i : Fin A.n, i ≠ h.iw → u i = 0 := by
    intro i hi
    have := hN.dot_zero h0 (Pi.single i 1)
    rw [dot, Finset.sum_eq_single i (fun j _ hj => by rw [Pi.single_eq_of_ne hj, mul_zero]) (by simp), Pi.single_eq_same, mul_one] at this
    have hd : (i : Nat) < d := by
      have h1 := i.2
      have h2 : (i : Nat) ≠ d := fun e => hi (Fin.ext e)
      have := h.n
      omega
    rcases mul_eq_zero.1 this with e | e
    · rw [metric] at e
      exact absurd (by exact_mod_cast e) (h.unit i hd)
    · exact e
  have hu' : meet A R (place A v) x = u h.iw • last A R := by
    rw [hu, vec_eq_sum, Finset.sum_eq_single h.iw (fun j _ hj => by rw [hz j hj, zero_smul]) (by simp), h.last_eq]
  have hw : wedgeMap A R (last A R + arm A v) (rhMap A R x) = (u h.iw * (hodgeSign A (2 ^ d) : R)) • blade A R (2 ^ d - 1) := by
    have := congrArg (rhMap A R) hu'
    rw [meet_eq, rh_rhInv, place, rh_rhInv, map_smul] at this
    rw [this, last, show A.n - 1 = d by rw [h.n]; rfl, rhMap_blade A h.ltW, smul_smul]
    congr 2
    exact h.xorW
  have hs : wedgeMap A R (last A R + arm A v) (wedgeMap A R (last A R + arm A v) (rhMap A R x)) = 0 := by
    rw [← wedge_assoc h.wf, vector_wedge_self h.wf _ (h.arm_grade v)]
    rw [wedgeMap, ← gradedProductₗ_apply, map_zero, LinearMap.zero_apply]
  rw [hw] at hs
  rw [hw, h.wedge_E hv _ hs, zero_smul]

end Spec.Flat
end Verif
