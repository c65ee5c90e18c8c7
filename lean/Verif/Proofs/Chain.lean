import Verif.Model.Chain
import Verif.Props.System
import Verif.Props.LogExp
import Verif.Props.Spaces
import Verif.Props.Named
import Verif.Proofs.Conformal
import Verif.Proofs.LieIntegrators
/-! # Translations along the axes of a projective space -/
namespace Verif
open Model Spec Props

/-- A projective space: the last basis vector is null, and no other one is. -/
structure Spec.Flat (A : Alg) (d : Nat) : Prop where
  wf : WfAlg A
  pos : 1 ≤ d
  n : A.n = d + 1
  null : A.desc.sig.getD d 0 = 0
  unit : ∀ i < d, A.desc.sig.getD i 0 ≠ 0

/-- The vector with the coordinates `v` along the first axes. -/
noncomputable def Spec.arm (A : Alg) {R : Type} [CommRing R] (v : List R) : Cl A R := vec A fun i => v.getD i 0

/-- The last basis vector. -/
noncomputable def Spec.last (A : Alg) (R : Type) [CommRing R] : Cl A R := blade A R (2 ^ (A.n - 1))

namespace Spec.Flat
variable {A : Alg} {d : Nat} (h : Flat A d) {R : Type} [Field R] [DecidableEq R]
include h

/-- Index of the last basis vector. -/
def iw : Fin A.n := ⟨d, by rw [h.n]; omega⟩

theorem last_eq : last A R = gen A R h.iw := by
  rw [last, h.n, Nat.add_sub_cancel]; exact blade_two_pow _ _ h.iw

theorem ltE : 2 ^ d - 1 < 2 ^ A.n := by
  have : 2 ^ d < 2 ^ A.n := Nat.pow_lt_pow_right (by norm_num) (by rw [h.n]; omega)
  have h1 := Nat.one_le_two_pow (n := d)
  generalize 2 ^ A.n = a at *
  generalize 2 ^ d = b at *
  omega

theorem ltW : 2 ^ d < 2 ^ A.n := Nat.pow_lt_pow_right (by norm_num) (by rw [h.n]; omega)

theorem xorW : 2 ^ d ^^^ A.pss = 2 ^ d - 1 := by
  apply Nat.eq_of_testBit_eq
  intro i
  rw [Nat.testBit_xor, Nat.testBit_two_pow, Alg.pss, Nat.testBit_two_pow_sub_one, Nat.testBit_two_pow_sub_one, h.n]
  by_cases h1 : i < d
  · have : ¬ d = i := by omega
    simp [h1, this]; omega
  · by_cases h2 : d = i
    · simp [h2]
    · have : ¬ i < d + 1 := by omega
      simp [h1, h2, this]

theorem popE : popcount (2 ^ d - 1) = d := by
  rw [popcount_of_lt (n := A.n) h.wf.le32 h.ltE, h.n, pc, Finset.sum_congr rfl (g := fun i => if i < d then 1 else 0)]
  · rw [Finset.sum_range_succ, if_neg (lt_irrefl d), add_zero, Finset.sum_congr rfl (g := fun _ => 1) fun i hi => if_pos (Finset.mem_range.1 hi)]
    simp
  · intro i _
    rw [Nat.testBit_two_pow_sub_one]
    by_cases hi : i < d <;> simp [hi]

theorem w_sq : last A R * last A R = 0 := by
  rw [h.last_eq, gen_sq, show metric A R (h.iw : Nat) = 0 by show ((A.desc.sig.getD d 0 : Int) : R) = 0; rw [h.null, Int.cast_zero], map_zero]

section
variable {u v : Fin A.n → R} (hu : u h.iw = 0) (hv : v h.iw = 0)
include hu

theorem vec_w : vec A u * last A R = -(last A R * vec A u) := by
  rw [h.last_eq, vec_eq_sum, Finset.sum_mul, Finset.mul_sum, ← Finset.sum_neg_distrib]
  refine Finset.sum_congr rfl fun i _ => ?_
  by_cases hi : i = h.iw
  · rw [hi, hu, zero_smul, zero_mul, mul_zero, neg_zero]
  · rw [smul_mul_assoc, mul_smul_comm, gen_anti A R i _ hi, smul_neg]

theorem vec_E : vec A u * blade A R (2 ^ d - 1) = ((-1 : R) ^ (d + 1)) • (blade A R (2 ^ d - 1) * vec A u) := by
  rw [vec_eq_sum, Finset.sum_mul, Finset.mul_sum, Finset.smul_sum]
  refine Finset.sum_congr rfl fun i _ => ?_
  by_cases hi : i = h.iw
  · rw [hi, hu, zero_smul, zero_mul, mul_zero, smul_zero]
  · have hd : (i : Nat) < d := by
      have h1 := i.2
      have h2 : (i : Nat) ≠ d := fun e => hi (Fin.ext e)
      have := h.n
      omega
    rw [smul_mul_assoc, mul_smul_comm, gen_comm h.wf i h.ltE, h.popE, if_pos (by rw [Nat.testBit_two_pow_sub_one]; simpa using hd), smul_comm]

omit hu in
theorem w_E : last A R * blade A R (2 ^ d - 1) = ((-1 : R) ^ d) • (blade A R (2 ^ d - 1) * last A R) := by
  rw [h.last_eq, gen_comm h.wf _ h.ltE, h.popE, if_neg (by show ¬ (2 ^ d - 1).testBit d = true; rw [Nat.testBit_two_pow_sub_one]; simp), add_zero]

theorem vw_E : vec A u * last A R * blade A R (2 ^ d - 1) = -(blade A R (2 ^ d - 1) * (vec A u * last A R)) := by
  rw [mul_assoc, h.w_E, mul_smul_comm, ← mul_assoc, h.vec_E hu, smul_mul_assoc, smul_smul, ← pow_add,
    show d + (d + 1) = 2 * d + 1 by ring, pow_succ, pow_mul, neg_one_sq, one_pow, one_mul, neg_one_smul, mul_assoc]

include hv in
omit hu in
theorem vw_vw : vec A u * last A R * (vec A v * last A R) = 0 := by
  rw [mul_assoc, ← mul_assoc (last A R), ← neg_neg (last A R * vec A v), ← h.vec_w hv, neg_mul, mul_assoc (vec A v), h.w_sq]
  simp

theorem rev_vw : CliffordAlgebra.reverse (vec A u * last A R) = -(vec A u * last A R) := by
  rw [CliffordAlgebra.reverse.map_mul, h.vec_w hu, neg_neg, h.last_eq, vec, gen, CliffordAlgebra.reverse_ι, CliffordAlgebra.reverse_ι]

include hv in
/-- Moving a point. -/
theorem move (h2 : (2 : R) ≠ 0) (k : R) : (1 + (1 / 2 : R) • (vec A u * last A R)) *
      (k • (blade A R (2 ^ d - 1) + vec A v * last A R * blade A R (2 ^ d - 1))) * CliffordAlgebra.reverse (1 + (1 / 2 : R) • (vec A u * last A R)) =
    k • (blade A R (2 ^ d - 1) + vec A (u + v) * last A R * blade A R (2 ^ d - 1)) := by
  rw [map_add, map_smul, h.rev_vw hu, CliffordAlgebra.reverse.map_one, show vec A (u + v) = vec A u + vec A v from map_add _ u v, add_mul (vec A u)]
  have e1 := h.vw_E hu
  have e2 := h.vw_vw (u := u) hv
  have e3 := h.vw_vw (u := v) hu
  have e4 := h.vw_vw (u := u) hu
  generalize vec A u * last A R = X at *
  generalize vec A v * last A R = Y at *
  generalize blade A R (2 ^ d - 1) = E at *
  rw [eq_neg_iff_add_eq_zero, add_comm, ← eq_neg_iff_add_eq_zero] at e1
  have f1 : Y * E * X = 0 := by rw [mul_assoc, e1, mul_neg, ← mul_assoc, e3, zero_mul, neg_zero]
  have f2 : X * E * X = 0 := by rw [mul_assoc, e1, mul_neg, ← mul_assoc, e4, zero_mul, neg_zero]
  have f3 : X * (Y * E) = 0 := by rw [← mul_assoc, e2, zero_mul]
  simp only [mul_smul_comm, smul_mul_assoc, mul_add, add_mul, one_mul, mul_one, f3, smul_neg, mul_neg, f1, f2, smul_zero, neg_zero, add_zero,
    zero_mul, e1, neg_neg, neg_mul]
  match_scalars <;> field_simp <;> ring

end

omit h in
theorem pc_rest {i : Nat} (hi : i < A.n) : pc A.n ((2 ^ i ^^^ A.pss) &&& A.negatives) + (A.negatives.testBit i).toNat = pc A.n A.negatives := by
  have e : (A.negatives.testBit i).toNat = ∑ j ∈ Finset.range A.n, if j = i then (A.negatives.testBit i).toNat else 0 := by
    rw [Finset.sum_ite_eq' (Finset.range A.n) i, if_pos (Finset.mem_range.2 hi)]
  rw [e, pc, pc, ← Finset.sum_add_distrib]
  refine Finset.sum_congr rfl fun j hj => ?_
  rw [Nat.testBit_and, Nat.testBit_xor, pss_testBit (Finset.mem_range.1 hj), Nat.testBit_two_pow]
  by_cases hji : j = i
  · subst hji; simp
  · have : ¬ i = j := fun e => hji e.symm
    simp [hji, this]

omit h in
theorem rhInv_gen (i : Fin A.n) : rhInv A R (gen A R i) = (hodgeSign A (2 ^ (i : Nat) ^^^ A.pss) : R) • blade A R (2 ^ (i : Nat) ^^^ A.pss) := by
  rw [← blade_two_pow, rhInv, compl_blade _ (pow_lt i)]

theorem rhInv_mul (i : Fin A.n) :
    rhInv A R (gen A R i) * gen A R i = ((-1 : R) ^ pc A.n ((2 ^ (i : Nat) ^^^ A.pss) &&& A.negatives)) • blade A R A.pss := by
  have hb : 2 ^ (i : Nat) ^^^ A.pss < 2 ^ A.n := xor_lt (pow_lt i) (pss_lt A)
  have e := blade_mul_rh (R := R) h.wf hb
  rw [rhMap_blade A hb, Nat.xor_assoc, Nat.xor_self, Nat.xor_zero, blade_two_pow] at e
  rw [rhInv_gen, smul_mul_assoc, ← mul_smul_comm, e]

theorem rhInv_last : rhInv A R (last A R) = (hodgeSign A (2 ^ d - 1) : R) • blade A R (2 ^ d - 1) := by
  rw [h.last_eq, rhInv_gen, show 2 ^ (h.iw : Nat) ^^^ A.pss = 2 ^ d - 1 from h.xorW]

theorem rhInv_axis {i : Fin A.n} (hi : i ≠ h.iw) :
    rhInv A R (gen A R i) = (hodgeSign A (2 ^ d - 1) : R) • (gen A R i * last A R * blade A R (2 ^ d - 1)) := by
  have hd : (i : Nat) < d := by
    have h1 := i.2
    have h2 : (i : Nat) ≠ d := fun e => hi (Fin.ext e)
    have := h.n
    omega
  have e1 := h.rhInv_mul (R := R) i
  have e2 := h.rhInv_mul (R := R) h.iw
  rw [← h.last_eq, h.rhInv_last, smul_mul_assoc] at e2
  have e3 := gen_comm (R := R) h.wf i (pss_lt A)
  rw [popcount_of_lt h.wf.le32 (pss_lt A), pc_pss, pss_testBit i.2, if_pos rfl] at e3
  rw [mul_assoc, h.w_E, mul_smul_comm, smul_comm, ← mul_smul_comm, e2, mul_smul_comm, e3]
  have e4 := congrArg (· * gen A R i) e1
  simp only [mul_assoc, gen_sq, smul_mul_assoc] at e4
  rw [← Algebra.commutes, ← Algebra.smul_def] at e4
  have hm : A.desc.sig.getD i 0 = 1 ∧ A.negatives.testBit i = false ∨ A.desc.sig.getD i 0 = -1 ∧ A.negatives.testBit i = true := by
    have hs := h.wf.sig (A.desc.sig.getD i 0) (by
      rw [List.getD_eq_getElem?_getD, List.getElem?_eq_getElem i.2]; exact List.getElem_mem _)
    rw [negatives_testBit h.wf i i.2]
    rcases hs with hs | hs | hs
    · left; rw [hs]; simp
    · right; rw [hs]; simp
    · exact absurd hs (h.unit i hd)
  have p1 := pc_rest (A := A) i.2
  have p2 := pc_rest (A := A) h.iw.2
  have hw : A.negatives.testBit (h.iw : Nat) = false := by
    rw [negatives_testBit h.wf _ h.iw.2, show A.desc.sig.getD (h.iw : Nat) 0 = 0 from h.null]; simp
  rw [hw] at p2
  have hk : (-1 : R) ^ d * ((-1) ^ (A.n + 1)) = 1 := by
    rw [← pow_add, h.n, show d + (d + 1 + 1) = 2 * (d + 1) by ring, pow_mul, neg_one_sq, one_pow]
  rcases hm with ⟨m1, m2⟩ | ⟨m1, m2⟩
  · rw [m2] at p1
    rw [metric, m1, Int.cast_one, one_smul] at e4
    rw [e4, show pc A.n ((2 ^ (i : Nat) ^^^ A.pss) &&& A.negatives) = pc A.n ((2 ^ (h.iw : Nat) ^^^ A.pss) &&& A.negatives) by
      simp only [Bool.toNat_false, add_zero] at p1 p2; omega, smul_smul, smul_smul, mul_right_comm, hk, one_mul]
  · rw [m2] at p1
    rw [metric, m1] at e4
    have e5 : rhInv A R (gen A R i) = -((-1 : R) ^ pc A.n ((2 ^ (i : Nat) ^^^ A.pss) &&& A.negatives)) • (blade A R A.pss * gen A R i) := by
      rw [neg_smul, ← e4]; simp
    rw [e5, smul_smul, smul_smul, mul_right_comm, hk, one_mul,
      show pc A.n ((2 ^ (h.iw : Nat) ^^^ A.pss) &&& A.negatives) = pc A.n ((2 ^ (i : Nat) ^^^ A.pss) &&& A.negatives) + 1 by
        simp only [Bool.toNat_false, Bool.toNat_true, add_zero] at p1 p2; omega, pow_succ, mul_neg_one]

/-- The point at a place. -/
theorem rhInv_place {v : Fin A.n → R} (hv : v h.iw = 0) :
    rhInv A R (last A R + vec A v) = (hodgeSign A (2 ^ d - 1) : R) • (blade A R (2 ^ d - 1) + vec A v * last A R * blade A R (2 ^ d - 1)) := by
  rw [map_add, h.rhInv_last, smul_add, vec_eq_sum, map_sum, Finset.sum_mul, Finset.sum_mul, Finset.smul_sum]
  congr 1
  refine Finset.sum_congr rfl fun i _ => ?_
  by_cases hi : i = h.iw
  · rw [hi, hv]; simp
  · rw [map_smul, h.rhInv_axis hi, smul_mul_assoc, smul_mul_assoc, smul_comm]

end Spec.Flat
end Verif
