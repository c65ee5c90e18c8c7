import Verif.Proofs.ProductSign
import Mathlib.Algebra.BigOperators.Intervals
/-! # Properties C01 – C05: blades, signs and the product table -/
namespace Verif.Props
open Model Spec

theorem pc_eq_card (k b : Nat) : pc k b = (bitSet k b).card := by
  rw [pc, bitSet, Finset.card_filter]
  apply Finset.sum_congr rfl
  intro i _
  cases b.testBit i <;> rfl

/-- C01: for every dtype of at most 8 bytes, `bit_count` of every bit pattern is its number of set bits. -/
theorem C01_bit_count (itemsize b : Nat) (hs : itemsize ≤ 8) :
    bitCount itemsize b = (bitSet (8 * itemsize) b).card := by
  rw [bitCount_eq _ _ hs, pc_eq_card]

example : bitCount 8 (2^63 + 2^40 + 1) = 3 := by rw [C01_bit_count _ _ (by norm_num)]; decide

/-- C01: `grade` of every blade of every algebra is its number of basis vectors. -/
theorem C01_grade {A : Alg} (hA : WfAlg A) {b : Nat} (hb : b < 2 ^ A.n) :
    A.grade b = (bitSet A.n b).card := by
  rw [grade_eq hA hb, pc_eq_card]

/-- C01: `bit_dot` of two blades is the number of shared basis vectors. -/
theorem C01_bit_dot {A : Alg} (hA : WfAlg A) {a : Nat} (b : Nat) (ha : a < 2 ^ A.n) :
    A.bitDot a b = (bitSet A.n a ∩ bitSet A.n b).card := by
  rw [bitDot_eq hA, pc_of_lt (lt_of_le_of_lt Nat.and_le_left ha) hA.le_width, pc_eq_card]
  congr 1
  ext i
  simp [bitSet, Nat.testBit_and]
  tauto

example : WfAlg pga3 ∧ 11 < 2 ^ pga3.n ∧ pga3.grade 11 = 3 ∧ pga3.bitDot 11 6 = 1 := ⟨wf_pga3, by decide, by decide, by decide⟩

/-- C02: `Algebra.product` of two blades is their product in the Clifford algebra of the declared signature,
over every commutative ring of coefficients. -/
theorem C02_product_is_clifford {A : Alg} (hA : WfAlg A) (R : Type*) [CommRing R] {a b : Nat}
    (ha : a < 2 ^ A.n) (hb : b < 2 ^ A.n) :
    (A.product a b).1 = a ^^^ b ∧ (A.product a b).1 < 2 ^ A.n ∧
    ((A.product a b).2 = 1 ∨ (A.product a b).2 = -1 ∨ (A.product a b).2 = 0) ∧
    blade A R a * blade A R b = (((A.product a b).2 : Int) : R) • blade A R (A.product a b).1 := by
  rw [product_eq hA ha]
  exact ⟨rfl, xor_lt ha hb, sgn_mem A a b, blade_mul hA R a b⟩

/-- C02: the sign is determined by the Clifford algebra: no other integer in {-1,0,1} satisfies the equation. -/
theorem C02_sign_unique {A : Alg} (hA : WfAlg A) {a b : Nat} (ha : a < 2 ^ A.n) (hb : b < 2 ^ A.n) (s : Int)
    (h : blade A ℚ a * blade A ℚ b = (s : ℚ) • blade A ℚ (a ^^^ b)) : (A.product a b).2 = s := by
  rw [product_eq hA ha]
  rw [blade_mul hA ℚ] at h
  have := congrArg (coef A ℚ (a ^^^ b)) h
  rw [map_smul, map_smul, coef_blade A ℚ (xor_lt ha hb)] at this
  simpa using this

/-- C02: zero signs occur exactly when a null basis vector is shared. -/
theorem C02_zero_iff {A : Alg} (hA : WfAlg A) {a b : Nat} (ha : a < 2 ^ A.n) :
    (A.product a b).2 = 0 ↔ ∃ i < A.n, a.testBit i ∧ b.testBit i ∧ A.desc.sig.getD i 0 = 0 := by
  rw [product_eq hA ha]
  have hne : ((-1:ℤ)^(pc A.n (a &&& b &&& A.negatives) + inv A.n a b)) ≠ 0 := pow_ne_zero _ (by norm_num)
  simp only [sgn, mul_eq_zero, hne, false_or]
  have : (pc A.n (a &&& b &&& A.zeros) = 0) ↔ ∀ i < A.n, ¬ (a.testBit i ∧ b.testBit i ∧ A.desc.sig.getD i 0 = 0) := by
    rw [pc, Finset.sum_eq_zero_iff]
    apply forall_congr'; intro i
    rw [Finset.mem_range]
    apply imp_congr_right; intro hi
    rw [Nat.testBit_and, Nat.testBit_and, zeros_testBit hA i hi]
    cases a.testBit i <;> cases b.testBit i <;> simp
  rw [ite_eq_right_iff, this]
  constructor
  · intro h; by_contra hc; push Not at hc
    exact absurd (h fun i hi hh => hc i hi hh.1 hh.2.1 hh.2.2) one_ne_zero
  · rintro ⟨i, hi, h⟩ h2; exact absurd h (h2 i hi)

example : sta.product 6 3 = (5, 1) ∧ sta.product 2 2 = (0, -1) ∧ 6 < 2 ^ sta.n ∧ WfAlg sta := ⟨by decide, by decide, by decide, wf_sta⟩
example : pga3.product 3 5 = (6, 0) ∧ pga3.product 6 4 = (2, 1) := by decide

/-- C03: the product table is associative, signs included. -/
theorem C03_associative {A : Alg} (hA : WfAlg A) {a b c : Nat} (ha : a < 2 ^ A.n) (hb : b < 2 ^ A.n)
    (hc : c < 2 ^ A.n) :
    (A.product (A.product a b).1 c).1 = (A.product a (A.product b c).1).1 ∧
    (A.product a b).2 * (A.product (A.product a b).1 c).2 =
      (A.product b c).2 * (A.product a (A.product b c).1).2 := by
  have hab := xor_lt ha hb
  have hbc := xor_lt hb hc
  simp only [product_eq hA ha, product_eq hA hb, product_eq hA hab]
  refine ⟨Nat.xor_assoc _ _ _, ?_⟩
  have h := mul_assoc (blade A ℚ a) (blade A ℚ b) (blade A ℚ c)
  rw [blade_mul hA, blade_mul hA, smul_mul_assoc, mul_smul_comm, blade_mul hA, blade_mul hA, Nat.xor_assoc] at h
  have := congrArg (coef A ℚ (a ^^^ (b ^^^ c))) h
  rw [map_smul, map_smul, map_smul, map_smul, coef_blade A ℚ (xor_lt ha hbc)] at this
  simp only [if_true, smul_eq_mul, mul_one] at this
  exact_mod_cast this

/-- C03: the scalar blade is a two-sided unit. -/
theorem C03_unit {A : Alg} (hA : WfAlg A) {a : Nat} (ha : a < 2 ^ A.n) :
    A.product 0 a = (a, 1) ∧ A.product a 0 = (a, 1) := by
  have h0 : (0:Nat) < 2 ^ A.n := Nat.two_pow_pos _
  constructor
  · ext
    · rw [product_eq hA h0]; simp
    · exact C02_sign_unique hA h0 ha 1 (by simp [blade_zero])
  · ext
    · rw [product_eq hA ha]; simp
    · exact C02_sign_unique hA ha h0 1 (by simp [blade_zero])

example : WfAlg pga3 ∧ 13 < 2 ^ pga3.n ∧ pga3.product 13 6 = (11, -1) := ⟨wf_pga3, by decide, by decide⟩

/-- C04 (blade level): `reverse` gives the sign of the Clifford reversal. -/
theorem C04_reverse_sign {A : Alg} (hA : WfAlg A) (R : Type*) [CommRing R] {b : Nat} (hb : b < 2 ^ A.n) :
    CliffordAlgebra.reverse (blade A R b) = ((A.reverseSign b : Int) : R) • blade A R b := by
  rw [reverse_blade, Alg.reverseSign, grade_eq hA hb, parityToSign_eq _ (pc A.n b / 2) rfl]
  simp

/-- C04 (blade level): `involute` gives the sign of the grade involution. -/
theorem C04_involute_sign {A : Alg} (hA : WfAlg A) (R : Type*) [CommRing R] {b : Nat} (hb : b < 2 ^ A.n) :
    CliffordAlgebra.involute (blade A R b) = ((A.involuteSign b : Int) : R) • blade A R b := by
  rw [involute_blade, Alg.involuteSign, grade_eq hA hb, parityToSign_eq _ (pc A.n b) rfl]
  simp

example : sta.reverseSign 7 = -1 ∧ sta.reverseSign 15 = 1 ∧ sta.involuteSign 7 = -1 ∧ 7 < 2 ^ sta.n := by decide

/-- C05: the pseudoscalar square in closed form, from the signature list alone. -/
theorem C05_pseudoscalar_squared {A : Alg} (hA : WfAlg A) :
    A.pseudoScalarSquared = if (0:Int) ∈ A.desc.sig then 0
      else (-1) ^ (A.n * (A.n - 1) / 2 + A.desc.sig.count (-1)) := by
  have hp : A.pss < 2 ^ A.n := Nat.sub_lt (Nat.two_pow_pos _) one_pos
  have hbit : ∀ i < A.n, A.pss.testBit i = true := by
    intro i hi; simp [Alg.pss, hi]
  have hn : A.n = A.desc.sig.length := rfl
  split
  · next h0 =>
    obtain ⟨i, hi, h⟩ := List.getElem_of_mem h0
    refine (C02_zero_iff hA hp).2 ⟨i, hi, hbit i hi, hbit i hi, ?_⟩
    rw [List.getD_eq_getElem?_getD, List.getElem?_eq_getElem hi, h]; rfl
  · next h0 =>
    unfold Alg.pseudoScalarSquared
    rw [product_eq hA hp]
    have hz : pc A.n (A.pss &&& A.pss &&& A.zeros) = 0 := by
      rw [pc, Finset.sum_eq_zero_iff]
      intro i hi
      rw [Finset.mem_range] at hi
      rw [Nat.testBit_and, zeros_testBit hA i hi]
      have : A.desc.sig.getD i 0 ≠ 0 := by
        rw [List.getD_eq_getElem?_getD, List.getElem?_eq_getElem (by omega)]
        intro h
        exact h0 (h ▸ List.getElem_mem _)
      rw [decide_eq_false this]; simp
    have hq : pc A.n (A.pss &&& A.pss &&& A.negatives) = A.desc.sig.count (-1) := by
      have h1 : pc A.n (A.pss &&& A.pss &&& A.negatives)
          = ∑ i ∈ Finset.range A.n, (decide (A.desc.sig.getD i 0 = -1)).toNat := by
        apply Finset.sum_congr rfl
        intro i hi
        rw [Finset.mem_range] at hi
        rw [Nat.testBit_and, Nat.testBit_and, negatives_testBit hA i hi, hbit i hi]
        simp
      rw [h1, hn]
      generalize A.desc.sig = l
      induction l with
      | nil => simp
      | cons x xs ih =>
        rw [List.length_cons, Finset.sum_range_succ', List.count_cons, ← ih]
        by_cases hx : x = -1 <;> simp [hx]
    have hi : inv A.n A.pss A.pss = A.n * (A.n - 1) / 2 := by
      rw [← Finset.sum_range_id, inv]
      apply Finset.sum_congr rfl
      intro j hj
      rw [Finset.mem_range] at hj
      rw [hbit j hj]
      have : pc j A.pss = j := by
        rw [pc, Finset.sum_congr rfl (fun i hi => by
          rw [hbit i (by rw [Finset.mem_range] at hi; omega)])]
        simp
      simp [this]
    simp only [sgn, hz, hq, hi, if_true, mul_one, Nat.add_comm]

example : sta.pseudoScalarSquared = -1 ∧ pga3.pseudoScalarSquared = 0 := by
  rw [C05_pseudoscalar_squared wf_sta, C05_pseudoscalar_squared wf_pga3]; decide

end Verif.Props
