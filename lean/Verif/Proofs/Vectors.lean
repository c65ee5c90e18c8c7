import Verif.Spec.Vectors
import Verif.Proofs.Products
import Mathlib.Tactic.NoncommRing
import Mathlib.Tactic.Module
import Mathlib.Tactic.LinearCombination
/-! # Products of vectors -/
namespace Verif
open Model Spec

variable {A : Alg} {R : Type} [CommRing R]

/-- The inner product on elements. -/
noncomputable abbrev innerMap (A : Alg) (R : Type) [CommRing R] (x y : Cl A R) : Cl A R :=
  gradedProduct A R (fun i j k => i + k = j ∨ j + k = i) x y

theorem vec_eq_sum (u : Fin A.n → R) : vec A u = ∑ i, u i • gen A R i := by
  have h : u = ∑ i, u i • (Pi.single i 1 : Fin A.n → R) := by
    funext j
    simp [Finset.sum_apply, Pi.single_apply]
  conv_lhs => rw [vec, h, map_sum]
  simp only [map_smul, gen]

theorem popcount_gen (hA : WfAlg A) (i : Fin A.n) : popcount (2 ^ (i : Nat)) = 1 := popcount_two_pow hA i.2

theorem popcount_pair (hA : WfAlg A) {i j : Fin A.n} (h : i ≠ j) : popcount (2 ^ (i : Nat) ^^^ 2 ^ (j : Nat)) = 2 := by
  have e := popcount_xor (2 ^ (i : Nat)) (2 ^ (j : Nat))
  have h0 : 2 ^ (i : Nat) &&& 2 ^ (j : Nat) = 0 := by
    apply Nat.eq_of_testBit_eq
    intro k
    rw [Nat.testBit_and, Nat.testBit_two_pow, Nat.testBit_two_pow, Nat.zero_testBit]
    have : (i : Nat) ≠ j := fun h' => h (Fin.ext h')
    by_cases h1 : (i : Nat) = k
    · have : ¬ (j : Nat) = k := by omega
      simp [this]
    · simp [h1]
  rw [h0, popcount_gen hA, popcount_gen hA] at e
  simp [popcount, bitSet] at e ⊢
  omega

theorem pow_lt (i : Fin A.n) : 2 ^ (i : Nat) < 2 ^ A.n := Nat.pow_lt_pow_right (by norm_num) i.2

theorem gradedProduct_gen (hA : WfAlg A) (sel : Nat → Nat → Nat → Prop) [∀ i j k, Decidable (sel i j k)] (i j : Fin A.n) :
    gradedProduct A R sel (gen A R i) (gen A R j) =
      if sel 1 1 (if i = j then 0 else 2) then gen A R i * gen A R j else 0 := by
  have hp : popcount (2 ^ (i : Nat) ^^^ 2 ^ (j : Nat)) = if i = j then 0 else 2 := by
    by_cases h : i = j
    · subst h; simp [popcount, bitSet]
    · rw [if_neg h, popcount_pair hA h]
  rw [← blade_two_pow, ← blade_two_pow, gradedProduct_blade hA sel (pow_lt i) (pow_lt j), popcount_gen hA, popcount_gen hA, hp]

theorem bilin_vec (D : Cl A R →ₗ[R] Cl A R →ₗ[R] Cl A R) (u v : Fin A.n → R) :
    D (vec A u) (vec A v) = ∑ i, ∑ j, (u i * v j) • D (gen A R i) (gen A R j) := by
  conv_lhs => rw [vec_eq_sum u, vec_eq_sum v, map_sum D, LinearMap.sum_apply]
  refine Finset.sum_congr rfl fun i _ => ?_
  rw [map_smul, LinearMap.smul_apply, map_sum, Finset.smul_sum]
  refine Finset.sum_congr rfl fun j _ => ?_
  rw [map_smul, smul_smul]

theorem inner_vec (hA : WfAlg A) (u v : Fin A.n → R) : innerMap A R (vec A u) (vec A v) = algebraMap R _ (dot A u v) := by
  rw [innerMap, ← gradedProductₗ_apply, bilin_vec]
  simp only [gradedProductₗ_apply, gradedProduct_gen hA]
  rw [dot, map_sum]
  refine Finset.sum_congr rfl fun i _ => ?_
  rw [Finset.sum_eq_single i]
  · simp only [if_true]
    rw [if_pos (Or.inl trivial), gen_sq, Algebra.algebraMap_eq_smul_one, Algebra.algebraMap_eq_smul_one, smul_smul]
    congr 1; ring
  · intro j _ hj
    rw [if_neg (Ne.symm hj), if_neg (by omega), smul_zero]
  · simp

theorem wedge_vec (hA : WfAlg A) (u v : Fin A.n → R) :
    wedgeMap A R (vec A u) (vec A v) = vec A u * vec A v - algebraMap R _ (dot A u v) := by
  have e := bilin_vec (LinearMap.mul R (Cl A R)) u v
  rw [LinearMap.mul_apply'] at e
  rw [e, ← inner_vec hA, wedgeMap, innerMap, ← gradedProductₗ_apply, ← gradedProductₗ_apply, bilin_vec, bilin_vec, eq_sub_iff_add_eq,
    ← Finset.sum_add_distrib]
  refine Finset.sum_congr rfl fun i _ => ?_
  rw [← Finset.sum_add_distrib]
  refine Finset.sum_congr rfl fun j _ => ?_
  rw [← smul_add]
  congr 1
  simp only [gradedProductₗ_apply, gradedProduct_gen hA, LinearMap.mul_apply']
  by_cases h : i = j
  · simp [h]
  · simp [h]

theorem dotvec_swap (u v : Fin A.n → R) :
    vec A v * vec A u = (2 * dot A u v) • 1 - vec A u * vec A v := by
  have e := CliffordAlgebra.ι_mul_ι_add_swap (Q := Q A R) u v
  have hp : QuadraticMap.polar (Q A R) u v = 2 * dot A u v := by
    simp only [QuadraticMap.polar, Q, QuadraticMap.weightedSumSquares_apply, dot, Finset.mul_sum, ← Finset.sum_sub_distrib, Pi.add_apply, smul_eq_mul]
    refine Finset.sum_congr rfl fun i _ => ?_
    ring
  rw [hp, Algebra.algebraMap_eq_smul_one] at e
  rw [← e, vec, vec]
  abel

theorem vec_sq (u : Fin A.n → R) : vec A u * vec A u = dot A u u • 1 := by
  rw [vec, CliffordAlgebra.ι_sq_scalar, Algebra.algebraMap_eq_smul_one]
  congr 1
  simp only [Q, QuadraticMap.weightedSumSquares_apply, dot, smul_eq_mul, mul_assoc]

theorem dot_comm (u v : Fin A.n → R) : dot A u v = dot A v u :=
  Finset.sum_congr rfl fun i _ => by ring

/-- On bivectors and vectors the inner product is the commutator. -/
theorem inner_comm_blade (hA : WfAlg A) {a c : Nat} (ha : a < 2 ^ A.n) (hc : c < 2 ^ A.n) (h2 : popcount a = 2) (h1 : popcount c = 1) :
    innerMap A R (blade A R a) (blade A R c) = comm A R (blade A R a) (blade A R c) := by
  rw [innerMap, gradedProduct_blade hA _ ha hc, h1, h2, comm_blade_cast ha hc, blade_mul hA]
  by_cases h : popcount (a ^^^ c) = 1
  · rw [if_pos (by omega)]
    congr 2
    have hx := popcount_xor a c
    have hand : popcount (a &&& c) = pc A.n (a &&& c) := popcount_of_lt hA.le32 (and_lt ha c)
    have h2' : pc A.n a = 2 := by rw [← popcount_of_lt hA.le32 ha]; exact h2
    have h1' : pc A.n c = 1 := by rw [← popcount_of_lt hA.le32 hc]; exact h1
    have hi := inv_add A.n a c
    have hs : sgn A c a = - sgn A a c := by
      unfold sgn
      rw [Nat.and_comm c a, pow_add, pow_add]
      have : (-1 : ℤ) ^ inv A.n c a = - (-1) ^ inv A.n a c := by
        rw [show -(-1 : ℤ) ^ inv A.n a c = (-1) ^ (inv A.n a c + 1) by rw [pow_succ]; ring, neg_one_pow_eq_iff]
        rw [h2', h1'] at hi
        omega
      rw [this]
      split_ifs <;> ring
    have := halfSign_two (s := -1) (Or.inr rfl) (sgn_swap A a c)
    rw [hs] at this
    omega
  · rw [if_neg (by omega)]
    rcases comm_bivector_blade hA (c := c) ha h2 with h' | h'
    · omega
    · rw [h']; simp

theorem inner_comm (hA : WfAlg A) {x y : Cl A R} (hx : gradePart A R 2 x = x) (hy : gradePart A R 1 y = y) :
    innerMap A R x y = comm A R x y := by
  have : ((gradedProductₗ A R (fun i j k => i + k = j ∨ j + k = i)).compl₁₂ (gradePart A R 2) (gradePart A R 1)) =
      (comm A R).compl₁₂ (gradePart A R 2) (gradePart A R 1) := by
    apply lin_ext₂
    intro a ha c hc
    simp only [LinearMap.compl₁₂_apply, gradePart_blade _ ha, gradePart_blade _ hc]
    split_ifs with h2 h1 h1
    · rw [gradedProductₗ_apply]; exact inner_comm_blade hA ha hc h2 h1
    all_goals simp
  have h := LinearMap.congr_fun₂ this x y
  simpa only [LinearMap.compl₁₂_apply, hx, hy, gradedProductₗ_apply] using h

theorem gradePart_vec (hA : WfAlg A) (u : Fin A.n → R) : gradePart A R 1 (vec A u) = vec A u := by
  rw [vec_eq_sum, map_sum]
  refine Finset.sum_congr rfl fun i _ => ?_
  rw [map_smul, ← blade_two_pow, gradePart_blade _ (pow_lt i), if_pos (popcount_gen hA i)]

theorem gradePart_wedge (hA : WfAlg A) (u v : Fin A.n → R) :
    gradePart A R 2 (wedgeMap A R (vec A u) (vec A v)) = wedgeMap A R (vec A u) (vec A v) := by
  rw [wedgeMap, ← gradedProductₗ_apply, bilin_vec, map_sum]
  refine Finset.sum_congr rfl fun i _ => ?_
  rw [map_sum]
  refine Finset.sum_congr rfl fun j _ => ?_
  rw [map_smul, gradedProductₗ_apply, gradedProduct_gen hA]
  congr 1
  by_cases h : i = j
  · simp [h]
  · simp only [if_neg h, if_true]
    rw [← blade_two_pow, ← blade_two_pow, gradePart_mul_blade hA _ (pow_lt i) (pow_lt j), if_pos (popcount_pair hA h)]

/-- `(u ∧ v) · w = (v · w) u - (u · w) v`. -/
theorem inner_wedge (hA : WfAlg A) (h2 : ∀ x : Cl A R, (2 : R) • x = 0 → x = 0) (u v w : Fin A.n → R) :
    innerMap A R (wedgeMap A R (vec A u) (vec A v)) (vec A w) = dot A v w • vec A u - dot A u w • vec A v := by
  rw [inner_comm hA (gradePart_wedge hA u v) (gradePart_vec hA w)]
  apply sub_eq_zero.1
  apply h2
  rw [smul_sub, two_comm hA, wedge_vec hA, Algebra.algebraMap_eq_smul_one]
  have e1 := dotvec_swap u w
  have e2 := dotvec_swap v w
  have e3 : vec A w * (vec A u * vec A v) = (2 * dot A u w) • vec A v - vec A u * (vec A w * vec A v) := by
    rw [← mul_assoc, e1, sub_mul, smul_mul_assoc, one_mul, mul_assoc]
  rw [sub_mul, mul_sub, e3, e2, mul_sub, smul_mul_assoc, mul_smul_comm, one_mul, mul_one, mul_smul_comm, mul_one, mul_assoc]
  module

theorem inner_one (hA : WfAlg A) (x : Cl A R) : innerMap A R 1 x = x := by
  have : gradedProductₗ A R (fun i j k => i + k = j ∨ j + k = i) (blade A R 0) = LinearMap.id := by
    apply lin_ext
    intro b hb
    rw [gradedProductₗ_apply, gradedProduct_blade hA _ (Nat.two_pow_pos _) hb, if_pos (by simp [popcount, bitSet]), blade_zero, one_mul]
    rfl
  have h := LinearMap.congr_fun this x
  rw [gradedProductₗ_apply, blade_zero] at h
  exact h

theorem exists_vec (hA : WfAlg A) {x : Cl A R} (hx : gradePart A R 1 x = x) : ∃ u, x = vec A u := by
  obtain ⟨v, _, h⟩ := toExt_vector hA x hx
  exact ⟨v, h⟩

end Verif
