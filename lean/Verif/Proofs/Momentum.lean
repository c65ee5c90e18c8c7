import Verif.Proofs.Vectors
import Verif.Proofs.Split
import Verif.Props.Closure
import Mathlib.Data.ZMod.Basic
import Mathlib.Tactic.ReduceModChar
/-! # The join with a point, its velocity, and derivations -/
namespace Verif
open Model Spec

variable {A : Alg} {R : Type} [CommRing R]

/-! ### parities of signs -/

/-- Inversions between two blades, modulo two. -/
def i2 (n a b : Nat) : ZMod 2 := (inv n a b : ℕ)
/-- Grade modulo two. -/
def p2 (n a : Nat) : ZMod 2 := (pc n a : ℕ)

theorem p2_xor (n a b : Nat) : p2 n (a ^^^ b) = p2 n a + p2 n b := by
  have h := congrArg (Nat.cast : ℕ → ZMod 2) (pc_xor n a b)
  push_cast at h
  rw [show (2 : ZMod 2) = 0 from rfl, zero_mul, add_zero] at h
  exact h

theorem p2_and_xor (n a b c : Nat) : p2 n ((a ^^^ b) &&& c) = p2 n (a &&& c) + p2 n (b &&& c) := by
  rw [Nat.and_xor_distrib_right, p2_xor]

theorem i2_left (n a b c : Nat) : i2 n (a ^^^ b) c = i2 n a c + i2 n b c := by
  induction n with
  | zero => simp [i2]
  | succ n ih =>
    simp only [i2, inv_succ, Nat.testBit_xor] at ih ⊢
    push_cast at ih ⊢
    rw [ih]
    cases a.testBit n <;> cases b.testBit n <;> simp <;> generalize ((pc n c : ℕ) : ZMod 2) = x <;>
      generalize ((inv n a c : ℕ) : ZMod 2) = y <;> generalize ((inv n b c : ℕ) : ZMod 2) = z <;> revert x y z <;> decide

theorem i2_right (n a b c : Nat) : i2 n a (b ^^^ c) = i2 n a b + i2 n a c := by
  induction n with
  | zero => simp [i2]
  | succ n ih =>
    have hp := p2_xor n b c
    simp only [i2, p2, inv_succ] at ih hp ⊢
    push_cast at ih ⊢
    rw [ih, hp]
    ring

theorem i2_swap (n a b : Nat) : i2 n a b + i2 n b a + p2 n (a &&& b) = p2 n a * p2 n b := by
  have h := congrArg (Nat.cast : ℕ → ZMod 2) (inv_add n a b)
  push_cast at h
  exact h

theorem sign_congr {S : Type} [CommRing S] {a b : ℕ} (h : (a : ZMod 2) = b) : (-1 : S) ^ a = (-1 : S) ^ b := by
  rw [ZMod.natCast_eq_natCast_iff', ← Nat.ModEq] at h
  rw [← Nat.div_add_mod a 2, ← Nat.div_add_mod b 2, h]
  simp [pow_add, pow_mul]

theorem hodgeSign_pow (hA : WfAlg A) {b : Nat} (hb : b < 2 ^ A.n) :
    hodgeSign A b = (-1) ^ (inv A.n b (b ^^^ A.pss) + pc A.n (b &&& A.negatives)) := by
  rw [hodgeSign, swapSign_eq hA hb, negSign_eq hA hb, pow_add]

/-! ### the regressive product on elements -/

/-- The regressive product on elements. -/
noncomputable def meet (A : Alg) (R : Type) [CommRing R] : Cl A R →ₗ[R] Cl A R →ₗ[R] Cl A R :=
  ((gradedProductₗ A R (fun i j k => i + j = k)).compl₁₂ (rhMap A R) (rhMap A R)).compr₂ (rhInv A R)

theorem meet_eq (x y : Cl A R) : meet A R x y = rhInv A R (wedgeMap A R (rhMap A R x) (rhMap A R y)) := by
  rw [wedgeMap, ← gradedProductₗ_apply]; rfl

/-- The regressive product of two blades. -/
theorem meet_blade (hA : WfAlg A) {a c : Nat} (ha : a < 2 ^ A.n) (hc : c < 2 ^ A.n) :
    meet A R (blade A R a) (blade A R c) = if (a ^^^ A.pss) &&& (c ^^^ A.pss) = 0 then
      ((-1 : R) ^ (inv A.n a (a ^^^ A.pss) + pc A.n (a &&& A.negatives) + (inv A.n c (c ^^^ A.pss) + pc A.n (c &&& A.negatives)) +
        inv A.n (a ^^^ A.pss) (c ^^^ A.pss) + (inv A.n (a ^^^ c ^^^ A.pss) (a ^^^ c) + pc A.n ((a ^^^ c ^^^ A.pss) &&& A.negatives)))) •
        blade A R (a ^^^ c ^^^ A.pss) else 0 := by
  have hP := pss_lt A
  have hx : (a ^^^ A.pss) ^^^ (c ^^^ A.pss) = a ^^^ c := by
    rw [Nat.xor_comm c, Nat.xor_assoc, ← Nat.xor_assoc A.pss, Nat.xor_self, Nat.zero_xor]
  rw [meet_eq, rhMap, compl_blade _ ha, compl_blade _ hc, wedgeMap, gradedProduct_smul_left, gradedProduct_smul_right, ← wedgeMap,
    wedge_blade hA (xor_lt ha hP) (xor_lt hc hP)]
  split
  · rw [hx, map_smul, map_smul, map_smul, rhInv, compl_blade _ (xor_lt ha hc), hodgeSign_pow hA ha, hodgeSign_pow hA hc,
      hodgeSign_pow hA (xor_lt (xor_lt ha hc) hP), Nat.xor_assoc (a ^^^ c), Nat.xor_self, Nat.xor_zero, smul_smul, smul_smul, smul_smul]
    push_cast
    rw [← pow_add, ← pow_add, ← pow_add]
  · simp

/-! ### signs of the blades of a point, a line and a vector -/

theorem p2_pss (A : Alg) : p2 A.n A.pss = (A.n : ℕ) := by rw [p2, pc_pss]
theorem p2_pow {i n : Nat} (h : i < n) : p2 n (2 ^ i) = 1 := by rw [p2, pc_two_pow h]; rfl
theorem pow_and {i k : Nat} (h : i ≠ k) : 2 ^ i &&& 2 ^ k = 0 := by
  apply Nat.eq_of_testBit_eq
  intro j
  rw [Nat.testBit_and, Nat.testBit_two_pow, Nat.testBit_two_pow, Nat.zero_testBit]
  by_cases h1 : i = j
  · have : ¬ k = j := by omega
    simp [this]
  · simp [h1]
theorem i2_pow (n i : Nat) : i2 n (2 ^ i) (2 ^ i) = 0 := by
  have h : pc i (2 ^ i) = 0 := by
    rw [pc_eq_zero_iff]
    intro j hj
    rw [Nat.testBit_two_pow]
    simp; omega
  have h2 : inv n (2 ^ i) (2 ^ i) = 0 := by
    induction n with
    | zero => rfl
    | succ n ih =>
      rw [inv_succ, ih, Nat.testBit_two_pow, zero_add]
      by_cases hn : i = n
      · subst hn; rw [h, Nat.mul_zero]
      · simp [hn]
  rw [i2, h2]; rfl
theorem and_pss_pow {i : Nat} (h : i < A.n) : 2 ^ i &&& A.pss = 2 ^ i := pc_and_pss (Nat.pow_lt_pow_right (by norm_num) h)

theorem pc_neg_pss (A : Alg) : pc A.n (A.pss &&& A.negatives) = pc A.n A.negatives := by
  apply Finset.sum_congr rfl
  intro i hi
  rw [Finset.mem_range] at hi
  rw [Nat.testBit_and, Alg.pss, Nat.testBit_two_pow_sub_one]
  simp [hi]

/-- The square of a basis vector, as computed by the product of blades. -/
def msq (A : Alg) (k : Nat) : Int := (-1) ^ pc A.n (2 ^ k &&& A.negatives) * (if pc A.n (2 ^ k &&& A.zeros) = 0 then 1 else 0)

theorem sgn_share {a c k : Nat} (h : a &&& c = 2 ^ k) : sgn A a c = (-1) ^ inv A.n a c * msq A k := by
  rw [sgn, h, msq, pow_add]; ring

theorem comm_swap (hA : WfAlg A) (x y : Cl A R) : comm A R x y = - comm A R y x := by
  have : comm A R = - (comm A R).flip := by
    apply lin_ext₂
    intro a ha c hc
    rw [LinearMap.neg_apply, LinearMap.neg_apply, LinearMap.flip_apply, comm_blade_cast ha hc, comm_blade_cast hc ha, Nat.xor_comm, ← neg_smul, ← Int.cast_neg]
    congr 2
    have h1 := halfSign_two (s := -1) (Or.inr rfl) (sgn_swap A a c)
    have h2 := halfSign_two (s := -1) (Or.inr rfl) (sgn_swap A c a)
    omega
  exact LinearMap.congr_fun₂ this x y

/-- The velocity of a point under a rate is, up to a sign of the algebra, its join with the rate times the pseudoscalar: blades. -/
theorem velocity_blade (hA : WfAlg A) {i k : Nat} (hi : i < A.n) (hk : k < A.n) (hik : i ≠ k) :
    comm A R (blade A R (A.pss ^^^ 2 ^ i)) (blade A R (2 ^ i ^^^ 2 ^ k)) =
      (-1 : R) ^ (A.n + pc A.n A.negatives) • (meet A R (blade A R (A.pss ^^^ 2 ^ i)) (blade A R (2 ^ i ^^^ 2 ^ k)) * blade A R A.pss) := by
  have hP := pss_lt A
  have li : 2 ^ i < 2 ^ A.n := Nat.pow_lt_pow_right (by norm_num) hi
  have lk : 2 ^ k < 2 ^ A.n := Nat.pow_lt_pow_right (by norm_num) hk
  have e1 : A.pss ^^^ 2 ^ i ^^^ A.pss = 2 ^ i := by rw [Nat.xor_comm A.pss, Nat.xor_assoc, Nat.xor_self, Nat.xor_zero]
  have e2 : A.pss ^^^ 2 ^ i ^^^ (2 ^ i ^^^ 2 ^ k) = A.pss ^^^ 2 ^ k := by
    rw [Nat.xor_assoc, ← Nat.xor_assoc (2 ^ i), Nat.xor_self, Nat.zero_xor]
  have e3 : A.pss ^^^ 2 ^ k ^^^ A.pss = 2 ^ k := by rw [Nat.xor_comm A.pss, Nat.xor_assoc, Nat.xor_self, Nat.xor_zero]
  have a1 : 2 ^ i &&& (2 ^ i ^^^ 2 ^ k ^^^ A.pss) = 0 := by
    rw [Nat.and_xor_distrib_left, Nat.and_xor_distrib_left, Nat.and_self, pow_and hik, and_pss_pow hi, Nat.xor_zero, Nat.xor_self]
  have a2 : (A.pss ^^^ 2 ^ i) &&& (2 ^ i ^^^ 2 ^ k) = 2 ^ k := by
    rw [Nat.and_xor_distrib_right, Nat.and_xor_distrib_left, Nat.and_xor_distrib_left, Nat.and_self, pow_and hik, Nat.and_comm, and_pss_pow hi,
      Nat.and_comm, and_pss_pow hk, Nat.xor_zero, Nat.xor_comm, ← Nat.xor_assoc, Nat.xor_self, Nat.zero_xor]
  have s1 : sgn A (2 ^ i ^^^ 2 ^ k) (A.pss ^^^ 2 ^ i) = - sgn A (A.pss ^^^ 2 ^ i) (2 ^ i ^^^ 2 ^ k) := by
    rw [sgn_share a2, sgn_share (Nat.and_comm _ _ ▸ a2), ← neg_mul, ← neg_one_mul ((-1 : ℤ) ^ _), ← pow_succ']
    congr 1
    apply sign_congr
    have := i2_swap A.n (2 ^ i ^^^ 2 ^ k) (A.pss ^^^ 2 ^ i)
    rw [Nat.and_comm, a2, p2_xor, p2_pow hi, p2_pow hk, show (1 : ZMod 2) + 1 = 0 from rfl, zero_mul] at this
    push_cast
    simp only [← i2.eq_1, ← p2.eq_1]
    linear_combination (norm := (ring_nf; reduce_mod_char)) this
  have h := halfSign_two (s := -1) (Or.inr rfl) (sgn_swap A (A.pss ^^^ 2 ^ i) (2 ^ i ^^^ 2 ^ k))
  rw [s1] at h
  have h' : halfSign (sgn A) (-1) (A.pss ^^^ 2 ^ i) (2 ^ i ^^^ 2 ^ k) = sgn A (A.pss ^^^ 2 ^ i) (2 ^ i ^^^ 2 ^ k) := by omega
  rw [comm_blade_cast (xor_lt hP li) (xor_lt li lk), h', meet_blade hA (xor_lt hP li) (xor_lt li lk), e1, e2, e3, if_pos a1, smul_mul_assoc, blade_mul hA,
    sgn_share a2, sgn_share (and_pss_pow hk), smul_smul, smul_smul, Nat.xor_comm A.pss (2 ^ k)]
  congr 1
  push_cast
  rw [← mul_assoc, ← pow_add]
  congr 1
  rw [← pow_add]
  apply sign_congr
  push_cast
  simp only [← i2.eq_1, ← p2.eq_1, i2_left, i2_right, p2_and_xor, i2_pow]
  have w1 := i2_swap A.n A.pss (2 ^ k)
  have w2 := i2_swap A.n (2 ^ i) (2 ^ k)
  rw [Nat.and_comm, and_pss_pow hk, p2_pow hk, p2_pss] at w1
  rw [pow_and hik, p2_pow hi, p2_pow hk] at w2
  have w3 : p2 A.n (A.pss &&& A.negatives) = p2 A.n A.negatives := by
    rw [p2, p2, pc_neg_pss]
  have w4 : p2 A.n 0 = 0 := by simp [p2]
  rw [w3]
  linear_combination (norm := (ring_nf; reduce_mod_char)) w1 + w2 + w4

theorem compl_pop (hA : WfAlg A) {a : Nat} (ha : a < 2 ^ A.n) : popcount (a ^^^ A.pss) + popcount a = A.n := by
  have h := pc_xor A.n a A.pss
  rw [pc_and_pss ha, pc_pss] at h
  rw [popcount_of_lt hA.le32 ha, popcount_of_lt hA.le32 (xor_lt ha (pss_lt A))]
  omega

theorem xor_xor_pss (a : Nat) : a ^^^ A.pss ^^^ A.pss = a := by rw [Nat.xor_assoc, Nat.xor_self, Nat.xor_zero]

/-- The dual of an element of grade `k` has grade `n - k`. -/
theorem rh_grade (hA : WfAlg A) {k l : Nat} (h : k + l = A.n) (x : Cl A R) : gradePart A R l (rhMap A R x) = rhMap A R (gradePart A R k x) := by
  have : (gradePart A R l).comp (rhMap A R) = (rhMap A R).comp (gradePart A R k) := by
    apply lin_ext
    intro b hb
    have hp := compl_pop hA hb
    rw [LinearMap.comp_apply, LinearMap.comp_apply, rhMap, compl_blade _ hb, map_smul, gradePart_blade _ (xor_lt hb (pss_lt A)), gradePart_blade _ hb]
    by_cases hk : popcount b = k
    · rw [if_pos (by omega), if_pos hk, compl_blade _ hb]
    · rw [if_neg (by omega), if_neg hk, smul_zero, map_zero]
  exact LinearMap.congr_fun this x

theorem rhInv_grade (hA : WfAlg A) {k l : Nat} (h : k + l = A.n) (x : Cl A R) : gradePart A R l (rhInv A R x) = rhInv A R (gradePart A R k x) := by
  have e := rh_grade (R := R) hA (k := l) (l := k) (by omega) (rhInv A R x)
  rw [rh_rhInv] at e
  rw [e, rhInv_rh]

/-- Grades of the regressive product. -/
theorem meet_grade (hA : WfAlg A) {j k l : Nat} {x y : Cl A R} (hx : gradePart A R j x = x) (hy : gradePart A R k y = y) (hj : j ≤ A.n) (hk : k ≤ A.n)
    (h : j + k = A.n + l) : gradePart A R l (meet A R x y) = meet A R x y := by
  have : ((meet A R).compl₁₂ (gradePart A R j) (gradePart A R k)).compr₂ (gradePart A R l) = (meet A R).compl₁₂ (gradePart A R j) (gradePart A R k) := by
    apply lin_ext₂
    intro a ha c hc
    rw [LinearMap.compr₂_apply, LinearMap.compl₁₂_apply, gradePart_blade _ ha, gradePart_blade _ hc]
    by_cases h2 : popcount a = j
    · by_cases h3 : popcount c = k
      · rw [if_pos h2, if_pos h3, meet_blade hA ha hc]
        split
        · rename_i h0
          have hP := pss_lt A
          rw [map_smul, gradePart_blade _ (xor_lt (xor_lt ha hc) hP), if_pos]
          have g1 := (grade_add_iff hA (xor_lt ha hP) (c ^^^ A.pss)).2 h0
          have hx : (a ^^^ A.pss) ^^^ (c ^^^ A.pss) = a ^^^ c := by
            rw [Nat.xor_comm c, Nat.xor_assoc, ← Nat.xor_assoc A.pss, Nat.xor_self, Nat.zero_xor]
          rw [hx] at g1
          have := compl_pop hA ha
          have := compl_pop hA hc
          have := compl_pop hA (xor_lt ha hc)
          omega
        · rw [map_zero]
      · rw [if_neg h3]; simp
    · rw [if_neg h2]; simp
  have := LinearMap.congr_fun₂ this x y
  rwa [LinearMap.compr₂_apply, LinearMap.compl₁₂_apply, hx, hy] at this

theorem meet_assoc (hA : WfAlg A) (x y z : Cl A R) : meet A R (meet A R x y) z = meet A R x (meet A R y z) := by
  simp only [meet_eq, rh_rhInv, wedge_assoc hA]

/-- Two points anticommute under the join. -/
theorem meet_anti (hA : WfAlg A) {p q : Cl A R} (hp : gradePart A R (A.n - 1) p = p) (hq : gradePart A R (A.n - 1) q = q) :
    meet A R p q = - meet A R q p := by
  have hn := hA.pos
  have g : ∀ {x : Cl A R}, gradePart A R (A.n - 1) x = x → gradePart A R 1 (rhMap A R x) = rhMap A R x := fun {x} h => by
    rw [rh_grade hA (k := A.n - 1) (by omega), h]
  have e := vector_wedge_self hA (rhMap A R p + rhMap A R q) (by rw [map_add, g hp, g hq])
  have e1 := vector_wedge_self hA _ (g hp)
  have e2 := vector_wedge_self hA _ (g hq)
  simp only [wedgeMap, ← gradedProductₗ_apply, map_add, LinearMap.add_apply] at e e1 e2
  rw [e1, e2, zero_add, add_zero] at e
  rw [meet_eq, meet_eq, ← map_neg, wedgeMap, wedgeMap, ← gradedProductₗ_apply, ← gradedProductₗ_apply]
  rw [eq_neg_of_add_eq_zero_left e, neg_neg]

theorem one_bit (hA : WfAlg A) {b : Nat} (hb : b < 2 ^ A.n) (h : popcount b = 1) : ∃ i < A.n, b = 2 ^ i := Props.popcount_one_bits hA hb h

/-- The velocity of a point under a rate is, up to a sign of the algebra, its join with the rate times the pseudoscalar. -/
theorem velocity (hA : WfAlg A) {p b : Cl A R} (hp : gradePart A R (A.n - 1) p = p) (hb : gradePart A R 2 b = b) :
    comm A R p b = (-1 : R) ^ (A.n + pc A.n A.negatives) • (meet A R p b * blade A R A.pss) := by
  have hn := hA.pos
  have hP := pss_lt A
  have : (comm A R).compl₁₂ (gradePart A R (A.n - 1)) (gradePart A R 2) =
      ((meet A R).compl₁₂ (gradePart A R (A.n - 1)) (gradePart A R 2)).compr₂
        ((-1 : R) ^ (A.n + pc A.n A.negatives) • (LinearMap.mul R (Cl A R)).flip (blade A R A.pss)) := by
    apply lin_ext₂
    intro a ha c hc
    rw [LinearMap.compr₂_apply, LinearMap.compl₁₂_apply, LinearMap.compl₁₂_apply, gradePart_blade _ ha, gradePart_blade _ hc]
    by_cases h2 : popcount a = A.n - 1
    · by_cases h3 : popcount c = 2
      · rw [if_pos h2, if_pos h3]
        change _ = (-1 : R) ^ (A.n + pc A.n A.negatives) • (meet A R (blade A R a) (blade A R c) * blade A R A.pss)
        have ga := compl_pop hA ha
        obtain ⟨i, hi, ei⟩ := one_bit hA (xor_lt ha hP) (by omega)
        have ea : a = A.pss ^^^ 2 ^ i := by rw [← ei, Nat.xor_comm, xor_xor_pss]
        by_cases hic : c.testBit i
        · have hci : c &&& 2 ^ i = 2 ^ i := by
            apply Nat.eq_of_testBit_eq
            intro j
            rw [Nat.testBit_and, Nat.testBit_two_pow]
            by_cases hj : i = j
            · subst hj; simp [hic]
            · simp [hj]
          have gx := popcount_xor c (2 ^ i)
          rw [hci, popcount_two_pow hA hi, h3] at gx
          have li : 2 ^ i < 2 ^ A.n := Nat.pow_lt_pow_right (by norm_num) hi
          obtain ⟨k, hk, ek⟩ := one_bit hA (xor_lt hc li) (by omega)
          have ec : c = 2 ^ i ^^^ 2 ^ k := by rw [← ek, Nat.xor_comm c, ← Nat.xor_assoc, Nat.xor_self, Nat.zero_xor]
          have hik : i ≠ k := by
            rintro rfl
            rw [ec, Nat.xor_self] at h3
            simp [popcount, bitSet] at h3
          rw [ea, ec]
          exact velocity_blade hA hi hk hik
        · have m0 : meet A R (blade A R a) (blade A R c) = 0 := by
            rw [meet_blade hA ha hc, if_neg]
            intro h0
            rw [ei] at h0
            have := congrArg (·.testBit i) h0
            simp only [Nat.testBit_and, Nat.testBit_two_pow_self, Nat.testBit_xor, Nat.zero_testBit, Alg.pss, Nat.testBit_two_pow_sub_one] at this
            simp [hic, hi] at this
          have c0 : halfSign (sgn A) (-1) a c = 0 := by
            have hac : a &&& c = c := by
              rw [ea, Nat.and_xor_distrib_right, Nat.and_comm, pc_and_pss hc]
              have : 2 ^ i &&& c = 0 := by
                apply Nat.eq_of_testBit_eq
                intro j
                rw [Nat.testBit_and, Nat.testBit_two_pow, Nat.zero_testBit]
                by_cases hj : i = j
                · subst hj; simp [hic]
                · simp [hj]
              rw [this, Nat.xor_zero]
            have hi2 := inv_add A.n a c
            have h3' : pc A.n c = 2 := by rw [← popcount_of_lt hA.le32 hc]; exact h3
            rw [hac, h3'] at hi2
            have hs : sgn A c a = sgn A a c := by
              unfold sgn
              rw [Nat.and_comm c a, pow_add, pow_add, neg_one_pow_eq_iff.2 (show inv A.n c a % 2 = inv A.n a c % 2 by omega)]
            have := halfSign_two (s := -1) (Or.inr rfl) (sgn_swap A a c)
            rw [hs] at this
            omega
          rw [m0, comm_blade_cast ha hc, c0]
          simp
      · rw [if_neg h3]; simp
    · rw [if_neg h2]; simp
  have := LinearMap.congr_fun₂ this p b
  rw [LinearMap.compr₂_apply, LinearMap.compl₁₂_apply, LinearMap.compl₁₂_apply, hp, hb] at this
  exact this

/-- The join of the complement of a vector with a vector is their inner product, up to a sign of the algebra. -/
theorem pairing (hA : WfAlg A) {u v : Cl A R} (hu : gradePart A R 1 u = u) (hv : gradePart A R 1 v = v) :
    meet A R (u * blade A R A.pss) v = (-1 : R) ^ (A.n + 1 + pc A.n A.negatives) • innerMap A R u v := by
  have hP := pss_lt A
  have : ((meet A R).comp ((LinearMap.mul R (Cl A R)).flip (blade A R A.pss))).compl₁₂ (gradePart A R 1) (gradePart A R 1) =
      (-1 : R) ^ (A.n + 1 + pc A.n A.negatives) • (gradedProductₗ A R fun i j k => i + k = j ∨ j + k = i).compl₁₂ (gradePart A R 1) (gradePart A R 1) := by
    apply lin_ext₂
    intro a ha c hc
    rw [LinearMap.smul_apply, LinearMap.smul_apply, LinearMap.compl₁₂_apply, LinearMap.compl₁₂_apply, gradePart_blade _ ha, gradePart_blade _ hc]
    by_cases h2 : popcount a = 1
    · by_cases h3 : popcount c = 1
      · rw [if_pos h2, if_pos h3]
        change meet A R (blade A R a * blade A R A.pss) (blade A R c) = _
        obtain ⟨k, hk, rfl⟩ := one_bit hA ha h2
        obtain ⟨l, hl, rfl⟩ := one_bit hA hc h3
        rw [gradedProductₗ_apply, gradedProduct_blade hA _ ha hc, h2, h3, blade_mul hA, map_smul, LinearMap.smul_apply, meet_blade hA (xor_lt ha hP) hc,
          xor_xor_pss]
        by_cases hkl : k = l
        · subst hkl
          have e1 : 2 ^ k ^^^ A.pss ^^^ 2 ^ k = A.pss := by rw [Nat.xor_comm (2 ^ k), Nat.xor_assoc, Nat.xor_self, Nat.xor_zero]
          have a1 : 2 ^ k &&& (2 ^ k ^^^ A.pss) = 0 := by
            rw [Nat.and_xor_distrib_left, Nat.and_self, and_pss_pow hk, Nat.xor_self]
          rw [e1, if_pos a1, Nat.xor_self, Nat.xor_self, if_pos (by simp [popcount, bitSet]), blade_mul hA, Nat.xor_self, sgn_share (and_pss_pow hk),
            sgn_share (Nat.and_self _), smul_smul, smul_smul]
          congr 1
          push_cast
          rw [mul_right_comm, ← pow_add, ← mul_assoc, ← pow_add]
          congr 1
          apply sign_congr
          push_cast
          simp only [← i2.eq_1, ← p2.eq_1, i2_left, i2_right, p2_and_xor, i2_pow]
          have w1 := i2_swap A.n A.pss (2 ^ k)
          rw [Nat.and_comm, and_pss_pow hk, p2_pow hk, p2_pss] at w1
          have w3 : p2 A.n (A.pss &&& A.negatives) = p2 A.n A.negatives := by rw [p2, p2, pc_neg_pss]
          have w4 : p2 A.n (0 &&& A.negatives) = 0 := by simp [p2]
          have w5 : i2 A.n 0 A.pss = 0 := by
            have := i2_left A.n 0 0 A.pss
            rw [Nat.xor_self] at this
            simpa using this
          rw [w3, w4, w5]
          linear_combination (norm := (ring_nf; reduce_mod_char)) w1
        · rw [if_neg, if_neg, smul_zero, smul_zero]
          · have gx := popcount_xor (2 ^ k) (2 ^ l)
            rw [pow_and hkl, h2, h3] at gx
            have : popcount 0 = 0 := by simp [popcount, bitSet]
            omega
          · rw [Nat.and_xor_distrib_left, pow_and hkl, and_pss_pow hk, Nat.zero_xor]
            exact (Nat.two_pow_pos _).ne'
      · rw [if_neg h3]; simp
    · rw [if_neg h2]; simp
  have := LinearMap.congr_fun₂ this u v
  rw [LinearMap.smul_apply, LinearMap.smul_apply, LinearMap.compl₁₂_apply, LinearMap.compl₁₂_apply, hu, hv, gradedProductₗ_apply] at this
  exact this

/-- The join of elements of complementary grades is the coefficient of the pseudoscalar of their wedge. -/
theorem meet_wedge (hA : WfAlg A) {j k : Nat} (hjk : j + k = A.n) {x y : Cl A R} (hx : gradePart A R j x = x) (hy : gradePart A R k y = y) :
    meet A R x y = ((-1 : R) ^ pc A.n A.negatives * coef A R A.pss (wedgeMap A R x y)) • 1 := by
  have hP := pss_lt A
  have : (meet A R).compl₁₂ (gradePart A R j) (gradePart A R k) =
      ((gradedProductₗ A R fun i j k => i + j = k).compl₁₂ (gradePart A R j) (gradePart A R k)).compr₂
        ((-1 : R) ^ pc A.n A.negatives • (coef A R A.pss).smulRight (1 : Cl A R)) := by
    apply lin_ext₂
    intro a ha c hc
    rw [LinearMap.compr₂_apply, LinearMap.compl₁₂_apply, LinearMap.compl₁₂_apply, gradePart_blade _ ha, gradePart_blade _ hc]
    by_cases h2 : popcount a = j
    · by_cases h3 : popcount c = k
      · rw [if_pos h2, if_pos h3, gradedProductₗ_apply, ← wedgeMap, wedge_blade hA ha hc, meet_blade hA ha hc, LinearMap.smul_apply,
          LinearMap.smulRight_apply]
        have ga := compl_pop hA ha
        have gc := compl_pop hA hc
        by_cases h0 : a &&& c = 0
        · have g1 := (grade_add_iff hA ha c).2 h0
          have ec : a ^^^ c = A.pss := by
            have g2 := compl_pop hA (xor_lt ha hc)
            have g3 := (popcount_eq_zero hA.le32 (xor_lt (xor_lt ha hc) hP)).1 (by omega)
            have := congrArg (· ^^^ A.pss) g3
            simpa [xor_xor_pss] using this
          have ec' : c = a ^^^ A.pss := by rw [← ec, ← Nat.xor_assoc, Nat.xor_self, Nat.zero_xor]
          have ea : c ^^^ A.pss = a := by rw [ec', xor_xor_pss]
          rw [if_pos h0, ec, ea, ← ec', if_pos (by rw [Nat.and_comm]; exact h0), Nat.xor_self, blade_zero, map_smul, coef_blade _ _ hP, if_pos rfl, smul_eq_mul, mul_one,
            smul_smul, ← pow_add]
          congr 1
          apply sign_congr
          push_cast
          simp only [← i2.eq_1, ← p2.eq_1]
          have w2 : p2 A.n (c &&& A.negatives) = p2 A.n (a &&& A.negatives) + p2 A.n A.negatives := by
            rw [ec', p2_and_xor]
            congr 1
            rw [p2, p2, pc_neg_pss]
          have w4 : p2 A.n (0 &&& A.negatives) = 0 := by simp [p2]
          have w5 : i2 A.n 0 A.pss = 0 := by
            have := i2_left A.n 0 0 A.pss
            rw [Nat.xor_self] at this
            simpa using this
          rw [w2, w4, w5]
          linear_combination (norm := (ring_nf; reduce_mod_char)) (0 : ZMod 2)
        · rw [if_neg h0, if_neg, map_zero, zero_smul, smul_zero]
          intro h1
          have g1 := (grade_add_iff hA (xor_lt ha hP) (c ^^^ A.pss)).2 h1
          have hx : (a ^^^ A.pss) ^^^ (c ^^^ A.pss) = a ^^^ c := by
            rw [Nat.xor_comm c, Nat.xor_assoc, ← Nat.xor_assoc A.pss, Nat.xor_self, Nat.zero_xor]
          rw [hx] at g1
          exact h0 ((grade_add_iff hA ha c).1 (by omega))
      · rw [if_neg h3]; simp
    · rw [if_neg h2]; simp
  have := LinearMap.congr_fun₂ this x y
  rw [LinearMap.compr₂_apply, LinearMap.compl₁₂_apply, LinearMap.compl₁₂_apply, hx, hy, gradedProductₗ_apply, LinearMap.smul_apply,
    LinearMap.smulRight_apply, smul_smul] at this
  exact this

/-- The momentum of a point, joined with a second rate, is the inner product of the joins of the point with the two rates. -/
theorem inertia_form (hA : WfAlg A) {p b c : Cl A R} (hp : gradePart A R (A.n - 1) p = p) (hb : gradePart A R 2 b = b) (hc : gradePart A R 2 c = c)
    (h2 : 2 ≤ A.n) : meet A R (meet A R p (comm A R p b)) c = innerMap A R (meet A R p b) (meet A R p c) := by
  have g : ∀ {x : Cl A R}, gradePart A R 2 x = x → gradePart A R 1 (meet A R p x) = meet A R p x := fun h =>
    meet_grade hA hp h (by omega) h2 (by omega)
  have hq : gradePart A R (A.n - 1) (comm A R p b) = comm A R p b := by
    rw [comm_swap hA, map_neg, comm_grade hA hb hp]
  rw [meet_anti hA hp hq, map_neg, LinearMap.neg_apply, meet_assoc hA, velocity hA hp hb, map_smul, LinearMap.smul_apply, pairing hA (g hb) (g hc), smul_smul,
    ← pow_add, ← neg_smul, ← neg_one_mul, ← pow_succ', show A.n + pc A.n A.negatives + (A.n + 1 + pc A.n A.negatives) + 1 =
      2 * (A.n + pc A.n A.negatives + 1) by ring, pow_mul]
  simp

end Verif
