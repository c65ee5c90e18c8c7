import Verif.Proofs.Spinor
import Verif.Proofs.Faddeev
import Mathlib.FieldTheory.IsAlgClosed.AlgebraicClosure
import Mathlib.RingTheory.Localization.FractionRing
import Mathlib.RingTheory.MvPolynomial.Basic
import Mathlib.Algebra.MvPolynomial.Eval
import Mathlib.Algebra.Algebra.Rat
/-!
The recursion of `inverse_shirokov` on coefficients: it ends in a scalar, which is multiplicative.  Proved for algebraically
closed fields by a matrix representation, then for all rings by polynomial identities.
-/
namespace Verif.Shirokov
open Finset Matrix Spinor

section ring
variable {R : Type*} [CommRing R]

/-- Structure constants of blades for the weights `m`. -/
def sc (n : ℕ) (m : ℕ → R) (a b : ℕ) : R := (-1) ^ inv n a b * mprod m n a b

/-- The product, on coefficients. -/
def mulc (n : ℕ) (m : ℕ → R) (f g : ℕ → R) (c : ℕ) : R := ∑ a ∈ range (2 ^ n), sc n m a (a ^^^ c) * (f a * g (a ^^^ c))

/-- The element with coefficients `f` in an algebra with anticommuting generators. -/
def T {B : Type*} [Ring B] [Algebra R B] (γ : ℕ → B) (n : ℕ) (f : ℕ → R) : B := ∑ b ∈ range (2 ^ n), f b • P γ n b

theorem sum_xor {M : Type*} [AddCommMonoid M] (n a : ℕ) (ha : a < 2 ^ n) (f : ℕ → M) :
    ∑ b ∈ range (2 ^ n), f b = ∑ b ∈ range (2 ^ n), f (a ^^^ b) := by
  apply Finset.sum_nbij' (fun b => a ^^^ b) (fun b => a ^^^ b)
  · intro b hb; rw [mem_range] at *; exact Nat.xor_lt_two_pow ha hb
  · intro b hb; rw [mem_range] at *; exact Nat.xor_lt_two_pow ha hb
  · intro b _; rw [← Nat.xor_assoc, Nat.xor_self, Nat.zero_xor]
  · intro b _; rw [← Nat.xor_assoc, Nat.xor_self, Nat.zero_xor]
  · intro b _; rw [← Nat.xor_assoc, Nat.xor_self, Nat.zero_xor]

theorem T_mul {B : Type*} [Ring B] [Algebra R B] (γ : ℕ → B) (n : ℕ) (m : ℕ → R)
    (hsq : ∀ i < n, γ i * γ i = algebraMap R B (m i))
    (hac : ∀ i < n, ∀ j < n, i ≠ j → γ i * γ j = -(γ j * γ i)) (f g : ℕ → R) :
    T γ n f * T γ n g = T γ n (mulc n m f g) := by
  have h := P_mul γ m n hsq hac n le_rfl
  rw [T, T, T, Finset.sum_mul_sum]
  simp only [mulc, Finset.sum_smul]
  rw [Finset.sum_comm (s := range (2 ^ n)) (t := range (2 ^ n)) (f := fun c a => (sc n m a (a ^^^ c) * (f a * g (a ^^^ c))) • P γ n c)]
  apply Finset.sum_congr rfl
  intro a ha
  rw [mem_range] at ha
  rw [sum_xor n a ha]
  apply Finset.sum_congr rfl
  intro c _
  rw [smul_mul_smul_comm, h, ← Nat.xor_assoc, Nat.xor_self, Nat.zero_xor, smul_smul, sc]
  congr 1; ring

theorem T_add {B : Type*} [Ring B] [Algebra R B] (γ : ℕ → B) (n : ℕ) (f g : ℕ → R) :
    T γ n (fun b => f b - g b) = T γ n f - T γ n g := by
  simp [T, sub_smul]

theorem T_single {B : Type*} [Ring B] [Algebra R B] (γ : ℕ → B) (n a : ℕ) (ha : a < 2 ^ n) (r : R) :
    T γ n (fun b => if b = a then r else 0) = r • P γ n a := by
  rw [T, Finset.sum_eq_single a]
  · simp
  · intro b _ hb; simp [hb]
  · intro h; exact absurd (mem_range.mpr ha) h

variable [Algebra ℚ R]

/-- The recursion of `inverse_shirokov`, on coefficients. -/
def U (N n : ℕ) (m : ℕ → R) (a : ℕ → R) : ℕ → ℕ → R
  | 0 => a
  | k + 1 => mulc n m a fun b => U N n m a k b - if b = 0 then algebraMap ℚ R (N / (k + 1)) * U N n m a k 0 else 0

omit [Algebra ℚ R] in
theorem map_mulc {S : Type*} [CommRing S] (φ : R →+* S) (n : ℕ) (m f g : ℕ → R) (c : ℕ) :
    φ (mulc n m f g c) = mulc n (fun i => φ (m i)) (fun i => φ (f i)) (fun i => φ (g i)) c := by
  simp only [mulc, map_sum, map_mul, sc, map_pow, map_neg, map_one, mprod, map_prod]
  apply Finset.sum_congr rfl
  intro a _
  congr 2
  apply Finset.prod_congr rfl
  intro i _
  split <;> simp

theorem map_U {S : Type*} [CommRing S] [Algebra ℚ S] (φ : R →+* S) (N n : ℕ) (m a : ℕ → R) (k b : ℕ) :
    φ (U N n m a k b) = U N n (fun i => φ (m i)) (fun i => φ (a i)) k b := by
  induction k generalizing b with
  | zero => rfl
  | succ k ih =>
    rw [U, U, map_mulc]
    congr 1
    ext b
    rw [map_sub, ih]
    split
    · rw [map_mul, ih, RingHom.map_rat_algebraMap]
    · simp

end ring

section closed
variable {F : Type*} [Field F] [CharZero F] [IsAlgClosed F]

omit [CharZero F] [IsAlgClosed F] in
theorem P_smul {B : Type*} [Ring B] [Algebra F B] (x : ℕ → F) (γ : ℕ → B) (k b : ℕ) :
    P (fun i => x i • γ i) k b = (∏ i ∈ range k, if b.testBit i then x i else 1) • P γ k b := by
  induction k with
  | zero => simp [P]
  | succ k ih =>
    rw [P, P, ih, prod_range_succ]
    by_cases hb : b.testBit k
    · simp only [hb, if_true, smul_mul_smul_comm]
    · simp [hb]

theorem P_more {B : Type*} [Ring B] (γ : ℕ → B) (n k b : ℕ) (hb : b < 2 ^ n) : P γ (n + k) b = P γ n b := by
  induction k with
  | zero => rfl
  | succ k ih =>
    rw [← Nat.add_assoc, P, ih, Nat.testBit_lt_two_pow (lt_of_lt_of_le hb (Nat.pow_le_pow_right (by omega) (by omega)))]
    simp

omit [CharZero F] in
/-- Matrices of size `2^h`, `2 * h` at least the dimension, with the given squares, whose products of distinct ones have trace zero. -/
theorem exists_matrices (n h : ℕ) (hn : n ≤ 2 * h) (m : ℕ → F) : ∃ γ : ℕ → Matrix (I h) (I h) F,
    (∀ i < n, γ i * γ i = algebraMap F _ (m i)) ∧ (∀ i < n, ∀ j < n, i ≠ j → γ i * γ j = -(γ j * γ i)) ∧
    ∀ b < 2 ^ n, trace (P γ n b) = if b = 0 then 2 ^ h else 0 := by
  have hx : ∀ i, ∃ x : F, m i * sq F i = x * x := fun i => IsAlgClosed.exists_eq_mul_self _
  choose x hx using hx
  have hs : ∀ i, sq F i * sq F i = 1 := by intro i; unfold Spinor.sq; split <;> simp
  refine ⟨fun i => x i • Spinor.γ F h i, ?_, ?_, ?_⟩
  · intro i hi
    rw [smul_mul_smul_comm, γ_sq F h i (by omega), ← hx, Algebra.smul_def, ← map_mul, mul_assoc, hs, mul_one]
  · intro i hi j hj hij
    rw [smul_mul_smul_comm, smul_mul_smul_comm, γ_anti F h i j (by omega) (by omega) hij, mul_comm (x i), smul_neg]
  · intro b hb
    rw [P_smul]
    split
    · next h0 => subst h0; simp [P_zero, card_I]
    · next h0 =>
      obtain ⟨k, hk⟩ : ∃ k, 2 * h = n + k := ⟨2 * h - n, by omega⟩
      rw [trace_smul, ← P_more _ n k b hb, ← hk, trace_P F h b (lt_of_lt_of_le hb (Nat.pow_le_pow_right (by omega) hn)) h0, smul_zero]

theorem closed_last [Algebra ℚ F] (n h : ℕ) (hn : n ≤ 2 * h) (h1 : 1 ≤ h) (m : ℕ → F) (hm : ∀ i < n, m i ≠ 0) :
    (∀ a b, 0 < b → b < 2 ^ n → U (2 ^ h) n m a (2 ^ h - 1) b = 0) ∧
    ∀ a b, U (2 ^ h) n m (mulc n m a b) (2 ^ h - 1) 0 =
      -(U (2 ^ h) n m a (2 ^ h - 1) 0 * U (2 ^ h) n m b (2 ^ h - 1) 0) := by
  obtain ⟨γ, hsq, hac, htr⟩ := exists_matrices n h hn m
  have hmul := T_mul γ n m hsq hac
  have hN : (2 ^ h : F) ≠ 0 := pow_ne_zero _ two_ne_zero
  have htrT : ∀ f, trace (T γ n f) = 2 ^ h * f 0 := by
    intro f
    rw [T, trace_sum, Finset.sum_eq_single 0]
    · rw [trace_smul, htr 0 (by positivity), if_pos rfl, smul_eq_mul, mul_comm]
    · intro b hb hb0
      rw [trace_smul, htr b (mem_range.mp hb), if_neg hb0, smul_zero]
    · intro h; exact absurd (mem_range.mpr (by positivity)) h
  have hfl : ∀ a k, T γ n (U (2 ^ h) n m a k) = Faddeev.fl (T γ n a) k := by
    intro a k
    induction k with
    | zero => rfl
    | succ k ih =>
      rw [U, Faddeev.fl, ← ih, ← hmul, T_add, T_single _ _ _ (by positivity), P_zero, htrT]
      congr 3
      rw [eq_ratCast]; push_cast; ring
  have hodd : (-1 : F) ^ (2 ^ h - 1) = -1 := by
    apply Odd.neg_one_pow
    obtain ⟨k, rfl⟩ : ∃ k, h = k + 1 := ⟨h - 1, by omega⟩
    refine ⟨2 ^ k - 1, ?_⟩
    have : 0 < 2 ^ k := by positivity
    rw [pow_succ]; omega
  have hlast : ∀ a, T γ n (U (2 ^ h) n m a (2 ^ h - 1)) = (-(T γ n a).det) • 1 := by
    intro a
    have := Faddeev.fl_last (T γ n a) (by rw [card_I]; positivity)
    rw [card_I] at this
    rw [hfl, this, hodd, neg_one_mul]
  have hdet : ∀ a, U (2 ^ h) n m a (2 ^ h - 1) 0 = -(T γ n a).det := by
    intro a
    have := htrT (U (2 ^ h) n m a (2 ^ h - 1))
    rw [hlast, trace_smul, trace_one, card_I, smul_eq_mul] at this
    push_cast at this
    rw [mul_comm] at this
    exact (mul_left_cancel₀ hN this).symm
  constructor
  · intro a b h0 hb
    have e1 := htrT (mulc n m (U (2 ^ h) n m a (2 ^ h - 1)) fun c => if c = b then 1 else 0)
    rw [← hmul, hlast, T_single _ _ _ hb, smul_mul_assoc, one_mul, one_smul, trace_smul, htr b hb, if_neg (by omega), smul_zero] at e1
    have e2 := (mul_eq_zero.mp e1.symm).resolve_left hN
    rw [mulc, Finset.sum_eq_single b] at e2
    · rw [Nat.xor_zero, if_pos rfl, mul_one] at e2
      refine (mul_eq_zero.mp e2).resolve_left ?_
      rw [sc]
      apply mul_ne_zero
      · exact pow_ne_zero _ (by simp)
      · rw [mprod]
        apply prod_ne_zero_iff.mpr
        intro i hi
        split
        · exact hm i (mem_range.mp hi)
        · exact one_ne_zero
    · intro c _ hc
      rw [Nat.xor_zero, if_neg hc, mul_zero, mul_zero]
    · intro h; exact absurd (mem_range.mpr hb) h
  · intro a b
    rw [hdet, hdet, hdet, ← hmul, det_mul]; ring

end closed

/-- Polynomials in the weights and two sets of coefficients. -/
abbrev Pol := MvPolynomial (ℕ ⊕ ℕ ⊕ ℕ) ℚ
/-- A field in which they have roots. -/
abbrev K := AlgebraicClosure (FractionRing Pol)

theorem inj : Function.Injective (algebraMap Pol K) := by
  rw [IsScalarTower.algebraMap_eq Pol (FractionRing Pol) K]
  exact (algebraMap (FractionRing Pol) K).injective.comp (IsFractionRing.injective _ _)

instance : CharZero K := charZero_of_injective_algebraMap inj

variable {R : Type*} [CommRing R] [Algebra ℚ R]

theorem last_scalar (n h : ℕ) (hn : n ≤ 2 * h) (h1 : 1 ≤ h) (m a : ℕ → R) (b : ℕ) (h0 : 0 < b) (hb : b < 2 ^ n) :
    U (2 ^ h) n m a (2 ^ h - 1) b = 0 := by
  have g := (closed_last (F := K) n h hn h1 (fun i => algebraMap Pol K (MvPolynomial.X (.inl i)))
    (fun i _ hi => MvPolynomial.X_ne_zero (R := ℚ) (Sum.inl i : ℕ ⊕ ℕ ⊕ ℕ) (inj (by rw [hi, map_zero])))).1
    (fun i => algebraMap Pol K (MvPolynomial.X (.inr (.inl i)))) b h0 hb
  rw [← map_U (algebraMap Pol K), ← map_zero (algebraMap Pol K)] at g
  have g := congrArg (MvPolynomial.aeval (R := ℚ) (Sum.elim m (Sum.elim a a))).toRingHom (inj g)
  rw [map_U] at g
  simpa using g

theorem last_mul (n h : ℕ) (hn : n ≤ 2 * h) (h1 : 1 ≤ h) (m a b : ℕ → R) :
    U (2 ^ h) n m (mulc n m a b) (2 ^ h - 1) 0 =
      -(U (2 ^ h) n m a (2 ^ h - 1) 0 * U (2 ^ h) n m b (2 ^ h - 1) 0) := by
  have g := (closed_last (F := K) n h hn h1 (fun i => algebraMap Pol K (MvPolynomial.X (.inl i)))
    (fun i _ hi => MvPolynomial.X_ne_zero (R := ℚ) (Sum.inl i : ℕ ⊕ ℕ ⊕ ℕ) (inj (by rw [hi, map_zero])))).2
    (fun i => algebraMap Pol K (MvPolynomial.X (.inr (.inl i)))) (fun i => algebraMap Pol K (MvPolynomial.X (.inr (.inr i))))
  rw [← map_U (algebraMap Pol K), ← map_U (algebraMap Pol K)] at g
  have e : mulc n (fun i => algebraMap Pol K (MvPolynomial.X (.inl i))) (fun i => algebraMap Pol K (MvPolynomial.X (.inr (.inl i))))
      (fun i => algebraMap Pol K (MvPolynomial.X (.inr (.inr i)))) = fun c => algebraMap Pol K (mulc n (fun i => MvPolynomial.X (.inl i))
        (fun i => MvPolynomial.X (.inr (.inl i))) (fun i => MvPolynomial.X (.inr (.inr i))) c) := by
    ext c; rw [map_mulc]
  rw [e, ← map_U (algebraMap Pol K), ← map_mul, ← map_neg] at g
  have g := congrArg (MvPolynomial.aeval (R := ℚ) (Sum.elim m (Sum.elim a b))).toRingHom (inj g)
  rw [map_neg, map_mul, map_U, map_U, map_U] at g
  simp only [map_mulc] at g
  simpa using g

end Verif.Shirokov
