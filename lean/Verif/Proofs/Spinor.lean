import Verif.Proofs.Clifford
import Mathlib.Data.Matrix.Block
import Mathlib.LinearAlgebra.Matrix.Trace
/-! Anticommuting matrices of size `2^m`. -/
namespace Verif.Spinor
open Matrix Finset

/-- Row numbers: `2^m` of them. -/
def I : ℕ → Type
  | 0 => Unit
  | m + 1 => I m ⊕ I m

instance : ∀ m, Fintype (I m)
  | 0 => inferInstanceAs (Fintype Unit)
  | m + 1 => letI := instFintypeI m; inferInstanceAs (Fintype (I m ⊕ I m))
instance : ∀ m, DecidableEq (I m)
  | 0 => inferInstanceAs (DecidableEq Unit)
  | m + 1 => letI := instDecidableEqI m; inferInstanceAs (DecidableEq (I m ⊕ I m))

theorem card_I (m : ℕ) : Fintype.card (I m) = 2 ^ m := by
  induction m with
  | zero => rfl
  | succ m ih => 
    have : Fintype.card (I (m + 1)) = Fintype.card (I m ⊕ I m) := rfl
    rw [this, Fintype.card_sum, ih, pow_succ]; ring

variable (F : Type*) [CommRing F]

/-- A matrix made of four blocks. -/
def blk {F : Type*} {m : ℕ} (a b c d : Matrix (I m) (I m) F) : Matrix (I (m + 1)) (I (m + 1)) F :=
  fromBlocks (l := I m) (m := I m) (n := I m) (o := I m) a b c d

/-- Generators: numbers below `2 * m`, with squares 1 and -1 alternately. -/
def γ : (m : ℕ) → ℕ → Matrix (I m) (I m) F
  | 0, _ => 0
  | m + 1, i => if i < 2 * m then blk (γ m i) 0 0 (-(γ m i)) else if i = 2 * m then blk 0 1 1 0 else blk 0 1 (-1) 0

/-- The squares of the generators. -/
def sq (i : ℕ) : F := if i % 2 = 0 then 1 else -1

theorem one_blk (m : ℕ) : (1 : Matrix (I (m + 1)) (I (m + 1)) F) = blk (1 : Matrix (I m) (I m) F) 0 0 1 :=
  (fromBlocks_one (l := I m) (m := I m) (α := F)).symm

theorem mul_blk {m : ℕ} (a b c d a' b' c' d' : Matrix (I m) (I m) F) :
    blk a b c d * blk a' b' c' d' = blk (a * a' + b * c') (a * b' + b * d') (c * a' + d * c') (c * b' + d * d') :=
  fromBlocks_multiply (l := I m) (m := I m) (n := I m) (o := I m) (p := I m) (q := I m) a b c d a' b' c' d'

theorem neg_blk {m : ℕ} (a b c d : Matrix (I m) (I m) F) : -(blk a b c d) = blk (-a) (-b) (-c) (-d) :=
  fromBlocks_neg (n := I m) (l := I m) (m := I m) (o := I m) a b c d

theorem smul_blk {m : ℕ} (r : F) (a b c d : Matrix (I m) (I m) F) : r • blk a b c d = blk (r • a) (r • b) (r • c) (r • d) :=
  fromBlocks_smul (n := I m) (l := I m) (m := I m) (o := I m) r a b c d

theorem trace_blk {m : ℕ} (a b c d : Matrix (I m) (I m) F) : trace (blk a b c d) = trace a + trace d := by
  have : ∑ i : I (m + 1), blk a b c d i i = ∑ i : I m ⊕ I m, blk a b c d i i := rfl
  rw [trace]
  simp only [diag_apply]
  rw [this, Fintype.sum_sum_type]
  rfl

theorem γ_lt (m i : ℕ) (h : i < 2 * m) : γ F (m + 1) i = blk (γ F m i) 0 0 (-(γ F m i)) := by
  rw [γ, if_pos h]
theorem γ_fst (m : ℕ) : γ F (m + 1) (2 * m) = blk 0 1 1 0 := by
  rw [γ, if_neg (by omega), if_pos rfl]
theorem γ_snd (m : ℕ) : γ F (m + 1) (2 * m + 1) = blk 0 1 (-1) 0 := by
  rw [γ, if_neg (by omega), if_neg (by omega)]

theorem γ_sq (m i : ℕ) (h : i < 2 * m) : γ F m i * γ F m i = algebraMap F _ (sq F i) := by
  induction m with
  | zero => omega
  | succ m ih =>
    rw [Algebra.algebraMap_eq_smul_one, one_blk, smul_blk]
    rcases Nat.lt_or_ge i (2 * m) with h1 | h1
    · rw [γ_lt F m i h1, mul_blk]
      have := ih h1
      rw [Algebra.algebraMap_eq_smul_one] at this
      simp [this]
    · rcases Nat.eq_or_lt_of_le h1 with h2 | h2
      · subst h2
        rw [γ_fst, mul_blk]
        simp [sq]
      · obtain rfl : i = 2 * m + 1 := by omega
        rw [γ_snd, mul_blk]
        simp [sq, show (2 * m + 1) % 2 = 1 by omega]

theorem γ_anti_lt (m i j : ℕ) (h : i < j) (hj : j < 2 * m) : γ F m i * γ F m j = -(γ F m j * γ F m i) := by
  induction m with
  | zero => omega
  | succ m ih =>
    rcases Nat.lt_or_ge j (2 * m) with h1 | h1
    · rw [γ_lt F m j h1, γ_lt F m i (by omega), mul_blk, mul_blk, neg_blk]
      have := ih h1
      simp [this]
    · rcases Nat.eq_or_lt_of_le h1 with h2 | h2
      · subst h2
        rw [γ_fst, γ_lt F m i h, mul_blk, mul_blk, neg_blk]
        simp
      · obtain rfl : j = 2 * m + 1 := by omega
        rcases Nat.lt_or_ge i (2 * m) with h3 | h3
        · rw [γ_snd, γ_lt F m i h3, mul_blk, mul_blk, neg_blk]
          simp
        · obtain rfl : i = 2 * m := by omega
          rw [γ_snd, γ_fst, mul_blk, mul_blk, neg_blk]
          simp

theorem γ_anti (m i j : ℕ) (hi : i < 2 * m) (hj : j < 2 * m) (h : i ≠ j) : γ F m i * γ F m j = -(γ F m j * γ F m i) := by
  rcases Nat.lt_or_gt_of_ne h with h | h
  · exact γ_anti_lt F m i j h hj
  · rw [γ_anti_lt F m j i h hi, neg_neg]

theorem P_lt (m k b : ℕ) (h : k ≤ 2 * m) :
    P (γ F (m + 1)) k b = blk (P (γ F m) k b) 0 0 ((-1 : F) ^ pc k b • P (γ F m) k b) := by
  induction k with
  | zero => simp only [P, pc_zero, pow_zero, one_smul]; exact one_blk F m
  | succ k ih =>
    rw [P, P, ih (by omega), pc_succ]
    by_cases hb : b.testBit k
    · simp only [hb, if_true]
      rw [γ_lt F m k (by omega), mul_blk]
      simp [pow_succ]
    · simp [hb]

theorem P_mod {B : Type*} [Ring B] (γ : ℕ → B) (k l b : ℕ) (h : k ≤ l) : P γ k (b % 2 ^ l) = P γ k b := by
  induction k with
  | zero => rfl
  | succ k ih => rw [P, P, ih (by omega), Nat.testBit_mod_two_pow]; simp [show k < l by omega]

theorem P_zero {B : Type*} [Ring B] (γ : ℕ → B) (k : ℕ) : P γ k 0 = 1 := by
  induction k with
  | zero => rfl
  | succ k ih => rw [P, ih]; simp

theorem trace_P (m b : ℕ) (h : b < 2 ^ (2 * m)) (h0 : b ≠ 0) : trace (P (γ F m) (2 * m) b) = 0 := by
  induction m generalizing b with
  | zero => simp at h; omega
  | succ m ih =>
    rw [show 2 * (m + 1) = 2 * m + 1 + 1 by ring, P, P, P_lt F m _ b le_rfl, γ_fst, γ_snd]
    have hc : b % 2 ^ (2 * m) = 0 ∨ trace (P (γ F m) (2 * m) b) = 0 := by
      by_cases hb : b % 2 ^ (2 * m) = 0
      · exact .inl hb
      · right
        rw [← P_mod _ _ (2 * m) b le_rfl]
        exact ih _ (Nat.mod_lt _ (by positivity)) hb
    rcases Bool.eq_false_or_eq_true (b.testBit (2 * m)) with h1 | h1 <;>
    rcases Bool.eq_false_or_eq_true (b.testBit (2 * m + 1)) with h2 | h2 <;>
    simp only [h1, h2, if_true, Bool.false_eq_true, if_false, mul_one, mul_blk, trace_blk]
    · rcases hc with hc | hc
      · have e1 : P (γ F m) (2 * m) b = 1 := by rw [← P_mod _ _ (2 * m) b le_rfl, hc, P_zero]
        have e2 : pc (2 * m) b = 0 := by
          apply Finset.sum_eq_zero
          intro i hi
          have := congrArg (fun x => Nat.testBit x i) hc
          simp only [Nat.testBit_mod_two_pow, mem_range.mp hi, decide_true, Bool.true_and, Nat.zero_testBit] at this
          rw [this]; rfl
        simp [e1, e2]
      · simp [trace_smul, hc]
    · simp
    · simp
    · rcases hc with hc | hc
      · exfalso
        apply h0
        apply Nat.eq_of_testBit_eq
        intro i
        rw [Nat.zero_testBit]
        rcases Nat.lt_or_ge i (2 * m) with h3 | h3
        · have := congrArg (fun x => Nat.testBit x i) hc
          simpa [Nat.testBit_mod_two_pow, h3] using this
        · rcases Nat.eq_or_lt_of_le h3 with h4 | h4
          · rw [← h4, h1]
          · rcases Nat.eq_or_lt_of_le (Nat.succ_le_of_lt h4) with h5 | h5
            · rw [← h5, h2]
            · apply Nat.testBit_lt_two_pow
              exact lt_of_lt_of_le h (Nat.pow_le_pow_right (by omega) (by omega))
      · simp [trace_smul, hc]

end Verif.Spinor
