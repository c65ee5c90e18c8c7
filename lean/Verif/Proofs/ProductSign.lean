import Verif.Proofs.Clifford
import Mathlib.LinearAlgebra.CliffordAlgebra.Conjugation
/-! The sign computed by `Algebra.product` is the Clifford sign; reversal and involution of blades. -/
namespace Verif
open Model Finset Spec

theorem testBit_pack (bits : List Nat) (h : ∀ b ∈ bits, b = 0 ∨ b = 1) (i : Nat) :
    (bits.reverse.foldl (fun acc b => 2 * acc + b) 0).testBit i = decide (bits.getD i 0 = 1) := by
  rw [List.foldl_reverse]
  induction bits generalizing i with
  | nil => simp
  | cons b bs ih =>
    have ih := ih (fun x hx => h x (List.mem_cons_of_mem _ hx))
    simp only [List.foldr_cons]
    have hb := h b (List.mem_cons_self)
    cases i with
    | zero =>
      rw [Nat.testBit_zero]
      rcases hb with rfl | rfl <;> simp
    | succ i =>
      rw [Nat.testBit_succ]
      have : (2 * List.foldr (fun x y => 2 * y + x) 0 bs + b) / 2 = List.foldr (fun x y => 2 * y + x) 0 bs := by
        rcases hb with rfl | rfl <;> omega
      rw [this, ih]; simp

theorem mask_testBit {A : Alg} (hA : WfAlg A) (p : Int → Prop) [DecidablePred p] (i : Nat) (hi : i < A.n) :
    (A.toDtype ((bitPack (A.desc.sig.map fun s => if p s then 1 else 0)).getD 0)).testBit i
      = decide (p (A.desc.sig.getD i 0)) := by
  have hn : A.n = A.desc.sig.length := rfl
  have hne : (A.desc.sig.map fun s => if p s then (1:Nat) else 0) ≠ [] := by
    intro h
    have := congrArg List.length h
    simp at this
    rw [hn, this] at hi; simp at hi
  rw [bitPack, if_neg hne, Option.getD_some, Alg.toDtype, Nat.testBit_mod_two_pow, testBit_pack]
  · have h1 : i < A.width := lt_of_lt_of_le hi hA.le_width
    have h2 : i < A.desc.sig.length := hi
    simp only [h1, decide_true, Bool.true_and, List.getD_eq_getElem?_getD, List.getElem?_map,
      List.getElem?_eq_getElem h2, Option.map_some, Option.getD_some]
    by_cases hp : p A.desc.sig[i] <;> simp [hp]
  · intro b hb
    rw [List.mem_map] at hb
    obtain ⟨s, _, rfl⟩ := hb
    by_cases hp : p s <;> simp [hp]

theorem negatives_testBit {A : Alg} (hA : WfAlg A) (i : Nat) (hi : i < A.n) :
    A.negatives.testBit i = decide (A.desc.sig.getD i 0 = -1) := mask_testBit hA (fun s => s = -1) i hi
theorem zeros_testBit {A : Alg} (hA : WfAlg A) (i : Nat) (hi : i < A.n) :
    A.zeros.testBit i = decide (A.desc.sig.getD i 0 = 0) := mask_testBit hA (fun s => s = 0) i hi
theorem positives_testBit {A : Alg} (hA : WfAlg A) (i : Nat) (hi : i < A.n) :
    A.positives.testBit i = decide (A.desc.sig.getD i 0 = 1) := mask_testBit hA (fun s => s = 1) i hi

theorem sig_cases {A : Alg} (hA : WfAlg A) (i : Nat) :
    A.desc.sig.getD i 0 = 1 ∨ A.desc.sig.getD i 0 = -1 ∨ A.desc.sig.getD i 0 = 0 := by
  rw [List.getD_eq_getElem?_getD]
  cases h : A.desc.sig[i]? with
  | none => simp
  | some s => exact hA.sig s (List.mem_of_getElem? h)

theorem mprod_metric {A : Alg} (hA : WfAlg A) (R : Type*) [CommRing R] (a b k : Nat) (hk : k ≤ A.n) :
    mprod (metric A R) k a b
      = (-1)^(pc k (a &&& b &&& A.negatives)) * (if pc k (a &&& b &&& A.zeros) = 0 then 1 else 0) := by
  induction k with
  | zero => simp [mprod]
  | succ k ih =>
    rw [mprod_succ, ih (by omega), pc_succ, pc_succ, Nat.testBit_and, Nat.testBit_and, Nat.testBit_and,
      negatives_testBit hA k (by omega), zeros_testBit hA k (by omega)]
    by_cases hab : a.testBit k && b.testBit k
    · simp only [hab, if_true, Bool.true_and, metric]
      rcases sig_cases hA k with h | h | h <;> rw [h]
      · simp
      · by_cases hz : pc k (a &&& b &&& A.zeros) = 0 <;> simp [hz, pow_succ]
      · have h2 : a.testBit k = true ∧ b.testBit k = true := by simpa using hab
        simp [h2.1, h2.2]
    · simp [hab]

/-- Integer sign of a pair of blades, in closed form. -/
def sgn (A : Alg) (a b : Nat) : Int :=
  (-1)^(pc A.n (a &&& b &&& A.negatives) + inv A.n a b) * (if pc A.n (a &&& b &&& A.zeros) = 0 then 1 else 0)

theorem product_eq {A : Alg} (hA : WfAlg A) {a b : Nat} (ha : a < 2^A.n) :
    A.product a b = (a ^^^ b, sgn A a b) := by
  have hab : a &&& b < 2^A.n := lt_of_le_of_lt Nat.and_le_left ha
  have h1 : A.bitDot (a &&& b) A.negatives = pc A.n (a &&& b &&& A.negatives) := by
    rw [bitDot_eq hA, pc_of_lt (lt_of_le_of_lt Nat.and_le_left hab) hA.le_width]
  have h2 : A.bitDot (a &&& b) A.zeros = pc A.n (a &&& b &&& A.zeros) := by
    rw [bitDot_eq hA, pc_of_lt (lt_of_le_of_lt Nat.and_le_left hab) hA.le_width]
  simp only [Alg.product, Alg.cayley, sgn, h1, h2]
  rw [parityToSign_eq _ (pc A.n (a &&& b &&& A.negatives) + inv A.n a b)]
  rw [Int.add_emod, swaps_parity hA b ha]
  push_cast; omega

theorem sgn_cast {A : Alg} (hA : WfAlg A) (R : Type*) [CommRing R] (a b : Nat) :
    ((sgn A a b : Int) : R) = (-1)^(inv A.n a b) * mprod (metric A R) A.n a b := by
  rw [mprod_metric hA R a b _ le_rfl, sgn, pow_add]
  push_cast
  ring

theorem blade_mul {A : Alg} (hA : WfAlg A) (R : Type*) [CommRing R] (a b : Nat) :
    blade A R a * blade A R b = ((sgn A a b : Int) : R) • blade A R (a ^^^ b) := by
  rw [blade_mul', sgn_cast hA]

theorem sgn_mem (A : Alg) (a b : Nat) : sgn A a b = 1 ∨ sgn A a b = -1 ∨ sgn A a b = 0 := by
  unfold sgn
  rcases neg_one_pow_eq_or ℤ (pc A.n (a &&& b &&& A.negatives) + inv A.n a b) with h | h <;> rw [h] <;>
    split <;> simp

/-- Sign of the reversal of a product of `k` anticommuting vectors. -/
theorem reverse_P (A : Alg) (R : Type*) [CommRing R] (k : ℕ) (hk : k ≤ A.n) (b : ℕ) :
    CliffordAlgebra.reverse (P (genN A R) k b) = ((-1 : R)^(pc k b / 2)) • P (genN A R) k b := by
  induction k with
  | zero => simp [P]
  | succ k ih =>
    rw [P, CliffordAlgebra.reverse.map_mul, ih (by omega), pc_succ]
    by_cases hb : b.testBit k
    · have hk' : k < A.n := by omega
      have hg : CliffordAlgebra.reverse (genN A R k) = genN A R k := by
        simp [genN, hk', gen]
      simp only [hb, if_true, Bool.toNat_true]
      rw [hg, mul_smul_comm, P_comm (genN A R) A.n (fun i hi j hj hij => by
        simp only [genN, hi, hj, dif_pos]; exact gen_anti A R _ _ (by simpa using hij)) k hk' k le_rfl b]
      have hpow : ∀ e : ℕ, ((-1:Cl A R))^e = algebraMap R _ ((-1)^e) := by intro e; simp
      rw [hpow, ← Algebra.smul_def, smul_smul, ← pow_add]
      congr 1
      have : (pc k b / 2 + pc k b) % 2 = ((pc k b + 1) / 2) % 2 := by
        rcases Nat.even_or_odd' (pc k b) with ⟨c, h | h⟩ <;> rw [h] <;> omega
      rw [neg_one_pow_eq_pow_mod_two, this, ← neg_one_pow_eq_pow_mod_two]
    · simp [hb]

theorem reverse_blade (A : Alg) (R : Type*) [CommRing R] (b : ℕ) :
    CliffordAlgebra.reverse (blade A R b) = ((-1 : R)^(pc A.n b / 2)) • blade A R b := by
  rw [blade_eq_P]; exact reverse_P A R _ le_rfl b

theorem involute_blade (A : Alg) (R : Type*) [CommRing R] (b : ℕ) :
    CliffordAlgebra.involute (blade A R b) = ((-1 : R)^(pc A.n b)) • blade A R b := by
  rw [blade_eq_P]
  have : ∀ k ≤ A.n, CliffordAlgebra.involute (P (genN A R) k b) = ((-1 : R)^(pc k b)) • P (genN A R) k b := by
    intro k
    induction k with
    | zero => intro _; simp [P]
    | succ k ih =>
      intro hk
      rw [P, map_mul, ih (by omega), pc_succ]
      by_cases hb : b.testBit k
      · have hk' : k < A.n := by omega
        simp only [hb, if_true, genN, hk', dif_pos, gen, CliffordAlgebra.involute_ι, pow_succ,
          Bool.toNat_true]
        simp
      · simp [hb]
  exact this _ le_rfl

end Verif
