import Verif.Proofs.Racket2
import Verif.Proofs.Chain
/-! # The corners of the box -/
namespace Verif
open Model Spec Props

/-- A coordinate of a corner of the box with half edges 1, 2, 3, .. -/
def Spec.corner (p i : Nat) : Int := if p.testBit i then i + 1 else -(i + 1)

theorem rect_eq (n : Nat) : Racket.makeNRect n = (List.range (2 ^ n)).map fun p => (List.range n).map (corner p) := by
  rw [Racket.makeNRect, Racket.makeNCube, List.map_map]
  refine List.map_congr_left fun p _ => ?_
  rw [Function.comp_apply, List.zipWith_map, List.zipWith_self]
  refine List.map_congr_left fun i _ => ?_
  rw [corner, Nat.one_shiftLeft, and_two_pow]
  cases p.testBit i <;> simp

theorem corner_flip {p i k : Nat} : corner (p ^^^ 2 ^ i) k = if k = i then -corner p k else corner p k := by
  rw [corner, corner, Nat.testBit_xor, Nat.testBit_two_pow]
  by_cases h : k = i
  · subst h; cases p.testBit k <;> simp
  · simp [h, Ne.symm h]

/-- Products of different coordinates cancel. -/
theorem corner_sum {n i k : Nat} (hi : i < n) : ∑ p ∈ Finset.range (2 ^ n), corner p i * corner p k = if i = k then 2 ^ n * ((i : Int) + 1) ^ 2 else 0 := by
  by_cases h : i = k
  · subst h
    rw [if_pos rfl, Finset.sum_congr rfl fun p _ => show corner p i * corner p i = ((i : Int) + 1) ^ 2 by rw [corner]; split_ifs <;> ring]
    simp
  · rw [if_neg h]
    refine Finset.sum_involution (fun p _ => p ^^^ 2 ^ i) ?_ ?_ ?_ ?_
    · intro p _
      rw [corner_flip, corner_flip, if_pos rfl, if_neg (Ne.symm h)]; ring
    · intro p _ _ e
      have := congrArg (fun q : Nat => q.testBit i) e
      simp at this
    · intro p hp
      rw [Finset.mem_range] at hp ⊢
      exact Nat.xor_lt_two_pow hp (Nat.pow_lt_pow_right (by norm_num) hi)
    · intro p _
      rw [Nat.xor_assoc, Nat.xor_self, Nat.xor_zero]

/-- The corners are symmetric. -/
theorem corner_zero {n i : Nat} (hi : i < n) : ∑ p ∈ Finset.range (2 ^ n), corner p i = 0 := by
  refine Finset.sum_involution (fun p _ => p ^^^ 2 ^ i) ?_ ?_ ?_ ?_
  · intro p _
    rw [corner_flip, if_pos rfl]; ring
  · intro p _ _ e
    have := congrArg (fun q : Nat => q.testBit i) e
    simp at this
  · intro p hp
    rw [Finset.mem_range] at hp ⊢
    exact Nat.xor_lt_two_pow hp (Nat.pow_lt_pow_right (by norm_num) hi)
  · intro p _
    rw [Nat.xor_assoc, Nat.xor_self, Nat.xor_zero]

/-- The entries of the skew matrix of a bivector. -/
noncomputable def Spec.spin (A : Alg) {R : Type} [Field R] (x : Cl A R) (i k : Fin A.n) : R :=
  if i < k then coef A R (2 ^ (i : Nat) ^^^ 2 ^ (k : Nat)) x else if k < i then -coef A R (2 ^ (i : Nat) ^^^ 2 ^ (k : Nat)) x else 0

section
variable {A : Alg} {R : Type} [Field R]

theorem spin_add (x y : Cl A R) (i k : Fin A.n) : spin A (x + y) i k = spin A x i k + spin A y i k := by
  simp only [spin, map_add]; split_ifs <;> ring

theorem spin_smul (c : R) (x : Cl A R) (i k : Fin A.n) : spin A (c • x) i k = c * spin A x i k := by
  simp only [spin, map_smul, smul_eq_mul]; split_ifs <;> ring

theorem spin_neg (x : Cl A R) (i k : Fin A.n) : spin A (-x) i k = -spin A x i k := by
  rw [← neg_one_smul R, spin_smul, neg_one_mul]

theorem spin_sub (x y : Cl A R) (i k : Fin A.n) : spin A (x - y) i k = spin A x i k - spin A y i k := by
  rw [sub_eq_add_neg, spin_add, spin_neg, sub_eq_add_neg]

theorem spin_skew (x : Cl A R) (i k : Fin A.n) : spin A x k i = -spin A x i k := by
  rw [spin, spin, Nat.xor_comm]
  rcases lt_trichotomy i k with h | h | h
  · simp [h, h.not_gt]
  · subst h; simp
  · simp [h, h.not_gt]

theorem pow_xor_lt (i k : Fin A.n) : 2 ^ (i : Nat) ^^^ 2 ^ (k : Nat) < 2 ^ A.n :=
  Nat.xor_lt_two_pow (Nat.pow_lt_pow_right (by norm_num) i.2) (Nat.pow_lt_pow_right (by norm_num) k.2)

theorem pow_xor_inj {i k j l : Nat} (h1 : i < k) (h2 : j < l) (h : 2 ^ i ^^^ 2 ^ k = 2 ^ j ^^^ 2 ^ l) : i = j ∧ k = l := by
  have t : ∀ m, ((decide (i = m)) ^^ (decide (k = m))) = ((decide (j = m)) ^^ (decide (l = m))) := fun m => by
    have := congrArg (fun q : Nat => q.testBit m) h
    simpa [Nat.testBit_xor, Nat.testBit_two_pow] using this
  have ti := t i
  have tk := t k
  have tj := t j
  have tl := t l
  simp only [decide_true, decide_eq_true_eq] at ti tk tj tl
  by_cases e1 : i = j <;> by_cases e2 : k = l <;> by_cases e3 : i = l <;> by_cases e4 : k = j <;> simp_all <;> omega

theorem blade_pair (hA : WfAlg A) {i k : Fin A.n} (hik : i < k) : blade A R (2 ^ (i : Nat) ^^^ 2 ^ (k : Nat)) = gen A R i * gen A R k := by
  have hne : (i : Nat) ≠ k := fun e => hik.ne (Fin.ext e)
  have e : inv A.n (2 ^ (i : Nat)) (2 ^ (k : Nat)) = 0 := by
    rw [inv, Finset.sum_eq_zero]
    intro j _
    rw [Nat.testBit_two_pow]
    by_cases hj : (i : Nat) = j
    · subst hj
      rw [show pc (i : Nat) (2 ^ (k : Nat)) = 0 from (pc_eq_zero_iff ..).2 fun m hm => by
        rw [Nat.testBit_two_pow]; simp; have : (i : Nat) < k := hik; omega, mul_zero]
    · simp [hj]
  have := blade_mul hA R (2 ^ (i : Nat)) (2 ^ (k : Nat))
  rw [sgn_disjoint (pow_and hne), e, blade_two_pow, blade_two_pow] at this
  rw [this]; simp

theorem spin_blade {i k : Fin A.n} (hik : i < k) (a c : Fin A.n) :
    spin A (blade A R (2 ^ (i : Nat) ^^^ 2 ^ (k : Nat))) a c = (if a = i ∧ c = k then 1 else 0) - if a = k ∧ c = i then 1 else 0 := by
  rw [spin, coef_blade A R (pow_xor_lt i k)]
  have e : ∀ a c : Fin A.n, a < c → ((2 ^ (a : Nat) ^^^ 2 ^ (c : Nat) = 2 ^ (i : Nat) ^^^ 2 ^ (k : Nat)) ↔ a = i ∧ c = k) := fun a c hac =>
    ⟨fun h => by have := pow_xor_inj hac hik h; exact ⟨Fin.ext this.1, Fin.ext this.2⟩, fun h => by rw [h.1, h.2]⟩
  rcases lt_trichotomy a c with h | h | h
  · rw [if_pos h]
    simp only [e a c h]
    have : ¬ (a = k ∧ c = i) := by rintro ⟨rfl, rfl⟩; exact absurd hik h.not_gt
    simp [this]
  · subst h
    have h1 : ¬ (a = i ∧ a = k) := by rintro ⟨rfl, rfl⟩; exact absurd hik (lt_irrefl _)
    have h2 : ¬ (a = k ∧ a = i) := by rintro ⟨rfl, rfl⟩; exact absurd hik (lt_irrefl _)
    simp [h1, h2]
  · rw [if_neg h.not_gt, if_pos h, Nat.xor_comm]
    simp only [e c a h]
    have : ¬ (a = i ∧ c = k) := by rintro ⟨rfl, rfl⟩; exact absurd hik h.not_gt
    simp only [this, if_false, zero_sub, and_comm]

/-- A bivector is determined by its matrix. -/
theorem spin_ext (hA : WfAlg A) {x y : Cl A R} (hx : gradePart A R 2 x = x) (hy : gradePart A R 2 y = y) (h : ∀ i k, i < k → spin A x i k = spin A y i k) : x = y := by
  refine Euc.coef_ext fun b hb => ?_
  rw [← hx, ← hy, Euc.coef_gradePart _ _ hb, Euc.coef_gradePart _ _ hb]
  split_ifs with h2
  · obtain ⟨i, k, hik, rfl⟩ := two_bit hA hb h2
    rcases lt_or_gt_of_ne hik with h1 | h1
    · have := h i k h1; rwa [spin, spin, if_pos h1, if_pos h1] at this
    · have := h k i h1; rw [spin, spin, if_pos h1, if_pos h1] at this; rwa [Nat.xor_comm]
  · rfl

theorem coef_gen (i k : Fin A.n) : coef A R (2 ^ (i : Nat)) (gen A R k) = if i = k then 1 else 0 := by
  rw [← blade_two_pow, coef_blade A R (Nat.pow_lt_pow_right (by norm_num) k.2)]
  by_cases h : i = k
  · simp [h]
  · rw [if_neg h, if_neg]
    intro e
    exact h (Fin.ext (Nat.pow_right_injective (le_refl 2) e))

end

namespace Spec.Euc
variable {A : Alg} (h : Euc A) {R : Type} [Field R] [DecidableEq R] (h2 : (2 : R) ≠ 0)
include h h2

/-- A bivector turns the vectors by its matrix. -/
theorem comm_vec {x : Cl A R} (hx : gradePart A R 2 x = x) (v : Fin A.n → R) : comm A R x (vec A v) = vec A fun i => ∑ k, spin A x i k * v k := by
  let P : Cl A R → Prop := fun x => ∀ v : Fin A.n → R, comm A R x (vec A v) = vec A fun i => ∑ k, spin A x i k * v k
  have padd : ∀ x y, P x → P y → P (x + y) := fun x y px py v => by
    rw [map_add, LinearMap.add_apply, px, py, show (fun i => ∑ k, spin A (x + y) i k * v k) = (fun i => ∑ k, spin A x i k * v k) + fun i => ∑ k, spin A y i k * v k by
      funext i; simp only [Pi.add_apply, spin_add, add_mul, Finset.sum_add_distrib]]
    exact (map_add _ _ _).symm
  have psmul : ∀ (c : R) x, P x → P (c • x) := fun c x px v => by
    rw [map_smul, LinearMap.smul_apply, px, show (fun i => ∑ k, spin A (c • x) i k * v k) = c • fun i => ∑ k, spin A x i k * v k by
      funext i; simp only [Pi.smul_apply, spin_smul, smul_eq_mul, Finset.mul_sum, mul_assoc]]
    exact (map_smul _ _ _).symm
  have pzero : P 0 := fun v => by
    rw [map_zero, LinearMap.zero_apply, show (fun i => ∑ k, spin A (0 : Cl A R) i k * v k) = 0 by funext i; simp [spin]]
    exact (map_zero _).symm
  have pblade : ∀ i k : Fin A.n, i < k → P (blade A R (2 ^ (i : Nat) ^^^ 2 ^ (k : Nat))) := fun i k hik v => by
    have e : (fun a => ∑ c, spin A (blade A R (2 ^ (i : Nat) ^^^ 2 ^ (k : Nat))) a c * v c) = turn v i k := by
      funext a
      simp only [spin_blade hik, sub_mul, Finset.sum_sub_distrib, turn, Pi.sub_apply, Pi.smul_apply, Pi.single_apply, smul_eq_mul]
      congr 1
      · by_cases ha : a = i <;> simp [ha]
      · by_cases ha : a = k <;> simp [ha]
    rw [e, blade_pair h.wf hik]
    have key : (2 : R) • comm A R (gen A R i * gen A R k) (vec A v) = (2 : R) • vec A (turn v i k) := by
      have g : ∀ j : Fin A.n, vec A v * gen A R j + gen A R j * vec A v = (2 * v j) • 1 := fun j => by
        have e1 := dotvec_swap (A := A) v (Pi.single j 1)
        rw [h.dot_eq] at e1
        simp only [Pi.single_apply, mul_ite, mul_one, mul_zero, Finset.sum_ite_eq', Finset.mem_univ, if_true] at e1
        rw [add_comm]
        exact eq_sub_iff_add_eq.1 e1
      have gi := eq_sub_of_add_eq (g i)
      have gk := eq_sub_of_add_eq (g k)
      rw [two_comm h.wf, ← mul_assoc (vec A v), gi, sub_mul, mul_assoc (gen A R i) (vec A v), gk, turn]
      have ev : vec A (v k • Pi.single i 1 - v i • Pi.single k 1) = v k • gen A R i - v i • gen A R k := by
        rw [vec, map_sub, map_smul, map_smul]; rfl
      rw [ev]
      simp only [mul_sub, smul_sub, smul_mul_assoc, mul_smul_comm, one_mul, mul_one, smul_smul, mul_assoc]
      abel
    exact smul_right_injective _ h2 key
  rw [show x = ∑ b ∈ Finset.range (2 ^ A.n), coef A R b x • blade A R b from sum_coef A R x] 
  have : P (∑ b ∈ Finset.range (2 ^ A.n), coef A R b x • blade A R b) := by
    refine Finset.sum_induction _ P padd pzero fun b hb => ?_
    have hb := Finset.mem_range.1 hb
    by_cases hp : popcount b = 2
    · obtain ⟨i, k, hik, rfl⟩ := two_bit h.wf hb hp
      rcases lt_or_gt_of_ne hik with h1 | h1
      · exact psmul _ _ (pblade i k h1)
      · rw [Nat.xor_comm]; exact psmul _ _ (pblade k i h1)
    · have := coef_gradePart 2 x hb
      rw [hx, if_neg hp] at this
      rw [this, zero_smul]; exact pzero
  exact this v

/-- The matrix of the commutator of bivectors is the commutator of the matrices. -/
theorem spin_comm {x y : Cl A R} (hx : gradePart A R 2 x = x) (hy : gradePart A R 2 y = y) (i k : Fin A.n) :
    spin A (comm A R x y) i k = ∑ j, (spin A x i j * spin A y j k - spin A y i j * spin A x j k) := by
  have hc : gradePart A R 2 (comm A R x y) = comm A R x y := by rw [comm_gradePart h.wf hx, hy]
  have hj := jacobi h.wf x y (vec A (Pi.single k 1 : Fin A.n → R))
  rw [comm_swap h.wf (vec A _) (comm A R x y), comm_swap h.wf (vec A _) x, map_neg, h.comm_vec h2 hc, h.comm_vec h2 hy, h.comm_vec h2 hx, h.comm_vec h2 hx,
    h.comm_vec h2 hy] at hj
  have e := congrArg (coef A R (2 ^ (i : Nat))) hj
  simp only [map_add, map_neg, coef_vec, map_zero, Pi.single_apply, mul_ite, mul_one, mul_zero, Finset.sum_ite_eq', Finset.mem_univ, if_true] at e
  rw [Finset.sum_sub_distrib]
  linear_combination -e

end Spec.Euc
end Verif
