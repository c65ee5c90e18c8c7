import Verif.Spec.Clifford
import Verif.Proofs.Bits
import Mathlib.Algebra.Module.BigOperators
import Mathlib.LinearAlgebra.Pi
import Mathlib.LinearAlgebra.Basis.Basic
import Mathlib.Tactic.NoncommRing
import Mathlib.Tactic.Abel
/-! Blade products in an algebra generated by anticommuting elements, and their independence. -/
namespace Verif
open Model Finset Spec

section general
variable {R : Type*} [CommRing R] {B : Type*} [Ring B] [Algebra R B]

/-- Ordered product of the generators selected by the bits of `b` below `k`. -/
def P (γ : ℕ → B) : ℕ → ℕ → B
  | 0, _ => 1
  | k+1, b => P γ k b * (if b.testBit k then γ k else 1)

/-- Product of the metric over shared bits below `k`. -/
def mprod (m : ℕ → R) (k a b : ℕ) : R := ∏ i ∈ range k, if a.testBit i && b.testBit i then m i else 1

theorem mprod_succ (m : ℕ → R) (k a b : ℕ) :
    mprod m (k+1) a b = mprod m k a b * (if a.testBit k && b.testBit k then m k else 1) := by
  simp [mprod, prod_range_succ]

theorem P_comm (γ : ℕ → B) (n : ℕ) (hac : ∀ i < n, ∀ j < n, i ≠ j → γ i * γ j = -(γ j * γ i))
    (j : ℕ) (hj : j < n) (k : ℕ) (hk : k ≤ j) (b : ℕ) :
    γ j * P γ k b = (-1)^(pc k b) * (P γ k b * γ j) := by
  induction k with
  | zero => simp [P]
  | succ k ih =>
    have ih := ih (by omega)
    rw [P, pc_succ]
    by_cases hb : b.testBit k
    · simp only [hb, if_true, Bool.toNat_true, pow_succ]
      rw [← mul_assoc, ih]
      have := hac j hj k (by omega) (by omega)
      calc (-1)^(pc k b) * (P γ k b * γ j) * γ k = (-1)^(pc k b) * (P γ k b * (γ j * γ k)) := by noncomm_ring
        _ = _ := by rw [this]; noncomm_ring
    · simp only [hb, Bool.toNat_false, add_zero]
      simpa using ih

theorem P_mul (γ : ℕ → B) (m : ℕ → R) (n : ℕ)
    (hsq : ∀ i < n, γ i * γ i = algebraMap R B (m i))
    (hac : ∀ i < n, ∀ j < n, i ≠ j → γ i * γ j = -(γ j * γ i))
    (k : ℕ) (hk : k ≤ n) (a b : ℕ) :
    P γ k a * P γ k b = ((-1 : R)^(inv k a b) * mprod m k a b) • P γ k (a ^^^ b) := by
  induction k with
  | zero => simp [P, mprod]
  | succ k ih =>
    have ih := ih (by omega)
    rw [P, P, P, inv_succ, mprod_succ, Nat.testBit_xor]
    have hcomm := P_comm γ n hac k (by omega) k le_rfl b
    have hpow : ∀ e : ℕ, ((-1:B))^e = algebraMap R B ((-1)^e) := by intro e; simp
    rcases Bool.eq_false_or_eq_true (a.testBit k) with ha | ha <;>
    rcases Bool.eq_false_or_eq_true (b.testBit k) with hb | hb <;>
    simp only [ha, hb, Bool.toNat_true, Bool.toNat_false, Bool.and_true, Bool.and_false, Bool.xor_true,
      Bool.xor_false, Bool.not_true, Bool.not_false, if_true, one_mul, zero_mul, mul_one,
      add_zero, Bool.false_eq_true, if_false]
    · calc P γ k a * γ k * (P γ k b * γ k) = P γ k a * (γ k * P γ k b) * γ k := by noncomm_ring
        _ = P γ k a * ((-1)^(pc k b) * (P γ k b * γ k)) * γ k := by rw [hcomm]
        _ = (-1)^(pc k b) * (P γ k a * P γ k b) * (γ k * γ k) := by
            rw [hpow]
            rw [← mul_assoc (P γ k a), ← Algebra.commutes, mul_assoc, mul_assoc, mul_assoc]
            noncomm_ring
        _ = _ := by
            rw [ih, hsq k (by omega), hpow, ← Algebra.commutes, ← Algebra.smul_def, ← Algebra.smul_def,
              smul_smul, smul_smul]
            congr 1; ring
    · calc P γ k a * γ k * P γ k b = P γ k a * (γ k * P γ k b) := by noncomm_ring
        _ = P γ k a * ((-1)^(pc k b) * (P γ k b * γ k)) := by rw [hcomm]
        _ = (-1)^(pc k b) * (P γ k a * P γ k b) * γ k := by
            rw [hpow]
            rw [← mul_assoc (P γ k a), ← Algebra.commutes, mul_assoc, mul_assoc, mul_assoc]
        _ = _ := by
            rw [ih, hpow, ← Algebra.smul_def, smul_smul, smul_mul_assoc]
            congr 1; ring
    · rw [← mul_assoc, ih, smul_mul_assoc]
    · exact ih
end general

section rep
variable {R : Type*} [CommRing R] (m : ℕ → R)

/-- Sign of left multiplication of blade `b` by generator `i`. -/
def ls (i b : ℕ) : R := (-1)^(pc i b) * (if b.testBit i then m i else 1)

/-- Left multiplication by generator `i` on coefficient functions. -/
def L (i : ℕ) : Module.End R (ℕ → R) where
  toFun f c := ls m i (c ^^^ 2^i) * f (c ^^^ 2^i)
  map_add' f g := by ext c; simp [mul_add]
  map_smul' r f := by ext c; simp; ring

theorem pc_xor_ge (k i b : ℕ) (h : k ≤ i) : pc k (b ^^^ 2^i) = pc k b := by
  apply Finset.sum_congr rfl
  intro j hj
  rw [mem_range] at hj
  rw [Nat.testBit_xor, Nat.testBit_two_pow]
  have : ¬ i = j := by omega
  simp [this]

theorem neg_one_pow_pc_xor (k i b : ℕ) (h : i < k) : (-1 : R)^(pc k (b ^^^ 2^i)) = -(-1)^(pc k b) := by
  induction k, h using Nat.le_induction with
  | base =>
    rw [pc_succ, pc_succ, pc_xor_ge _ _ _ le_rfl, Nat.testBit_xor, Nat.testBit_two_pow_self]
    cases b.testBit i <;> simp [pow_succ]
  | succ k hk ih =>
    rw [pc_succ, pc_succ, pow_add, ih, Nat.testBit_xor, Nat.testBit_two_pow]
    have : ¬ i = k := by omega
    simp [this, pow_add]

theorem testBit_xor_ne (b i j : ℕ) (h : i ≠ j) : (b ^^^ 2^i).testBit j = b.testBit j := by
  simp [Nat.testBit_xor, h]

theorem L_sq (i : ℕ) : L m i * L m i = algebraMap R _ (m i) := by
  ext f c
  simp only [Module.End.mul_apply, L, LinearMap.coe_mk, AddHom.coe_mk, Module.algebraMap_end_apply,
    Pi.smul_apply, smul_eq_mul]
  rw [Nat.xor_assoc, Nat.xor_self, Nat.xor_zero, ← mul_assoc]
  congr 1
  simp only [ls]
  rw [pc_xor_ge _ _ _ le_rfl, Nat.testBit_xor, Nat.testBit_two_pow_self]
  have : ((-1:R)^(pc i c)) * (-1)^(pc i c) = 1 := by rw [← mul_pow]; simp
  cases c.testBit i
  · simp; rw [mul_right_comm, this, one_mul]
  · simp; rw [← mul_assoc, this, one_mul]

theorem xor_right_comm (a b c : ℕ) : a ^^^ b ^^^ c = a ^^^ c ^^^ b := by
  rw [Nat.xor_assoc, Nat.xor_comm b, ← Nat.xor_assoc]

theorem L_anti_lt (i j : ℕ) (h : i < j) : L m i * L m j = -(L m j * L m i) := by
  ext f c
  simp only [Module.End.mul_apply, L, LinearMap.coe_mk, AddHom.coe_mk, LinearMap.neg_apply, Pi.neg_apply]
  rw [xor_right_comm c (2^j) (2^i), ← mul_assoc, ← mul_assoc, ← neg_mul]
  congr 1
  simp only [ls]
  rw [pc_xor_ge i j _ (by omega), testBit_xor_ne _ j i (by omega)]
  have e1 : c ^^^ 2^i ^^^ 2^j = c ^^^ 2^j ^^^ 2^i := xor_right_comm _ _ _
  rw [e1, neg_one_pow_pc_xor j i _ h, testBit_xor_ne _ i j (by omega)]
  ring

theorem L_anti (i j : ℕ) (h : i ≠ j) : L m i * L m j = -(L m j * L m i) := by
  rcases lt_or_gt_of_ne h with h | h
  · exact L_anti_lt m i j h
  · rw [L_anti_lt m j i h, neg_neg]

theorem sq_sum_anti {B : Type*} [Ring B] {ι : Type*} [DecidableEq ι] (s : Finset ι) (x : ι → B)
    (h : ∀ i j, i ≠ j → x i * x j = -(x j * x i)) :
    (∑ i ∈ s, x i) * (∑ i ∈ s, x i) = ∑ i ∈ s, x i * x i := by
  induction s using Finset.induction_on with
  | empty => simp
  | insert a s ha ih =>
    rw [Finset.sum_insert ha, Finset.sum_insert ha, ← ih]
    have : x a * (∑ i ∈ s, x i) = -((∑ i ∈ s, x i) * x a) := by
      rw [Finset.mul_sum, Finset.sum_mul, ← Finset.sum_neg_distrib]
      apply Finset.sum_congr rfl
      intro i hi
      apply h
      rintro rfl; exact ha hi
    rw [add_mul, mul_add, mul_add, this]
    abel

end rep

section cl
variable (A : Alg) (R : Type*) [CommRing R]

/-- The representation of the Clifford algebra on coefficient functions. -/
noncomputable def rep : Cl A R →ₐ[R] Module.End R (ℕ → R) :=
  CliffordAlgebra.lift (Q A R) ⟨∑ i : Fin A.n, (LinearMap.proj i).smulRight (L (metric A R) i), by
    intro v
    simp only [LinearMap.coe_sum, Finset.sum_apply, LinearMap.smulRight_apply, LinearMap.proj_apply]
    rw [sq_sum_anti]
    · simp only [smul_mul_smul_comm, L_sq, Q, QuadraticMap.weightedSumSquares_apply]
      rw [map_sum]
      apply Finset.sum_congr rfl
      intro i _
      rw [Algebra.smul_def, ← map_mul, smul_eq_mul, mul_comm]
    · intro i j hij
      rw [smul_mul_smul_comm, smul_mul_smul_comm, L_anti _ _ _ (by simpa [Fin.ext_iff] using hij), mul_comm (v i), smul_neg]⟩

theorem rep_gen (i : Fin A.n) : rep A R (gen A R i) = L (metric A R) i := by
  simp only [rep, gen, CliffordAlgebra.lift_ι_apply, LinearMap.coe_sum, Finset.sum_apply,
    LinearMap.smulRight_apply, LinearMap.proj_apply]
  rw [Finset.sum_eq_single i]
  · simp
  · intro j _ hj; simp [hj]
  · simp

/-- generators indexed by naturals -/
def genN (i : ℕ) : Cl A R := if h : i < A.n then gen A R ⟨i, h⟩ else 0

theorem blade_eq_P (b : ℕ) : blade A R b = P (genN A R) A.n b := by
  have h1 : blade A R b = (((List.range A.n).filter fun i => b.testBit i).map (genN A R)).prod := by
    rw [blade, ← List.map_coe_finRange_eq_range, List.filter_map, List.map_map]
    congr 1
    apply List.map_congr_left
    intro i _
    simp [genN]
  rw [h1]
  have key : ∀ n, (((List.range n).filter fun i => b.testBit i).map (genN A R)).prod = P (genN A R) n b := ?_
  · exact key _
  intro n
  induction n with
  | zero => simp [P]
  | succ n ih =>
    rw [List.range_succ, List.filter_append, List.map_append, List.prod_append, ih, P]
    congr 1
    cases h : b.testBit n <;> simp [h]

theorem gen_sq (i : Fin A.n) : gen A R i * gen A R i = algebraMap R _ (metric A R i) := by
  rw [gen, CliffordAlgebra.ι_sq_scalar]
  congr 1
  rw [Q, QuadraticMap.weightedSumSquares_apply, Finset.sum_eq_single i]
  · simp
  · intro j _ hj; simp [hj]
  · simp

theorem gen_anti (i j : Fin A.n) (h : i ≠ j) : gen A R i * gen A R j = -(gen A R j * gen A R i) := by
  rw [eq_neg_iff_add_eq_zero, gen, gen, CliffordAlgebra.ι_mul_ι_add_swap]
  rw [QuadraticMap.polar]
  simp only [Q, QuadraticMap.weightedSumSquares_apply]
  rw [← map_zero (algebraMap R (Cl A R))]
  congr 1
  rw [← Finset.sum_sub_distrib, ← Finset.sum_sub_distrib]
  apply Finset.sum_eq_zero
  intro k _
  by_cases h1 : k = i
  · subst h1; simp [h]
  · by_cases h2 : k = j
    · subst h2; simp [h1]
    · simp [h1, h2]

theorem blade_mul' (a b : ℕ) :
    blade A R a * blade A R b =
      ((-1 : R)^(inv A.n a b) * mprod (metric A R) A.n a b) • blade A R (a ^^^ b) := by
  simp only [blade_eq_P]
  apply P_mul (genN A R) (metric A R) A.n
  · intro i hi; simp only [genN, hi, dif_pos]; exact gen_sq A R ⟨i, hi⟩
  · intro i hi j hj hij; simp only [genN, hi, hj, dif_pos]; exact gen_anti A R _ _ (by simpa using hij)
  · exact le_rfl

/-- Coefficient of blade `b`. -/
noncomputable def coef (b : ℕ) : Cl A R →ₗ[R] R where
  toFun x := rep A R x (Pi.single 0 1) b
  map_add' x y := by simp
  map_smul' r x := by simp

theorem L_single (m : ℕ → R) (i c : ℕ) (h : ∀ j ≤ i, c.testBit j = false) :
    L m i (Pi.single c 1) = Pi.single (c ^^^ 2^i) 1 := by
  ext d
  simp only [L, LinearMap.coe_mk, AddHom.coe_mk, Pi.single_apply]
  by_cases hd : d = c ^^^ 2^i
  · subst hd
    rw [Nat.xor_assoc, Nat.xor_self, Nat.xor_zero]
    simp only [if_true, mul_one, ls, h i le_rfl]
    have : pc i c = 0 := by
      apply Finset.sum_eq_zero
      intro j hj; rw [h j (by rw [mem_range] at hj; omega)]; rfl
    simp [this]
  · have : d ^^^ 2^i ≠ c := by
      rintro rfl
      rw [Nat.xor_assoc, Nat.xor_self, Nat.xor_zero] at hd
      exact hd rfl
    simp [hd, this]

theorem rep_P_single {B : Type*} [Ring B] [Algebra R B] (φ : B →ₐ[R] Module.End R (ℕ → R)) (γ : ℕ → B)
    (m : ℕ → R) (n : ℕ) (hφ : ∀ i < n, φ (γ i) = L m i)
    (k : ℕ) (hk : k ≤ n) (b c : ℕ) (h : ∀ j < k, c.testBit j = false) :
    φ (P γ k b) (Pi.single c 1) = Pi.single (c ^^^ (b % 2^k)) 1 := by
  induction k generalizing c with
  | zero => simp [P, Nat.mod_one]
  | succ k ih =>
    rw [P, map_mul, Module.End.mul_apply]
    by_cases hb : b.testBit k
    · simp only [hb, if_true]
      rw [hφ k (by omega), L_single R _ _ _ (fun j hj => h j (by omega)), ih (by omega)]
      · congr 1
        rw [Nat.xor_assoc]
        congr 1
        apply Nat.eq_of_testBit_eq
        intro j
        rw [Nat.testBit_xor, Nat.testBit_mod_two_pow, Nat.testBit_mod_two_pow, Nat.testBit_two_pow]
        rcases lt_trichotomy j k with hj | hj | hj
        · simp [hj, show j < k+1 by omega, show ¬ k = j by omega]
        · subst hj; simp [hb]
        · simp [show ¬ j < k by omega, show ¬ j < k + 1 by omega, show ¬ k = j by omega]
      · intro j hj
        rw [testBit_xor_ne _ _ _ (by omega)]
        exact h j (by omega)
    · simp only [hb]
      simp only [Bool.false_eq_true, if_false, map_one, Module.End.one_apply]
      rw [ih (by omega) _ (fun j hj => h j (by omega))]
      congr 2
      apply Nat.eq_of_testBit_eq
      intro j
      rw [Nat.testBit_mod_two_pow, Nat.testBit_mod_two_pow]
      rcases lt_trichotomy j k with hj | hj | hj
      · simp [hj, show j < k+1 by omega]
      · subst hj; simp [hb]
      · simp [show ¬ j < k by omega, show ¬ j < k + 1 by omega]

theorem coef_blade {a : ℕ} (ha : a < 2^A.n) (b : ℕ) : coef A R b (blade A R a) = if b = a then 1 else 0 := by
  simp only [coef, LinearMap.coe_mk, AddHom.coe_mk]
  rw [blade_eq_P, rep_P_single R (rep A R) (genN A R) (metric A R) A.n (fun i hi => by simp only [genN, hi, dif_pos]; exact rep_gen A R ⟨i, hi⟩) _ le_rfl _ _ (by simp), Nat.zero_xor, Nat.mod_eq_of_lt ha, Pi.single_apply]

theorem blade_mod (b : ℕ) : blade A R (b % 2^A.n) = blade A R b := by
  rw [blade, blade]
  congr 2
  apply List.filter_congr
  intro i _
  rw [Nat.testBit_mod_two_pow]; simp

theorem blade_zero : blade A R 0 = 1 := by simp [blade]

theorem blade_two_pow (i : Fin A.n) : blade A R (2^(i:ℕ)) = gen A R i := by
  have : (List.finRange A.n).filter (fun j => (2^(i:ℕ)).testBit j) = [i] := by
    have h2 : (List.finRange A.n).filter (fun j => (2^(i:ℕ)).testBit j)
        = (List.finRange A.n).filter (fun j => j == i) := by
      apply List.filter_congr; intro j _; 
      rw [Nat.testBit_two_pow, Bool.eq_iff_iff, decide_eq_true_iff, beq_iff_eq, Fin.ext_iff]
      exact eq_comm
    rw [h2, List.filter_beq]
    rw [List.count_eq_one_of_mem (List.nodup_finRange _) (List.mem_finRange i)]; rfl
  rw [blade, this]; simp

theorem xor_lt {a b n : ℕ} (ha : a < 2^n) (hb : b < 2^n) : a ^^^ b < 2^n := Nat.xor_lt_two_pow ha hb

theorem span_blades : Submodule.span R (Set.range fun b : Fin (2^A.n) => blade A R b) = ⊤ := by
  have hmem : ∀ b, blade A R b ∈ Submodule.span R (Set.range fun b : Fin (2^A.n) => blade A R b) := by
    intro b
    rw [← blade_mod]
    exact Submodule.subset_span ⟨⟨b % 2^A.n, Nat.mod_lt _ (by positivity)⟩, rfl⟩
  rw [eq_top_iff]
  rintro x -
  induction x using CliffordAlgebra.induction with
  | algebraMap r =>
    rw [Algebra.algebraMap_eq_smul_one, ← blade_zero]
    exact Submodule.smul_mem _ _ (hmem 0)
  | ι v =>
    have : v = ∑ i, v i • (Pi.single i 1 : Fin A.n → R) := by
      ext j; simp [Finset.sum_apply, Pi.single_apply]
    rw [this, map_sum]
    apply Submodule.sum_mem
    intro i _
    rw [map_smul]
    apply Submodule.smul_mem
    have := blade_two_pow A R i
    rw [gen] at this
    rw [← this]; exact hmem _
  | mul x y hx hy =>
    induction hx, hy using Submodule.span_induction₂ with
    | mem_mem x y hx hy =>
      obtain ⟨a, rfl⟩ := hx
      obtain ⟨b, rfl⟩ := hy
      simp only
      rw [blade_mul']
      exact Submodule.smul_mem _ _ (hmem _)
    | zero_left y hy => simp
    | zero_right x hx => simp
    | add_left x y z _ _ _ h1 h2 => rw [add_mul]; exact Submodule.add_mem _ h1 h2
    | add_right x y z _ _ _ h1 h2 => rw [mul_add]; exact Submodule.add_mem _ h1 h2
    | smul_left r x y _ _ h => rw [smul_mul_assoc]; exact Submodule.smul_mem _ _ h
    | smul_right r x y _ _ h => rw [mul_smul_comm]; exact Submodule.smul_mem _ _ h
  | add x y hx hy => exact Submodule.add_mem _ hx hy

theorem linearIndependent_blades : LinearIndependent R fun b : Fin (2^A.n) => blade A R b := by
  rw [Fintype.linearIndependent_iff]
  intro g hg i
  have := congrArg (coef A R i) hg
  rw [map_sum, map_zero] at this
  simp only [map_smul, coef_blade A R (Fin.isLt _), smul_eq_mul] at this
  rw [Finset.sum_eq_single i] at this
  · simpa using this
  · intro j _ hj
    have : ¬ (i : ℕ) = j := fun h => hj (Fin.ext h.symm)
    simp [this]
  · simp

/-- The blades form a basis of the Clifford algebra. -/
noncomputable def bladeBasis : Module.Basis (Fin (2^A.n)) R (Cl A R) :=
  Module.Basis.mk (linearIndependent_blades A R) (by rw [span_blades])

theorem bladeBasis_apply (b : Fin (2^A.n)) : bladeBasis A R b = blade A R b := by
  simp [bladeBasis]

theorem sum_coef (x : Cl A R) : x = ∑ b ∈ range (2^A.n), coef A R b x • blade A R b := by
  have h : ∀ x : Cl A R, x = ∑ b : Fin (2^A.n), coef A R b x • blade A R b := by
    intro x
    have hx : x ∈ Submodule.span R (Set.range fun b : Fin (2^A.n) => blade A R b) := by
      rw [span_blades]; trivial
    induction hx using Submodule.span_induction with
    | mem x hx =>
      obtain ⟨a, rfl⟩ := hx
      simp only [coef_blade A R a.isLt]
      rw [Finset.sum_eq_single a]
      · simp
      · intro j _ hj
        have : ¬ (j : ℕ) = a := fun h => hj (Fin.ext h)
        simp [this]
      · simp
    | zero => simp
    | add x y _ _ h1 h2 => simp only [map_add, add_smul, Finset.sum_add_distrib]; rw [← h1, ← h2]
    | smul r x _ h =>
      simp only [map_smul, smul_eq_mul, mul_smul]
      rw [← Finset.smul_sum, ← h]
  rw [Finset.sum_range (fun b => coef A R b x • blade A R b)]
  exact h x

theorem ext_coef {x y : Cl A R} (h : ∀ b < 2^A.n, coef A R b x = coef A R b y) : x = y := by
  rw [sum_coef A R x, sum_coef A R y]
  apply Finset.sum_congr rfl
  intro b hb
  rw [h b (mem_range.mp hb)]

end cl
end Verif
