import Verif.Proofs.Factory4
/-! # Wedge, contractions and complements on blades -/
namespace Verif
open Model Spec Model.Factory

variable {A : Alg} {R : Type} [CommRing R]

/-! ### bit counting -/

theorem pc_xor (k a b : Nat) : pc k (a ^^^ b) + 2 * pc k (a &&& b) = pc k a + pc k b := by
  induction k with
  | zero => simp
  | succ k ih =>
    simp only [pc_succ, Nat.testBit_xor, Nat.testBit_and]
    cases a.testBit k <;> cases b.testBit k <;> simp <;> omega

theorem popcount_xor (a b : Nat) : popcount (a ^^^ b) + 2 * popcount (a &&& b) = popcount a + popcount b := by
  simp only [popcount_eq]; exact pc_xor 32 a b

theorem pc_eq_zero_iff {k b : Nat} : pc k b = 0 ↔ ∀ i < k, b.testBit i = false := by
  rw [pc, Finset.sum_eq_zero_iff]
  simp

theorem popcount_eq_zero {n b : Nat} (hn : n ≤ 32) (hb : b < 2 ^ n) : popcount b = 0 ↔ b = 0 := by
  rw [popcount_of_lt hn hb, pc_eq_zero_iff]
  constructor
  · intro h
    apply Nat.eq_of_testBit_eq
    intro i
    rw [Nat.zero_testBit]
    by_cases hi : i < n
    · exact h i hi
    · exact testBit_false_of_lt hb (by omega)
  · rintro rfl i _; simp

theorem and_lt {n a : Nat} (ha : a < 2 ^ n) (b : Nat) : a &&& b < 2 ^ n := lt_of_le_of_lt Nat.and_le_left ha

/-- Grades add in the product exactly for disjoint blades. -/
theorem grade_add_iff (hA : WfAlg A) {a : Nat} (ha : a < 2 ^ A.n) (b : Nat) : popcount a + popcount b = popcount (a ^^^ b) ↔ a &&& b = 0 := by
  have := popcount_xor a b
  rw [← popcount_eq_zero hA.le32 (and_lt ha b)]
  omega

/-- The exchange of the factors of a product costs one sign per pair of distinct basis vectors. -/
theorem inv_add (k a b : Nat) : inv k a b + inv k b a + pc k (a &&& b) = pc k a * pc k b := by
  induction k with
  | zero => simp
  | succ k ih =>
    simp only [inv_succ, pc_succ, Nat.testBit_and]
    cases a.testBit k <;> cases b.testBit k <;> simp <;> ring_nf at ih ⊢ <;> omega

theorem sgn_disjoint {a b : Nat} (h : a &&& b = 0) : sgn A a b = (-1) ^ inv A.n a b := by
  simp [sgn, h]

/-! ### the exterior algebra -/

/-- Representation of the exterior algebra on coefficient functions. -/
noncomputable def extRep (A : Alg) (R : Type) [CommRing R] : Ext A R →ₐ[R] Module.End R (ℕ → R) :=
  ExteriorAlgebra.lift R ⟨∑ i : Fin A.n, (LinearMap.proj i).smulRight (L (fun _ => (0 : R)) i), by
    intro v
    simp only [LinearMap.coe_sum, Finset.sum_apply, LinearMap.smulRight_apply, LinearMap.proj_apply]
    rw [sq_sum_anti]
    · simp [smul_mul_smul_comm, L_sq]
    · intro i j hij
      rw [smul_mul_smul_comm, smul_mul_smul_comm, L_anti _ _ _ (fun h => hij (Fin.ext h)), smul_neg, mul_comm]⟩

/-- Generator of the exterior algebra, as a function on all numbers. -/
noncomputable def extGen (A : Alg) (R : Type) [CommRing R] (i : ℕ) : Ext A R :=
  if h : i < A.n then ExteriorAlgebra.ι R (Pi.single (⟨i, h⟩ : Fin A.n) (1 : R)) else 0

theorem extRep_gen {i : ℕ} (hi : i < A.n) : extRep A R (extGen A R i) = L (fun _ => (0 : R)) i := by
  simp only [extRep, extGen, hi, dif_pos, ExteriorAlgebra.lift_ι_apply, LinearMap.coe_sum, Finset.sum_apply,
    LinearMap.smulRight_apply, LinearMap.proj_apply]
  rw [Finset.sum_eq_single (⟨i, hi⟩ : Fin A.n)]
  · simp
  · intro j _ hj; simp [hj]
  · simp

theorem extBlade_eq_P (b : ℕ) : extBlade A R b = P (extGen A R) A.n b := by
  have h1 : extBlade A R b = (((List.range A.n).filter fun i => b.testBit i).map (extGen A R)).prod := by
    rw [extBlade, ← List.map_coe_finRange_eq_range, List.filter_map, List.map_map]
    congr 1
    apply List.map_congr_left
    intro i _
    simp [extGen]
  rw [h1]
  have : ∀ k, (((List.range k).filter fun i => b.testBit i).map (extGen A R)).prod = P (extGen A R) k b := by
    intro k
    induction k with
    | zero => simp [P]
    | succ k ih =>
      rw [List.range_succ, List.filter_append, List.map_append, List.prod_append, ih, P]
      congr 1
      by_cases h : b.testBit k <;> simp [h]
  exact this _

theorem extGen_sq {i : ℕ} : extGen A R i * extGen A R i = 0 := by
  unfold extGen
  split
  · exact ExteriorAlgebra.ι_sq_zero _
  · simp

theorem extGen_anti {i j : ℕ} : extGen A R i * extGen A R j = -(extGen A R j * extGen A R i) := by
  unfold extGen
  split <;> split
  · exact eq_neg_of_add_eq_zero_left (ExteriorAlgebra.ι_add_mul_swap _ _)
  all_goals simp

theorem extBlade_mul (a b : ℕ) : extBlade A R a * extBlade A R b =
    ((-1 : R) ^ inv A.n a b * mprod (fun _ => (0 : R)) A.n a b) • extBlade A R (a ^^^ b) := by
  simp only [extBlade_eq_P]
  apply P_mul (extGen A R) (fun _ => (0 : R)) A.n
  · intro i _; rw [extGen_sq, map_zero]
  · intro i _ j _ _; exact extGen_anti
  · exact le_rfl

theorem mprod_zero {a b : ℕ} (ha : a < 2 ^ A.n) : mprod (fun _ => (0 : R)) A.n a b = if a &&& b = 0 then 1 else 0 := by
  unfold mprod
  split
  · rename_i h
    apply Finset.prod_eq_one
    intro i _
    have := congrArg (·.testBit i) h
    simp only [Nat.testBit_and, Nat.zero_testBit] at this
    rw [this]; simp
  · rename_i h
    obtain ⟨i, hi⟩ := Nat.exists_testBit_of_ne_zero h
    have hlt : i < A.n := by
      by_contra hc
      rw [testBit_false_of_lt (and_lt ha b) (by omega)] at hi
      simp at hi
    apply Finset.prod_eq_zero (Finset.mem_range.2 hlt)
    rw [Nat.testBit_and] at hi
    rw [hi]; simp

/-- The linear identification of the Clifford algebra with the exterior algebra that matches the blades. -/
noncomputable def toExt (A : Alg) (R : Type) [CommRing R] : Cl A R →ₗ[R] Ext A R := linExt A R (extBlade A R)

theorem toExt_blade {b : Nat} (hb : b < 2 ^ A.n) : toExt A R (blade A R b) = extBlade A R b := linExt_blade _ hb

theorem extCoef_blade {a : ℕ} (ha : a < 2 ^ A.n) (b : ℕ) : extRep A R (extBlade A R a) (Pi.single 0 1) b = if b = a then 1 else 0 := by
  rw [extBlade_eq_P, rep_P_single R (extRep A R) (extGen A R) (fun _ => 0) A.n (fun i hi => extRep_gen hi) _ le_rfl _ _ (by simp),
    Nat.zero_xor, Nat.mod_eq_of_lt ha, Pi.single_apply]

theorem extRep_toExt (x : Cl A R) {b : ℕ} (hb : b < 2 ^ A.n) : extRep A R (toExt A R x) (Pi.single 0 1) b = coef A R b x := by
  have : ((LinearMap.proj b : (ℕ → R) →ₗ[R] R) ∘ₗ (LinearMap.applyₗ (Pi.single 0 1 : ℕ → R)) ∘ₗ (extRep A R).toLinearMap ∘ₗ toExt A R) =
      coef A R b := by
    apply lin_ext
    intro a ha
    simp only [LinearMap.comp_apply, toExt_blade ha, AlgHom.toLinearMap_apply, LinearMap.applyₗ_apply_apply, LinearMap.proj_apply]
    rw [extCoef_blade ha, coef_blade _ _ ha]
  exact congrArg (fun f => f x) this

theorem toExt_injective : Function.Injective (toExt A R) := by
  intro x y h
  apply ext_coef
  intro b hb
  rw [← extRep_toExt x hb, ← extRep_toExt y hb, h]

/-! ### the wedge product -/

/-- The wedge product, on elements. -/
noncomputable def wedgeMap (A : Alg) (R : Type) [CommRing R] (x y : Cl A R) : Cl A R := gradedProduct A R (fun i j k => i + j = k) x y

theorem toExt_wedge (hA : WfAlg A) (x y : Cl A R) : toExt A R (wedgeMap A R x y) = toExt A R x * toExt A R y := by
  have : (gradedProductₗ A R (fun i j k => i + j = k)).compr₂ (toExt A R) =
      (LinearMap.mul R (Ext A R)).compl₁₂ (toExt A R) (toExt A R) := by
    apply lin_ext₂
    intro a ha b hb
    rw [LinearMap.compr₂_apply, LinearMap.compl₁₂_apply, LinearMap.mul_apply', gradedProductₗ_apply, gradedProduct_blade hA _ ha hb,
      toExt_blade ha, toExt_blade hb, extBlade_mul, mprod_zero ha]
    simp only [grade_add_iff hA ha]
    split
    · rename_i h
      rw [blade_mul hA, sgn_disjoint h, map_smul, toExt_blade (xor_lt ha hb)]
      push_cast
      rw [mul_one]
    · simp
  have h := congrArg (fun f => f x y) this
  simp only [LinearMap.compr₂_apply, LinearMap.compl₁₂_apply, LinearMap.mul_apply', gradedProductₗ_apply] at h
  exact h

theorem wedge_assoc (hA : WfAlg A) (x y z : Cl A R) : wedgeMap A R (wedgeMap A R x y) z = wedgeMap A R x (wedgeMap A R y z) := by
  apply toExt_injective
  simp only [toExt_wedge hA, mul_assoc]

theorem wedge_blade (hA : WfAlg A) {a b : Nat} (ha : a < 2 ^ A.n) (hb : b < 2 ^ A.n) :
    wedgeMap A R (blade A R a) (blade A R b) = if a &&& b = 0 then ((-1 : R) ^ inv A.n a b) • blade A R (a ^^^ b) else 0 := by
  rw [wedgeMap, gradedProduct_blade hA _ ha hb]
  simp only [grade_add_iff hA ha]
  split
  · rename_i h
    rw [blade_mul hA, sgn_disjoint h]
    push_cast; rfl
  · rfl

theorem toExt_one : toExt A R 1 = 1 := by
  rw [← blade_zero A R, toExt_blade (Nat.two_pow_pos _)]
  simp [extBlade]

theorem one_wedge (hA : WfAlg A) (x : Cl A R) : wedgeMap A R 1 x = x := by
  apply toExt_injective; rw [toExt_wedge hA, toExt_one, one_mul]

theorem wedge_one (hA : WfAlg A) (x : Cl A R) : wedgeMap A R x 1 = x := by
  apply toExt_injective; rw [toExt_wedge hA, toExt_one, mul_one]

theorem gradedProduct_smul_left (sel : Nat → Nat → Nat → Prop) [∀ i j k, Decidable (sel i j k)] (r : R) (x y : Cl A R) :
    gradedProduct A R sel (r • x) y = r • gradedProduct A R sel x y := by
  rw [← gradedProductₗ_apply, ← gradedProductₗ_apply, map_smul, LinearMap.smul_apply]

theorem gradedProduct_smul_right (sel : Nat → Nat → Nat → Prop) [∀ i j k, Decidable (sel i j k)] (r : R) (x y : Cl A R) :
    gradedProduct A R sel x (r • y) = r • gradedProduct A R sel x y := by
  rw [← gradedProductₗ_apply, ← gradedProductₗ_apply, map_smul]

/-- Vectors are sums of generators. -/
theorem toExt_vector (hA : WfAlg A) (x : Cl A R) (hx : gradePart A R 1 x = x) :
    ∃ v : Fin A.n → R, toExt A R x = ExteriorAlgebra.ι R v ∧ x = CliffordAlgebra.ι (Q A R) v := by
  have key : ∀ y : Cl A R, ∃ v : Fin A.n → R, toExt A R (gradePart A R 1 y) = ExteriorAlgebra.ι R v ∧ gradePart A R 1 y = CliffordAlgebra.ι (Q A R) v := by
    intro y
    have hy : y ∈ Submodule.span R (Set.range fun b : Fin (2 ^ A.n) => blade A R b) := by rw [span_blades]; trivial
    induction hy using Submodule.span_induction with
    | mem y hy =>
      obtain ⟨b, rfl⟩ := hy
      simp only
      rw [gradePart_blade _ b.2]
      by_cases h : popcount (b : Nat) = 1
      · rw [if_pos h]
        have hb := b.2
        obtain ⟨i, hi⟩ : ∃ i : Fin A.n, (b : Nat) = 2 ^ (i : Nat) := by
          have hne : (b : Nat) ≠ 0 := by
            intro h0; rw [h0] at h; simp [popcount, bitSet] at h
          obtain ⟨i, hi⟩ := Nat.exists_testBit_of_ne_zero hne
          have hlt : i < A.n := by
            by_contra hc
            rw [testBit_false_of_lt hb (by omega)] at hi; simp at hi
          have h2 : (b : Nat) ^^^ 2 ^ i = 0 := by
            have h2i : 2 ^ i < 2 ^ A.n := Nat.pow_lt_pow_right (by norm_num) hlt
            rw [← popcount_eq_zero hA.le32 (xor_lt hb h2i)]
            have e := popcount_xor (b : Nat) (2 ^ i)
            have hand : (b : Nat) &&& 2 ^ i = 2 ^ i := by
              apply Nat.eq_of_testBit_eq
              intro j
              rw [Nat.testBit_and, Nat.testBit_two_pow]
              by_cases hj : i = j
              · subst hj; simp [hi]
              · simp [hj]
            rw [hand] at e
            have hp : 0 < popcount (2 ^ i) := by
              rw [Nat.pos_iff_ne_zero]
              intro h0
              rw [popcount_eq_zero hA.le32 h2i] at h0
              have := Nat.two_pow_pos i; omega
            omega
          refine ⟨⟨i, hlt⟩, ?_⟩
          have := xor_cancel (b : Nat) (2 ^ i)
          rw [h2, Nat.zero_xor] at this
          exact this.symm
        refine ⟨Pi.single i 1, ?_, ?_⟩
        · rw [toExt_blade hb, hi, extBlade]
          have : (List.finRange A.n).filter (fun j : Fin A.n => (2 ^ (i : ℕ)).testBit j) = [i] := by
            have h2 : (List.finRange A.n).filter (fun j : Fin A.n => (2 ^ (i : ℕ)).testBit j)
                = (List.finRange A.n).filter (fun j => j == i) := by
              apply List.filter_congr; intro j _
              rw [Nat.testBit_two_pow, Bool.eq_iff_iff, decide_eq_true_iff, beq_iff_eq, Fin.ext_iff]
              exact eq_comm
            rw [h2, List.filter_beq]
            rw [List.count_eq_one_of_mem (List.nodup_finRange _) (List.mem_finRange _)]
            rfl
          rw [this]; simp
        · rw [hi, blade_two_pow]; rfl
      · rw [if_neg h]
        exact ⟨0, by simp, by simp⟩
    | zero => exact ⟨0, by simp, by simp⟩
    | add y z _ _ hy hz =>
      obtain ⟨v, v1, v2⟩ := hy
      obtain ⟨w, w1, w2⟩ := hz
      exact ⟨v + w, by rw [map_add, map_add, v1, w1, map_add], by rw [map_add, v2, w2, map_add]⟩
    | smul r y _ hy =>
      obtain ⟨v, v1, v2⟩ := hy
      exact ⟨r • v, by rw [map_smul, map_smul, v1, map_smul], by rw [map_smul, v2, map_smul]⟩
  have := key x
  rwa [hx] at this

theorem vector_wedge_self (hA : WfAlg A) (x : Cl A R) (hx : gradePart A R 1 x = x) : wedgeMap A R x x = 0 := by
  apply toExt_injective
  obtain ⟨v, hv, _⟩ := toExt_vector hA x hx
  rw [toExt_wedge hA, hv, ExteriorAlgebra.ι_sq_zero, map_zero]

/-! ### contraction with a vector -/

theorem vector_mul (hA : WfAlg A) (v M : Cl A R) (hv : gradePart A R 1 v = v) :
    v * M = gradedProduct A R (fun i j k => i + k = j) v M + gradedProduct A R (fun i j k => i + j = k) v M := by
  have : (LinearMap.mul R (Cl A R)).comp (gradePart A R 1) =
      (gradedProductₗ A R (fun i j k => i + k = j) + gradedProductₗ A R (fun i j k => i + j = k)).comp (gradePart A R 1) := by
    apply lin_ext₂
    intro a ha b hb
    simp only [LinearMap.comp_apply, gradePart_blade _ ha]
    by_cases h : popcount a = 1
    · rw [if_pos h]
      simp only [LinearMap.add_apply, LinearMap.mul_apply', gradedProductₗ_apply, gradedProduct_blade hA _ ha hb]
      have e := popcount_xor a b
      have hle : popcount (a &&& b) ≤ 1 := by
        have h2 := popcount_xor (a &&& b) a
        have : a &&& b &&& a = a &&& b := by rw [Nat.and_comm, ← Nat.and_assoc, Nat.and_self]
        rw [this] at h2
        omega
      by_cases h0 : popcount (a &&& b) = 0
      · rw [if_neg (by omega), if_pos (by omega), zero_add]
      · rw [if_pos (by omega), if_neg (by omega), add_zero]
    · rw [if_neg h]; simp
  have h := congrArg (fun f => f v M) this
  simpa only [LinearMap.comp_apply, hv, LinearMap.add_apply, LinearMap.mul_apply', gradedProductₗ_apply] using h

theorem mul_vector (hA : WfAlg A) (M v : Cl A R) (hv : gradePart A R 1 v = v) :
    M * v = gradedProduct A R (fun i j k => j + k = i) M v + gradedProduct A R (fun i j k => i + j = k) M v := by
  have : (LinearMap.mul R (Cl A R)).flip.comp (gradePart A R 1) =
      ((gradedProductₗ A R (fun i j k => j + k = i)).flip + (gradedProductₗ A R (fun i j k => i + j = k)).flip).comp (gradePart A R 1) := by
    apply lin_ext₂
    intro b hb a ha
    simp only [LinearMap.comp_apply, gradePart_blade _ hb]
    by_cases h : popcount b = 1
    · rw [if_pos h]
      simp only [LinearMap.add_apply, LinearMap.flip_apply, LinearMap.mul_apply', gradedProductₗ_apply, gradedProduct_blade hA _ ha hb]
      have e := popcount_xor a b
      have hle : popcount (a &&& b) ≤ 1 := by
        have h2 := popcount_xor (a &&& b) b
        have : a &&& b &&& b = a &&& b := by rw [Nat.and_assoc, Nat.and_self]
        rw [this] at h2
        omega
      by_cases h0 : popcount (a &&& b) = 0
      · rw [if_neg (by omega), if_pos (by omega), zero_add]
      · rw [if_pos (by omega), if_neg (by omega), add_zero]
    · rw [if_neg h]; simp
  have h := congrArg (fun f => f v M) this
  simpa only [LinearMap.comp_apply, hv, LinearMap.add_apply, LinearMap.flip_apply, LinearMap.mul_apply', gradedProductₗ_apply] using h


/-! ### complements and duals -/

theorem swapSign_eq (hA : WfAlg A) {a : Nat} (ha : a < 2 ^ A.n) (b : Nat) : swapSign A a b = (-1) ^ inv A.n a b := by
  simp only [swapSign, Alg.cayley]
  rw [parityToSign_eq _ _ (swaps_parity hA b ha)]

theorem negSign_eq (hA : WfAlg A) {b : Nat} (hb : b < 2 ^ A.n) : negSign A b = (-1) ^ pc A.n (b &&& A.negatives) := by
  rw [negSign]
  apply parityToSign_eq
  rw [bitDot_eq hA, pc_of_lt (and_lt hb _) hA.le_width]

theorem and_compl {b : Nat} (hb : b < 2 ^ A.n) : b &&& (b ^^^ A.pss) = 0 := by
  apply Nat.eq_of_testBit_eq
  intro i
  rw [Nat.testBit_and, Nat.testBit_xor, Nat.zero_testBit]
  by_cases hi : i < A.n
  · have : A.pss.testBit i = true := by rw [Alg.pss, Nat.testBit_two_pow_sub_one]; simpa using hi
    rw [this]; cases b.testBit i <;> rfl
  · rw [testBit_false_of_lt hb (by omega)]; rfl

theorem xor_compl (b : Nat) : b ^^^ (b ^^^ A.pss) = A.pss := by rw [← Nat.xor_assoc, Nat.xor_self, Nat.zero_xor]

/-- A blade times its right complement dual is the pseudoscalar. -/
theorem blade_mul_rcd (hA : WfAlg A) {b : Nat} (hb : b < 2 ^ A.n) :
    blade A R b * compl A R (fun b => swapSign A b (b ^^^ A.pss)) (blade A R b) = blade A R A.pss := by
  rw [compl_blade _ hb, mul_smul_comm, blade_mul hA, sgn_disjoint (and_compl hb), xor_compl, swapSign_eq hA hb, smul_smul]
  push_cast
  rw [← mul_pow]
  simp

theorem lcd_mul_blade (hA : WfAlg A) {b : Nat} (hb : b < 2 ^ A.n) :
    compl A R (fun b => swapSign A (b ^^^ A.pss) b) (blade A R b) * blade A R b = blade A R A.pss := by
  have hc := xor_lt hb (pss_lt A)
  rw [compl_blade _ hb, smul_mul_assoc, blade_mul hA, sgn_disjoint (by rw [Nat.and_comm]; exact and_compl hb), Nat.xor_comm (b ^^^ A.pss) b,
    xor_compl, swapSign_eq hA hc, smul_smul]
  push_cast
  rw [← mul_pow]
  simp

theorem blade_mul_rh (hA : WfAlg A) {b : Nat} (hb : b < 2 ^ A.n) :
    blade A R b * rhMap A R (blade A R b) = ((-1 : R) ^ pc A.n (b &&& A.negatives)) • blade A R A.pss := by
  have h := blade_mul_rcd (R := R) hA hb
  rw [compl_blade _ hb] at h
  rw [rhMap, compl_blade _ hb, hodgeSign, negSign_eq hA hb]
  push_cast
  rw [mul_comm, ← smul_smul, mul_smul_comm, h]

theorem lh_mul_blade (hA : WfAlg A) {b : Nat} (hb : b < 2 ^ A.n) :
    compl A R (leftHodgeSign A) (blade A R b) * blade A R b = ((-1 : R) ^ pc A.n (b &&& A.negatives)) • blade A R A.pss := by
  have h := lcd_mul_blade (R := R) hA hb
  rw [compl_blade _ hb] at h
  rw [compl_blade _ hb, leftHodgeSign, negSign_eq hA hb]
  push_cast
  rw [mul_comm, ← smul_smul, smul_mul_assoc, h]

theorem rhInv_one (hA : WfAlg A) : rhInv A R 1 = ((-1 : R) ^ pc A.n A.negatives) • blade A R A.pss := by
  have h : rhMap A R (blade A R A.pss) = ((-1 : R) ^ pc A.n A.negatives) • (1 : Cl A R) := by
    rw [rhMap, compl_blade _ (pss_lt A), Nat.xor_self, hodgeSign, Nat.xor_self, swapSign_eq hA (pss_lt A), negSign_eq hA (pss_lt A), blade_zero]
    have : pc A.n (A.pss &&& A.negatives) = pc A.n A.negatives := by
      apply Finset.sum_congr rfl
      intro i hi
      rw [Finset.mem_range] at hi
      rw [Nat.testBit_and, Alg.pss, Nat.testBit_two_pow_sub_one]
      simp [hi]
    rw [this]
    simp [inv]
  have h2 := congrArg (rhInv A R) h
  rw [rhInv_rh, map_smul] at h2
  rw [h2, smul_smul, ← mul_pow]
  simp

theorem rh_pss (hA : WfAlg A) : rhMap A R (blade A R A.pss) = ((-1 : R) ^ pc A.n A.negatives) • (1 : Cl A R) := by
  have h := congrArg (rhMap A R) (rhInv_one (R := R) hA)
  rw [rh_rhInv, map_smul] at h
  rw [h, smul_smul, ← mul_pow]
  simp

/-! ### anti-products -/

/-- Sign of `v * I` for a blade `v`, null vectors counted as positive. -/
def rcSign (A : Alg) (b : Nat) : Int := (-1) ^ (inv A.n b A.pss + pc A.n (b &&& A.negatives))

theorem rcMap_blade (hA : WfAlg A) {b : Nat} (hb : b < 2 ^ A.n) : rcMap A R (blade A R b) = (rcSign A b : R) • blade A R (b ^^^ A.pss) := by
  rw [rcMap, compl_blade _ hb, swapSign_eq hA hb, negSign_eq hA hb, rcSign, pow_add]

theorem inv_pss_pow {b : Nat} (hb : b < 2 ^ A.n) :
    (-1 : Int) ^ inv A.n A.pss b = (-1) ^ inv A.n b A.pss * (-1) ^ ((A.n + 1) * pc A.n b) := by
  have h := inv_add A.n b A.pss
  have h1 : b &&& A.pss = b := by rw [Alg.pss, Nat.and_two_pow_sub_one_eq_mod, Nat.mod_eq_of_lt hb]
  have h2 : pc A.n A.pss = A.n := by
    rw [pc, Finset.sum_congr rfl (g := fun _ => 1)]
    · simp
    · intro i hi
      rw [Finset.mem_range] at hi
      rw [Alg.pss, Nat.testBit_two_pow_sub_one]; simp [hi]
  rw [h1, h2] at h
  rw [← pow_add]
  apply neg_one_pow_congr
  have e : (A.n + 1) * pc A.n b = inv A.n b A.pss + inv A.n A.pss b + 2 * pc A.n b := by
    rw [add_mul, mul_comm, ← h]; ring
  rw [e]
  simp only [Nat.even_add, Nat.even_mul, even_two, true_or, iff_true]
  tauto

theorem lcMap_blade (hA : WfAlg A) {b : Nat} (hb : b < 2 ^ A.n) :
    lcMap A R (blade A R b) = ((rcSign A b * (-1) ^ ((A.n + 1) * pc A.n b) : Int) : R) • blade A R (b ^^^ A.pss) := by
  rw [lcMap, compl_blade _ hb, swapSign_eq hA (pss_lt A), negSign_eq hA hb, inv_pss_pow hb, rcSign, pow_add]
  congr 2
  ring

theorem rcSign_mul {b : Nat} (hb : b < 2 ^ A.n) : rcSign A b * rcSign A (b ^^^ A.pss) = rcSign A A.pss := by
  unfold rcSign
  rw [← pow_add]
  congr 1
  have hbit : ∀ i < A.n, A.pss.testBit i = true := by
    intro i hi
    rw [Alg.pss, Nat.testBit_two_pow_sub_one]; simpa using hi
  have h1 : inv A.n b A.pss + inv A.n (b ^^^ A.pss) A.pss = inv A.n A.pss A.pss := by
    rw [inv, inv, inv, ← Finset.sum_add_distrib]
    apply Finset.sum_congr rfl
    intro i hi
    rw [Nat.testBit_xor, hbit i (Finset.mem_range.1 hi)]
    cases b.testBit i <;> simp
  have h2 : pc A.n (b &&& A.negatives) + pc A.n ((b ^^^ A.pss) &&& A.negatives) = pc A.n (A.pss &&& A.negatives) := by
    rw [pc, pc, pc, ← Finset.sum_add_distrib]
    apply Finset.sum_congr rfl
    intro i hi
    simp only [Nat.testBit_and, Nat.testBit_xor, hbit i (Finset.mem_range.1 hi)]
    cases b.testBit i <;> cases A.negatives.testBit i <;> rfl
  omega

theorem rcSign_sq (A : Alg) (b : Nat) : rcSign A b * rcSign A b = 1 := by
  unfold rcSign; rw [← mul_pow]; simp

theorem rc_lc_blade (hA : WfAlg A) {b : Nat} (hb : b < 2 ^ A.n) :
    rcMap A R (lcMap A R (blade A R b)) = ((rcSign A A.pss * (-1) ^ ((A.n + 1) * pc A.n b) : Int) : R) • blade A R b := by
  rw [lcMap_blade hA hb, map_smul, rcMap_blade hA (xor_lt hb (pss_lt A)), smul_smul, xor_cancel, ← rcSign_mul hb]
  congr 1
  push_cast
  ring

/-- In odd dimensions the complements undo each other up to a global sign. -/
theorem rc_lc_odd (hA : WfAlg A) (hn : Odd A.n) (x : Cl A R) : rcMap A R (lcMap A R x) = (rcSign A A.pss : R) • x := by
  have : (rcMap A R).comp (lcMap A R) = (rcSign A A.pss : R) • LinearMap.id := by
    apply lin_ext
    intro b hb
    rw [LinearMap.comp_apply, rc_lc_blade hA hb, Even.neg_one_pow (by exact Even.mul_right (by exact Odd.add_one hn) _), mul_one]
    rfl
  simpa using congrArg (fun f => f x) this

theorem rc_lc_even (hA : WfAlg A) (hn : Even A.n) (x : Cl A R) :
    rcMap A R (lcMap A R x) = (rcSign A A.pss : R) • CliffordAlgebra.involute x := by
  have : (rcMap A R).comp (lcMap A R) = (rcSign A A.pss : R) • (CliffordAlgebra.involute (Q := Q A R)).toLinearMap := by
    apply lin_ext
    intro b hb
    rw [LinearMap.comp_apply, rc_lc_blade hA hb, LinearMap.smul_apply, AlgHom.toLinearMap_apply, involute_blade, smul_smul, pow_mul,
      Odd.neg_one_pow (Even.add_one hn)]
    push_cast; rfl
  simpa using congrArg (fun f => f x) this

/-- The anti-product, on elements. -/
noncomputable def antiMul (A : Alg) (R : Type) [CommRing R] (x y : Cl A R) : Cl A R := lcMap A R (rcMap A R x * rcMap A R y)

theorem antiMul_assoc_odd (hA : WfAlg A) (hn : Odd A.n) (x y z : Cl A R) :
    antiMul A R (antiMul A R x y) z = antiMul A R x (antiMul A R y z) := by
  simp only [antiMul, rc_lc_odd hA hn, smul_mul_assoc, mul_smul_comm, mul_assoc]

/-- Multiplication with the pseudoscalar from the left. -/
theorem rcMap_pss (hA : WfAlg A) : rcMap A R (blade A R A.pss) = (rcSign A A.pss : R) • 1 := by
  rw [rcMap_blade hA (pss_lt A), Nat.xor_self, blade_zero]

theorem lcMap_one (hA : WfAlg A) : lcMap A R 1 = blade A R A.pss := by
  rw [← blade_zero A R, lcMap_blade hA (Nat.two_pow_pos _), Nat.zero_xor]
  simp [rcSign, inv]

theorem antiMul_pss (hA : WfAlg A) (y : Cl A R) :
    antiMul A R (blade A R A.pss) y = (rcSign A A.pss : R) • lcMap A R (rcMap A R y) := by
  rw [antiMul, rcMap_pss hA, smul_mul_assoc, one_mul, map_smul]

theorem rcSign_sq' (A : Alg) (b : Nat) : ((rcSign A b : Int) : R) * (rcSign A b : R) = 1 := by
  exact_mod_cast congrArg (Int.cast : Int → R) (rcSign_sq A b)

/-- In even dimensions the pseudoscalar violates associativity. -/
theorem antiMul_even (hA : WfAlg A) (hn : Even A.n) (y : Cl A R) :
    antiMul A R (antiMul A R (blade A R A.pss) (blade A R A.pss)) (lcMap A R y) = lcMap A R (CliffordAlgebra.involute y) ∧
    antiMul A R (blade A R A.pss) (antiMul A R (blade A R A.pss) (lcMap A R y)) = lcMap A R y := by
  have h1 : antiMul A R (blade A R A.pss) (blade A R A.pss) = blade A R A.pss := by
    rw [antiMul_pss hA, rcMap_pss hA, map_smul, smul_smul, rcSign_sq', one_smul, lcMap_one hA]
  have h2 : ∀ z, antiMul A R (blade A R A.pss) (lcMap A R z) = lcMap A R (CliffordAlgebra.involute z) := by
    intro z
    rw [antiMul_pss hA, rc_lc_even hA hn, map_smul, smul_smul, rcSign_sq', one_smul]
  rw [h1, h2, h2]
  exact ⟨rfl, by rw [CliffordAlgebra.involute_involute]⟩

end Verif
