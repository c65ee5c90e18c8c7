import Verif.Proofs.Decompose
import Verif.Props.Solve
/-! # The dual in an algebra with one null vector -/
namespace Verif
open Model Spec Model.Factory Props

variable {A : Alg} {R : Type} [Field R] [DecidableEq R]

theorem inv_self_even (n b : Nat) : Even (inv n b b + pc n b / 2) := by
  have h := inv_add n b b
  rw [Nat.and_self] at h
  generalize inv n b b = i at h ⊢
  generalize pc n b = p at h ⊢
  obtain ⟨k, r, hr, rfl⟩ : ∃ k r, r < 4 ∧ p = 4 * k + r := ⟨p / 4, p % 4, Nat.mod_lt _ (by norm_num), (Nat.div_add_mod p 4).symm⟩
  rw [Nat.even_iff]
  interval_cases r <;> ring_nf at h ⊢ <;> omega

/-- A blade without null vectors times its reverse. -/
theorem rev_mul_blade (hA : WfAlg A) {b : Nat} (hb : b < 2 ^ A.n) (h : ¬ NullBlade A b) :
    CliffordAlgebra.reverse (blade A R b) * blade A R b = ((-1 : R) ^ pc A.n (b &&& A.negatives)) • 1 := by
  have h0 : sgn A b b ≠ 0 := by
    rw [sgn_ne_zero hA hb]
    rintro ⟨i, hi, h1, _, h2⟩
    exact h ⟨i, hi, h1, h2⟩
  have hs : sgn A b b = (-1) ^ (pc A.n (b &&& A.negatives) + inv A.n b b) := by
    unfold sgn at h0 ⊢
    rw [Nat.and_self] at h0 ⊢
    split_ifs at h0 ⊢ with g
    · rw [mul_one]
    · simp at h0
  rw [reverse_blade, smul_mul_assoc, blade_mul hA, Nat.xor_self, blade_zero, hs, smul_smul]
  congr 1
  push_cast
  rw [pow_add, mul_comm, mul_assoc, ← pow_add, (inv_self_even _ _).neg_one_pow, mul_one]

theorem blade_cancel (hA : WfAlg A) {b c : Nat} (hb : b < 2 ^ A.n) (hc : c < 2 ^ A.n) (hd : b &&& c = 0) {t u : R}
    (h : blade A R b * (t • blade A R c) = blade A R b * (u • blade A R c)) : t = u := by
  rw [mul_smul_comm, mul_smul_comm, blade_mul hA, sgn_disjoint hd, smul_smul, smul_smul] at h
  have := congrArg (coef A R (b ^^^ c)) h
  rw [map_smul, map_smul, coef_blade _ _ (xor_lt hb hc), if_pos rfl] at this
  push_cast at this
  simpa using this

theorem rhMap_blade (A : Alg) {b : Nat} (hb : b < 2 ^ A.n) : rhMap A R (blade A R b) = (hodgeSign A b : R) • blade A R (b ^^^ A.pss) :=
  compl_blade _ hb

/-- The dual of a blade without null vectors is its reverse times the pseudoscalar. -/
theorem rh_free (hA : WfAlg A) {b : Nat} (hb : b < 2 ^ A.n) (h : ¬ NullBlade A b) :
    rhMap A R (blade A R b) = CliffordAlgebra.reverse (blade A R b) * blade A R A.pss := by
  have e := congrArg (CliffordAlgebra.reverse (blade A R b) * ·) (blade_mul_rh (R := R) hA hb)
  simp only [← mul_assoc, rev_mul_blade hA hb h, mul_smul_comm, smul_mul_assoc, one_mul] at e
  have := congrArg (((-1 : R) ^ pc A.n (b &&& A.negatives)) • ·) e
  simp only [smul_smul, ← mul_pow] at this
  simpa using this

/-- The span of the blades without the vector `l`. -/
def freeOf (A : Alg) (R : Type) [Field R] (l : Nat) : Submodule R (Cl A R) :=
  Submodule.span R {x | ∃ b < 2 ^ A.n, b.testBit l = false ∧ x = blade A R b}

omit [DecidableEq R] in
theorem freeOf_mul (hA : WfAlg A) {l : Nat} {x y : Cl A R} (hx : x ∈ freeOf A R l) (hy : y ∈ freeOf A R l) : x * y ∈ freeOf A R l := by
  induction hx using Submodule.span_induction with
  | mem x h =>
    obtain ⟨a, ha, h1, rfl⟩ := h
    induction hy using Submodule.span_induction with
    | mem y h =>
      obtain ⟨b, hb, h2, rfl⟩ := h
      rw [blade_mul hA]
      exact Submodule.smul_mem _ _ (Submodule.subset_span ⟨_, xor_lt ha hb, by rw [Nat.testBit_xor, h1, h2]; rfl, rfl⟩)
    | zero => rw [mul_zero]; exact Submodule.zero_mem _
    | add u v _ _ h1 h2 => rw [mul_add]; exact Submodule.add_mem _ h1 h2
    | smul c u _ h => rw [mul_smul_comm]; exact Submodule.smul_mem _ _ h
  | zero => rw [zero_mul]; exact Submodule.zero_mem _
  | add u v _ _ h1 h2 => rw [add_mul]; exact Submodule.add_mem _ h1 h2
  | smul c u _ h => rw [smul_mul_assoc]; exact Submodule.smul_mem _ _ h

omit [DecidableEq R] in
theorem freeOf_reverse {l : Nat} {x : Cl A R} (hx : x ∈ freeOf A R l) : CliffordAlgebra.reverse x ∈ freeOf A R l := by
  induction hx using Submodule.span_induction with
  | mem x h =>
    obtain ⟨a, ha, h1, rfl⟩ := h
    rw [reverse_blade]
    exact Submodule.smul_mem _ _ (Submodule.subset_span ⟨_, ha, h1, rfl⟩)
  | zero => rw [map_zero]; exact Submodule.zero_mem _
  | add u v _ _ h1 h2 => rw [map_add]; exact Submodule.add_mem _ h1 h2
  | smul c u _ h => rw [map_smul]; exact Submodule.smul_mem _ _ h

theorem two_pow_ne {l b : Nat} (h : b.testBit l = false) : 2 ^ l &&& b = 0 := by
  apply Nat.eq_of_testBit_eq
  intro i
  rw [Nat.testBit_and, Nat.testBit_two_pow, Nat.zero_testBit]
  by_cases hi : l = i
  · subst hi; simp [h]
  · simp [hi]

theorem pc_two_pow {l n : Nat} (hl : l < n) : pc n (2 ^ l) = 1 := by
  rw [pc, Finset.sum_eq_single l]
  · simp
  · intro i _ hi
    rw [Nat.testBit_two_pow]; simp [Ne.symm hi]
  · intro h; exact absurd (Finset.mem_range.2 hl) h

omit [DecidableEq R] in
/-- The vector `l` moved past an element that does not contain it. -/
theorem vec_swap (hA : WfAlg A) {l : Nat} (hl : l < A.n) {x : Cl A R} (hx : x ∈ freeOf A R l) :
    blade A R (2 ^ l) * x = CliffordAlgebra.involute x * blade A R (2 ^ l) := by
  induction hx using Submodule.span_induction with
  | mem x h =>
    obtain ⟨b, hb, h1, rfl⟩ := h
    have hd := two_pow_ne h1
    rw [involute_blade, smul_mul_assoc, blade_mul hA, blade_mul hA, sgn_disjoint hd, sgn_disjoint (by rw [Nat.and_comm]; exact hd), Nat.xor_comm,
      smul_smul]
    congr 1
    push_cast
    have h := inv_add A.n (2 ^ l) b
    rw [hd, pc_two_pow hl, one_mul] at h
    have h0 : pc A.n 0 = 0 := by simp [pc]
    rw [← pow_add, ← h, h0]
    apply neg_one_pow_congr
    simp only [Nat.even_add]
    tauto
  | zero => simp
  | add u v _ _ h1 h2 => rw [mul_add, map_add, add_mul, h1, h2]
  | smul c u _ h => rw [mul_smul_comm, map_smul, smul_mul_assoc, h]

omit [DecidableEq R] in
theorem null_vec_mul (hA : WfAlg A) {l : Nat} (hl : l < A.n) (h0 : A.desc.sig.getD l 0 = 0) {b : Nat} (hb : b.testBit l = true) :
    blade A R (2 ^ l) * blade A R b = 0 := by
  have hlt : 2 ^ l < 2 ^ A.n := Nat.pow_lt_pow_right (by norm_num) hl
  rw [blade_mul hA]
  have : sgn A (2 ^ l) b = 0 := by
    by_contra h
    exact (sgn_ne_zero hA hlt).1 h ⟨l, hl, by simp, hb, h0⟩
  rw [this]
  simp

theorem pss_testBit {l : Nat} (hl : l < A.n) : A.pss.testBit l = true := by
  rw [Alg.pss, Nat.testBit_two_pow_sub_one]; simpa using hl

/-- In an algebra whose only null vector is `l`: the dual of an element without it. -/
theorem rh_of_free (hA : WfAlg A) {l : Nat} (h1 : ∀ i < A.n, A.desc.sig.getD i 0 = 0 → i = l) {x : Cl A R} (hx : x ∈ freeOf A R l) :
    rhMap A R x = CliffordAlgebra.reverse x * blade A R A.pss := by
  induction hx using Submodule.span_induction with
  | mem x h =>
    obtain ⟨b, hb, h2, rfl⟩ := h
    refine rh_free hA hb ?_
    rintro ⟨i, hi, h3, h4⟩
    rw [h1 i hi h4, h2] at h3
    cases h3
  | zero => simp
  | add u v _ _ h1 h2 => rw [map_add, h1, h2, map_add, add_mul]
  | smul c u _ h => rw [map_smul, h, map_smul, smul_mul_assoc]

/-- The sign in `e * I₀ = k I` for the null vector `e` and the product `I₀` of the other vectors. -/
def nullSign (A : Alg) (l : Nat) : Int := (-1) ^ inv A.n (2 ^ l) (A.pss ^^^ 2 ^ l)

omit [DecidableEq R] in
theorem vec_rest (hA : WfAlg A) {l : Nat} (hl : l < A.n) :
    blade A R (2 ^ l) * blade A R (A.pss ^^^ 2 ^ l) = (nullSign A l : R) • blade A R A.pss := by
  have ht : (A.pss ^^^ 2 ^ l).testBit l = false := by rw [Nat.testBit_xor, pss_testBit hl]; simp
  rw [blade_mul hA, sgn_disjoint (two_pow_ne ht), show 2 ^ l ^^^ (A.pss ^^^ 2 ^ l) = A.pss by
    rw [Nat.xor_comm, Nat.xor_assoc, Nat.xor_self, Nat.xor_zero]]
  rfl

theorem nullSign_sq (A : Alg) (l : Nat) : nullSign A l * nullSign A l = 1 := by
  rw [nullSign, ← mul_pow]; simp

/-- In an algebra whose only null vector is `l`: the dual of the null vector times an element without it. -/
theorem rh_of_null (hA : WfAlg A) {l : Nat} (hl : l < A.n) (h0 : A.desc.sig.getD l 0 = 0) (h1 : ∀ i < A.n, A.desc.sig.getD i 0 = 0 → i = l)
    {x : Cl A R} (hx : x ∈ freeOf A R l) :
    rhMap A R (blade A R (2 ^ l) * x) = (nullSign A l : R) • (CliffordAlgebra.reverse x * blade A R (A.pss ^^^ 2 ^ l)) := by
  have hlt : 2 ^ l < 2 ^ A.n := Nat.pow_lt_pow_right (by norm_num) hl
  induction hx using Submodule.span_induction with
  | mem x h =>
    obtain ⟨c, hc, h2, rfl⟩ := h
    have hnn : ¬ NullBlade A c := by
      rintro ⟨i, hi, h3, h4⟩
      rw [h1 i hi h4, h2] at h3
      cases h3
    have hd := two_pow_ne h2
    have hb := xor_lt hlt hc
    have hcd : c &&& (A.pss ^^^ 2 ^ l) = (c : Nat) := by
      apply Nat.eq_of_testBit_eq
      intro i
      rw [Nat.testBit_and, Nat.testBit_xor, Nat.testBit_two_pow]
      by_cases hi : i < A.n
      · rw [pss_testBit hi]
        by_cases hil : l = i
        · subst hil; simp [h2]
        · simp [hil]
      · rw [Nat.testBit_lt_two_pow (lt_of_lt_of_le hc (Nat.pow_le_pow_right (by norm_num) (by omega)))]; simp
    set b := 2 ^ l ^^^ c with hbdef
    have eb : blade A R (2 ^ l) * blade A R c = ((-1 : R) ^ inv A.n (2 ^ l) c) • blade A R b := by
      rw [blade_mul hA, sgn_disjoint hd]; push_cast; rfl
    have hx : c ^^^ (A.pss ^^^ 2 ^ l) = b ^^^ A.pss := by
      rw [hbdef, Nat.xor_comm A.pss, ← Nat.xor_assoc, Nat.xor_comm c]
    obtain ⟨u, hu⟩ : ∃ u : R, (nullSign A l : R) • (CliffordAlgebra.reverse (blade A R c) * blade A R (A.pss ^^^ 2 ^ l)) = u • blade A R (b ^^^ A.pss) := by
      rw [reverse_blade, smul_mul_assoc, blade_mul hA, hx, smul_smul, smul_smul]
      exact ⟨_, rfl⟩
    have hneg : b &&& A.negatives = c &&& A.negatives := by
      apply Nat.eq_of_testBit_eq
      intro i
      rw [Nat.testBit_and, Nat.testBit_and, hbdef, Nat.testBit_xor, Nat.testBit_two_pow]
      by_cases hil : l = i
      · subst hil
        rw [negatives_testBit hA l hl, h0]; simp
      · simp [hil]
    have e1 : (-1 : R) ^ inv A.n (2 ^ l) c * (-1 : R) ^ inv A.n (2 ^ l) c = 1 := by rw [← mul_pow]; simp
    have e2 : (nullSign A l : R) * (nullSign A l : R) = 1 := by exact_mod_cast congrArg (Int.cast : Int → R) (nullSign_sq A l)
    rw [eb, map_smul, rhMap_blade A hb, hu, smul_smul]
    congr 1
    refine blade_cancel hA hb (xor_lt hb (pss_lt A)) (and_compl hb) ?_
    rw [← smul_smul, ← rhMap_blade A hb, mul_smul_comm, blade_mul_rh hA hb, ← hu, hneg]
    have eb' : blade A R b = ((-1 : R) ^ inv A.n (2 ^ l) c) • (blade A R (2 ^ l) * blade A R c) := by rw [eb, smul_smul, e1, one_smul]
    rw [eb', smul_mul_assoc, mul_smul_comm]
    congr 1
    have e3 : blade A R c * CliffordAlgebra.reverse (blade A R c) = ((-1 : R) ^ pc A.n (c &&& A.negatives)) • 1 := by
      rw [← rev_mul_blade hA hc hnn, reverse_blade, mul_smul_comm, smul_mul_assoc]
    rw [mul_assoc, ← mul_assoc (blade A R c), e3, smul_mul_assoc, one_mul, mul_smul_comm, vec_rest hA hl, smul_smul, smul_smul]
    congr 1
    rw [mul_right_comm, e2, one_mul]
  | zero => simp
  | add u v _ _ h1 h2 => rw [mul_add, map_add, h1, h2, map_add, add_mul, smul_add]
  | smul c u _ h => rw [mul_smul_comm, map_smul, h, map_smul, smul_mul_assoc, smul_comm]

omit [DecidableEq R] in
theorem gradePart2_rhrh (hA : WfAlg A) (x : Cl A R) :
    gradePart A R 2 (rhMap A R (rhMap A R x)) = ((-1 : R) ^ pc A.n A.negatives) • gradePart A R 2 x := by
  have : (gradePart A R 2).comp ((rhMap A R).comp (rhMap A R)) = ((-1 : R) ^ pc A.n A.negatives) • gradePart A R 2 := by
    apply lin_ext
    intro b hb
    have hc := xor_lt hb (pss_lt A)
    have hcc : b ^^^ A.pss ^^^ A.pss = b := by rw [Nat.xor_assoc, Nat.xor_self, Nat.xor_zero]
    rw [LinearMap.comp_apply, LinearMap.comp_apply, LinearMap.smul_apply, rhMap, compl_blade _ hb, map_smul, compl_blade _ hc, hcc, smul_smul,
      map_smul, gradePart_blade _ hb]
    by_cases h2 : popcount b = 2
    swap
    · rw [if_neg h2, smul_zero, smul_zero]
    rw [if_pos h2]
    congr 1
    rw [hodgeSign, hodgeSign, hcc, swapSign_eq hA hb, swapSign_eq hA hc, negSign_eq hA hb, negSign_eq hA hc]
    push_cast
    have e1 : pc A.n (b &&& A.negatives) + pc A.n ((b ^^^ A.pss) &&& A.negatives) = pc A.n A.negatives := by
      rw [pc, pc, pc, ← Finset.sum_add_distrib]
      apply Finset.sum_congr rfl
      intro i hi
      rw [Nat.testBit_and, Nat.testBit_and, Nat.testBit_xor, pss_testBit (Finset.mem_range.1 hi)]
      cases b.testBit i <;> simp
    have e2 : Even (inv A.n b (b ^^^ A.pss) + inv A.n (b ^^^ A.pss) b) := by
      have h := inv_add A.n b (b ^^^ A.pss)
      rw [and_compl hb, ← popcount_of_lt hA.le32 hb, h2] at h
      have h0 : pc A.n 0 = 0 := by simp [pc]
      rw [h0, add_zero] at h
      rw [h]; exact even_two_mul _
    have e3 : ∀ i j k m : Nat, (-1 : R) ^ i * (-1) ^ j * ((-1) ^ k * (-1) ^ m) = (-1) ^ (i + k) * (-1) ^ (j + m) := by intros; ring
    rw [e3, e2.neg_one_pow, e1, one_mul]
  exact LinearMap.congr_fun this x

omit [DecidableEq R] in
theorem gradePart2_symm (hA : WfAlg A) (h2 : (2 : R) ≠ 0) {w : Cl A R} (hw : CliffordAlgebra.reverse w = w) : gradePart A R 2 w = 0 := by
  apply ext_coef
  intro b hb
  rw [gradePart_eq_proj, coef_proj, map_zero]
  split_ifs with h
  · have := congrArg (coef A R b) hw
    rw [coef_reverse hA R hb, h] at this
    simp only [Nat.reduceDiv, pow_one, neg_mul, one_mul] at this
    have h3 : 2 * coef A R b w = 0 := by linear_combination -this
    exact (mul_eq_zero.1 h3).resolve_left h2
  · rfl

/-- The value of `euclidian_factorization` in an algebra whose only null vector is `l`. -/
theorem euclid_value (hA : WfAlg A) (h2 : (2 : R) ≠ 0) {l : Nat} (hl : l < A.n) (h0 : A.desc.sig.getD l 0 = 0)
    (h1 : ∀ i < A.n, A.desc.sig.getD i 0 = 0 → i = l) {r c : Cl A R} (hr : r ∈ freeOf A R l) (hc : c ∈ freeOf A R l)
    (hi : CliffordAlgebra.involute c = -c) :
    gradePart A R 2 (rhMap A R ((r + blade A R (2 ^ l) * c) * rhMap A R (r + blade A R (2 ^ l) * c))) =
      ((-1 : R) ^ pc A.n A.negatives) • gradePart A R 2 (blade A R (2 ^ l) * c * CliffordAlgebra.reverse r) := by
  set E := blade A R (2 ^ l) with hE
  set k := (nullSign A l : R) with hk
  have e2 : k * k = 1 := by rw [hk]; exact_mod_cast congrArg (Int.cast : Int → R) (nullSign_sq A l)
  have hEI : E * blade A R A.pss = 0 := null_vec_mul hA hl h0 (pss_testBit hl)
  have f1 : rhMap A R (r + E * c) = CliffordAlgebra.reverse r * blade A R A.pss + k • (CliffordAlgebra.reverse c * blade A R (A.pss ^^^ 2 ^ l)) := by
    rw [map_add, rh_of_free hA h1 hr, rh_of_null hA hl h0 h1 hc]
  have g1 : r * (CliffordAlgebra.reverse r * blade A R A.pss) = rhMap A R (r * CliffordAlgebra.reverse r) := by
    rw [rh_of_free hA h1 (freeOf_mul hA hr (freeOf_reverse hr)), CliffordAlgebra.reverse.map_mul, CliffordAlgebra.reverse_reverse, mul_assoc]
  have g2 : r * (k • (CliffordAlgebra.reverse c * blade A R (A.pss ^^^ 2 ^ l))) = rhMap A R (E * (c * CliffordAlgebra.reverse r)) := by
    rw [rh_of_null hA hl h0 h1 (freeOf_mul hA hc (freeOf_reverse hr)), CliffordAlgebra.reverse.map_mul, CliffordAlgebra.reverse_reverse, mul_smul_comm,
      mul_assoc]
  have g3 : E * c * (CliffordAlgebra.reverse r * blade A R A.pss) = 0 := by
    rw [mul_assoc, ← mul_assoc c, ← mul_assoc, vec_swap hA hl (freeOf_mul hA hc (freeOf_reverse hr)), mul_assoc, hEI, mul_zero]
  have g4 : E * c * (k • (CliffordAlgebra.reverse c * blade A R (A.pss ^^^ 2 ^ l))) = rhMap A R (c * CliffordAlgebra.reverse c) := by
    have hw := freeOf_mul hA hc (freeOf_reverse hc)
    have hiw : CliffordAlgebra.involute (c * CliffordAlgebra.reverse c) = c * CliffordAlgebra.reverse c := by
      rw [map_mul, ← CliffordAlgebra.reverse_involute, hi, map_neg, neg_mul_neg]
    rw [mul_smul_comm, mul_assoc, ← mul_assoc c, ← mul_assoc, vec_swap hA hl hw, hiw, mul_assoc, vec_rest hA hl, mul_smul_comm, smul_smul, e2, one_smul,
      rh_of_free hA h1 hw, CliffordAlgebra.reverse.map_mul, CliffordAlgebra.reverse_reverse]
  have ev : (r + E * c) * rhMap A R (r + E * c) =
      rhMap A R (r * CliffordAlgebra.reverse r + c * CliffordAlgebra.reverse c + E * (c * CliffordAlgebra.reverse r)) := by
    rw [f1, add_mul, mul_add, mul_add, g1, g2, g3, g4, map_add, map_add]
    abel
  rw [ev, gradePart2_rhrh hA, map_add, map_add, gradePart2_symm hA h2, gradePart2_symm hA h2, zero_add, zero_add, mul_assoc]
  all_goals rw [CliffordAlgebra.reverse.map_mul, CliffordAlgebra.reverse_reverse]

end Verif
