import Verif.Proofs.Euclid
import Verif.Props.Decompose
/-! # C75: the translator and the rotor of a motor -/
namespace Verif.Props
open Model Spec Model.Factory

variable {A : Alg} {R : Type} [Field R] [DecidableEq R]

theorem LeastOp.call {r : Option (Operator Int)} {k : Nat} {S : SubSpace} {F : ∀ (R : Type) [CommRing R], Cl A R → Cl A R}
    (h : LeastOp A r k S F) {R : Type} [CommRing R] {m : MV R} (hm : WfMV A m) (hs : m.sub = S) :
    Gives A (MV.call r (List.replicate k m)) (F R (val A m)) := by
  obtain ⟨o, rfl, o2, o3, _, o5⟩ := h
  subst hs
  refine ⟨⟨o.output, o.apply R (List.replicate k m.vals)⟩, ?_, ⟨o2.wf_output, apply_length R o2 _⟩, o5 R m.vals hm.len⟩
  rw [MV.call, Option.bind_eq_bind, Option.bind_some, if_pos (by rw [o3]; simp [hm.len]), MV.construct, List.map_replicate]
  rw [if_pos (apply_length R o2 _)]

/-- The number of basis vectors with negative square. -/
def negVectors (A : Alg) : Nat := ((Finset.range A.n).filter fun i => A.desc.sig.getD i 0 = -1).card

theorem negVectors_eq (hA : WfAlg A) : pc A.n A.negatives = negVectors A := by
  rw [pc, negVectors, Finset.card_filter]
  apply Finset.sum_congr rfl
  intro i hi
  rw [negatives_testBit hA i (Finset.mem_range.1 hi)]
  by_cases h : A.desc.sig.getD i 0 = -1
  · rw [if_pos h, decide_eq_true h]; rfl
  · rw [if_neg h, decide_eq_false h]; rfl

omit [DecidableEq R] in
theorem free_of_coef {l : Nat} {x : Cl A R} (h : ∀ b < 2 ^ A.n, coef A R b x ≠ 0 → b.testBit l = false) : x ∈ freeOf A R l := by
  rw [sum_coef A R x]
  refine Submodule.sum_mem _ fun b hb => ?_
  rw [Finset.mem_range] at hb
  by_cases h0 : coef A R b x = 0
  · rw [h0, zero_smul]; exact Submodule.zero_mem _
  · exact Submodule.smul_mem _ _ (Submodule.subset_span ⟨b, hb, h b hb h0, rfl⟩)

omit [DecidableEq R] in
/-- An even element all of whose blades contain the vector `l` is that vector times an odd element without it. -/
theorem null_factor (hA : WfAlg A) {l : Nat} (hl : l < A.n) {x : Cl A R}
    (h : ∀ b < 2 ^ A.n, coef A R b x ≠ 0 → b.testBit l = true ∧ popcount b % 2 = 0) :
    ∃ c ∈ freeOf A R l, CliffordAlgebra.involute c = -c ∧ x = blade A R (2 ^ l) * c := by
  have hlt : 2 ^ l < 2 ^ A.n := Nat.pow_lt_pow_right (by norm_num) hl
  have hx : x ∈ Submodule.span R {x | ∃ b < 2 ^ A.n, (b.testBit l = true ∧ popcount b % 2 = 0) ∧ x = blade A R b} := by
    rw [sum_coef A R x]
    refine Submodule.sum_mem _ fun b hb => ?_
    rw [Finset.mem_range] at hb
    by_cases h0 : coef A R b x = 0
    · rw [h0, zero_smul]; exact Submodule.zero_mem _
    · exact Submodule.smul_mem _ _ (Submodule.subset_span ⟨b, hb, h b hb h0, rfl⟩)
  clear h
  induction hx using Submodule.span_induction with
  | mem x h =>
    obtain ⟨b, hb, ⟨h1, h2⟩, rfl⟩ := h
    have ht : (2 ^ l ^^^ b).testBit l = false := by rw [Nat.testBit_xor, h1]; simp
    have hc := xor_lt hlt hb
    refine ⟨((-1 : R) ^ inv A.n (2 ^ l) (2 ^ l ^^^ b)) • blade A R (2 ^ l ^^^ b),
      Submodule.smul_mem _ _ (Submodule.subset_span ⟨_, hc, ht, rfl⟩), ?_, ?_⟩
    · rw [map_smul, involute_blade]
      have h3 := pc_xor A.n (2 ^ l) b
      rw [pc_two_pow hl, show 2 ^ l &&& b = 2 ^ l by
        apply Nat.eq_of_testBit_eq
        intro i
        rw [Nat.testBit_and, Nat.testBit_two_pow]
        by_cases hi : l = i
        · subst hi; simp [h1]
        · simp [hi], pc_two_pow hl] at h3
      rw [popcount_of_lt hA.le32 hb] at h2
      have : Odd (pc A.n (2 ^ l ^^^ b)) := by rw [Nat.odd_iff]; omega
      rw [this.neg_one_pow, neg_smul, one_smul, smul_neg]
    · rw [mul_smul_comm, blade_mul hA, sgn_disjoint (two_pow_ne ht), smul_smul, ← Nat.xor_assoc, Nat.xor_self, Nat.zero_xor]
      push_cast
      rw [← mul_pow]
      simp
  | zero => exact ⟨0, Submodule.zero_mem _, by simp, by simp⟩
  | add u v _ _ h1 h2 =>
    obtain ⟨c, c1, c2, rfl⟩ := h1
    obtain ⟨d, d1, d2, rfl⟩ := h2
    exact ⟨c + d, Submodule.add_mem _ c1 d1, by rw [map_add, c2, d2]; abel, by rw [mul_add]⟩
  | smul k u _ h =>
    obtain ⟨c, c1, c2, rfl⟩ := h
    exact ⟨k • c, Submodule.smul_mem _ _ c1, by rw [map_smul, c2, smul_neg], by rw [mul_smul_comm]⟩

/-- The parts of a motor with and without the null vector, and what `euclidian_factorization` makes of them. -/
theorem translator_value (hA : WfAlg A) (hn : 2 ≤ A.n) (h2 : (2 : R) ≠ 0) {l : Nat} (hl : l < A.n) (h0 : A.desc.sig.getD l 0 = 0)
    (h1 : ∀ i < A.n, A.desc.sig.getD i 0 = 0 → i = l) {m : MV R} (hm : WfMV A m) (he : EvenSub m.sub) :
    ∃ d n c t, m.degenerate A = some d ∧ m.nondegenerate A = some n ∧ WfMV A d ∧ WfMV A n ∧ val A m = val A n + val A d ∧
      val A n ∈ freeOf A R l ∧ c ∈ freeOf A R l ∧ CliffordAlgebra.involute c = -c ∧ val A d = blade A R (2 ^ l) * c ∧
      CliffordAlgebra.involute (val A n) = val A n ∧
      m.translatorPart A = some t ∧ WfMV A t ∧
      val A t = 1 + ((-1 : R) ^ negVectors A) • gradePart A R 2 (val A d * CliffordAlgebra.reverse (val A n)) := by
  obtain ⟨d, n, d1, n1, wd, wn, cd, cn, _⟩ := C17_multivector hA hm
  have hsum : val A m = val A n + val A d := by
    apply ext_coef
    intro b _
    rw [map_add, ← coeff_eq wd, ← coeff_eq wn, ← coeff_eq hm, cd, cn]
    by_cases h : (A.product b b).2 = 0 <;> simp [h]
  have hnull : ∀ b < 2 ^ A.n, (A.product b b).2 = 0 ↔ b.testBit l = true := by
    intro b hb
    rw [← nullBlade_iff hA hb]
    constructor
    · rintro ⟨i, hi, h3, h4⟩
      rw [← h1 i hi h4]; exact h3
    · intro h
      exact ⟨l, hl, h, h0⟩
  have hev : ∀ b < 2 ^ A.n, coeff m b ≠ 0 → popcount b % 2 = 0 := by
    intro b hb h
    refine he b ?_
    by_contra h'
    exact h (coeff_notMem h')
  have hfn : val A n ∈ freeOf A R l := by
    apply free_of_coef
    intro b hb h
    rw [← coeff_eq wn, cn] at h
    by_contra ht
    rw [Bool.not_eq_false] at ht
    rw [if_neg (by rw [not_not]; exact (hnull b hb).2 ht)] at h
    exact h rfl
  have hin : CliffordAlgebra.involute (val A n) = val A n := by
    apply ext_coef
    intro b hb
    rw [coef_involute hA R hb]
    by_cases h : coef A R b (val A n) = 0
    · rw [h, mul_zero]
    · rw [← coeff_eq wn, cn] at h
      split_ifs at h
      · rw [neg_one_pow_mod, if_pos (hev b hb h), one_mul]
      · exact absurd rfl h
  obtain ⟨c, c1, c2, c3⟩ := null_factor hA hl (x := val A d) (by
    intro b hb h
    rw [← coeff_eq wd, cd] at h
    split_ifs at h with g
    · exact ⟨(hnull b hb).1 g, hev b hb h⟩
    · exact absurd rfl h)
  obtain ⟨e, e1, e2, e3⟩ := (euclidian_least hA hn hm.sub).call hm rfl
  obtain ⟨t, t1, t2, t3⟩ := (C44_numbers hA e2 1).1
  refine ⟨d, n, c, t, d1, n1, wd, wn, hsum, hfn, c1, c2, c3, hin, ?_, t2, ?_⟩
  · rw [MV.translatorPart]
    have : MV.call (euclidianFactorization A (.sub m.sub)) [m, m] = some e := e1
    rw [this]
    exact t1
  · rw [t3, e3, hsum, c3, euclid_value hA h2 hl h0 h1 hfn c1 c2, ← negVectors_eq hA, map_one, add_comm]

/-- The selection of the implementations of `motor_translator` and `motor_rotor`. -/
theorem motorPart_match (hA : WfAlg A) {S : SubSpace} (hS : WfSub A S) :
    Dispatch.matchLoop S (motorPartOptions A) =
      if ∀ b ∈ S.blades, popcount b % 2 = 0 then some (decide (∀ b ∈ S.blades, (A.product b b).2 ≠ 0)) else none := by
  obtain ⟨_, _, _, ⟨U, u1, u2, u3⟩⟩ := C61_spaces hA
  obtain ⟨E, E1, E2, E3⟩ := (C14_named hA).2.2.2.2.2.2.2.2.2.2.2.2.1
  have h1 : U.contains S = true ↔ ∀ b ∈ S.blades, popcount b % 2 = 0 ∧ (A.product b b).2 ≠ 0 := by
    rw [contains_iff]
    refine forall₂_congr fun b hb => ?_
    rw [u3]
    have := nullBlade_iff hA (hS.lt b hb)
    exact ⟨fun h => ⟨h.2.1, fun h' => h.2.2 (this.2 h')⟩, fun h => ⟨hS.lt b hb, h.1, fun h' => h.2 (this.1 h')⟩⟩
  have h2 : E.contains S = true ↔ ∀ b ∈ S.blades, popcount b % 2 = 0 := by
    rw [contains_iff]
    exact forall₂_congr fun b hb => by rw [E3]; exact ⟨fun h => h.2, fun h => ⟨hS.lt b hb, h⟩⟩
  simp only [motorPartOptions, Dispatch.matchLoop, insideRotor, insideEven, u1, E1, Option.bind_eq_bind, Option.bind_some]
  by_cases g : ∀ b ∈ S.blades, popcount b % 2 = 0
  · rw [if_pos g]
    by_cases g' : ∀ b ∈ S.blades, (A.product b b).2 ≠ 0
    · rw [h1.2 fun b hb => ⟨g b hb, g' b hb⟩, decide_eq_true g']
    · have : U.contains S = false := by
        rw [← Bool.not_eq_true, h1]
        exact fun h => g' fun b hb => (h b hb).2
      rw [this, h2.2 g, decide_eq_false g']
  · rw [if_neg g]
    have e1 : U.contains S = false := by
      rw [← Bool.not_eq_true, h1]
      exact fun h => g fun b hb => (h b hb).1
    have e2 : E.contains S = false := by
      rw [← Bool.not_eq_true, h2]
      exact g
    rw [e1, e2]

/-- The parts of a normalised motor, and the product of its translator and its part without the null vector. -/
theorem translator_parts (hA : WfAlg A) (h5 : A.n < 6) (hn : 2 ≤ A.n) (h2 : (2 : R) ≠ 0) {l : Nat} (hl : l < A.n) (h0 : A.desc.sig.getD l 0 = 0)
    (h1 : ∀ i < A.n, A.desc.sig.getD i 0 = 0 → i = l) {m : MV R} (hm : WfMV A m) (he : ∀ b ∈ m.sub.blades, popcount b % 2 = 0)
    (hu : val A m * CliffordAlgebra.reverse (val A m) = 1) :
    ∃ d n t, m.degenerate A = some d ∧ m.nondegenerate A = some n ∧ m.translatorPart A = some t ∧ WfMV A t ∧ WfMV A n ∧
      val A m = val A n + val A d ∧ val A n ∈ freeOf A R l ∧
      val A t * val A n = val A n + ((-1 : R) ^ negVectors A) • val A d ∧
      val A t * CliffordAlgebra.reverse (val A t) = 1 ∧ val A n * CliffordAlgebra.reverse (val A n) = 1 ∧
      gradePart A R 2 (val A t - 1) = val A t - 1 ∧ (val A t - 1) * (val A t - 1) = 0 := by
  obtain ⟨d, n, c, t, d1, n1, wd, wn, hs, fn, fc, ic, hd, hin, t1, wt, vt⟩ := translator_value hA hn h2 hl h0 h1 hm he
  set E := blade A R (2 ^ l) with hE
  have hlt : 2 ^ l < 2 ^ A.n := Nat.pow_lt_pow_right (by norm_num) hl
  have hEE : E * E = 0 := null_vec_mul hA hl h0 (by simp)
  have hEyE : ∀ y ∈ freeOf A R l, E * y * E = 0 := fun y hy => by
    rw [vec_swap hA hl hy, mul_assoc, hEE, mul_zero]
  have rE : CliffordAlgebra.reverse E = E := by rw [hE, reverse_blade, pc_two_pow hl]; simp
  -- the parts of `m * ~m`
  have hdd : val A d * CliffordAlgebra.reverse (val A d) = 0 := by
    rw [hd, CliffordAlgebra.reverse.map_mul, rE, ← mul_assoc, mul_assoc E c, hEyE _ (freeOf_mul hA fc (freeOf_reverse fc))]
  have hexp : val A n * CliffordAlgebra.reverse (val A n) + (val A d * CliffordAlgebra.reverse (val A n) +
      val A n * CliffordAlgebra.reverse (val A d)) = 1 := by
    rw [← hu, hs, map_add, add_mul, mul_add, mul_add, hdd]
    abel
  -- the part with the null vector of an element
  have hfz : ∀ u v : Cl A R, u ∈ freeOf A R l → v ∈ freeOf A R l → u + E * v = 1 → u = 1 ∧ E * v = 0 := by
    intro u v hu' hv' h
    have c1 : ∀ x ∈ freeOf A R l, ∀ b < 2 ^ A.n, b.testBit l = true → coef A R b x = 0 := by
      intro x hx b hb ht
      induction hx using Submodule.span_induction with
      | mem x h =>
        obtain ⟨a, ha, h', rfl⟩ := h
        rw [coef_blade _ _ ha, if_neg]
        rintro rfl
        rw [ht] at h'; cases h'
      | zero => rw [map_zero]
      | add u v _ _ g1 g2 => rw [map_add, g1, g2, add_zero]
      | smul c u _ g => rw [map_smul, g, smul_zero]
    have c2 : ∀ x ∈ freeOf A R l, ∀ b < 2 ^ A.n, b.testBit l = false → coef A R b (E * x) = 0 := by
      intro x hx b hb ht
      induction hx using Submodule.span_induction with
      | mem x h =>
        obtain ⟨a, ha, h', rfl⟩ := h
        rw [hE, blade_mul hA, map_smul, coef_blade _ _ (xor_lt hlt ha), if_neg, smul_zero]
        rintro rfl
        rw [Nat.testBit_xor, h'] at ht
        simp at ht
      | zero => rw [mul_zero, map_zero]
      | add u v _ _ g1 g2 => rw [mul_add, map_add, g1, g2, add_zero]
      | smul c u _ g => rw [mul_smul_comm, map_smul, g, smul_zero]
    have hu1 : u = 1 := by
      apply ext_coef
      intro b hb
      cases ht : b.testBit l
      · have := congrArg (coef A R b) h
        rwa [map_add, c2 v hv' b hb ht, add_zero] at this
      · rw [c1 u hu' b hb ht, ← blade_zero, coef_blade _ _ (by simp), if_neg]
        rintro rfl
        simp at ht
    exact ⟨hu1, by rw [hu1] at h; simpa using h⟩
  have hswap : val A n * CliffordAlgebra.reverse (val A d) = E * (- (val A n * CliffordAlgebra.reverse c)) := by
    have hf := freeOf_mul hA fn (freeOf_reverse fc)
    rw [mul_neg, vec_swap hA hl hf, map_mul, hin, ← CliffordAlgebra.reverse_involute, ic, map_neg, mul_neg, neg_mul, neg_neg, hd,
      CliffordAlgebra.reverse.map_mul, rE, mul_assoc]
  have hsplit := hfz (val A n * CliffordAlgebra.reverse (val A n)) (c * CliffordAlgebra.reverse (val A n) - val A n * CliffordAlgebra.reverse c)
    (freeOf_mul hA fn (freeOf_reverse fn))
    (Submodule.sub_mem _ (freeOf_mul hA fc (freeOf_reverse fn)) (freeOf_mul hA fn (freeOf_reverse fc))) (by
      rw [← hexp, hswap, hd, mul_sub, mul_neg, mul_assoc]
      abel)
  obtain ⟨hnn, hz⟩ := hsplit
  have hnn' : CliffordAlgebra.reverse (val A n) * val A n = 1 := mul_eq_one_symm hnn
  -- the bivector
  have hrev : CliffordAlgebra.reverse (val A d * CliffordAlgebra.reverse (val A n)) = - (val A d * CliffordAlgebra.reverse (val A n)) := by
    rw [CliffordAlgebra.reverse.map_mul, CliffordAlgebra.reverse_reverse, hswap, hd, mul_assoc]
    rw [mul_sub] at hz
    rw [mul_neg, sub_eq_zero.1 hz]
  have hinv : CliffordAlgebra.involute (val A d * CliffordAlgebra.reverse (val A n)) = val A d * CliffordAlgebra.reverse (val A n) := by
    rw [map_mul, ← CliffordAlgebra.reverse_involute, hin, hd, map_mul, ic, hE, involute_blade, pc_two_pow hl]
    simp
  have hbv := anti_bivector hA h5 h2 hrev hinv
  rw [hbv] at vt
  set q := ((-1 : R) ^ negVectors A) with hq
  have hB2 : (val A d * CliffordAlgebra.reverse (val A n)) * (val A d * CliffordAlgebra.reverse (val A n)) = 0 := by
    have := hEyE _ (freeOf_mul hA fc (freeOf_reverse fn))
    rw [hd]
    calc _ = E * (c * CliffordAlgebra.reverse (val A n)) * E * (c * CliffordAlgebra.reverse (val A n)) := by simp only [mul_assoc]
      _ = 0 := by rw [this, zero_mul]
  have hmul : val A t * val A n = val A n + q • val A d := by
    rw [vt, add_mul, one_mul, smul_mul_assoc, mul_assoc, hnn', mul_one]
  have ht1 : val A t * CliffordAlgebra.reverse (val A t) = 1 := by
    rw [vt, map_add, map_smul, hrev, CliffordAlgebra.reverse.map_one, add_mul, mul_add, mul_add, one_mul, mul_one, smul_neg, mul_neg,
      mul_neg, smul_mul_smul_comm, hB2, smul_zero]
    simp
  have hg : gradePart A R 2 (val A t - 1) = val A t - 1 := by rw [vt, add_sub_cancel_left, map_smul, hbv]
  have hsq : (val A t - 1) * (val A t - 1) = 0 := by rw [vt, add_sub_cancel_left, smul_mul_smul_comm, hB2, smul_zero]
  exact ⟨d, n, t, d1, n1, t1, wt, wn, hs, fn, hmul, ht1, hnn, hg, hsq⟩

/-- C75: in an algebra with exactly one null basis vector, for every even `m` with `m * ~m = 1` in fewer than six dimensions,
`motor_translator` and `motor_rotor` return `t` and `r` with `t * r = n ± d`, where `n` and `d` are the parts of `m` without and with the null
vector, and the sign is negative exactly if the number of basis vectors with negative square is odd.  Both are normalised,
`t - 1` squares to zero and `r` is the part `n`. -/
theorem C75_parts (hA : WfAlg A) (h5 : A.n < 6) (hn : 2 ≤ A.n) (h2 : (2 : R) ≠ 0) {l : Nat} (hl : l < A.n) (h0 : A.desc.sig.getD l 0 = 0)
    (h1 : ∀ i < A.n, A.desc.sig.getD i 0 = 0 → i = l) {m : MV R} (hm : WfMV A m) (he : ∀ b ∈ m.sub.blades, popcount b % 2 = 0)
    (hu : val A m * CliffordAlgebra.reverse (val A m) = 1) :
    ∃ d n t r, m.degenerate A = some d ∧ m.nondegenerate A = some n ∧ m.motorTranslator A = .ok t ∧ m.motorRotor A = .ok r ∧
      WfMV A t ∧ WfMV A r ∧ val A r = val A n ∧ val A m = val A n + val A d ∧
      val A t * val A r = val A n + ((-1 : R) ^ negVectors A) • val A d ∧
      val A t * CliffordAlgebra.reverse (val A t) = 1 ∧ val A r * CliffordAlgebra.reverse (val A r) = 1 ∧
      gradePart A R 2 (val A t - 1) = val A t - 1 ∧ (val A t - 1) * (val A t - 1) = 0 := by
  obtain ⟨d, n, t, d1, n1, t1, wt, wn, hs, _, hmul, ht1, hnn, hg, hsq⟩ := translator_parts hA h5 hn h2 hl h0 h1 hm he hu
  have hmatch := motorPart_match hA hm.sub
  rw [if_pos he] at hmatch
  by_cases g : ∀ b ∈ m.sub.blades, (A.product b b).2 ≠ 0
  · rw [decide_eq_true g] at hmatch
    have hd0 : val A d = 0 := by
      obtain ⟨d', n', d1', n1', wd', _, cd, _, _⟩ := C17_multivector hA hm
      cases d1.symm.trans d1'
      apply ext_coef
      intro b hb
      rw [← coeff_eq wd', cd, map_zero]
      by_cases hb' : b ∈ m.sub.blades
      · rw [if_neg (g b hb')]
      · rw [coeff_notMem hb', ite_self]
    have hs' : Sc (MV.default ⟨[0]⟩ : MV R) 1 := Or.inr rfl
    have v1 : val A (MV.default ⟨[0]⟩ : MV R) = 1 := by rw [hs'.val, one_smul]
    have em : val A m = val A n := by rw [hs, hd0, add_zero]
    refine ⟨d, n, MV.default ⟨[0]⟩, m, d1, n1, ?_, ?_, hs'.wf, hm, em, hs, ?_, ?_, hu, ?_, ?_⟩
    · rw [MV.motorTranslator, hmatch, (scalar_eq hA).1]; rfl
    · rw [MV.motorRotor, hmatch]
    · rw [v1, one_mul, em, hd0, smul_zero, add_zero]
    · rw [v1, CliffordAlgebra.reverse.map_one, mul_one]
    · rw [v1, sub_self, map_zero]
    · rw [v1, sub_self, mul_zero]
  · rw [decide_eq_false g] at hmatch
    refine ⟨d, n, t, n, d1, n1, ?_, ?_, wt, wn, rfl, hs, hmul, ht1, hnn, hg, hsq⟩
    · rw [MV.motorTranslator, hmatch, t1]; rfl
    · rw [MV.motorRotor, hmatch, n1]; rfl

/-- C75: with an even number of basis vectors of negative square, as in all signatures `(p, 0, 1)`, every
normalised motor is the product of its translator and its rotor. -/
theorem C75_product (hA : WfAlg A) (h5 : A.n < 6) (hn : 2 ≤ A.n) (h2 : (2 : R) ≠ 0) {l : Nat} (hl : l < A.n) (h0 : A.desc.sig.getD l 0 = 0)
    (h1 : ∀ i < A.n, A.desc.sig.getD i 0 = 0 → i = l) (hq : negVectors A % 2 = 0) {m : MV R} (hm : WfMV A m)
    (he : ∀ b ∈ m.sub.blades, popcount b % 2 = 0) (hu : val A m * CliffordAlgebra.reverse (val A m) = 1) :
    ∃ t r, m.motorTranslator A = .ok t ∧ m.motorRotor A = .ok r ∧ WfMV A t ∧ WfMV A r ∧ val A t * val A r = val A m := by
  obtain ⟨d, n, t, r, _, _, t1, r1, t2, r2, _, h3, h4, _⟩ := C75_parts hA h5 hn h2 hl h0 h1 hm he hu
  refine ⟨t, r, t1, r1, t2, r2, ?_⟩
  rw [h4, h3, (Nat.even_iff.2 hq).neg_one_pow, one_smul]

/-- C75 (disagreement): with an odd number of basis vectors of negative square the product of translator and rotor is a different motor
whenever `m` has a part with the null vector. -/
theorem C75_odd (hA : WfAlg A) (h5 : A.n < 6) (hn : 2 ≤ A.n) (h2 : (2 : R) ≠ 0) {l : Nat} (hl : l < A.n) (h0 : A.desc.sig.getD l 0 = 0)
    (h1 : ∀ i < A.n, A.desc.sig.getD i 0 = 0 → i = l) (hq : negVectors A % 2 = 1) {m : MV R} (hm : WfMV A m)
    (he : ∀ b ∈ m.sub.blades, popcount b % 2 = 0) (hu : val A m * CliffordAlgebra.reverse (val A m) = 1) :
    ∃ d t r, m.degenerate A = some d ∧ m.motorTranslator A = .ok t ∧ m.motorRotor A = .ok r ∧
      (val A t * val A r = val A m ↔ val A d = 0) := by
  obtain ⟨d, n, t, r, d1, _, t1, r1, _, _, _, h3, h4, _⟩ := C75_parts hA h5 hn h2 hl h0 h1 hm he hu
  refine ⟨d, t, r, d1, t1, r1, ?_⟩
  rw [h4, h3, (Nat.odd_iff.2 hq).neg_one_pow, neg_one_smul, add_right_inj]
  constructor
  · intro h
    have : (2 : R) • val A d = 0 := by
      rw [two_smul]
      nth_rw 1 [← h]
      exact neg_add_cancel _
    exact (smul_eq_zero.1 this).resolve_left h2
  · intro h; rw [h, neg_zero]

omit [DecidableEq R] in
/-- C75: a motor stored in blades without null vectors, in any signature, has the translator `1` and is its own rotor. -/
theorem C75_rotor (hA : WfAlg A) {m : MV R} (hm : WfMV A m) (he : ∀ b ∈ m.sub.blades, popcount b % 2 = 0)
    (hnn : ∀ b ∈ m.sub.blades, (A.product b b).2 ≠ 0) :
    m.motorTranslator A = .ok ⟨⟨[0]⟩, [1]⟩ ∧ m.motorRotor A = .ok m := by
  have hmatch := motorPart_match hA hm.sub
  rw [if_pos he, decide_eq_true hnn] at hmatch
  exact ⟨by rw [MV.motorTranslator, hmatch, (scalar_eq hA).1]; rfl, by rw [MV.motorRotor, hmatch]⟩

omit [DecidableEq R] in
/-- C75: there is no implementation for multivectors that are not stored in the even blades. -/
theorem C75_noMatch (hA : WfAlg A) {m : MV R} (hm : WfMV A m) {b : Nat} (hb : b ∈ m.sub.blades) (ho : popcount b % 2 ≠ 0) :
    m.motorTranslator A = .error .noMatch ∧ m.motorRotor A = .error .noMatch := by
  have hmatch := motorPart_match hA hm.sub
  rw [if_neg fun h => ho (h b hb)] at hmatch
  exact ⟨by rw [MV.motorTranslator, hmatch], by rw [MV.motorRotor, hmatch]⟩

/-! ### examples -/

example : WfAlg pga2s ∧ 2 ≤ pga2s.n ∧ pga2s.n < 6 ∧ pga2s.desc.sig.getD 2 0 = 0 ∧ (∀ i < pga2s.n, pga2s.desc.sig.getD i 0 = 0 → i = 2) ∧
    negVectors pga2s % 2 = 0 := by refine ⟨wf_pga2s, ?_⟩; decide
/-- A rotor followed by a translator. -/
example : (⟨⟨[3, 5]⟩, [1, 2]⟩ : MV ℚ).motorTranslator pga2s = .ok ⟨⟨[0, 6]⟩, [1, -2]⟩ ∧
    (⟨⟨[3, 5]⟩, [1, 2]⟩ : MV ℚ).motorRotor pga2s = .ok ⟨⟨[3]⟩, [1]⟩ ∧
    (⟨⟨[0, 6]⟩, [1, -2]⟩ : MV ℚ).product pga2s ⟨⟨[3]⟩, [1]⟩ = some ⟨⟨[3, 5]⟩, [1, 2]⟩ ∧
    (⟨⟨[3, 5]⟩, [1, 2]⟩ : MV ℚ).symmetricReverse pga2s = some ⟨⟨[0]⟩, [1]⟩ :=
  ⟨by decide +kernel, by decide +kernel, by decide +kernel, by decide +kernel⟩

/-- An algebra with one vector of negative square and one null vector. -/
def mink2n : Alg := ⟨⟨["x".toList, "t".toList, "w".toList], [1, -1, 0]⟩, 1, 1⟩
theorem wf_mink2n : WfAlg mink2n := by constructor <;> decide
/-- C75 (disagreement): here the translator points the wrong way, and its product with the rotor is not the motor. -/
theorem C75_wrong : (⟨⟨[0, 5]⟩, [1, 2]⟩ : MV ℚ).motorTranslator mink2n = .ok ⟨⟨[0, 5]⟩, [1, -2]⟩ ∧
    (⟨⟨[0, 5]⟩, [1, 2]⟩ : MV ℚ).motorRotor mink2n = .ok ⟨⟨[0]⟩, [1]⟩ ∧
    (⟨⟨[0, 5]⟩, [1, 2]⟩ : MV ℚ).symmetricReverse mink2n = some ⟨⟨[0]⟩, [1]⟩ :=
  ⟨by decide +kernel, by decide +kernel, by decide +kernel⟩
example : WfAlg mink2n ∧ 2 ≤ mink2n.n ∧ mink2n.n < 6 ∧ mink2n.desc.sig.getD 2 0 = 0 ∧
    (∀ i < mink2n.n, mink2n.desc.sig.getD i 0 = 0 → i = 2) ∧ negVectors mink2n % 2 = 1 := by refine ⟨wf_mink2n, ?_⟩; decide
example : (⟨⟨[0, 3]⟩, [3/5, 4/5]⟩ : MV ℚ).motorTranslator pga2s = .ok ⟨⟨[0]⟩, [1]⟩ ∧
    (⟨⟨[1]⟩, [2]⟩ : MV ℚ).motorTranslator pga2s = .error .noMatch := ⟨by decide +kernel, by decide +kernel⟩

end Verif.Props
