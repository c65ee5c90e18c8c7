import Verif.Props.Products
import Mathlib.LinearAlgebra.CrossProduct
/-! # C64, C65, C66: derived products -/
namespace Verif.Props
open Verif Model Spec Model.Factory

variable {A : Alg} {R : Type} [CommRing R]

theorem popcount_eq_n {n b : Nat} (hn : n ≤ 32) (hb : b < 2 ^ n) : popcount b = n ↔ b = 2 ^ n - 1 := by
  rw [popcount_of_lt hn hb, pc]
  constructor
  · intro h
    have h2 : ∑ i ∈ Finset.range n, (b.testBit i).toNat = ∑ i ∈ Finset.range n, 1 := by simpa using h
    have h3 := (Finset.sum_eq_sum_iff_of_le fun i _ => Bool.toNat_le _).1 h2
    apply Nat.eq_of_testBit_eq
    intro i
    rw [Nat.testBit_two_pow_sub_one]
    by_cases hi : i < n
    · have := h3 i (Finset.mem_range.2 hi)
      by_contra hc
      simp [hi] at hc
      simp [hc] at this
    · rw [Nat.testBit_lt_two_pow (lt_of_lt_of_le hb (Nat.pow_le_pow_right (by omega) (by omega)))]; simp [hi]
  · rintro rfl
    rw [Finset.sum_congr rfl (g := fun _ => 1) fun i hi => by
      rw [Nat.testBit_two_pow_sub_one]; simp [Finset.mem_range.1 hi]]
    simp

/-! ## C64 -/

/-- C64: the products with an involution built in are the geometric product with the involuted second factor. -/
theorem C64_values (hA : WfAlg A) {x y : MV R} (hx : WfMV A x) (hy : WfMV A y) :
    Gives A (x.reverseProduct A y) (val A x * CliffordAlgebra.reverse (val A y)) ∧
    Gives A (x.involuteProduct A y) (val A x * CliffordAlgebra.involute (val A y)) ∧
    Gives A (x.conjugateProduct A y) (val A x * CliffordAlgebra.involute (CliffordAlgebra.reverse (val A y))) :=
  ⟨bin_gives (reverseProduct_bin hA) hx hy, bin_gives (involuteProduct_bin hA) hx hy, bin_gives (conjugateProduct_bin hA) hx hy⟩

/-- C64: the same with the calls a user would write. -/
theorem C64_calls (hA : WfAlg A) {x y : MV R} (hx : WfMV A x) (hy : WfMV A y) :
    Agree A (x.reverseProduct A y) (do x.product A (← y.reverse A)) ∧
    Agree A (x.involuteProduct A y) (do x.product A (← y.involute A)) ∧
    Agree A (x.conjugateProduct A y) (do x.product A (← y.conjugate A)) ∧
    Agree A (x.scalarNegationProduct A y) (do x.product A (← y.scalarNegation A)) ∧
    Agree A (x.pseudoscalarNegationProduct A y) (do x.product A (← y.pseudoscalarNegation A)) :=
  ⟨Agree.of (bin_gives (reverseProduct_bin hA) hx hy) ((un_gives (reverse_un hA) hy).bind fun _ h e => e ▸ product_gives hA hx h) rfl,
   Agree.of (bin_gives (involuteProduct_bin hA) hx hy) ((un_gives (involute_un hA) hy).bind fun _ h e => e ▸ product_gives hA hx h) rfl,
   Agree.of (bin_gives (conjugateProduct_bin hA) hx hy) ((un_gives (conjugate_un hA) hy).bind fun _ h e => e ▸ product_gives hA hx h) rfl,
   Agree.of (bin_gives (scalarNegationProduct_bin hA) hx hy)
     ((un_gives (scalarNegation_un hA) hy).bind fun _ h e => e ▸ product_gives hA hx h) rfl,
   Agree.of (bin_gives (pseudoscalarNegationProduct_bin hA) hx hy)
     ((un_gives (pseudoscalarNegation_un hA) hy).bind fun _ h e => e ▸ product_gives hA hx h) rfl⟩

/-- C64: `study_conjugate`, and `scalar_negation`, keep the scalar and negate everything else; `pseudoscalar_negation` also keeps
the pseudoscalar. -/
theorem C64_negations (hA : WfAlg A) {x : MV R} (hx : WfMV A x) :
    (∃ z, x.scalarNegation A = some z ∧ WfMV A z ∧ ∀ b, coeff z b = if b = 0 then coeff x b else - coeff x b) ∧
    (∃ z, x.studyConjugate A = some z ∧ WfMV A z ∧ ∀ b, coeff z b = if b = 0 then coeff x b else - coeff x b) ∧
    (∃ z, x.pseudoscalarNegation A = some z ∧ WfMV A z ∧
      ∀ b, coeff z b = if b = 0 ∨ b = 2 ^ A.n - 1 then coeff x b else - coeff x b) := by
  have out : ∀ {z : MV R} {v : Cl A R} {p : Nat → Prop} [DecidablePred p], WfMV A z → val A z = v →
      (∀ b < 2 ^ A.n, coef A R b v = if p b then coef A R b (val A x) else - coef A R b (val A x)) →
      ∀ b, coeff z b = if p b then coeff x b else - coeff x b := by
    intro z v p _ hz e h b
    by_cases hb : b < 2 ^ A.n
    · rw [coeff_eq hz, coeff_eq hx, e, h b hb]
    · rw [coeff_notMem fun h => hb (hz.sub.lt b h), coeff_notMem (x := x) fun h => hb (hx.sub.lt b h)]; simp
  have h0 : ∀ b < 2 ^ A.n, coef A R b (2 • gradePart A R 0 (val A x) - val A x) =
      if b = 0 then coef A R b (val A x) else - coef A R b (val A x) := by
    intro b hb
    rw [map_sub, map_nsmul, gradePart_eq_proj, coef_proj]
    by_cases h : b = 0
    · subst h; simp [show popcount 0 = 0 by decide]; ring
    · simp [h, popcount_eq_zero hA.le32 hb]
  refine ⟨?_, ?_, ?_⟩
  · obtain ⟨z, z1, z2, z3⟩ := un_gives (scalarNegation_un hA) hx
    exact ⟨z, z1, z2, out z2 z3 h0⟩
  · obtain ⟨z, z1, z2, z3⟩ := un_gives (scalarNegation_un hA) hx
    refine ⟨z, ?_, z2, out z2 z3 h0⟩
    rw [← z1]; rfl
  · obtain ⟨z, z1, z2, z3⟩ := un_gives (pseudoscalarNegation_un hA) hx
    refine ⟨z, z1, z2, out z2 z3 fun b hb => ?_⟩
    have hn : A.n ≠ 0 := by have := hA.pos; omega
    rw [map_sub, map_nsmul, if_neg hn, map_add, gradePart_eq_proj, gradePart_eq_proj, coef_proj, coef_proj]
    by_cases h : b = 0
    · subst h
      rw [if_pos (by decide), if_neg (by rw [show popcount 0 = 0 by decide]; omega), if_pos (Or.inl rfl)]
      simp only [smul_add, smul_zero, add_zero, nsmul_eq_mul, Nat.cast_ofNat]; ring
    · by_cases h' : b = 2 ^ A.n - 1
      · rw [if_neg (mt (popcount_eq_zero hA.le32 hb).1 h), if_pos ((popcount_eq_n hA.le32 hb).2 h'), if_pos (Or.inr h')]
        simp only [zero_add, nsmul_eq_mul, Nat.cast_ofNat]; ring
      · rw [if_neg (mt (popcount_eq_zero hA.le32 hb).1 h), if_neg (mt (popcount_eq_n hA.le32 hb).1 h'), if_neg (by tauto)]
        simp

/-- C64: `x.reverse_product(x)` is its own reverse, `x.conjugate_product(x)` its own conjugate. -/
theorem C64_self (hA : WfAlg A) {x : MV R} (hx : WfMV A x) :
    Agree A (do (← x.reverseProduct A x).reverse A) (x.reverseProduct A x) ∧
    Agree A (do (← x.conjugateProduct A x).conjugate A) (x.conjugateProduct A x) := by
  constructor
  · refine Agree.of ((bin_gives (reverseProduct_bin hA) hx hx).bind fun _ h e => e ▸ un_gives (reverse_un hA) h)
      (bin_gives (reverseProduct_bin hA) hx hx) ?_
    simp only [CliffordAlgebra.reverse.map_mul, CliffordAlgebra.reverse_reverse]
  · refine Agree.of ((bin_gives (conjugateProduct_bin hA) hx hx).bind fun _ h e => e ▸ un_gives (conjugate_un hA) h)
      (bin_gives (conjugateProduct_bin hA) hx hx) ?_
    simp only [CliffordAlgebra.reverse.map_mul, CliffordAlgebra.reverse_involute, CliffordAlgebra.reverse_reverse, map_mul,
      CliffordAlgebra.involute_involute]


example : exX.reverseProduct pga3 exV = some ⟨⟨[0, 1, 2, 4, 8, 3, 6, 10, 7, 11, 13, 14]⟩, [-1, 9, -8, -9, 8, 3, 2, -4, 37, 26, 7, 20]⟩ ∧
    exX.pseudoscalarNegation pga3 = some ⟨⟨[0, 2, 3, 6, 15]⟩, [2, 1, -3, -5, 7]⟩ ∧
    exX.studyConjugate pga3 = some ⟨⟨[0, 2, 3, 6, 15]⟩, [2, 1, -3, -5, -7]⟩ := by decide +kernel

/-! ## C65 -/

/-- A plane with one null and one negative direction. -/
def alg2 : Alg := ⟨⟨["x".toList, "y".toList], [0, -1]⟩, 1, 1⟩

theorem antiWedge_gives (hA : WfAlg A) {x y : MV R} (hx : WfMV A x) (hy : WfMV A y) :
    Gives A (x.antiWedge A y) (lcMap A R (wedgeMap A R (rcMap A R (val A x)) (rcMap A R (val A y)))) :=
  bin_gives (antiWedge_bin hA) hx hy

/-- The right complement of a multivector, through the operator factory. -/
abbrev rcCall (A : Alg) (x : MV R) : Option (MV R) := MV.call (Factory.rightComplement A (.sub x.sub)) [x]
/-- The left complement of a multivector, through the operator factory. -/
abbrev lcCall (A : Alg) (x : MV R) : Option (MV R) := MV.call (Factory.leftComplement A (.sub x.sub)) [x]

/-- C65: every anti-product is the left complement of the corresponding product of the right complements. -/
theorem C65_anti (hA : WfAlg A) {x y : MV R} (hx : WfMV A x) (hy : WfMV A y) :
    Agree A (x.antiWedge A y) (do lcCall A (← (← rcCall A x).wedge A (← rcCall A y))) ∧
    Agree A (x.antiInner A y) (do lcCall A (← (← rcCall A x).inner A (← rcCall A y))) ∧
    Agree A (x.antiProduct A y) (do lcCall A (← (← rcCall A x).product A (← rcCall A y))) ∧
    Agree A (x.antiReverseProduct A y) (do lcCall A (← (← rcCall A x).reverseProduct A (← rcCall A y))) := by
  have key : ∀ {f g : Arg Int → Arg Int → Option (Operator Int)} {B : ∀ (R : Type) [CommRing R], Cl A R → Cl A R → Cl A R},
      BinSem A f B → BinSem A g (fun R _ x y => lcMap A R (B R (rcMap A R x) (rcMap A R y))) →
      Agree A (MV.call (g (.sub x.sub) (.sub y.sub)) [x, y])
        (do lcCall A (← (do let a ← rcCall A x; let b ← rcCall A y; MV.call (f (.sub a.sub) (.sub b.sub)) [a, b]))) := by
    intro f g B hf hg
    refine Agree.of (bin_gives hg hx hy) ?_ rfl
    refine Gives.bind (v := B R (rcMap A R (val A x)) (rcMap A R (val A y))) ?_ fun a ha ea => ea ▸ un_gives (leftComplement_un hA) ha
    exact (un_gives (rightComplement_un hA) hx).bind fun a ha ea => (un_gives (rightComplement_un hA) hy).bind fun b hb eb => by
      rw [← ea, ← eb]; exact bin_gives hf ha hb
  refine ⟨?_, ?_, ?_, ?_⟩
  · have := key (wedge_bin hA) (antiWedge_bin hA); simp only [Option.bind_eq_bind, Option.bind_assoc] at this ⊢; exact this
  · have := key (inner_bin hA) (antiInner_bin hA); simp only [Option.bind_eq_bind, Option.bind_assoc] at this ⊢; exact this
  · have := key (product_bin hA) (antiProduct_bin hA); simp only [Option.bind_eq_bind, Option.bind_assoc] at this ⊢; exact this
  · have := key (reverseProduct_bin hA) (antiReverseProduct_bin hA); simp only [Option.bind_eq_bind, Option.bind_assoc] at this ⊢; exact this

/-- C65: the commutators of the anti-product are exactly half of the difference and of the sum. -/
theorem C65_commutators (hA : WfAlg A) {x y : MV R} (hx : WfMV A x) (hy : WfMV A y) :
    ∃ p q c d, Gives A (x.antiProduct A y) p ∧ Gives A (y.antiProduct A x) q ∧ Gives A (x.commutatorAnti A y) c ∧
      Gives A (x.antiCommutatorAnti A y) d ∧ (2 : R) • c = p - q ∧ (2 : R) • d = p + q ∧ c + d = p := by
  have hg : ∀ a c, antiBlade A a c = antiBlade A c a := fun a c => by rw [antiBlade, Nat.xor_comm (_ ^^^ _) (_ ^^^ _)]; rfl
  refine ⟨_, _, _, _, call_gives2 (antiProduct_bil hA (argSem_sub hx.sub) (argSem_sub hy.sub)) hx hy ⟨trivial, trivial⟩,
    call_gives2 (antiProduct_bil hA (argSem_sub hy.sub) (argSem_sub hx.sub)) hy hx ⟨trivial, trivial⟩,
    call_gives2 (commutatorAnti_sem hA hx.sub hy.sub) hx hy trivial,
    call_gives2 (antiCommutatorAnti_sem hA hx.sub hy.sub) hx hy trivial, ?_, ?_, ?_⟩
  · refine (bil_half (t := antiSign A) (s := -1) (Or.inr rfl) (antiSign_swap A) hg _ _).trans ?_
    simp [sub_eq_add_neg]
  · refine (bil_half (t := antiSign A) (s := 1) (Or.inl rfl) (antiSign_swap A) hg _ _).trans ?_
    simp
  · have : bil A R (halfSign (antiSign A) (-1)) (antiBlade A) + bil A R (halfSign (antiSign A) 1) (antiBlade A) =
        bil A R (antiSign A) (antiBlade A) := by
      apply lin_ext₂
      intro a ha c hc
      rw [LinearMap.add_apply, LinearMap.add_apply, bil_blade _ _ ha hc, bil_blade _ _ ha hc, bil_blade _ _ ha hc, ← add_smul,
        ← Int.cast_add]
      have h1 := halfSign_two (s := -1) (Or.inr rfl) (antiSign_swap A a c)
      have h2 := halfSign_two (s := 1) (Or.inl rfl) (antiSign_swap A a c)
      rw [show halfSign (antiSign A) (-1) a c + halfSign (antiSign A) 1 a c = antiSign A a c by omega]
    exact LinearMap.congr_fun₂ this _ _

/-- C65: in odd dimensions `anti_wedge` is associative. -/
theorem C65_assoc (hA : WfAlg A) (hn : Odd A.n) {x y z : MV R} (hx : WfMV A x) (hy : WfMV A y) (hz : WfMV A z) :
    Agree A (do (← x.antiWedge A y).antiWedge A z) (do x.antiWedge A (← y.antiWedge A z)) := by
  refine Agree.of ((antiWedge_gives hA hx hy).bind fun _ h e => e ▸ antiWedge_gives hA h hz)
    ((antiWedge_gives hA hy hz).bind fun _ h e => e ▸ antiWedge_gives hA hx h) ?_
  rw [rc_lc_odd hA hn, rc_lc_odd hA hn, wedgeMap, gradedProduct_smul_left, ← wedgeMap, wedge_assoc hA]
  conv_rhs => rw [wedgeMap, gradedProduct_smul_right, ← wedgeMap]

theorem antiW_pss (hA : WfAlg A) (y : Cl A R) :
    lcMap A R (wedgeMap A R (rcMap A R (blade A R A.pss)) (rcMap A R y)) = antiMul A R (blade A R A.pss) y := by
  rw [antiMul, rcMap_pss hA, wedgeMap, gradedProduct_smul_left, ← wedgeMap, one_wedge hA, smul_mul_assoc, one_mul]

/-- C65: in every algebra of even dimension it is not, with the same witness as for `anti_product` (C34). -/
theorem C65_even (hA : WfAlg A) (hn : Even A.n) :
    ∃ x y z : MV ℤ, WfMV A x ∧ WfMV A y ∧ WfMV A z ∧
      ∃ v, v ≠ 0 ∧ Gives A (do (← x.antiWedge A y).antiWedge A z) (-v) ∧ Gives A (do x.antiWedge A (← y.antiWedge A z)) v := by
  have h1 : 1 < 2 ^ A.n := Nat.one_lt_two_pow (by have := hA.pos; omega)
  have hp := wf_bladeMV (R := ℤ) (pss_lt A)
  have hz := wf_bladeMV (R := ℤ) (xor_lt h1 (pss_lt A))
  refine ⟨bladeMV ℤ A.pss, bladeMV ℤ A.pss, bladeMV ℤ (1 ^^^ A.pss), hp, hp, hz, blade A ℤ (1 ^^^ A.pss), ?_, ?_, ?_⟩
  · intro h
    have := congrArg (coef A ℤ (1 ^^^ A.pss)) h
    rw [coef_blade _ _ (xor_lt h1 (pss_lt A)), if_pos rfl, map_zero] at this
    exact one_ne_zero this
  all_goals
    have hpop : pc A.n 1 = 1 := by
      have := popcount_two_pow hA (i := 0) (by have := hA.pos; omega)
      rwa [pow_zero, popcount_of_lt hA.le32 h1] at this
    obtain ⟨s, hs, hlc⟩ : ∃ s : ℤ, s * s = 1 ∧ lcMap A ℤ (s • blade A ℤ 1) = blade A ℤ (1 ^^^ A.pss) := by
      refine ⟨rcSign A 1 * (-1) ^ ((A.n + 1) * pc A.n 1), ?_, ?_⟩
      · have := rcSign_sq A 1
        rw [mul_mul_mul_comm, this, ← mul_pow]; simp
      · rw [map_smul, lcMap_blade hA h1, smul_smul, Int.cast_id, mul_mul_mul_comm, rcSign_sq, ← mul_pow]; simp
    obtain ⟨e1, e2⟩ := antiMul_even hA hn (s • blade A ℤ 1)
    have hinv : CliffordAlgebra.involute (s • blade A ℤ 1) = - (s • blade A ℤ 1) := by
      rw [map_smul, involute_blade A ℤ 1, hpop]; simp
    have hpp : antiMul A ℤ (blade A ℤ A.pss) (blade A ℤ A.pss) = blade A ℤ A.pss := by
      rw [antiMul_pss hA, rcMap_pss hA, map_smul, smul_smul, rcSign_sq', one_smul, lcMap_one hA]
    rw [hinv, map_neg, hlc, hpp] at e1
    rw [hlc] at e2
  · refine ((antiWedge_gives hA hp hp).bind fun _ h e => e ▸ antiWedge_gives hA h hz).congr ?_
    rw [val_bladeMV, val_bladeMV, antiW_pss hA, hpp, antiW_pss hA, e1]
  · refine ((antiWedge_gives hA hp hz).bind fun _ h e => e ▸ antiWedge_gives hA hp h).congr ?_
    rw [val_bladeMV, val_bladeMV, antiW_pss hA, antiW_pss hA, e2]

example : (⟨⟨[1, 3]⟩, [2, 5]⟩ : MV ℤ).antiWedge alg2 ⟨⟨[2]⟩, [3]⟩ = some ⟨⟨[0, 2]⟩, [-6, -15]⟩ := by decide +kernel
example : (⟨⟨[1, 3]⟩, [2, 5]⟩ : MV ℤ).commutatorAnti alg2 ⟨⟨[2]⟩, [3]⟩ = some ⟨⟨[0]⟩, [-6]⟩ := by decide +kernel
example : WfAlg alg2 ∧ Even alg2.n ∧ Odd ({ alg2 with desc := { names := ["x".toList], sig := [1] } } : Alg).n :=
  ⟨by constructor <;> decide, by decide, by decide⟩

/-! ## C66 -/

/-- C66: `cross` is the dual of the wedge. -/
theorem C66_dual (hA : WfAlg A) {x y : MV R} (hx : WfMV A x) (hy : WfMV A y) :
    Agree A (x.cross A y) (do (← x.wedge A y).dual A) :=
  Agree.of (bin_gives (cross_bin hA) hx hy) ((wedge_gives hA hx hy).bind fun a h e => by
    have := un_gives (rightHodge_un hA) h; rw [e] at this; exact this) rfl

theorem vector3 (h3 : A.n = 3) {x : MV R} (hx : WfMV A x) (h1 : Homogeneous 1 x) :
    val A x = coeff x 1 • blade A R 1 + coeff x 2 • blade A R 2 + coeff x 4 • blade A R 4 := by
  have h0 : ∀ b, popcount b ≠ 1 → coef A R b (val A x) = 0 := fun b hb => by
    rw [← coeff_eq hx, coeff_notMem fun h => hb (h1 b h)]
  have h8 : 2 ^ A.n = 8 := by rw [h3]; rfl
  rw [sum_coef A R (val A x), h8, coeff_eq hx, coeff_eq hx, coeff_eq hx]
  simp only [Finset.sum_range_succ, Finset.sum_range_zero]
  rw [h0 0 (by decide), h0 3 (by decide), h0 5 (by decide), h0 6 (by decide), h0 7 (by decide)]
  simp

/-- C66: in three dimensions with signature `+++`, the cross product of vectors is the vector product of analytic geometry. -/
theorem C66_euclidean (hA : WfAlg A) (hs : A.desc.sig = [1, 1, 1]) {x y : MV R} (hx : WfMV A x) (hy : WfMV A y)
    (h1 : Homogeneous 1 x) (h2 : Homogeneous 1 y) :
    ∃ z, x.cross A y = some z ∧ WfMV A z ∧
      crossProduct ![coeff x 1, coeff x 2, coeff x 4] ![coeff y 1, coeff y 2, coeff y 4] = ![coeff z 1, coeff z 2, coeff z 4] ∧
      ∀ b, popcount b ≠ 1 → coeff z b = 0 := by
  have h3 : A.n = 3 := by rw [Alg.n, Description.nDimensions, hs]; rfl
  have hi : ∀ a b, inv A.n a b = inv 3 a b := fun a b => by rw [h3]
  have hp : A.pss = 7 := by rw [Alg.pss, h3]
  obtain ⟨z, z1, z2, z3⟩ := bin_gives (cross_bin hA) hx hy
  have hneg : ∀ b < 2 ^ A.n, negSign A b = 1 := by
    intro b hb
    rw [negSign_eq hA hb, pc]
    rw [Finset.sum_eq_zero, pow_zero]
    intro i hi
    rw [Nat.testBit_and, negatives_testBit hA i (Finset.mem_range.1 hi), hs]
    have : i < 3 := by simpa [h3] using hi
    interval_cases i <;> simp
  have rh : ∀ b < 2 ^ A.n, rhMap A R (blade A R b) = ((-1 : R) ^ inv 3 b (b ^^^ 7)) • blade A R (b ^^^ 7) := by
    intro b hb
    rw [rhMap, compl_blade _ hb, hodgeSign, hneg b hb, swapSign_eq hA hb, hp, hi]
    simp
  have hw : ∀ a < 2 ^ A.n, ∀ b < 2 ^ A.n, wedgeMap A R (blade A R a) (blade A R b) =
      if a &&& b = 0 then ((-1 : R) ^ inv 3 a b) • blade A R (a ^^^ b) else 0 := by
    intro a ha b hb; rw [wedge_blade hA ha hb, hi]
  have hwl : ∀ u v : Cl A R, gradedProductₗ A R (fun i j k => i + j = k) u v = wedgeMap A R u v := fun u v => gradedProductₗ_apply _ _ _
  have lt : ∀ b < 8, b < 2 ^ A.n := fun b hb => by rw [h3]; exact hb
  change val A z = rhMap A R (wedgeMap A R (val A x) (val A y)) at z3
  have e : val A z = (coeff x 2 * coeff y 4 - coeff x 4 * coeff y 2) • blade A R 1 +
      (coeff x 4 * coeff y 1 - coeff x 1 * coeff y 4) • blade A R 2 + (coeff x 1 * coeff y 2 - coeff x 2 * coeff y 1) • blade A R 4 := by
    rw [z3, vector3 h3 hx h1, vector3 h3 hy h2]
    simp only [← hwl, map_add, map_smul, LinearMap.add_apply, LinearMap.smul_apply]
    simp only [hwl]
    rw [hw 1 (lt _ (by decide)) 1 (lt _ (by decide)), hw 1 (lt _ (by decide)) 2 (lt _ (by decide)), hw 1 (lt _ (by decide)) 4 (lt _ (by decide)),
      hw 2 (lt _ (by decide)) 1 (lt _ (by decide)), hw 2 (lt _ (by decide)) 2 (lt _ (by decide)), hw 2 (lt _ (by decide)) 4 (lt _ (by decide)),
      hw 4 (lt _ (by decide)) 1 (lt _ (by decide)), hw 4 (lt _ (by decide)) 2 (lt _ (by decide)), hw 4 (lt _ (by decide)) 4 (lt _ (by decide))]
    rw [if_neg (by decide), if_pos (by decide), if_pos (by decide), if_pos (by decide), if_neg (by decide), if_pos (by decide),
      if_pos (by decide), if_pos (by decide), if_neg (by decide)]
    rw [show inv 3 1 2 = 0 by decide, show inv 3 1 4 = 0 by decide, show inv 3 2 4 = 0 by decide, show inv 3 2 1 = 1 by decide,
      show inv 3 4 1 = 1 by decide, show inv 3 4 2 = 1 by decide]
    simp only [map_smul, map_zero, show 1 ^^^ 2 = 3 by decide, show 1 ^^^ 4 = 5 by decide, show 2 ^^^ 4 = 6 by decide,
      show 2 ^^^ 1 = 3 by decide, show 4 ^^^ 1 = 5 by decide, show 4 ^^^ 2 = 6 by decide]
    rw [rh 3 (lt _ (by decide)), rh 5 (lt _ (by decide)), rh 6 (lt _ (by decide))]
    rw [show inv 3 3 (3 ^^^ 7) = 0 by decide, show inv 3 5 (5 ^^^ 7) = 1 by decide, show inv 3 6 (6 ^^^ 7) = 2 by decide]
    simp only [show 3 ^^^ 7 = 4 by decide, show 5 ^^^ 7 = 2 by decide, show 6 ^^^ 7 = 1 by decide]
    module
  have hz : ∀ b, coeff z b = (coeff x 2 * coeff y 4 - coeff x 4 * coeff y 2) * (if b = 1 then 1 else 0) +
      (coeff x 4 * coeff y 1 - coeff x 1 * coeff y 4) * (if b = 2 then 1 else 0) +
      (coeff x 1 * coeff y 2 - coeff x 2 * coeff y 1) * (if b = 4 then 1 else 0) := by
    intro b
    rw [coeff_eq z2, e, map_add, map_add, map_smul, map_smul, map_smul, coef_blade _ _ (lt _ (by decide)), coef_blade _ _ (lt _ (by decide)),
      coef_blade _ _ (lt _ (by decide))]
    rfl
  refine ⟨z, z1, z2, ?_, ?_⟩
  · rw [cross_apply, hz 1, hz 2, hz 4]
    simp
  · intro b hb
    rw [hz b, if_neg, if_neg, if_neg]
    · simp
    all_goals rintro rfl; exact hb (by decide)

/-- Three dimensional Euclidean algebra. -/
def euclid3 : Alg := ⟨⟨["x".toList, "y".toList, "z".toList], [1, 1, 1]⟩, 1, 1⟩

example : WfAlg euclid3 ∧ euclid3.desc.sig = [1, 1, 1] ∧ WfMV euclid3 (⟨⟨[1, 2, 4]⟩, [1, 2, 3]⟩ : MV ℤ) ∧
    (⟨⟨[1, 2, 4]⟩, [1, 2, 3]⟩ : MV ℤ).cross euclid3 ⟨⟨[1, 2, 4]⟩, [4, 5, 7]⟩ = some ⟨⟨[1, 2, 4]⟩, [-1, 5, -3]⟩ :=
  ⟨by constructor <;> decide, rfl, ⟨wfSub_of_B (by decide +kernel), rfl⟩, by decide +kernel⟩

end Verif.Props
