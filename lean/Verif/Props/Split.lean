import Verif.Proofs.Split
/-! # C76: splitting a motor at an origin -/
namespace Verif.Props
open Model Spec Model.Factory

variable {A : Alg} {R : Type} [Field R] [DecidableEq R]

/-- What a split of the motor `m` at the origin `o` should be: `m = t * r`, both normalised, `r` leaves `o` where it is and `t` takes it
to where `m` takes it. -/
structure IsSplit (A : Alg) {R : Type} [Field R] (m o t r : MV R) : Prop where
  wft : WfMV A t
  wfr : WfMV A r
  prod : val A t * val A r = val A m
  norm_t : val A t * CliffordAlgebra.reverse (val A t) = 1
  norm_r : val A r * CliffordAlgebra.reverse (val A r) = 1
  fixes : val A r * val A o * CliffordAlgebra.reverse (val A r) = val A o
  moves : val A t * val A o * CliffordAlgebra.reverse (val A t) = val A m * val A o * CliffordAlgebra.reverse (val A m)

/-- `m` takes `o` to an element of the same grade. -/
def KeepsGrade (A : Alg) {R : Type} [Field R] (m o : MV R) : Prop :=
  gradePart A R (A.n - 1) (val A m * val A o * CliffordAlgebra.reverse (val A m)) = val A m * val A o * CliffordAlgebra.reverse (val A m)

omit [DecidableEq R] in
/-- Products of vectors keep the grade, and below five dimensions so do all even elements. -/
theorem keepsGrade (hA : WfAlg A) (hn : 2 ≤ A.n) {m o : MV R} (hm : WfMV A m) (ho : WfMV A o) (hk : Homogeneous (A.n - 1) o)
    (h : (∃ vs : List (Fin A.n → R), val A m = (vs.map (CliffordAlgebra.ι (Q A R))).prod) ∨
      A.n < 5 ∧ ∀ b ∈ m.sub.blades, popcount b % 2 = 0) : KeepsGrade A m o := by
  rcases h with ⟨vs, h⟩ | ⟨h5, he⟩
  · rw [KeepsGrade, h]
    exact versor_sandwich hA vs _ (gradePart_val ho hk)
  · obtain ⟨z, z1, z2, z3⟩ := C37_mod4 hA hm ho he hk
    rw [KeepsGrade, ← ((C36_full hA hm ho).val z1).2]
    refine gradePart_val z2 fun b hb => ?_
    have h1 := z3 b hb
    have h2 := popcount_le hA.le32 (z2.sub.lt b hb)
    omega

/-- The selection of the implementations of `motor_split`. -/
theorem split_match (hA : WfAlg A) (hn : 1 ≤ A.n) {S O : SubSpace} (hS : WfSub A S) (hO : WfSub A O) :
    Dispatch.matchLoop (S, O) (splitOptions A) =
      if (∀ b ∈ S.blades, popcount b % 2 = 0) ∧ ∀ b ∈ O.blades, popcount b = A.n - 1 then
        if ∀ b ∈ O.blades, (A.product (b ^^^ A.pss) (b ^^^ A.pss)).2 = 0 then some .euclidian
        else if O.blades.length = 1 then some .blade else some .default
      else none := by
  obtain ⟨E, E1, E2, E3⟩ := (C14_named hA).2.2.2.2.2.2.2.2.2.2.2.2.1
  obtain ⟨V, V1, V2, V3⟩ := kVector_isSpace hA (g := -2) (k := A.n - 1) ⟨by omega, Or.inr (by omega)⟩
  obtain ⟨C, C1, C2, C3⟩ := complement_spec hA hO
  obtain ⟨⟨d, D1, D2⟩, _⟩ := C61_predicates hA C2
  have h1 : E.contains S = true ↔ ∀ b ∈ S.blades, popcount b % 2 = 0 := by
    rw [contains_iff]
    exact forall₂_congr fun b hb => by rw [E3]; exact ⟨fun h => h.2, fun h => ⟨hS.lt b hb, h⟩⟩
  have h2 : V.contains O = true ↔ ∀ b ∈ O.blades, popcount b = A.n - 1 := by
    rw [contains_iff]
    exact forall₂_congr fun b hb => by rw [V3]; exact ⟨fun h => h.2, fun h => ⟨hO.lt b hb, h⟩⟩
  have h3 : d = true ↔ ∀ b ∈ O.blades, (A.product (b ^^^ A.pss) (b ^^^ A.pss)).2 = 0 := by
    rw [D2]
    constructor
    · intro h b hb
      have hlt := xor_lt (hO.lt b hb) (pss_lt A)
      exact (nullBlade_iff hA hlt).1 (h _ ((C3 _).2 ⟨hlt, by simpa only [xor_cancel] using hb⟩))
    · intro h c hc
      obtain ⟨hlt, hc'⟩ := (C3 c).1 hc
      have := h _ hc'
      rw [xor_cancel] at this
      exact (nullBlade_iff hA hlt).2 this
  have hcond : splitCondition A (S, O) = some (decide ((∀ b ∈ S.blades, popcount b % 2 = 0) ∧ ∀ b ∈ O.blades, popcount b = A.n - 1)) := by
    simp only [splitCondition, insideEven, insideAntivector, E1, V1, Option.bind_eq_bind, Option.bind_some]
    by_cases g : ∀ b ∈ S.blades, popcount b % 2 = 0
    · rw [h1.2 g, if_pos rfl]
      congr 1
      rw [Bool.eq_iff_iff, h2, decide_eq_true_iff]
      exact ⟨fun h => ⟨g, h⟩, fun h => h.2⟩
    · have : E.contains S = false := by rw [← Bool.not_eq_true, h1]; exact g
      rw [this, if_neg (by simp)]
      congr 1
      symm
      rw [decide_eq_false_iff_not]
      exact fun h => g h.1
  simp only [splitOptions, Dispatch.matchLoop, hcond, C1, D1, Option.bind_eq_bind, Option.bind_some]
  by_cases g : (∀ b ∈ S.blades, popcount b % 2 = 0) ∧ ∀ b ∈ O.blades, popcount b = A.n - 1
  · rw [if_pos g, decide_eq_true g]
    simp only [if_true]
    by_cases g2 : ∀ b ∈ O.blades, (A.product (b ^^^ A.pss) (b ^^^ A.pss)).2 = 0
    · rw [if_pos g2, h3.2 g2]
    · rw [if_neg g2]
      have : d = false := by rw [← Bool.not_eq_true, h3]; exact g2
      rw [this]
      simp only [SubSpace.len]
      by_cases g3 : O.blades.length = 1
      · rw [if_pos g3, g3]; rfl
      · rw [if_neg g3]
        have : (O.blades.length == 1) = false := by simpa using g3
        rw [this]
  · rw [if_neg g, decide_eq_false g]
    simp

/-- The last implementation returns a split. -/
theorem split_default (hA : WfAlg A) (h5 : A.n < 6) (hn : 2 ≤ A.n) (h2 : (2 : R) ≠ 0) {rt : Roots R} (hr : RootLaw rt) {fuel : Nat} (hf : 4 ≤ fuel)
    {m o t r : MV R} (hm : WfMV A m) (ho : WfMV A o) (hk : Homogeneous (A.n - 1) o) (hu : val A m * CliffordAlgebra.reverse (val A m) = 1)
    (hp : KeepsGrade A m o) (h : m.splitDefault A rt fuel o = .ok (t, r)) : IsSplit A m o t r := by
  obtain ⟨t1, r1, h3, h4, h5, h6, _⟩ := splitDefault_spec hA h5 hn h2 hr hf hm ho hk hu hp h
  have h3' := mul_eq_one_symm h3
  have hrr : val A r * CliffordAlgebra.reverse (val A r) = 1 := by
    rw [h4, CliffordAlgebra.reverse.map_mul, CliffordAlgebra.reverse_reverse, ← mul_assoc, mul_assoc _ (val A m), hu, mul_one, h3']
  have hp : val A t * val A r = val A m := by rw [h4, ← mul_assoc, h3, one_mul]
  refine ⟨t1, r1, hp, h3, hrr, h6, ?_⟩
  rw [← hp, CliffordAlgebra.reverse.map_mul]
  conv_lhs => rw [← h6]
  simp only [mul_assoc]

/-- The second implementation returns the same elements as the last one, `t` stored in the products of a vector with the complement of `o` and
`r` in the blades of `m` without it. -/
theorem split_blade (hA : WfAlg A) (h5 : A.n < 6) (hn : 2 ≤ A.n) (h2 : (2 : R) ≠ 0) {rt : Roots R} (hr : RootLaw rt) {fuel : Nat} (hf : 4 ≤ fuel)
    {m o t r : MV R} (hm : WfMV A m) (he : ∀ b ∈ m.sub.blades, popcount b % 2 = 0) (ho : WfMV A o) (hk : Homogeneous (A.n - 1) o)
    (hu : val A m * CliffordAlgebra.reverse (val A m) = 1) (hp : KeepsGrade A m o) {b l : Nat} (hb : o.sub = ⟨[b]⟩) (hl : l < A.n)
    (hbl : b ^^^ A.pss = 2 ^ l) (h0 : A.desc.sig.getD l 0 ≠ 0) (h : m.splitBlade A rt fuel o = .ok (t, r)) :
    IsSplit A m o t r ∧ (∀ c, c ∈ t.sub.blades ↔ ∃ i < A.n, c = 2 ^ i ^^^ 2 ^ l) ∧
      ∀ c, c ∈ r.sub.blades ↔ c ∈ m.sub.blades ∧ c.testBit l = false := by
  have hlt : 2 ^ l < 2 ^ A.n := Nat.pow_lt_pow_right (by norm_num) hl
  have hblt : b < 2 ^ A.n := ho.sub.lt b (by rw [hb]; simp)
  obtain ⟨d, d1, d2, d3⟩ := complement_spec hA ho.sub
  have hd : ∀ c, c ∈ d.blades ↔ c = 2 ^ l := by
    intro c
    rw [d3, hb]
    simp only [List.mem_singleton]
    constructor
    · rintro ⟨_, h⟩
      rw [← hbl, ← h, xor_cancel]
    · rintro rfl
      exact ⟨hlt, by rw [← hbl, xor_cancel]⟩
  obtain ⟨V, v1, v2, v3⟩ := kVector_isSpace hA (g := 1) (k := 1) ⟨by omega, Or.inl rfl⟩
  obtain ⟨T, T1, T2, T3⟩ := product_space hA v2 d2
  obtain ⟨U, U1, U2, U3⟩ := C70_reject hA hm.sub d2
  have hT : ∀ c, c ∈ T.blades ↔ ∃ i < A.n, c = 2 ^ i ^^^ 2 ^ l := by
    intro c
    rw [T3]
    constructor
    · rintro ⟨a, ha, x, hx, rfl, _⟩
      obtain ⟨ha1, ha2⟩ := (v3 a).1 ha
      rw [popcount_of_lt hA.le32 ha1] at ha2
      obtain ⟨i, hi, rfl⟩ := eq_two_pow ha1 ha2
      exact ⟨i, hi, by rw [(hd x).1 hx]⟩
    · rintro ⟨i, hi, rfl⟩
      have hilt : 2 ^ i < 2 ^ A.n := Nat.pow_lt_pow_right (by norm_num) hi
      refine ⟨2 ^ i, (v3 _).2 ⟨hilt, (popcount_of_lt hA.le32 hilt).trans (pc_two_pow hi)⟩, 2 ^ l, (hd _).2 rfl, rfl, ?_⟩
      rw [sgn_ne_zero hA hilt]
      rintro ⟨j, _, _, h3, h4⟩
      rw [Nat.testBit_two_pow] at h3
      simp only [decide_eq_true_eq] at h3
      exact h0 (h3 ▸ h4)
  have hU : ∀ c, c ∈ U.blades ↔ c ∈ m.sub.blades ∧ c.testBit l = false := by
    intro c
    rw [U3]
    have key : ∀ a, 2 ^ l &&& a = 0 → (a ||| 2 ^ l) ^^^ 2 ^ l = a := by
      intro a h
      apply Nat.eq_of_testBit_eq
      intro i
      have := congrArg (·.testBit i) h
      simp only [Nat.testBit_and, Nat.zero_testBit] at this
      rw [Nat.testBit_xor, Nat.testBit_or]
      revert this
      cases (2 ^ l).testBit i <;> simp
    constructor
    · rintro ⟨_, a, ha, x, hx, h1, y, hy, h2⟩
      rw [(hd x).1 hx] at h1 h2
      rw [(hd y).1 hy] at h2
      obtain ⟨_, _, rfl⟩ := h2
      rw [Nat.and_comm] at h1
      rw [key a h1]
      refine ⟨ha, ?_⟩
      have := congrArg (·.testBit l) h1
      simpa using this
    · rintro ⟨h1, h2⟩
      have h3 := two_pow_ne h2
      refine ⟨hm.sub.lt c h1, c, h1, 2 ^ l, (hd _).2 rfl, by rw [Nat.and_comm]; exact h3, 2 ^ l, (hd _).2 rfl, Or.inr ?_, ?_, (key c h3).symm⟩
      · apply Nat.eq_of_testBit_eq
        intro i
        rw [Nat.testBit_and, Nat.testBit_or]
        cases (2 ^ l).testBit i <;> simp
      · intro i _ _ hi
        rw [Nat.testBit_two_pow] at hi
        simp only [decide_eq_true_eq] at hi
        exact hi ▸ h0
  have hvec : A.vector = some V := v1
  simp only [MV.splitBlade, d1, U1, hvec, T1, lift_some, bind, Except.bind] at h
  cases hs : m.splitDefault A rt fuel o with
  | error e => rw [hs] at h; cases h
  | ok tr =>
    obtain ⟨t', r'⟩ := tr
    rw [hs] at h
    have hsp := split_default hA h5 hn h2 hr hf hm ho hk hu hp hs
    obtain ⟨_, _, _, e4, _, _, j, g, q, i, u, v, c, j1, j2, j3, g1, g2, q1, q2, q3, q4, q5⟩ := splitDefault_spec hA h5 hn h2 hr hf hm ho hk hu hp hs
    obtain ⟨t'', a1, a2, a3, a4⟩ := selectSubspace_givesIn hsp.wft T2
    obtain ⟨r'', b1, b2, b3, b4⟩ := selectSubspace_givesIn hsp.wfr U2
    simp only [a1, b1, lift_some] at h
    cases h
    have hcne : c ≠ 0 := by
      rintro rfl
      rw [zero_smul] at j3
      have : val A o = 0 := by rw [← mul_one (val A o), ← j1, ← mul_assoc, j3, zero_mul]
      rw [this, zero_mul] at j1
      exact one_ne_zero' A R j1.symm
    have hjo : j = c⁻¹ • val A o := by
      calc j = (c⁻¹ * c) • j := by rw [inv_mul_cancel₀ hcne, one_smul]
        _ = c⁻¹ • ((c • 1) * j) := by rw [smul_mul_assoc, one_mul, smul_smul]
        _ = c⁻¹ • val A o := by rw [← j3, mul_assoc, j1, mul_one]
    -- the blades of `g`
    have hgc : ∀ x < 2 ^ A.n, coef A R x g ≠ 0 → ∃ i < A.n, x = 2 ^ i ^^^ 2 ^ l := by
      intro x hx hxg
      rw [g1, hjo, mul_smul_comm, map_smul, smul_eq_mul] at hxg
      obtain ⟨a, ha, a', ha', h3, h4, rfl⟩ := coef_mul_ne hA (right_ne_zero_of_mul hxg)
      have h5 := mv_coef ho ha' h4
      rw [hb] at h5
      have h6 := List.mem_singleton.1 h5
      obtain ⟨i, hi, h7⟩ := anti_blade hA (by omega) ha (coef_grade hp h3)
      refine ⟨i, hi, ?_⟩
      rw [← h7, ← hbl, h6, Nat.xor_assoc a, Nat.xor_comm A.pss, Nat.xor_assoc b, Nat.xor_self, Nat.xor_zero]
    have hpc : ∀ i < A.n, popcount (2 ^ i ^^^ 2 ^ l) = 0 ∨ popcount (2 ^ i ^^^ 2 ^ l) = 2 := by
      intro i hi
      have hilt : 2 ^ i < 2 ^ A.n := Nat.pow_lt_pow_right (by norm_num) hi
      rw [popcount_of_lt hA.le32 (xor_lt hilt hlt)]
      have e := pc_xor A.n (2 ^ i) (2 ^ l)
      rw [pc_two_pow hi, pc_two_pow hl] at e
      omega
    have hg1 : ∀ x < 2 ^ A.n, coef A R x (g + 1) ≠ 0 → ∃ i < A.n, x = 2 ^ i ^^^ 2 ^ l := by
      intro x hx h
      by_cases h0 : x = 0
      · exact ⟨l, hl, by rw [h0, Nat.xor_self]⟩
      · rw [map_add, ← blade_zero, coef_blade _ _ (by simp), if_neg h0, add_zero] at h
        exact hgc x hx h
    -- the norm is a number
    have hxx : (g + 1) * CliffordAlgebra.reverse (g + 1) = (g + 1) + CliffordAlgebra.reverse (g + 1) := by
      rw [map_add, CliffordAlgebra.reverse.map_one, add_mul, mul_add, g2]; simp; abel
    have hw := scalar_of_symm hA h2 (w := (g + 1) * CliffordAlgebra.reverse (g + 1))
      (by rw [CliffordAlgebra.reverse.map_mul, CliffordAlgebra.reverse_reverse]) (by
        intro x hx h
        rw [hxx, map_add, coef_reverse hA R hx] at h
        have : coef A R x (g + 1) ≠ 0 := fun h' => h (by rw [h', mul_zero, add_zero])
        obtain ⟨i, hi, rfl⟩ := hg1 x hx this
        exact hpc i hi)
    set N := coef A R 0 ((g + 1) * CliffordAlgebra.reverse (g + 1)) with hN
    have hN2 : N = 2 * coef A R 0 (g + 1) := by
      rw [hN, hxx, map_add, coef_reverse hA R (by simp), (popcount_eq_zero hA.le32 (Nat.two_pow_pos A.n)).2 rfl]
      simp; ring
    clear_value N
    have hq : q = (u + v * N) • 1 := by rw [q3, hw, smul_smul, add_smul]
    set κ := u + v * N with hκ
    clear_value κ
    have hκ0 : κ ≠ 0 := by
      rintro rfl
      rw [hq, zero_smul, zero_mul] at q1
      exact one_ne_zero' A R q1.symm
    have hi : i = κ⁻¹ • 1 := by
      rw [hq, smul_mul_assoc, one_mul] at q1
      rw [← q1, smul_smul, inv_mul_cancel₀ hκ0, one_smul]
    have hN0 : N ≠ 0 := by
      rw [hw, hq, smul_mul_smul_comm, one_mul] at q4
      rw [← smul_one_inj q4]
      exact mul_ne_zero hκ0 hκ0
    have hg0 : coef A R 0 (g + 1) ≠ 0 := fun h => hN0 (by rw [hN2, h, mul_zero])
    have ht : val A t' = κ⁻¹ • (g + 1) := by rw [q5, hi, smul_mul_assoc, one_mul]
    have htc : ∀ x < 2 ^ A.n, coef A R x (val A t') ≠ 0 → ∃ i < A.n, x = 2 ^ i ^^^ 2 ^ l := by
      intro x hx h
      rw [ht, map_smul, smul_eq_mul] at h
      exact hg1 x hx (right_ne_zero_of_mul h)
    have vt : val A t = val A t' := by
      rw [a4]
      exact proj_all fun x hx h => (hT x).2 (htc x hx h)
    -- the residual is even
    have hre : ∀ x < 2 ^ A.n, coef A R x (val A r') ≠ 0 → popcount x % 2 = 0 := by
      intro x hx h
      rw [e4] at h
      obtain ⟨a, ha, y, hy, h3, h4, rfl⟩ := coef_mul_ne hA h
      rw [coef_reverse hA R ha] at h3
      obtain ⟨i, hi, rfl⟩ := htc a ha (right_ne_zero_of_mul h3)
      have h5 := he y (mv_coef hm hy h4)
      have h6 := hpc i hi
      have e := pc_xor A.n (2 ^ i ^^^ 2 ^ l) y
      rw [popcount_of_lt hA.le32 ha] at h6
      rw [popcount_of_lt hA.le32 hy] at h5
      rw [popcount_of_lt hA.le32 hx]
      omega
    -- and does not contain the vector
    have hoB : ∃ α : R, val A o = α • blade A R b := by
      refine ⟨coef A R b (val A o), ext_coef _ _ fun x hx => ?_⟩
      rw [map_smul, coef_blade _ _ hblt]
      by_cases hxb : x = b
      · rw [hxb, if_pos rfl, smul_eq_mul, mul_one]
      · rw [if_neg hxb, smul_zero]
        by_contra h
        have := mv_coef ho hx h
        rw [hb] at this
        exact hxb (List.mem_singleton.1 this)
    obtain ⟨α, hα⟩ := hoB
    have hα0 : α ≠ 0 := by
      rintro rfl
      rw [hα, zero_smul, zero_mul] at j1
      exact one_ne_zero' A R j1.symm
    have hcomm : val A r' * blade A R b = blade A R b * val A r' := by
      have h3 : val A r' * val A o = val A o * val A r' := by
        calc val A r' * val A o = val A r' * val A o * (CliffordAlgebra.reverse (val A r') * val A r') := by rw [mul_eq_one_symm hsp.norm_r, mul_one]
          _ = val A r' * val A o * CliffordAlgebra.reverse (val A r') * val A r' := by rw [mul_assoc _ _ (val A r')]
          _ = val A o * val A r' := by rw [hsp.fixes]
      rw [hα, mul_smul_comm, smul_mul_assoc] at h3
      exact smul_right_injective _ hα0 h3
    have hB : ∃ k, blade A R b * k = 1 := ⟨α • j, by rw [mul_smul_comm, ← smul_mul_assoc, ← hα, j1]⟩
    have hrl : ∀ x < 2 ^ A.n, coef A R x (val A r') ≠ 0 → x.testBit l = false := by
      set y := proj A R (fun x => x.testBit l = true) (val A r') with hy
      set z := proj A R (fun x => x.testBit l = false) (val A r') with hz
      have hyz : val A r' = y + z := by
        apply ext_coef
        intro x _
        rw [map_add, hy, hz, coef_proj, coef_proj]
        cases x.testBit l <;> simp
      have cy : ∀ x < 2 ^ A.n, coef A R x y ≠ 0 → x.testBit l = true ∧ coef A R x (val A r') ≠ 0 := by
        intro x _ h
        rw [hy, coef_proj] at h
        split_ifs at h with g
        · exact ⟨g, h⟩
        · exact absurd rfl h
      have cz : ∀ x < 2 ^ A.n, coef A R x z ≠ 0 → x.testBit l = false ∧ coef A R x (val A r') ≠ 0 := by
        intro x _ h
        rw [hz, coef_proj] at h
        split_ifs at h with g
        · exact ⟨g, h⟩
        · exact absurd rfl h
      have k1 := (anti_commutes hA hl hbl (x := y) fun x hx h => hre x hx (cy x hx h).2).2 fun x hx h => (cy x hx h).1
      have k2 := (anti_commutes hA hl hbl (x := z) fun x hx h => hre x hx (cz x hx h).2).1 fun x hx h => (cz x hx h).1
      rw [hyz, add_mul, mul_add, k1, k2, add_left_inj] at hcomm
      have hBy : blade A R b * y = 0 := by
        have h3 : (2 : R) • (blade A R b * y) = 0 := by
          rw [two_smul]
          nth_rw 1 [← hcomm]
          exact neg_add_cancel _
        exact (smul_eq_zero.1 h3).resolve_left h2
      obtain ⟨k, hk⟩ := hB
      have hy0 : y = 0 := by
        rw [← one_mul y, ← mul_eq_one_symm hk, mul_assoc, hBy, mul_zero]
      intro x hx h
      rw [hyz, hy0, zero_add] at h
      exact (cz x hx h).1
    have hrm : ∀ x < 2 ^ A.n, coef A R x (val A r') ≠ 0 → x ∈ m.sub.blades := by
      intro x hx h
      refine mv_coef hm hx ?_
      have hw' : coef A R x ((g + 1 - coef A R 0 (g + 1) • 1) * val A r') = 0 := by
        by_contra h'
        obtain ⟨a, ha, y, hy, h3, h4, h5⟩ := coef_mul_ne hA h'
        rw [map_sub, map_smul, ← blade_zero, coef_blade _ _ (by simp)] at h3
        have ha0 : a ≠ 0 := by
          rintro rfl
          simp at h3
        rw [if_neg ha0, smul_zero, sub_zero] at h3
        obtain ⟨i, hi, rfl⟩ := hg1 a ha (by rw [← blade_zero]; exact h3)
        have hil : i ≠ l := by rintro rfl; exact ha0 (Nat.xor_self _)
        have h6 := hrl x hx h
        rw [← h5, Nat.testBit_xor, hrl y hy h4, Nat.testBit_xor, Nat.testBit_two_pow, Nat.testBit_two_pow] at h6
        simp [hil] at h6
      have : val A m = κ⁻¹ • ((g + 1 - coef A R 0 (g + 1) • 1) * val A r' + coef A R 0 (g + 1) • val A r') := by
        rw [← hsp.prod, ht, smul_mul_assoc, sub_mul, smul_mul_assoc, one_mul, sub_add_cancel]
      rw [this, map_smul, map_add, hw', zero_add, map_smul, smul_eq_mul, smul_eq_mul]
      exact mul_ne_zero (inv_ne_zero hκ0) (mul_ne_zero hg0 h)
    have vr : val A r = val A r' := by
      rw [b4]
      exact proj_all fun x hx h => (hU x).2 ⟨hrm x hx h, hrl x hx h⟩
    refine ⟨⟨a3, b3, ?_, ?_, ?_, ?_, ?_⟩, by rw [a2]; exact hT, by rw [b2]; exact hU⟩
    · rw [vt, vr]; exact hsp.prod
    · rw [vt]; exact hsp.norm_t
    · rw [vr]; exact hsp.norm_r
    · rw [vr]; exact hsp.fixes
    · rw [vt]; exact hsp.moves

/-- C76: for an even `m` with `m * ~m = 1` and an origin `o` of the highest but one grade whose complement is not null, whatever `motor_split`
returns in fewer than six dimensions is a split of `m` at `o`, provided that `m` keeps the grade of `o`.  If `o` is stored in one blade,
`t` is stored in the products of a vector with its complement and `r` in the blades of `m` without the complement. -/
theorem C76_split (hA : WfAlg A) (h5 : A.n < 6) (hn : 2 ≤ A.n) (h2 : (2 : R) ≠ 0) {rt : Roots R} (hr : RootLaw rt) {fuel : Nat} (hf : 4 ≤ fuel)
    {m o t r : MV R} (hm : WfMV A m) (ho : WfMV A o) (hu : val A m * CliffordAlgebra.reverse (val A m) = 1)
    (hp : KeepsGrade A m o) (h0 : ∃ b ∈ o.sub.blades, (A.product (b ^^^ A.pss) (b ^^^ A.pss)).2 ≠ 0)
    (h : m.motorSplit A rt fuel o = .ok (t, r)) :
    IsSplit A m o t r ∧ ∀ b l, o.sub = ⟨[b]⟩ → l < A.n → b ^^^ A.pss = 2 ^ l →
      (∀ c, c ∈ t.sub.blades ↔ ∃ i < A.n, c = 2 ^ i ^^^ 2 ^ l) ∧ ∀ c, c ∈ r.sub.blades ↔ c ∈ m.sub.blades ∧ c.testBit l = false := by
  rw [MV.motorSplit, split_match hA (by omega) hm.sub ho.sub] at h
  split_ifs at h with g1 g2 g3
  · obtain ⟨b, hb, h0⟩ := h0
    exact absurd (g2 b hb) h0
  · obtain ⟨b, hb⟩ := List.length_eq_one_iff.1 g3
    have hb' : o.sub = ⟨[b]⟩ := by cases hs : o.sub; rw [hs] at hb; simp only at hb; rw [hb]
    obtain ⟨l, hl, hbl⟩ := anti_blade hA (by omega) (ho.sub.lt b (by rw [hb]; simp)) (g1.2 b (by rw [hb]; simp))
    have hlt : 2 ^ l < 2 ^ A.n := Nat.pow_lt_pow_right (by norm_num) hl
    have hsig : A.desc.sig.getD l 0 ≠ 0 := by
      intro hz
      obtain ⟨b', hb', h0⟩ := h0
      rw [hb] at hb'
      rw [List.mem_singleton.1 hb', hbl] at h0
      exact h0 ((nullBlade_iff hA hlt).1 ⟨l, hl, by simp, hz⟩)
    obtain ⟨a1, a2, a3⟩ := split_blade hA h5 hn h2 hr hf hm g1.1 ho g1.2 hu hp hb' hl hbl hsig h
    refine ⟨a1, fun b2 l2 e1 _ e2 => ?_⟩
    rw [hb'] at e1
    cases e1
    rw [hbl] at e2
    cases Nat.pow_right_injective (le_refl 2) e2
    exact ⟨a2, a3⟩
  · refine ⟨split_default hA h5 hn h2 hr hf hm ho g1.2 hu hp h, fun b l e1 _ _ => ?_⟩
    exact absurd (by rw [e1]; rfl) g3

/-- C76: if the complement of `o` is null and the algebra has no other null vector, `motor_split` returns the translator and the rotor of C75, for
which `r` leaves `o` where it is; with an even number of basis vectors of negative square it is a split. -/
theorem C76_euclidian (hA : WfAlg A) (h5 : A.n < 6) (hn : 2 ≤ A.n) (h2 : (2 : R) ≠ 0) {rt : Roots R} {fuel : Nat} {l : Nat} (hl : l < A.n)
    (h0 : A.desc.sig.getD l 0 = 0) (h1 : ∀ i < A.n, A.desc.sig.getD i 0 = 0 → i = l) {m o : MV R} (hm : WfMV A m)
    (he : ∀ b ∈ m.sub.blades, popcount b % 2 = 0) (hu : val A m * CliffordAlgebra.reverse (val A m) = 1) (ho : WfMV A o)
    (hb : o.sub = ⟨[2 ^ l ^^^ A.pss]⟩) :
    ∃ d n t r, m.degenerate A = some d ∧ m.nondegenerate A = some n ∧ m.motorSplit A rt fuel o = .ok (t, r) ∧ val A r = val A n ∧
      val A r * val A o * CliffordAlgebra.reverse (val A r) = val A o ∧
      val A t * val A r = val A n + ((-1 : R) ^ negVectors A) • val A d ∧ (negVectors A % 2 = 0 → IsSplit A m o t r) := by
  have hlt : 2 ^ l < 2 ^ A.n := Nat.pow_lt_pow_right (by norm_num) hl
  have hbl : 2 ^ l ^^^ A.pss ^^^ A.pss = 2 ^ l := xor_cancel _ _
  have hblt := xor_lt hlt (pss_lt A)
  have hmatch := split_match hA (by omega) hm.sub ho.sub
  have hpc := (pc_and_anti (a := 0) hl (Nat.two_pow_pos _) hbl).2
  rw [← popcount_of_lt hA.le32 hblt] at hpc
  rw [if_pos ⟨he, by rw [hb]; intro b hb'; rw [List.mem_singleton.1 hb']; omega⟩, if_pos (by
    rw [hb]
    intro b hb'
    rw [List.mem_singleton.1 hb', hbl]
    exact (nullBlade_iff hA hlt).1 ⟨l, hl, by simp, h0⟩)] at hmatch
  obtain ⟨d, n, t, d1, n1, t1, wt, wn, hs, fn, hmul, ht1, hnn, _, _⟩ := translator_parts hA h5 hn h2 hl h0 h1 hm he hu
  have hne : ∀ x < 2 ^ A.n, coef A R x (val A n) ≠ 0 → x.testBit l = false ∧ popcount x % 2 = 0 := by
    intro x hx h
    obtain ⟨d', n', d1', n1', _, wn', _, cn, _⟩ := C17_multivector hA hm
    cases n1.symm.trans n1'
    rw [← coeff_eq wn', cn] at h
    split_ifs at h with g
    · refine ⟨?_, he x ?_⟩
      · by_contra ht
        rw [Bool.not_eq_false] at ht
        exact g ((nullBlade_iff hA hx).1 ⟨l, hl, ht, h0⟩)
      · by_contra h'
        exact h (coeff_notMem h')
    · exact absurd rfl h
  have hcomm := (anti_commutes hA hl hbl (x := val A n) fun x hx h => (hne x hx h).2).1 fun x hx h => (hne x hx h).1
  have hfix : val A n * val A o * CliffordAlgebra.reverse (val A n) = val A o := by
    have : val A o = coef A R (2 ^ l ^^^ A.pss) (val A o) • blade A R (2 ^ l ^^^ A.pss) := by
      refine ext_coef _ _ fun x hx => ?_
      rw [map_smul, coef_blade _ _ hblt]
      by_cases hxb : x = 2 ^ l ^^^ A.pss
      · rw [hxb, if_pos rfl, smul_eq_mul, mul_one]
      · rw [if_neg hxb, smul_zero]
        by_contra h
        have := mv_coef ho hx h
        rw [hb] at this
        exact hxb (List.mem_singleton.1 this)
    rw [this, mul_smul_comm, hcomm, smul_mul_assoc, mul_assoc, hnn, mul_one]
  refine ⟨d, n, t, n, d1, n1, ?_, rfl, hfix, hmul, fun hq => ?_⟩
  · rw [MV.motorSplit, hmatch]
    simp only [t1, n1, lift_some, bind, Except.bind]
  · have hp : val A t * val A n = val A m := by rw [hmul, hs, (Nat.even_iff.2 hq).neg_one_pow, one_smul]
    refine ⟨wt, wn, hp, ht1, hnn, hfix, ?_⟩
    rw [← hp, CliffordAlgebra.reverse.map_mul]
    conv_lhs => rw [← hfix]
    simp only [mul_assoc]

/-- C76: there is no implementation for a motor that is not stored in even blades or an origin that is not stored in blades of the highest
but one grade. -/
theorem C76_noMatch (hA : WfAlg A) (hn : 1 ≤ A.n) {rt : Roots R} {fuel : Nat} {m o : MV R} (hm : WfMV A m) (ho : WfMV A o)
    (h : (∃ b ∈ m.sub.blades, popcount b % 2 ≠ 0) ∨ ∃ b ∈ o.sub.blades, popcount b ≠ A.n - 1) :
    m.motorSplit A rt fuel o = .error .noMatch := by
  rw [MV.motorSplit, split_match hA hn hm.sub ho.sub, if_neg]
  rintro ⟨h1, h2⟩
  rcases h with ⟨b, hb, h⟩ | ⟨b, hb, h⟩
  · exact h (h1 b hb)
  · exact h (h2 b hb)

/-! ### examples -/

/-- Exact roots of a few squares. -/
def rootsS : Roots ℚ := ⟨fun a => [0, 1, 2, 8/5].find? fun r => r * r = a, fun a => |a|, 1000⟩
theorem rootsS_law : RootLaw rootsS := fun a r h => by simpa using List.find?_some h

/-- A motor and an origin that meet the hypotheses. -/
example : WfAlg euc2 ∧ WfMV euc2 (⟨⟨[0, 3]⟩, [4/5, 3/5]⟩ : MV ℚ) ∧ WfMV euc2 (⟨⟨[1, 2]⟩, [1, 1]⟩ : MV ℚ) ∧
    (⟨⟨[0, 3]⟩, [4/5, 3/5]⟩ : MV ℚ).symmetricReverse euc2 = some ⟨⟨[0]⟩, [1]⟩ ∧ KeepsGrade euc2 (⟨⟨[0, 3]⟩, [4/5, 3/5]⟩ : MV ℚ) ⟨⟨[1, 2]⟩, [1, 1]⟩ :=
  ⟨wf_euc2, ⟨wfSub_of_B (by decide +kernel), rfl⟩, ⟨wfSub_of_B (by decide +kernel), rfl⟩, by decide +kernel,
    keepsGrade wf_euc2 (by decide) ⟨wfSub_of_B (by decide +kernel), rfl⟩ ⟨wfSub_of_B (by decide +kernel), rfl⟩ (by unfold Homogeneous; decide +kernel)
      (Or.inr ⟨by decide, by decide +kernel⟩)⟩
example : (⟨⟨[0, 3]⟩, [4/5, 3/5]⟩ : MV ℚ).motorSplit euc2 rootsS 4 ⟨⟨[1, 2]⟩, [1, 1]⟩ =
    .ok (⟨⟨[0, 3]⟩, [4/5, 3/5]⟩, ⟨⟨[0, 3]⟩, [1, 0]⟩) := by decide +kernel
/-- The origin stored in one blade: the rotor is stored without the complement. -/
example : (⟨⟨[0, 3]⟩, [4/5, 3/5]⟩ : MV ℚ).motorSplit euc2 rootsS 4 ⟨⟨[1]⟩, [1]⟩ = .ok (⟨⟨[0, 3]⟩, [4/5, 3/5]⟩, ⟨⟨[0]⟩, [1]⟩) ∧
    1 ^^^ euc2.pss = 2 ^ 1 ∧ (euc2.product (1 ^^^ euc2.pss) (1 ^^^ euc2.pss)).2 ≠ 0 := by decide +kernel
example : (⟨⟨[0, 5]⟩, [1, 2]⟩ : MV ℚ).motorSplit pga2s rootsS 4 ⟨⟨[3]⟩, [1]⟩ = .ok (⟨⟨[0, 5]⟩, [1, 2]⟩, ⟨⟨[0]⟩, [1]⟩) ∧
    2 ^ 2 ^^^ pga2s.pss = 3 := by decide +kernel
example : (⟨⟨[0, 3]⟩, [4/5, 3/5]⟩ : MV ℚ).motorSplit euc2 rootsS 4 ⟨⟨[3]⟩, [1]⟩ = .error .noMatch := by decide +kernel

end Verif.Props
