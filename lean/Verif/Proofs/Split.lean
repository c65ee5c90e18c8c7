import Verif.Props.Translator
/-! # Lemmas about splitting a motor -/
namespace Verif
open Model Spec Model.Factory Props

variable {A : Alg} {R : Type} [Field R]

/-- A blade of a product is the symmetric difference of blades of the factors. -/
theorem coef_mul_ne (hA : WfAlg A) {x y : Cl A R} {c : Nat} (h : coef A R c (x * y) ≠ 0) :
    ∃ a < 2 ^ A.n, ∃ b < 2 ^ A.n, coef A R a x ≠ 0 ∧ coef A R b y ≠ 0 ∧ a ^^^ b = c := by
  rw [sum_coef A R x, sum_coef A R y, Finset.sum_mul_sum, map_sum] at h
  obtain ⟨a, ha, h⟩ := Finset.exists_ne_zero_of_sum_ne_zero h
  rw [map_sum] at h
  obtain ⟨b, hb, h⟩ := Finset.exists_ne_zero_of_sum_ne_zero h
  rw [Finset.mem_range] at ha hb
  rw [smul_mul_smul_comm, blade_mul hA, map_smul, map_smul, coef_blade _ _ (xor_lt ha hb), smul_eq_mul, smul_eq_mul] at h
  refine ⟨a, ha, b, hb, fun h' => h (by rw [h']; simp), fun h' => h (by rw [h']; simp), ?_⟩
  by_contra h'
  exact h (by rw [if_neg (Ne.symm h')]; simp)

theorem coef_grade {k b : Nat} {x : Cl A R} (hx : gradePart A R k x = x) (h : coef A R b x ≠ 0) : popcount b = k := by
  rw [← hx, gradePart_eq_proj, coef_proj] at h
  by_contra h'
  exact h (if_neg h')

/-- Exchanging two blades. -/
theorem blade_exchange (hA : WfAlg A) (a b : Nat) :
    blade A R a * blade A R b = ((-1 : R) ^ (pc A.n a * pc A.n b + pc A.n (a &&& b))) • (blade A R b * blade A R a) := by
  rw [blade_mul hA, blade_mul hA, Nat.xor_comm b a, smul_smul]
  congr 1
  have h := inv_add A.n a b
  unfold sgn
  rw [Nat.and_comm b a]
  push_cast
  rw [← mul_assoc, ← pow_add]
  congr 1
  apply neg_one_pow_congr
  rw [← h]
  simp only [Nat.even_add]
  tauto

/-- The product of two elements of the highest but one grade has no grades above two. -/
theorem anti_mul_grades (hA : WfAlg A) (hn : 1 ≤ A.n) {x y : Cl A R} (hx : gradePart A R (A.n - 1) x = x) (hy : gradePart A R (A.n - 1) y = y)
    {c : Nat} (h : coef A R c (x * y) ≠ 0) : popcount c = 0 ∨ popcount c = 2 := by
  obtain ⟨a, ha, b, hb, h1, h2, rfl⟩ := coef_mul_ne hA h
  have pa := coef_grade hx h1
  have pb := coef_grade hy h2
  rw [popcount_of_lt hA.le32 ha] at pa
  rw [popcount_of_lt hA.le32 hb] at pb
  rw [popcount_of_lt hA.le32 (xor_lt ha hb)]
  have e1 := pc_xor A.n a b
  have e2 := pc_xor A.n (a ^^^ b) (a &&& b)
  have e3 : (a ^^^ b) &&& (a &&& b) = 0 := by
    apply Nat.eq_of_testBit_eq
    intro i
    simp only [Nat.testBit_and, Nat.testBit_xor, Nat.zero_testBit]
    cases a.testBit i <;> cases b.testBit i <;> rfl
  have e4 := pc_le A.n (a ^^^ b ^^^ (a &&& b))
  rw [e3] at e2
  have e5 : pc A.n 0 = 0 := by simp [pc]
  omega

/-- A self-reverse element without grades above two is a number. -/
theorem scalar_of_symm (hA : WfAlg A) (h2 : (2 : R) ≠ 0) {w : Cl A R} (hw : CliffordAlgebra.reverse w = w)
    (hg : ∀ c < 2 ^ A.n, coef A R c w ≠ 0 → popcount c = 0 ∨ popcount c = 2) : w = coef A R 0 w • (1 : Cl A R) := by
  apply ext_coef
  intro b hb
  rw [map_smul, ← blade_zero, coef_blade _ _ (by simp)]
  by_cases h0 : b = 0
  · subst h0; simp
  · rw [if_neg h0, smul_zero]
    by_contra h
    rcases hg b hb h with h' | h'
    · exact h0 ((popcount_eq_zero hA.le32 hb).1 h')
    · have := congrArg (coef A R b) (gradePart2_symm hA h2 hw)
      rw [gradePart_eq_proj, coef_proj, if_pos h', map_zero] at this
      exact h this

/-- The square of an element of the highest but one grade is a number. -/
theorem anti_square (hA : WfAlg A) (hn : 1 ≤ A.n) (h2 : (2 : R) ≠ 0) {o : Cl A R} (ho : gradePart A R (A.n - 1) o = o)
    {e : R} (hr : CliffordAlgebra.reverse o = e • o) (he : e * e = 1) : ∃ c : R, o * o = c • (1 : Cl A R) := by
  refine ⟨_, scalar_of_symm hA h2 ?_ fun c _ h => anti_mul_grades hA hn ho ho h⟩
  rw [CliffordAlgebra.reverse.map_mul, hr, smul_mul_smul_comm, he, one_smul]

theorem inv_commutes {x q i : Cl A R} (q1 : q * i = 1) (q2 : i * q = 1) (h : x * q = q * x) : x * i = i * x := by
  calc x * i = (i * q) * (x * i) := by rw [q2, one_mul]
    _ = i * (q * x) * i := by simp only [mul_assoc]
    _ = i * (x * q) * i := by rw [h]
    _ = i * x * (q * i) := by simp only [mul_assoc]
    _ = i * x := by rw [q1, mul_one]

/-- Reflecting the normalised sum of one and `g` in an element that reflects `g` to its reverse. -/
theorem root_reflect [DecidableEq R] {o g q i t : Cl A R} {u v : R} (h1 : g * CliffordAlgebra.reverse g = 1) (h1' : CliffordAlgebra.reverse g * g = 1)
    (q1 : q * i = 1) (q2 : i * q = 1) (q3 : q = u • 1 + v • ((g + 1) * CliffordAlgebra.reverse (g + 1))) (ht : t = i * (g + 1))
    (ho : o * g = CliffordAlgebra.reverse g * o) : o * t = CliffordAlgebra.reverse t * o := by
  have hrx : CliffordAlgebra.reverse (g + 1) = CliffordAlgebra.reverse g + 1 := by rw [map_add, CliffordAlgebra.reverse.map_one]
  have hxx : (g + 1) * CliffordAlgebra.reverse (g + 1) = 1 + g + CliffordAlgebra.reverse g + 1 := by
    rw [hrx, add_mul, mul_add, h1]; simp; abel
  rw [hxx] at q3
  have ho' : o * CliffordAlgebra.reverse g = g * o := by
    calc o * CliffordAlgebra.reverse g = (g * CliffordAlgebra.reverse g) * o * CliffordAlgebra.reverse g := by rw [h1, one_mul]
      _ = g * (CliffordAlgebra.reverse g * o) * CliffordAlgebra.reverse g := by simp only [mul_assoc]
      _ = g * (o * g) * CliffordAlgebra.reverse g := by rw [ho]
      _ = g * o * (g * CliffordAlgebra.reverse g) := by simp only [mul_assoc]
      _ = g * o := by rw [h1, mul_one]
  have hoq : o * q = q * o := by
    rw [q3]
    simp only [mul_add, add_mul, mul_smul_comm, smul_mul_assoc, mul_one, one_mul, ho, ho']
    congr 2
    abel
  have hgq : CliffordAlgebra.reverse g * q = q * CliffordAlgebra.reverse g := by
    rw [q3]
    simp only [mul_add, add_mul, mul_smul_comm, smul_mul_assoc, mul_one, one_mul, h1, h1']
  have hqr : CliffordAlgebra.reverse q = q := by
    rw [q3]
    simp only [map_add, map_smul, CliffordAlgebra.reverse.map_one, CliffordAlgebra.reverse_reverse]
    congr 2
    abel
  have hir := reverse_inverse q1 q2 hqr
  have a1 := inv_commutes q1 q2 hoq
  have a2 := inv_commutes q1 q2 hgq
  rw [ht, CliffordAlgebra.reverse.map_mul, hir, hrx, ← mul_assoc, a1, mul_assoc, mul_add, ho, mul_one, add_mul, one_mul, ← add_one_mul, ← mul_assoc,
    mul_add, ← a2, mul_one]

/-- The algebra of the split: `t` is a root of the element that takes `o` to its image under `m`. -/
theorem split_alg (hA : WfAlg A) {m o j g t : Cl A R} {e c : R} (hm : m * CliffordAlgebra.reverse m = 1) (hm' : CliffordAlgebra.reverse m * m = 1)
    (he : e * e = 1) (hr : CliffordAlgebra.reverse o = e • o) (hc : o * o = c • 1) (hj : o * j = 1) (hj' : j * o = 1)
    (hg : g = m * o * CliffordAlgebra.reverse m * j) :
    g * CliffordAlgebra.reverse g = 1 ∧ o * g = CliffordAlgebra.reverse g * o ∧ g * o = m * o * CliffordAlgebra.reverse m ∧
    (t * t = g → t * CliffordAlgebra.reverse t = 1 → CliffordAlgebra.reverse t * t = 1 → o * t = CliffordAlgebra.reverse t * o →
      CliffordAlgebra.reverse t * m * o * CliffordAlgebra.reverse (CliffordAlgebra.reverse t * m) = o) := by
  have hc0 : c ≠ 0 := by
    rintro rfl
    rw [zero_smul] at hc
    have : o = 0 := by rw [← mul_one o, ← hj, ← mul_assoc, hc, zero_mul]
    rw [this, zero_mul] at hj
    exact one_ne_zero' A R hj.symm
  have hjo : j = c⁻¹ • o := by
    calc j = (c⁻¹ * c) • j := by rw [inv_mul_cancel₀ hc0, one_smul]
      _ = c⁻¹ • ((c • 1) * j) := by rw [smul_mul_assoc, one_mul, smul_smul]
      _ = c⁻¹ • o := by rw [← hc, mul_assoc, hj, mul_one]
  set p := m * o * CliffordAlgebra.reverse m with hp
  have hpr : CliffordAlgebra.reverse p = e • p := by
    rw [hp, CliffordAlgebra.reverse.map_mul, CliffordAlgebra.reverse.map_mul, CliffordAlgebra.reverse_reverse, hr, smul_mul_assoc, mul_smul_comm, mul_assoc]
  have hpp : p * p = c • 1 := by
    calc p * p = m * o * (CliffordAlgebra.reverse m * m) * o * CliffordAlgebra.reverse m := by rw [hp]; simp only [mul_assoc]
      _ = m * (o * o) * CliffordAlgebra.reverse m := by rw [hm']; simp only [mul_assoc, mul_one, one_mul]
      _ = c • 1 := by rw [hc, mul_smul_comm, smul_mul_assoc, mul_one, hm]
  have hgr : CliffordAlgebra.reverse g = c⁻¹ • (o * p) := by
    rw [hg, CliffordAlgebra.reverse.map_mul, hpr, hjo, map_smul, hr, smul_smul, smul_mul_smul_comm, mul_assoc, he, mul_one]
  have hg' : g = c⁻¹ • (p * o) := by rw [hg, hjo, mul_smul_comm]
  have hgo : g * o = p := by rw [hg, mul_assoc, hj', mul_one]
  refine ⟨?_, ?_, hgo, fun h1 h2 h3 h4 => ?_⟩
  · rw [hgr, hg', smul_mul_smul_comm]
    rw [show p * o * (o * p) = p * (o * o) * p by simp only [mul_assoc], hc, mul_smul_comm, mul_one, smul_mul_assoc, hpp, smul_smul, smul_smul]
    rw [show c⁻¹ * c⁻¹ * c * c = 1 by field_simp, one_smul]
  · rw [hgr, hg', mul_smul_comm, smul_mul_assoc, ← mul_assoc]
  · rw [CliffordAlgebra.reverse.map_mul, CliffordAlgebra.reverse_reverse]
    calc CliffordAlgebra.reverse t * m * o * (CliffordAlgebra.reverse m * t) = CliffordAlgebra.reverse t * p * t := by rw [hp]; simp only [mul_assoc]
      _ = CliffordAlgebra.reverse t * (t * t) * (o * t) := by rw [← hgo, h1]; simp only [mul_assoc]
      _ = (CliffordAlgebra.reverse t * t) * (t * CliffordAlgebra.reverse t) * o := by rw [h4]; simp only [mul_assoc]
      _ = o := by rw [h2, h3, one_mul, one_mul]

variable [DecidableEq R]

/-- What the last implementation of `motor_split` returns. -/
theorem splitDefault_spec (hA : WfAlg A) (h5 : A.n < 6) (hn : 2 ≤ A.n) (h2 : (2 : R) ≠ 0) {rt : Roots R} (hr : RootLaw rt) {fuel : Nat} (hf : 4 ≤ fuel)
    {m o t r : MV R} (hm : WfMV A m) (ho : WfMV A o) (hk : Homogeneous (A.n - 1) o) (hu : val A m * CliffordAlgebra.reverse (val A m) = 1)
    (hp : gradePart A R (A.n - 1) (val A m * val A o * CliffordAlgebra.reverse (val A m)) = val A m * val A o * CliffordAlgebra.reverse (val A m))
    (h : m.splitDefault A rt fuel o = .ok (t, r)) :
    WfMV A t ∧ WfMV A r ∧ val A t * CliffordAlgebra.reverse (val A t) = 1 ∧ val A r = CliffordAlgebra.reverse (val A t) * val A m ∧
    val A t * val A t * val A o = val A m * val A o * CliffordAlgebra.reverse (val A m) ∧
    val A r * val A o * CliffordAlgebra.reverse (val A r) = val A o ∧
    ∃ (j g q i : Cl A R) (u v c : R), val A o * j = 1 ∧ j * val A o = 1 ∧ val A o * val A o = c • 1 ∧ g = val A m * val A o * CliffordAlgebra.reverse (val A m) * j ∧
      g * CliffordAlgebra.reverse g = 1 ∧
      q * i = 1 ∧ i * q = 1 ∧ q = u • 1 + v • ((g + 1) * CliffordAlgebra.reverse (g + 1)) ∧ q * q = (g + 1) * CliffordAlgebra.reverse (g + 1) ∧
      val A t = i * (g + 1) := by
  obtain ⟨p, p1, p2, p3⟩ := sandwich_gives hA hm ho
  have hgo : gradesOf A R o.sub (val A m * val A o * CliffordAlgebra.reverse (val A m)) = val A m * val A o * CliffordAlgebra.reverse (val A m) ∨
      o.sub.blades = [] := by
    by_cases he : o.sub.blades = []
    · exact Or.inr he
    · left
      obtain ⟨b, hb⟩ := List.exists_mem_of_ne_nil _ he
      conv_rhs => rw [← hp]
      rw [gradesOf, gradePart_eq_proj]
      refine proj_congr (fun c _ => ?_) _
      exact ⟨fun ⟨d, hd, e⟩ => by rw [← e, hk d hd], fun e => ⟨b, hb, by rw [hk b hb, e]⟩⟩
  have hne : o.sub ≠ ⟨[0]⟩ := fun e => by
    have := hk 0 (by rw [e]; simp)
    rw [(popcount_eq_zero hA.le32 (Nat.two_pow_pos _)).2 rfl] at this
    omega
  simp only [MV.splitDefault, p1, lift_some, bind, Except.bind, MV.truediv, MV.upcast, MV.divideWith, (scalar_eq hA).1] at h
  rw [if_neg hne] at h
  rcases C47_inverse hA h5 h2 hf ho with ⟨j, j1, j2, j3, j4⟩ | j1
  swap
  · rw [j1] at h; cases h
  rw [j1] at h
  have hgo := hgo.resolve_right fun e => by
    have : val A o = 0 := by rw [val, denote, e]; simp
    rw [this, zero_mul] at j3
    exact one_ne_zero' A R j3.symm
  rw [hgo] at p3
  obtain ⟨g, g1, g2, g3⟩ := product_gives hA p2 j2
  simp only [g1, lift_some] at h
  cases ht : g.motorSquareRoot A rt fuel with
  | error e => rw [ht] at h; cases h
  | ok t' =>
    rw [ht] at h
    obtain ⟨hrev, _⟩ := reverse_homogeneous hA ho hk
    have he : ((-1 : R) ^ ((A.n - 1) / 2)) * ((-1 : R) ^ ((A.n - 1) / 2)) = 1 := by rw [← mul_pow]; simp
    obtain ⟨c, hc⟩ := anti_square hA (by omega) h2 (gradePart_val ho hk) hrev he
    rw [p3] at g3
    obtain ⟨s1, s2, s3, s4⟩ := split_alg (t := val A t') hA hu (mul_eq_one_comm.1 hu) he hrev hc j3 j4 g3
    obtain ⟨t1, t2, t3⟩ := C51_square_root hA h2 hr (by omega) g2 s1 ht
    obtain ⟨_, x, x1, x2, x3, x4⟩ := motorRoot_spec hA g2 ht
    obtain ⟨fuel, rfl⟩ : ∃ f, fuel = f + 2 := ⟨fuel - 2, by omega⟩
    obtain ⟨_, q, i, u, v, q1, q2, q3, q4, q5⟩ := normalized_spec hA h2 hr fuel x1 x4
    rw [x3] at q3 q4 q5
    obtain ⟨t'', r1, _, r2, r3⟩ := (C04_values hA t1).1
    obtain ⟨r', m1, m2, m3⟩ := product_gives hA r2 hm
    have : t''.mul A (.mv m) = some r' := by rw [MV.mul, MV.upcast]; simpa using m1
    simp only [r1, lift_some, this] at h
    cases h
    rw [r3] at m3
    refine ⟨t1, m2, t3, m3, by rw [t2, s3], ?_, val A j, val A g, q, i, u, v, c, j3, j4, hc, g3, s1, q1, q2, q3, q4, q5⟩
    rw [m3]
    exact s4 t2 t3 (mul_eq_one_comm.1 t3) (root_reflect s1 (mul_eq_one_comm.1 s1) q1 q2 q3 q5 s2)

omit [DecidableEq R] in
theorem proj_all {p : Nat → Prop} [DecidablePred p] {x : Cl A R} (h : ∀ c < 2 ^ A.n, coef A R c x ≠ 0 → p c) : proj A R p x = x := by
  apply ext_coef
  intro c hc
  rw [coef_proj]
  split_ifs with g
  · rfl
  · by_contra h'
    exact g (h c hc (Ne.symm h'))

/-- A blade of grade one is a basis vector. -/
theorem eq_two_pow {n d : Nat} (hd : d < 2 ^ n) (h : pc n d = 1) : ∃ l < n, d = 2 ^ l := by
  have h0 : d ≠ 0 := by rintro rfl; simp [pc] at h
  obtain ⟨l, hl⟩ := Nat.exists_testBit_of_ne_zero h0
  have hln : l < n := by
    by_contra g
    rw [Nat.testBit_lt_two_pow (lt_of_lt_of_le hd (Nat.pow_le_pow_right (by norm_num) (not_lt.1 g)))] at hl
    cases hl
  refine ⟨l, hln, ?_⟩
  have e := pc_xor n d (2 ^ l)
  have e1 : d &&& 2 ^ l = 2 ^ l := by
    apply Nat.eq_of_testBit_eq
    intro i
    rw [Nat.testBit_and, Nat.testBit_two_pow]
    by_cases hi : l = i
    · subst hi; simp [hl]
    · simp [hi]
  rw [e1, pc_two_pow hln, h] at e
  have e2 : pc n (d ^^^ 2 ^ l) = 0 := by omega
  rw [pc_eq_zero_iff] at e2
  have hlt : 2 ^ l < 2 ^ n := Nat.pow_lt_pow_right (by norm_num) hln
  have e3 : d ^^^ 2 ^ l = 0 := by
    apply Nat.eq_of_testBit_eq
    intro i
    rw [Nat.zero_testBit]
    by_cases hi : i < n
    · exact e2 i hi
    · exact Nat.testBit_lt_two_pow (lt_of_lt_of_le (xor_lt hd hlt) (Nat.pow_le_pow_right (by norm_num) (not_lt.1 hi)))
  rw [← xor_cancel d (2 ^ l), e3, Nat.zero_xor]

theorem pc_pss (A : Alg) : pc A.n A.pss = A.n := by
  rw [pc, Finset.sum_congr rfl fun i hi => by rw [pss_testBit (Finset.mem_range.1 hi)]]
  simp

theorem pc_and_pss {A : Alg} {b : Nat} (hb : b < 2 ^ A.n) : b &&& A.pss = b := by
  rw [Alg.pss, Nat.and_two_pow_sub_one_eq_mod, Nat.mod_eq_of_lt hb]

/-- The blades of the highest but one grade are the complements of the basis vectors. -/
theorem anti_blade (hA : WfAlg A) (hn : 1 ≤ A.n) {b : Nat} (hb : b < 2 ^ A.n) (h : popcount b = A.n - 1) : ∃ l < A.n, b ^^^ A.pss = 2 ^ l := by
  refine eq_two_pow (xor_lt hb (pss_lt A)) ?_
  have e := pc_xor A.n b A.pss
  rw [pc_and_pss hb, pc_pss, ← popcount_of_lt hA.le32 hb, h] at e
  omega

omit [DecidableEq R] in
/-- An element of which all blades commute with a blade, or all anticommute. -/
theorem blade_commutes (hA : WfAlg A) {x : Cl A R} {b : Nat} :
    ((∀ a < 2 ^ A.n, coef A R a x ≠ 0 → Even (pc A.n a * pc A.n b + pc A.n (a &&& b))) → x * blade A R b = blade A R b * x) ∧
    ((∀ a < 2 ^ A.n, coef A R a x ≠ 0 → Odd (pc A.n a * pc A.n b + pc A.n (a &&& b))) → x * blade A R b = - (blade A R b * x)) := by
  constructor <;> intro h
  · rw [sum_coef A R x, Finset.sum_mul, Finset.mul_sum]
    refine Finset.sum_congr rfl fun a ha => ?_
    by_cases g : coef A R a x = 0
    · rw [g]; simp
    · rw [smul_mul_assoc, mul_smul_comm, blade_exchange hA, (h a (Finset.mem_range.1 ha) g).neg_one_pow, one_smul]
  · rw [sum_coef A R x, Finset.sum_mul, Finset.mul_sum, ← Finset.sum_neg_distrib]
    refine Finset.sum_congr rfl fun a ha => ?_
    by_cases g : coef A R a x = 0
    · rw [g]; simp
    · rw [smul_mul_assoc, mul_smul_comm, blade_exchange hA, (h a (Finset.mem_range.1 ha) g).neg_one_pow, neg_one_smul, smul_neg]

/-- Number of common vectors of a blade and the complement of a basis vector. -/
theorem pc_and_anti {A : Alg} {a b l : Nat} (hl : l < A.n) (ha : a < 2 ^ A.n) (hb : b ^^^ A.pss = 2 ^ l) :
    pc A.n (a &&& b) + (a.testBit l).toNat = pc A.n a ∧ pc A.n b + 1 = A.n := by
  have hb' : b = 2 ^ l ^^^ A.pss := by rw [← hb, xor_cancel]
  have hlt : 2 ^ l < 2 ^ A.n := Nat.pow_lt_pow_right (by norm_num) hl
  constructor
  · have e := pc_xor A.n (a &&& b) (a &&& 2 ^ l)
    have e1 : (a &&& b) ^^^ (a &&& 2 ^ l) = a := by
      rw [← Nat.and_xor_distrib_left, hb', Nat.xor_comm (2 ^ l), xor_cancel, pc_and_pss ha]
    have e2 : (a &&& b) &&& (a &&& 2 ^ l) = 0 := by
      apply Nat.eq_of_testBit_eq
      intro i
      rw [hb']
      simp only [Nat.testBit_and, Nat.testBit_xor, Nat.testBit_two_pow, Nat.zero_testBit]
      by_cases hi : l = i
      · subst hi; simp [pss_testBit hl]
      · simp [hi]
    have e3 : pc A.n (a &&& 2 ^ l) = (a.testBit l).toNat := by
      cases ht : a.testBit l
      · rw [Nat.and_comm, two_pow_ne ht]; simp [pc]
      · rw [show a &&& 2 ^ l = 2 ^ l by
          apply Nat.eq_of_testBit_eq
          intro i
          rw [Nat.testBit_and, Nat.testBit_two_pow]
          by_cases hi : l = i
          · subst hi; simp [ht]
          · simp [hi], pc_two_pow hl]
        rfl
    rw [e1, e2, e3] at e
    have e5 : pc A.n 0 = 0 := by simp [pc]
    omega
  · have e := pc_xor A.n (2 ^ l) A.pss
    rw [← hb', pc_and_pss hlt, pc_two_pow hl, pc_pss] at e
    omega

omit [DecidableEq R] in
/-- Even elements without the vector `l` commute with the complement of `l`, the even elements in which every blade contains it anticommute. -/
theorem anti_commutes (hA : WfAlg A) {b l : Nat} (hl : l < A.n) (hb : b ^^^ A.pss = 2 ^ l) {x : Cl A R}
    (he : ∀ a < 2 ^ A.n, coef A R a x ≠ 0 → popcount a % 2 = 0) :
    ((∀ a < 2 ^ A.n, coef A R a x ≠ 0 → a.testBit l = false) → x * blade A R b = blade A R b * x) ∧
    ((∀ a < 2 ^ A.n, coef A R a x ≠ 0 → a.testBit l = true) → x * blade A R b = - (blade A R b * x)) := by
  refine ⟨fun h => (blade_commutes hA).1 fun a ha hc => ?_, fun h => (blade_commutes hA).2 fun a ha hc => ?_⟩
  all_goals
    have h1 := he a ha hc
    have h2 := h a ha hc
    obtain ⟨h3, h4⟩ := pc_and_anti hl ha hb
    rw [popcount_of_lt hA.le32 ha] at h1
    rw [h2] at h3
    simp only [Bool.toNat_false, Bool.toNat_true] at h3
    have h5 : Even (pc A.n a * pc A.n b) := (Nat.even_iff.2 h1).mul_right _
  · exact h5.add (Nat.even_iff.2 (by omega))
  · exact h5.add_odd (Nat.odd_iff.2 (by omega))

end Verif
