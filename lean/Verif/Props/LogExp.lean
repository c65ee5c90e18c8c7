import Verif.Proofs.LogExp
import Mathlib.Data.Nat.Factorial.Basic
/-! # C52, C53: exponentials and logarithms -/
namespace Verif.Props
open Model Spec Model.Factory

variable {A : Alg}

/-- C57: as soon as some basis vector does not square to zero, `k_reflection(k)` consists of all blades of grade at most `k` with the
parity of `k`. -/
theorem C57_reflection_all (hA : WfAlg A) {i : Nat} (hi : i < A.n) (h0 : A.desc.sig.getD i 0 ≠ 0) (k : Nat) :
    ∃ S, A.kReflection k = some S ∧ IsSpace A S fun b => popcount b ≤ k ∧ popcount b % 2 = k % 2 := by
  obtain ⟨S, s1, s2, s3, -⟩ := C57_reflection hA k
  refine ⟨S, s1, s2, fun b => ⟨fun h => ⟨s2.lt b h, s3 b h⟩, ?_⟩⟩
  clear s3
  induction k generalizing S b with
  | zero =>
    rintro ⟨hb, h1, _⟩
    have : b = 0 := (popcount_eq_zero hA.le32 hb).1 (by omega)
    rw [Alg.kReflection, (scalar_eq hA).1] at s1
    cases s1
    simp [this]
  | succ k ih =>
    rintro ⟨hb, h1, h2⟩
    obtain ⟨S', s1', s2', -⟩ := C57_reflection hA k
    obtain ⟨_, ⟨V, v1, v2, v3⟩, _⟩ := C14_named hA
    obtain ⟨U, u1, u2, u3⟩ := product_space hA s2' v2
    have : A.kReflection (k + 1) = some U := by rw [Alg.kReflection, s1', v1]; exact u1
    cases s1.symm.trans this
    rw [u3]
    have hv : ∀ j < A.n, 2 ^ j ∈ V.blades := fun j hj =>
      (v3 _).2 ⟨Nat.pow_lt_pow_right (by norm_num) hj, popcount_two_pow hA hj⟩
    by_cases hz : b = 0
    · subst hz
      have e0 : popcount 0 = 0 := rfl
      have e1 : popcount (2 ^ i) = 1 := popcount_two_pow hA hi
      refine ⟨2 ^ i, ih (b := _) S' s1' s2' ⟨Nat.pow_lt_pow_right (by norm_num) hi, by omega, by omega⟩, 2 ^ i, hv i hi, Nat.xor_self _, ?_⟩
      rw [sgn_ne_zero hA (Nat.pow_lt_pow_right (by norm_num) hi)]
      rintro ⟨j, _, hj, _, h⟩
      rw [Nat.testBit_two_pow] at hj
      simp only [decide_eq_true_eq] at hj
      exact h0 (hj ▸ h)
    · obtain ⟨j, hj⟩ := Nat.exists_testBit_of_ne_zero hz
      have hjn : j < A.n := by
        by_contra h
        rw [Nat.testBit_lt_two_pow (lt_of_lt_of_le hb (Nat.pow_le_pow_right (by norm_num) (not_lt.1 h)))] at hj
        cases hj
      have e1 : popcount (2 ^ j) = 1 := popcount_two_pow hA hjn
      have e2 : b &&& 2 ^ j = 2 ^ j := by
        apply Nat.eq_of_testBit_eq
        intro l
        rw [Nat.testBit_and, Nat.testBit_two_pow]
        by_cases h : j = l
        · subst h; simp [hj]
        · simp [h]
      have e3 := popcount_xor b (2 ^ j)
      rw [e2, e1] at e3
      have hl : b ^^^ 2 ^ j < 2 ^ A.n := xor_lt hb (Nat.pow_lt_pow_right (by norm_num) hjn)
      refine ⟨b ^^^ 2 ^ j, ih (b := _) S' s1' s2' ⟨hl, by omega, by omega⟩, 2 ^ j, hv j hjn, by rw [Nat.xor_assoc, Nat.xor_self, Nat.xor_zero], ?_⟩
      rw [sgn_ne_zero hA hl]
      rintro ⟨l, _, hl1, hl2, _⟩
      rw [Nat.testBit_two_pow] at hl2
      simp only [decide_eq_true_eq] at hl2
      subst hl2
      rw [Nat.testBit_xor, hj, Nat.testBit_two_pow] at hl1
      simp at hl1

/-- In a signature with null vectors only, `k_reflection(2)` does not contain the scalars. -/
example : (⟨⟨["x".toList, "y".toList], [0, 0]⟩, 1, 1⟩ : Alg).kReflection 2 = some ⟨[3]⟩ := by decide +kernel

section C52
variable {R : Type} [Field R] [DecidableEq R]

omit [DecidableEq R] in
theorem restrict_two (hA : WfAlg A) (hn : 2 ≤ A.n) {m : MV R} (hm : WfMV A m) :
    ∃ z, m.restrictGrades A [2] = some z ∧ WfMV A z ∧ Homogeneous 2 z ∧ val A z = gradePart A R 2 (val A m) := by
  obtain ⟨_, z, z1, z2, z3, z4⟩ := C25_grades hA hm (gs := [2]) (ks := [2]) (by simp [IsGrade]; omega) (by simp) (by simp)
  refine ⟨z, z1, z3, fun b hb => List.mem_singleton.1 ((z2.2 b).1 hb).2.1, ?_⟩
  apply ext_coef
  intro c hc
  rw [← coeff_eq z3, z4, gradePart_eq_proj, coef_proj, coeff_eq hm]
  simp only [List.mem_singleton]

/-- C52: the linear pair: `motor_log_linear(exp_linear(b)) = b`, in every dimension. -/
theorem C52_linear (hA : WfAlg A) (hn : 2 ≤ A.n) {b : MV R} (hb : WfMV A b) (hh : Homogeneous 2 b) :
    ∃ m b', b.expLinear A = .ok m ∧ WfMV A m ∧ val A m = 1 + val A b ∧ m.motorLogLinear A = .ok b' ∧ WfMV A b' ∧ val A b' = val A b := by
  obtain ⟨m, m1, m2, m3, m4⟩ := add_num_even hA hb hh.even (1 : R)
  obtain ⟨z, z1, z2, _, z3⟩ := restrict_two hA hn m2
  refine ⟨m, z, ?_, m2, by rw [m3, one_smul, add_comm], ?_, z2, ?_⟩
  · rw [MV.expLinear, (insideBivector_iff hA hn hb.sub).2 hh, m1]; rfl
  · rw [MV.motorLogLinear, (insideEven_iff hA m2.sub).2 m4, z1]; rfl
  · rw [z3, m3, map_add, map_smul, gradePart_one hA, smul_zero, add_zero, gradePart_val hb hh]

/-- C52: the normalised linear pair, in dimension below six: whenever `exp_linear_normalized(b)` has a result `m`, it has unit norm and
the function `motor_log_linear_normalized` applied to `m` has the result `b`; so has the method, if some basis vector does not square
to zero. -/
theorem C52_linear_normalized (hA : WfAlg A) (h5 : A.n < 6) (hn : 2 ≤ A.n) (h2 : (2 : R) ≠ 0) {rt : Roots R} (hr : RootLaw rt)
    {fuel : Nat} (hf : 4 ≤ fuel) {b m : MV R} (hb : WfMV A b) (h : b.expLinearNormalized A rt fuel = .ok m) :
    WfMV A m ∧ val A m * CliffordAlgebra.reverse (val A m) = 1 ∧
    ∃ b', m.logLinearNormalized A fuel = .ok b' ∧ WfMV A b' ∧ val A b' = val A b ∧
      (∀ i < A.n, A.desc.sig.getD i 0 ≠ 0 → m.motorLogLinearNormalized A fuel = .ok b') := by
  obtain ⟨hi, h⟩ := require_ok h
  have hh := (insideBivector_iff hA hn hb.sub).1 hi
  obtain ⟨x, x1, x2, x3, x4⟩ := add_num_even hA hb hh.even (1 : R)
  rw [x1] at h
  replace h : x.normalized A rt fuel = .ok m := h
  have hme := normalized_even hA h2 hr (by omega) x2 x4 h
  obtain ⟨_, hunit, _⟩ := C63_normalized hA h2 hr (by omega) x2 h
  obtain ⟨fuel, rfl⟩ : ∃ f, fuel = f + 2 := ⟨fuel - 2, by omega⟩
  obtain ⟨hm, q, i, u, v, q1, q2, q3, q4, q5⟩ := normalized_spec hA h2 hr fuel x2 h
  have hrev := bivector_rev hA hb hh
  set c := val A b
  have hx : val A x = 1 + c := by rw [x3, one_smul, add_comm]
  have hxr : CliffordAlgebra.reverse (val A x) = 1 - c := by rw [hx, map_add, CliffordAlgebra.reverse.map_one, hrev, sub_eq_add_neg]
  have hq : CliffordAlgebra.reverse q = q := by rw [q3, map_add, reverse_smul_one, map_smul, reverse_norm]
  have hri := reverse_inverse q1 q2 hq
  have hcq : Commute c q := by
    rw [q3, hxr, hx]
    exact ((Commute.one_right c).smul_right u).add_right
      ((((Commute.one_right c).add_right (Commute.refl c)).mul_right ((Commute.one_right c).sub_right (Commute.refl c))).smul_right v)
  have hci := commute_inv q2 q1 hcq
  have hv : val A m = i + i * c := by rw [q5, hx, mul_add, mul_one]
  have ht : CliffordAlgebra.reverse (i * c) = -(i * c) := by
    rw [CliffordAlgebra.reverse.map_mul, hrev, hri, neg_mul, hci.eq]
  refine ⟨hm, hunit, ?_⟩
  rcases logLinear_spec hA h5 hn h2 hf hm hme hv hri ht with ⟨d, z, d1, d2, z1, z2, z3, z4⟩ | ⟨_, hu⟩
  swap
  · exact absurd ⟨⟨_, _, q2, q1⟩, rfl⟩ hu
  refine ⟨z, z1, z2, ?_, fun j hj h0 => ?_⟩
  · have : val A m * d = 1 + c := by
      rw [hv, add_mul, d1, ← hci.eq, mul_assoc, d1, mul_one]
    rw [z4, this, map_add, gradePart_one hA, zero_add, gradePart_val hb hh]
  · obtain ⟨S, s1, s2, s3⟩ := C57_reflection_all hA hj h0 4
    rw [MV.motorLogLinearNormalized, s1, Option.bind_eq_bind, Option.bind_some, (contains_iff (S := S) (T := m.sub)).2, require]
    · exact z1
    · intro a ha
      have hl : popcount a ≤ A.n := by rw [popcount_of_lt hA.le32 (hm.sub.lt a ha)]; exact pc_le A.n a
      have := hme a ha
      exact (s3 a).2 ⟨hm.sub.lt a ha, by omega, by omega⟩

/-- The logarithm of any motor with the value of `exp_quadratic(b)`. -/
theorem cayley_log (hA : WfAlg A) (h5 : A.n < 6) (hn : 2 ≤ A.n) (h2 : (2 : R) ≠ 0) {rt : Roots R} (hr : RootLaw rt)
    {fuel : Nat} (hf : 4 ≤ fuel) {b m s : MV R} (hb : WfMV A b) (hh : Homogeneous 2 b) {c : Cl A R} (hc : val A b = (2 : R) • c)
    (m2 : WfMV A m) (hu : IsUnit ((1 + c) * (1 - c))) (m5 : val A m * ((1 + c) * (1 - c)) = (1 + c) * (1 + c))
    (hs : m.motorSquareRoot A rt fuel = .ok s) :
    ∃ b', m.motorLogCayley A rt fuel = .ok b' ∧ WfMV A b' ∧ val A b' = val A b := by
  have hrc : CliffordAlgebra.reverse c = -c := by
    have := bivector_rev hA hb hh
    rw [hc, map_smul, ← smul_neg] at this
    exact smul_right_injective _ h2 this
  have hgc : gradePart A R 2 c = c := by
    have := gradePart_val hb hh
    rw [hc, map_smul] at this
    exact smul_right_injective _ h2 this
  obtain ⟨⟨p, w, w1, w2⟩, hp⟩ := hu
  obtain ⟨_, x, x1, x2, x3, x4⟩ := motorRoot_spec hA m2 hs
  have hse := normalized_even hA h2 hr (by omega) x1 x2 x4
  obtain ⟨fuel, rfl⟩ : ∃ f, fuel = f + 2 := ⟨fuel - 2, by omega⟩
  obtain ⟨ws, q, i, u, v, q1, q2, q3, q4, q5⟩ := normalized_spec hA h2 hr fuel x1 x4
  simp only at hp
  have hcp : Commute c p := by
    rw [hp]
    exact ((Commute.one_right c).add_right (Commute.refl c)).mul_right ((Commute.one_right c).sub_right (Commute.refl c))
  have hcw : Commute c w := commute_inv w2 w1 hcp
  have hrw : Commute (1 + c) w := (Commute.one_left w).add_left hcw
  have hpr : CliffordAlgebra.reverse p = p := by
    rw [hp, CliffordAlgebra.reverse.map_mul, map_add, map_sub, CliffordAlgebra.reverse.map_one, hrc]
    noncomm_ring
  have hwr := reverse_inverse w1 w2 hpr
  have hx : val A x = (2 : R) • ((1 + c) * w) := by
    have : val A x * p = (2 : R) • (1 + c) := by
      rw [x3, add_mul, one_mul, hp, m5, ← mul_add, show 1 + c + (1 - c) = (2 : R) • (1 : Cl A R) by rw [two_smul]; abel, mul_smul_comm, mul_one]
    calc val A x = val A x * (p * w) := by rw [w1, mul_one]
      _ = _ := by rw [← mul_assoc, this, smul_mul_assoc]
  have hxr : CliffordAlgebra.reverse (val A x) = (2 : R) • (w * (1 - c)) := by
    rw [hx, map_smul, CliffordAlgebra.reverse.map_mul, hwr, map_add, CliffordAlgebra.reverse.map_one, hrc, sub_eq_add_neg]
  have hX : val A x * CliffordAlgebra.reverse (val A x) = (4 : R) • w := by
    rw [hxr, hx, smul_mul_smul_comm, hrw.eq, mul_assoc, ← mul_assoc (1 + c), hrw.eq, mul_assoc w (1 + c), ← hp, w2, mul_one]
    congr 1
    norm_num
  rw [hX] at q3
  have hcq : Commute c q := by
    rw [q3]; exact ((Commute.one_right c).smul_right u).add_right ((hcw.smul_right 4).smul_right v)
  have hwq : Commute w q := by
    rw [q3]; exact ((Commute.one_right w).smul_right u).add_right (((Commute.refl w).smul_right 4).smul_right v)
  have hci := commute_inv q2 q1 hcq
  have hwi := commute_inv q2 q1 hwq
  have hq : CliffordAlgebra.reverse q = q := by rw [q3, map_add, reverse_smul_one, map_smul, map_smul, hwr]
  have hri := reverse_inverse q1 q2 hq
  set j := (2 : R) • (i * w) with hj
  have hv : val A s = j + j * c := by
    rw [q5, hx, hj, mul_smul_comm, hrw.eq, ← mul_assoc, mul_add, mul_one, smul_add, smul_mul_assoc]
  have hjr : CliffordAlgebra.reverse j = j := by rw [hj, map_smul, CliffordAlgebra.reverse.map_mul, hwr, hri, hwi.eq]
  have hcj : Commute c j := (hci.mul_right hcw).smul_right 2
  have ht : CliffordAlgebra.reverse (j * c) = -(j * c) := by rw [CliffordAlgebra.reverse.map_mul, hrc, hjr, neg_mul, hcj.eq]
  have hju : j * ((2 : R)⁻¹ • (p * q)) = 1 := by
    rw [hj, smul_mul_smul_comm, mul_inv_cancel₀ h2, one_smul, mul_assoc, ← mul_assoc w, w2, one_mul, q2]
  rcases logLinear_spec hA h5 hn h2 hf ws hse hv hjr ht with ⟨d, z, d1, d2, z1, z2, z3, z4⟩ | ⟨_, hu⟩
  swap
  · exact absurd ⟨⟨_, _, hju, mul_eq_one_comm.1 hju⟩, rfl⟩ hu
  have hz : val A z = c := by
    have : val A s * d = 1 + c := by rw [hv, add_mul, d1, ← hcj.eq, mul_assoc, d1, mul_one]
    rw [z4, this, map_add, gradePart_one hA, zero_add, hgc]
  obtain ⟨y, y1, y2, _, y3⟩ := mul_num hA z2 (2 : R)
  refine ⟨y, ?_, y2, by rw [y3, hz, hc]⟩
  simp only [MV.motorLogCayley, hs, z1, y1, bind, Except.bind, lift_some]

/-- C52: the Cayley pair, in dimension below six: `motor_log_quadratic(exp_quadratic(b)) = b` whenever the motor square root in between
exists. -/
theorem C52_cayley_log (hA : WfAlg A) (h5 : A.n < 6) (hn : 2 ≤ A.n) (h2 : (2 : R) ≠ 0) {rt : Roots R} (hr : RootLaw rt)
    {fuel : Nat} (hf : 4 ≤ fuel) {b m s : MV R} (hb : WfMV A b) (hh : Homogeneous 2 b) (h : b.expCayley A fuel = .ok m)
    (hs : m.motorSquareRoot A rt fuel = .ok s) :
    ∃ b', m.motorLogCayley A rt fuel = .ok b' ∧ WfMV A b' ∧ val A b' = val A b := by
  obtain ⟨c, hc⟩ : ∃ c : Cl A R, val A b = (2 : R) • c := ⟨(2 : R)⁻¹ • val A b, by rw [smul_smul, mul_inv_cancel₀ h2, one_smul]⟩
  rcases expCayley_spec hA h5 h2 hf hb hh hc with ⟨m', m1, m2, m3, hu, m5⟩ | ⟨hd, _⟩
  swap
  · rw [hd] at h; cases h
  cases m1.symm.trans h
  exact cayley_log hA h5 hn h2 hr hf hb hh hc m2 hu m5 hs

/-- The other direction, for any bivector with the value of the logarithm. -/
theorem cayley_exp (hA : WfAlg A) (h5 : A.n < 6) (hn : 2 ≤ A.n) (h2 : (2 : R) ≠ 0) {rt : Roots R} (hr : RootLaw rt)
    {fuel : Nat} (hf : 4 ≤ fuel) {m b : MV R} (hm : WfMV A m) (h1 : val A m * CliffordAlgebra.reverse (val A m) = 1)
    (h : m.motorLogCayley A rt fuel = .ok b) :
    WfMV A b ∧ Homogeneous 2 b ∧ ∀ b' : MV R, WfMV A b' → Homogeneous 2 b' → val A b' = val A b →
      ∃ m', b'.expCayley A fuel = .ok m' ∧ WfMV A m' ∧ EvenSub m'.sub ∧ val A m' = val A m := by
  cases hs : m.motorSquareRoot A rt fuel with
  | error e => simp only [MV.motorLogCayley, hs, bind, Except.bind] at h; cases h
  | ok s =>
  obtain ⟨_, x, x1, x2, x3, x4⟩ := motorRoot_spec hA hm hs
  have hse := normalized_even hA h2 hr (by omega) x1 x2 x4
  obtain ⟨ws, hss, hs1⟩ := C51_square_root hA h2 hr (by omega) hm h1 hs
  have hs1' := mul_eq_one_comm.1 hs1
  have h2' := val_even hA ws hse
  set a := val A s
  set r := CliffordAlgebra.reverse a with hra
  have har : CliffordAlgebra.reverse r = a := CliffordAlgebra.reverse_reverse a
  set i := (2 : R)⁻¹ • (a + r) with hi
  set t := (2 : R)⁻¹ • (a - r) with ht
  have hv : a = i + t := by
    rw [hi, ht, ← smul_add, show a + r + (a - r) = (2 : R) • a by rw [two_smul]; abel, smul_smul, inv_mul_cancel₀ h2, one_smul]
  have hir : CliffordAlgebra.reverse i = i := by rw [hi, map_smul, map_add, har, ← hra, add_comm]
  have htr : CliffordAlgebra.reverse t = -t := by rw [ht, map_smul, map_sub, har, ← hra, ← smul_neg, neg_sub]
  have car : Commute a r := hs1.trans hs1'.symm
  have hri : CliffordAlgebra.involute r = r := by rw [hra, ← CliffordAlgebra.reverse_involute, h2']
  have hii : CliffordAlgebra.involute i = i := by rw [hi, map_smul, map_add, h2', hri]
  have hit : CliffordAlgebra.involute t = t := by rw [ht, map_smul, map_sub, h2', hri]
  have cai : Commute a i := ((Commute.refl a).add_right car).smul_right _
  have cri : Commute r i := (car.symm.add_right (Commute.refl r)).smul_right _
  rcases logLinear_spec hA h5 hn h2 hf ws hse hv hir htr with ⟨d, z, d1, d2, z1, z2, z3, z4⟩ | ⟨hd, _⟩
  swap
  · simp only [MV.motorLogCayley, hs, hd, bind, Except.bind] at h; cases h
  have cad := commute_inv d2 d1 cai
  have crd := commute_inv d2 d1 cri
  have ctd : Commute t d := (cad.sub_left crd).smul_left _
  have hdr := reverse_inverse d1 d2 hir
  have hdi : CliffordAlgebra.involute d = d := by
    have := congrArg CliffordAlgebra.involute d1
    rw [map_mul, map_one, hii] at this
    rw [← one_mul (CliffordAlgebra.involute d), ← d2, mul_assoc, this, mul_one]
  obtain ⟨y, y1, y2, y3, y4⟩ := mul_num hA z2 (2 : R)
  have hb : y = b := by
    simp only [MV.motorLogCayley, hs, z1, y1, bind, Except.bind, lift_some] at h
    cases h; rfl
  subst hb
  have had : a * d = 1 + t * d := by rw [hv, add_mul, d1]
  have hrd : r * d = 1 - t * d := by
    have : r = i - t := by rw [hi, ht, ← smul_sub, show a + r - (a - r) = (2 : R) • r by rw [two_smul]; abel, smul_smul, inv_mul_cancel₀ h2, one_smul]
    rw [this, sub_mul, d1]
  have hg : gradePart A R 2 (t * d) = t * d := by
    apply anti_bivector hA h5 h2
    · rw [CliffordAlgebra.reverse.map_mul, htr, hdr, mul_neg, ctd.eq]
    · rw [map_mul, hit, hdi]
  have hz : val A z = t * d := by
    rw [z4, had, map_add, gradePart_one hA, zero_add, hg]
  refine ⟨y2, fun b hb => z3 b (y3 b hb), fun b' hb' hh' hv' => ?_⟩
  have hp : (1 + t * d) * (1 - t * d) = d * d := by
    rw [← had, ← hrd, mul_assoc, ← mul_assoc d, ← crd.eq, ← mul_assoc, ← mul_assoc, hs1, one_mul]
  have hdd : d * d * (i * i) = 1 := by rw [mul_assoc, ← mul_assoc d i, d2, one_mul, d2]
  rcases expCayley_spec hA h5 h2 hf hb' hh' (c := t * d) (by rw [hv', y4, hz]) with ⟨m', m1, m2, m3, _, m5⟩ | ⟨_, hu⟩
  swap
  · exact absurd ⟨⟨_, _, hdd, mul_eq_one_comm.1 hdd⟩, hp.symm⟩ hu
  refine ⟨m', m1, m2, m3, ?_⟩
  have e : a * d * (a * d) = a * a * (d * d) := by rw [mul_assoc, ← mul_assoc d, ← cad.eq]; simp only [mul_assoc]
  rw [hp, ← had, e, hss] at m5
  rw [← mul_one (val A m'), ← hdd, ← mul_assoc, m5, mul_assoc, hdd, mul_one]

/-- C52: the Cayley pair in the other order: `exp_quadratic(motor_log_quadratic(m)) = m` for motors of unit norm. -/
theorem C52_cayley_exp (hA : WfAlg A) (h5 : A.n < 6) (hn : 2 ≤ A.n) (h2 : (2 : R) ≠ 0) {rt : Roots R} (hr : RootLaw rt)
    {fuel : Nat} (hf : 4 ≤ fuel) {m b : MV R} (hm : WfMV A m) (h1 : val A m * CliffordAlgebra.reverse (val A m) = 1)
    (h : m.motorLogCayley A rt fuel = .ok b) :
    WfMV A b ∧ Homogeneous 2 b ∧ ∃ m', b.expCayley A fuel = .ok m' ∧ WfMV A m' ∧ val A m' = val A m := by
  obtain ⟨b1, b2, hb⟩ := cayley_exp hA h5 hn h2 hr hf hm h1 h
  obtain ⟨m', m1, m2, _, m3⟩ := hb b b1 b2 rfl
  exact ⟨b1, b2, m', m1, m2, m3⟩

theorem rootLoop_spec (hA : WfAlg A) (h2 : (2 : R) ≠ 0) {rt : Roots R} (hr : RootLaw rt) {fuel : Nat} (hf : 4 ≤ fuel) (n : Nat) {m s : MV R}
    (hm : WfMV A m) (h1 : val A m * CliffordAlgebra.reverse (val A m) = 1) (h : m.rootLoop A rt fuel n = .ok s) :
    WfMV A s ∧ val A s * CliffordAlgebra.reverse (val A s) = 1 ∧ val A s ^ 2 ^ n = val A m := by
  induction n generalizing m with
  | zero =>
    rw [MV.rootLoop] at h
    cases h
    exact ⟨hm, h1, by simp⟩
  | succ n ih =>
    rw [MV.rootLoop] at h
    cases hs : m.motorSquareRoot A rt fuel with
    | error e => rw [hs] at h; cases h
    | ok k =>
      rw [hs] at h
      obtain ⟨k1, k2, k3⟩ := C51_square_root hA h2 hr (by omega) hm h1 hs
      obtain ⟨s1, s2, s3⟩ := ih k1 k3 h
      exact ⟨s1, s2, by rw [pow_succ, pow_mul, s3, pow_two, k2]⟩

theorem squareLoop_spec (hA : WfAlg A) (n : Nat) {m : MV R} (hm : WfMV A m) :
    ∃ s, m.squareLoop A n = .ok s ∧ WfMV A s ∧ val A s = val A m ^ 2 ^ n := by
  induction n generalizing m with
  | zero => exact ⟨m, rfl, hm, by simp⟩
  | succ n ih =>
    obtain ⟨k, k1, k2, k3⟩ := (C38_values hA hm).1
    obtain ⟨s, s1, s2, s3⟩ := ih k2
    refine ⟨s, ?_, s2, by rw [s3, k3, pow_succ', pow_mul, pow_two]⟩
    rw [MV.squareLoop, k1]
    exact s1

/-- C52: the bisection pair, in dimension below six: `exp_bisect(motor_log_bisect(m)) = m` for motors of unit norm, for every number of
bisection steps. -/
theorem C52_bisect (hA : WfAlg A) (h5 : A.n < 6) (hn : 2 ≤ A.n) (h2 : (2 : R) ≠ 0) {rt : Roots R} (hr : RootLaw rt)
    {fuel : Nat} (hf : 4 ≤ fuel) (n : Nat) {m b : MV R} (hm : WfMV A m) (h1 : val A m * CliffordAlgebra.reverse (val A m) = 1)
    (h : m.motorLogBisect A rt fuel n = .ok b) :
    WfMV A b ∧ Homogeneous 2 b ∧ ∃ m', b.expBisect A fuel n = .ok m' ∧ WfMV A m' ∧ val A m' = val A m := by
  obtain ⟨_, h⟩ := require_ok h
  have hn2 : (2 : R) ^ n ≠ 0 := pow_ne_zero _ h2
  cases hs : m.rootLoop A rt fuel n with
  | error e => rw [hs] at h; cases h
  | ok s =>
    rw [hs] at h
    obtain ⟨s1, s2, s3⟩ := rootLoop_spec hA h2 hr hf n hm h1 hs
    cases hz : s.motorLogCayley A rt fuel with
    | error e => simp only [hz, bind, Except.bind] at h; cases h
    | ok z =>
      obtain ⟨z1, z2, z3⟩ := cayley_exp hA h5 hn h2 hr hf s1 s2 hz
      obtain ⟨y, y1, y2, y3, y4⟩ := mul_num hA z1 ((2 : R) ^ n)
      simp only [hz, y1, bind, Except.bind, lift_some] at h
      cases h
      have hy : Homogeneous 2 b := fun a ha => z2 a (y3 a ha)
      refine ⟨y2, hy, ?_⟩
      obtain ⟨c, c1, c2, c3, c4⟩ := div_num hA fuel y2 hn2
      obtain ⟨k, k1, k2, _, k4⟩ := z3 c c2 (fun a ha => hy a (c3 ▸ ha)) (by rw [c4, y4, smul_smul, inv_mul_cancel₀ hn2, one_smul])
      obtain ⟨w, w1, w2, w3⟩ := squareLoop_spec hA n k2
      refine ⟨w, ?_, w2, by rw [w3, k4, s3]⟩
      simp only [MV.expBisect, c1, k1, bind, Except.bind, w1]

/-- C52: `exp_quadratic` and `exp_bisect` of a bivector have unit norm. -/
theorem C52_unit (hA : WfAlg A) (h5 : A.n < 6) (h2 : (2 : R) ≠ 0) {fuel : Nat} (hf : 4 ≤ fuel) (n : Nat) {b m : MV R} (hb : WfMV A b)
    (hh : Homogeneous 2 b) (h : b.expBisect A fuel n = .ok m) : WfMV A m ∧ val A m * CliffordAlgebra.reverse (val A m) = 1 := by
  have hn2 : (2 : R) ^ n ≠ 0 := pow_ne_zero _ h2
  obtain ⟨e, e1, e2, e3, e4⟩ := div_num hA fuel hb hn2
  have he : Homogeneous 2 e := fun a ha => hh a (e3 ▸ ha)
  obtain ⟨c, hc⟩ : ∃ c : Cl A R, val A e = (2 : R) • c := ⟨(2 : R)⁻¹ • val A e, by rw [smul_smul, mul_inv_cancel₀ h2, one_smul]⟩
  have hrc : CliffordAlgebra.reverse c = -c := by
    have := bivector_rev hA e2 he
    rw [hc, map_smul, ← smul_neg] at this
    exact smul_right_injective _ h2 this
  simp only [MV.expBisect, e1, bind, Except.bind] at h
  rcases expCayley_spec hA h5 h2 hf e2 he hc with ⟨k, k1, k2, _, ⟨⟨p, w, w1, w2⟩, hp⟩, k5⟩ | ⟨hd, _⟩
  swap
  · rw [hd] at h; cases h
  rw [k1] at h
  simp only at h
  obtain ⟨s, s1, s2, s3⟩ := squareLoop_spec hA n k2
  cases s1.symm.trans h
  refine ⟨s2, ?_⟩
  simp only at hp
  have hcp : Commute c p := by
    rw [hp]
    exact ((Commute.one_right c).add_right (Commute.refl c)).mul_right ((Commute.one_right c).sub_right (Commute.refl c))
  have hcw : Commute c w := commute_inv w2 w1 hcp
  have hrw : Commute (1 + c) w := (Commute.one_left w).add_left hcw
  have hpr : CliffordAlgebra.reverse p = p := by
    rw [hp, CliffordAlgebra.reverse.map_mul, map_add, map_sub, CliffordAlgebra.reverse.map_one, hrc]
    noncomm_ring
  have hwr := reverse_inverse w1 w2 hpr
  have hk : val A k = (1 + c) * (1 + c) * w := by rw [← k5, mul_assoc, ← hp, w1, mul_one]
  have hk1 : val A k * CliffordAlgebra.reverse (val A k) = 1 := by
    have e : (1 + c) * (1 + c) * ((1 - c) * (1 - c)) = p * p := by rw [hp]; noncomm_ring
    have hcw' : Commute w ((1 - c) * (1 - c)) :=
      (((Commute.one_right w).sub_right hcw.symm)).mul_right ((Commute.one_right w).sub_right hcw.symm)
    have e' : (1 + c) * (1 + c) * w * ((1 - c) * (1 - c) * w) = (1 + c) * (1 + c) * ((1 - c) * (1 - c)) * (w * w) := by
      rw [mul_assoc _ w, ← mul_assoc w, hcw'.eq]; simp only [mul_assoc]
    rw [hk, CliffordAlgebra.reverse.map_mul, CliffordAlgebra.reverse.map_mul, hwr, map_add, CliffordAlgebra.reverse.map_one, hrc, ← sub_eq_add_neg,
      hcw'.eq, e', e, mul_assoc, ← mul_assoc p w, w1, one_mul, w1]
  rw [s3]
  have hrev : ∀ j : Nat, CliffordAlgebra.reverse (val A k ^ j) = CliffordAlgebra.reverse (val A k) ^ j := by
    intro j
    induction j with
    | zero => simp
    | succ j ih => rw [pow_succ', CliffordAlgebra.reverse.map_mul, ih, pow_succ]
  have hcom : Commute (val A k) (CliffordAlgebra.reverse (val A k)) := hk1.trans (mul_eq_one_comm.1 hk1).symm
  rw [hrev, ← hcom.mul_pow, hk1, one_pow]

end C52

/-! ### examples -/

/-- A backend with the roots needed below. -/
def rootsE : Roots ℚ := ⟨fun a => [0, 1, 5/4, 3/5, 4/5, 4, 10/13, 15/13, 2].find? fun r => r * r = a, fun a => |a|, 1000⟩
theorem rootsE_law : RootLaw rootsE := fun a r h => by simpa using List.find?_some h

example : (⟨⟨[3]⟩, [3/4]⟩ : MV ℚ).expLinearNormalized euc2 rootsE 4 = .ok ⟨⟨[0, 3]⟩, [4/5, 3/5]⟩ ∧
    (⟨⟨[0, 3]⟩, [4/5, 3/5]⟩ : MV ℚ).motorLogLinearNormalized euc2 4 = .ok ⟨⟨[3]⟩, [3/4]⟩ := by decide +kernel
example : (⟨⟨[3]⟩, [3/2]⟩ : MV ℚ).expCayley euc2 4 = .ok ⟨⟨[0, 3]⟩, [7/25, 24/25]⟩ ∧
    (⟨⟨[0, 3]⟩, [7/25, 24/25]⟩ : MV ℚ).motorSquareRoot euc2 ⟨fun a => [8/5].find? fun r => r * r = a, fun a => |a|, 1000⟩ 4 =
      .ok ⟨⟨[0, 3]⟩, [4/5, 3/5]⟩ ∧
    (⟨⟨[0, 3]⟩, [7/25, 24/25]⟩ : MV ℚ).motorLogCayley euc2 ⟨fun a => [8/5].find? fun r => r * r = a, fun a => |a|, 1000⟩ 4 =
      .ok ⟨⟨[3]⟩, [3/2]⟩ := by decide +kernel
/-- A translation in plane-based algebra, bisected twice. -/
example : (⟨⟨[0, 3]⟩, [1, 6]⟩ : MV ℚ).motorLogBisect pga3 rootsE 4 2 = .ok ⟨⟨[3]⟩, [6]⟩ ∧
    (⟨⟨[3]⟩, [6]⟩ : MV ℚ).expBisect pga3 4 2 = .ok ⟨⟨[0, 3]⟩, [1, 6]⟩ := by decide +kernel

/-! ## C53 -/
section C53
variable {R : Type} [Field R] [DecidableEq R]

/-- At most one basis vector squares to zero. -/
def OneNull (A : Alg) : Prop := ∀ i < A.n, ∀ j < A.n, A.desc.sig.getD i 0 = 0 → A.desc.sig.getD j 0 = 0 → i = j

omit [DecidableEq R] in
theorem null_mul (hA : WfAlg A) (h1 : OneNull A) {x y : MV R} (hx : WfMV A x) (hy : WfMV A y) (nx : ∀ b ∈ x.sub.blades, NullBlade A b)
    (ny : ∀ b ∈ y.sub.blades, NullBlade A b) : val A x * val A y = 0 := by
  refine within_induction hx.sub (p := fun v => v * val A y = 0) (zero_mul _) (fun u v hu hv => by rw [add_mul, hu, hv, add_zero]) ?_ hx.within
  intro r a ha
  refine within_induction hy.sub (p := fun v => r • blade A R a * v = 0) (mul_zero _) (fun u v hu hv => by rw [mul_add, hu, hv, add_zero]) ?_ hy.within
  intro s c hc
  obtain ⟨i, hi, i1, i2⟩ := nx a ha
  obtain ⟨j, hj, j1, j2⟩ := ny c hc
  cases h1 i hi j hj i2 j2
  have h0 : sgn A a c = 0 := by
    by_contra h
    exact (sgn_ne_zero hA (hx.sub.lt a ha)).1 h ⟨i, hi, i1, j1, i2⟩
  rw [smul_mul_smul_comm, blade_mul hA, h0]
  simp

theorem exp_degenerate (hA : WfAlg A) (fuel n : Nat) (e : R → R) {b : MV R} (hb : WfMV A b) (hne : b.sub ≠ ⟨[]⟩) (h0 : ∀ a ∈ b.sub.blades, NullBlade A a) :
    ∃ m, b.exp A fuel e n = .ok m ∧ WfMV A m ∧ val A m = 1 + val A b := by
  obtain ⟨m, m1, m2, m3⟩ := (C44_numbers hA hb 1).1
  refine ⟨m, ?_, m2, by rw [m3, map_one, add_comm]⟩
  obtain ⟨⟨r, r1, r2⟩, _⟩ := C61_predicates hA hb.sub
  have e0 : equalsEmpty A b.sub = some false := by
    rw [equalsEmpty, empty_eq hA, Option.bind_eq_bind, Option.bind_some, Option.some_inj, beq_eq_false_iff_ne]; exact hne
  have e1 : equalsScalar A b.sub = some false := by
    rw [equalsScalar, (scalar_eq hA).1, Option.bind_eq_bind, Option.bind_some, Option.some_inj, beq_eq_false_iff_ne]
    intro h
    obtain ⟨i, _, h1, _⟩ := h0 0 (by rw [h]; simp)
    simp at h1
  rw [MV.exp]
  simp only [expOptions, Dispatch.matchLoop, e0, e1, r1, r2.2 h0, m1, lift_some]

/-- C53: with at most one null basis vector, `exp` of a multivector all of whose blades contain the null vector is `1 + b`, and this is
the exponential: `b` squares to zero, and every partial sum of the exponential series from the second on has this value. -/
theorem C53_degenerate (hA : WfAlg A) (h1 : OneNull A) (fuel n : Nat) (e : R → R) {b : MV R} (hb : WfMV A b) (hne : b.sub ≠ ⟨[]⟩)
    (h0 : ∀ a ∈ b.sub.blades, NullBlade A a) :
    ∃ m, b.exp A fuel e n = .ok m ∧ WfMV A m ∧ val A b * val A b = 0 ∧
      ∀ N ≥ 2, val A m = ∑ k ∈ Finset.range N, ((k.factorial : R)⁻¹) • val A b ^ k := by
  obtain ⟨m, m1, m2, m3⟩ := exp_degenerate hA fuel n e hb hne h0
  have hz := null_mul hA h1 hb hb h0 h0
  refine ⟨m, m1, m2, hz, fun N hN => ?_⟩
  obtain ⟨N, rfl⟩ : ∃ k, N = 2 + k := ⟨N - 2, by omega⟩
  rw [Finset.sum_range_add, Finset.sum_eq_zero (s := Finset.range N), add_zero, m3, Finset.sum_range_succ, Finset.sum_range_one]
  · simp
  · intro k _
    rw [pow_add, pow_two, hz, zero_mul, smul_zero]

/-- Two null vectors. -/
def null2 : Alg := ⟨⟨["a".toList, "b".toList, "c".toList, "d".toList], [0, 0, 1, 1]⟩, 1, 1⟩
theorem wf_null2 : WfAlg null2 := by constructor <;> decide

/-- C53: with two null basis vectors `exp` can be wrong: `exp(ac + bd) = 1 + ac + bd`, although the square of the argument is not zero;
the result does not have unit norm, and one bisection gives the correct value `1 + ac + bd - abcd`. -/
theorem C53_two_null (e : ℚ → ℚ) :
    (⟨⟨[5, 10]⟩, [1, 1]⟩ : MV ℚ).exp null2 4 e 15 = .ok ⟨⟨[0, 5, 10]⟩, [1, 1, 1]⟩ ∧
    (⟨⟨[5, 10]⟩, [1, 1]⟩ : MV ℚ).squared null2 = some ⟨⟨[15]⟩, [-2]⟩ ∧
    (⟨⟨[0, 5, 10]⟩, [1, 1, 1]⟩ : MV ℚ).symmetricReverse null2 = some ⟨⟨[0, 15]⟩, [1, 2]⟩ ∧
    (⟨⟨[5, 10]⟩, [1, 1]⟩ : MV ℚ).expBisect null2 4 1 = .ok ⟨⟨[0, 5, 10, 15]⟩, [1, 1, 1, -1]⟩ := by
  refine ⟨?_, by decide +kernel, by decide +kernel, by decide +kernel⟩
  have : ∀ f : ℚ → ℚ, (⟨⟨[5, 10]⟩, [1, 1]⟩ : MV ℚ).exp null2 4 f 15 = (⟨⟨[5, 10]⟩, [1, 1]⟩ : MV ℚ).exp null2 4 id 15 := by
    intro f
    have : Dispatch.matchLoop (⟨[5, 10]⟩ : SubSpace) (expOptions null2) = some .degenerate := by decide +kernel
    simp only [MV.exp, this]
  rw [this]
  decide +kernel

/-- C53: `exp` of a bivector with a blade that does not square to zero is computed by bisection, so it has unit norm in dimension below
six. -/
theorem C53_default (hA : WfAlg A) (fuel n : Nat) (e : R → R) {b : MV R} (hb : WfMV A b) (h0 : ∃ a ∈ b.sub.blades, ¬ NullBlade A a) (hs : b.sub ≠ ⟨[0]⟩) :
    b.exp A fuel e n = b.expBisect A fuel n := by
  obtain ⟨⟨r, r1, r2⟩, _⟩ := C61_predicates hA hb.sub
  obtain ⟨a, a1, a2⟩ := h0
  have e0 : equalsEmpty A b.sub = some false := by
    rw [equalsEmpty, empty_eq hA, Option.bind_eq_bind, Option.bind_some, Option.some_inj, beq_eq_false_iff_ne]
    intro h; rw [h] at a1; simp at a1
  have e1 : equalsScalar A b.sub = some false := by
    rw [equalsScalar, (scalar_eq hA).1, Option.bind_eq_bind, Option.bind_some, Option.some_inj, beq_eq_false_iff_ne]; exact hs
  have e2 : r = false := by
    cases r with
    | false => rfl
    | true => exact absurd (r2.1 rfl a a1) a2
  rw [MV.exp]
  simp only [expOptions, Dispatch.matchLoop, e0, e1, r1, e2]

/-- C53, a disagreement: the condition of the last implementation of `exp` is not called, so that every other subspace is accepted.  For
a vector the result of the bisection, if any, is `1`. -/
theorem C53_vector (hA : WfAlg A) (h5 : A.n < 6) (h2 : (2 : R) ≠ 0) {fuel : Nat} (hf : 4 ≤ fuel) (n : Nat) {x m : MV R} (hx : WfMV A x)
    (hh : Homogeneous 1 x) (h : x.expBisect A fuel n = .ok m) : val A m = 1 := by
  have hn2 : (2 : R) ^ n ≠ 0 := pow_ne_zero _ h2
  obtain ⟨e, e1, e2, e3, e4⟩ := div_num hA fuel hx hn2
  obtain ⟨f, f1, f2, f3, f4⟩ := div_num hA fuel e2 h2
  obtain ⟨r, r1, r2, r3⟩ := (C44_numbers hA f2 1).1
  rw [map_one] at r3
  obtain ⟨s, s1, s2, s3⟩ := (C38_values hA r2).1
  obtain ⟨p, p1, p2, p3⟩ := (C38_values hA r2).2.1
  have hf1 : Homogeneous 1 f := fun b hb => hh b (e3 ▸ f3 ▸ hb)
  obtain ⟨hr1, hr2⟩ := reverse_homogeneous hA f2 hf1
  norm_num at hr1 hr2
  have hrev : CliffordAlgebra.reverse (val A r) = val A r := by rw [r3, map_add, CliffordAlgebra.reverse.map_one, hr1]
  rw [hrev, ← s3] at p3
  simp only [MV.expBisect, e1, bind, Except.bind] at h
  have hq : e.expCayley A fuel = s.truediv A fuel (.mv p) := by
    simp only [MV.expCayley, bind, Except.bind, f1, r1, s1, p1, lift_some]
  have hs0 : val A s ≠ 0 := by
    intro h0
    rw [s3, r3] at h0
    have h3 := congrArg CliffordAlgebra.involute h0
    rw [map_mul, map_add, hr2, map_one, map_zero] at h3
    set v := val A f
    have e : (4 : R) • v = 0 := by
      have : (4 : R) • v = (v + 1) * (v + 1) - (-v + 1) * (-v + 1) := by
        rw [show (4 : R) • v = v + v + v + v by module]; noncomm_ring
      rw [this, h0, h3, sub_zero]
    have h4 : (4 : R) ≠ 0 := by rw [show (4 : R) = 2 * 2 by norm_num]; exact mul_ne_zero h2 h2
    have c0 : v = 0 := (smul_eq_zero.1 e).resolve_left h4
    rw [c0, zero_add, mul_one] at h0
    exact one_ne_zero' A R h0
  have key : ∀ z, s.truediv A fuel (.mv p) = .ok z → WfMV A z ∧ val A z = 1 := by
    intro z hz
    have e : s.truediv A fuel (.mv p) = s.divideWith A (MV.inverse A fuel) p := by rw [MV.truediv, MV.upcast]; rfl
    rw [e, MV.divideWith, (scalar_eq hA).1, lift_some] at hz
    simp only [bind, Except.bind] at hz
    split_ifs at hz with hsp
    · obtain ⟨c, c1, c2⟩ := val_scalar p2 hsp
      have hc : c ≠ 0 := by rintro rfl; rw [zero_smul] at c2; exact hs0 (p3 ▸ c2)
      obtain ⟨y, y1, y2, _, y4⟩ := divValues_spec s2 c1 (fun h => absurd h hc)
      cases y1.symm.trans hz
      exact ⟨y2, by rw [y4, ← p3, c2, smul_smul, inv_mul_cancel₀ hc, one_smul]⟩
    · rcases C47_inverse hA h5 h2 hf p2 with ⟨i, i1, i2, i3, i4⟩ | hd
      · obtain ⟨y, y1, y2, y3⟩ := product_gives hA s2 i2
        rw [i1] at hz
        simp only [y1, lift_some] at hz
        cases hz
        exact ⟨y2, by rw [y3, ← p3, i3]⟩
      · rw [hd] at hz; cases hz
  rw [hq] at h
  cases hz : s.truediv A fuel (.mv p) with
  | error er => rw [hz] at h; cases h
  | ok z =>
    rw [hz] at h
    simp only at h
    obtain ⟨z1, z2⟩ := key z hz
    obtain ⟨w, w1, w2, w3⟩ := squareLoop_spec hA n z1
    cases w1.symm.trans h
    rw [w3, z2, one_pow]
/-- `exp(e1) = 1` in the plane, where `e1² = 1` and the exponential series has the value `cosh 1 + e1 sinh 1`. -/
example : (⟨⟨[1]⟩, [1]⟩ : MV ℚ).exp euc2 4 id 15 = .ok ⟨⟨[0, 1]⟩, [1, 0]⟩ := by decide +kernel

/-- C53: `motor_log` of a translator `1 + b` is `b`, and `exp` takes it back, with at most one null basis vector. -/
theorem C53_translator (hA : WfAlg A) (hn : 2 ≤ A.n) (h1 : OneNull A) (rt : Roots R) (fuel n : Nat) (e : R → R) {m : MV R} (hm : WfMV A m)
    (hz : 0 ∈ m.sub.blades) (hb : ∀ b ∈ m.sub.blades, b ≠ 0 → NullBlade A b ∧ popcount b = 2) :
    ∃ b, m.motorLog A rt fuel n = .ok b ∧ WfMV A b ∧ val A b = gradePart A R 2 (val A m) ∧
      (gradePart A R 0 (val A m) = 1 → m.sub ≠ ⟨[0]⟩ → ∃ m', b.exp A fuel e n = .ok m' ∧ WfMV A m' ∧ val A m' = val A m) := by
  obtain ⟨b, b1, b2, b3, b4⟩ := restrict_two hA hn hm
  obtain ⟨i, hi, h0⟩ : ∃ i < A.n, A.desc.sig.getD i 0 ≠ 0 := by
    by_contra h
    push Not at h
    have := h1 0 (by omega) 1 (by omega) (h 0 (by omega)) (h 1 (by omega))
    omega
  obtain ⟨S, s1, s2, s3⟩ := C57_reflection_all hA hi h0 2
  obtain ⟨_, r, r1, r2⟩ := C61_predicates hA hm.sub
  have hc : S.contains m.sub = true := by
    rw [contains_iff]
    intro a ha
    refine (s3 a).2 ⟨hm.sub.lt a ha, ?_⟩
    by_cases h : a = 0
    · subst h; exact ⟨by decide, by decide⟩
    · have := (hb a ha h).2
      exact ⟨by omega, by omega⟩
  have hl : m.motorLog A rt fuel n = .ok b := by
    rw [MV.motorLog]
    simp only [motorLogOptions, Dispatch.matchLoop, s1, Option.bind_eq_bind, Option.bind_some, hc, if_true, r1,
      r2.2 ⟨hz, fun a ha h => (hb a ha h).1⟩, b1, lift_some]
  refine ⟨b, hl, b2, b4, fun h3 hne => ?_⟩
  have hbs : ∀ a ∈ m.sub.blades, a ≠ 0 → a ∈ b.sub.blades := by
    intro a ha h
    obtain ⟨_, z, z1, z2, _⟩ := C25_grades hA hm (gs := [2]) (ks := [2]) (by simp [IsGrade]; omega) (by simp) (by simp)
    cases b1.symm.trans z1
    exact (z2.2 a).2 ⟨hm.sub.lt a ha, by rw [(hb a ha h).2]; simp, ha⟩
  have hbn : b.sub ≠ ⟨[]⟩ := by
    intro h
    apply hne
    rcases sub_of_scalar hm.sub (fun a ha => by
      by_contra h'
      have := hbs a ha (by simpa using h')
      rw [h] at this; simp at this) with h' | h'
    · rw [h'] at hz; simp at hz
    · exact h'
  have hbz : ∀ a ∈ b.sub.blades, NullBlade A a := by
    intro a ha
    obtain ⟨_, z, z1, z2, _⟩ := C25_grades hA hm (gs := [2]) (ks := [2]) (by simp [IsGrade]; omega) (by simp) (by simp)
    cases b1.symm.trans z1
    refine (hb a ((z2.2 a).1 ha).2.2 ?_).1
    rintro rfl
    have := b3 0 ha
    simp [show popcount 0 = 0 from rfl] at this
  obtain ⟨m', m1, m2, m3⟩ := exp_degenerate hA fuel n e b2 hbn hbz
  refine ⟨m', m1, m2, ?_⟩
  rw [m3, b4, ← h3]
  apply ext_coef
  intro a ha
  rw [map_add, gradePart_eq_proj, gradePart_eq_proj, coef_proj, coef_proj]
  by_cases h : coef A R a (val A m) = 0
  · simp [h]
  · have hma := mv_coef hm ha h
    by_cases h' : a = 0
    · subst h'; simp [show popcount 0 = 0 from rfl]
    · simp [(hb a hma h').2]

/-- C53, a disagreement: for `m = -1 + b`, which has unit norm too, `motor_log` returns `b` as well, and `exp` of this is neither `m` nor
`-m`. -/
theorem C53_translator_negative (rt : Roots ℚ) (e : ℚ → ℚ) :
    (⟨⟨[0, 3]⟩, [-1, 1]⟩ : MV ℚ).symmetricReverse pga3 = some ⟨⟨[0]⟩, [1]⟩ ∧
    (⟨⟨[0, 3]⟩, [-1, 1]⟩ : MV ℚ).motorLog pga3 rt 4 15 = .ok ⟨⟨[3]⟩, [1]⟩ ∧
    (⟨⟨[3]⟩, [1]⟩ : MV ℚ).exp pga3 4 e 15 = .ok ⟨⟨[0, 3]⟩, [1, 1]⟩ := by
  refine ⟨by decide +kernel, ?_, ?_⟩
  · have : Dispatch.matchLoop (⟨[0, 3]⟩ : SubSpace) (motorLogOptions pga3) = some true := by decide +kernel
    simp only [MV.motorLog, this]
    decide +kernel
  · have : Dispatch.matchLoop (⟨[3]⟩ : SubSpace) (expOptions pga3) = some .degenerate := by decide +kernel
    simp only [MV.exp, this]
    decide +kernel

/-- Translators of plane-based algebra meet the hypotheses. -/
example : OneNull pga3 ∧ 0 ∈ (⟨[0, 3, 5, 9]⟩ : SubSpace).blades ∧
    ∀ b ∈ (⟨[0, 3, 5, 9]⟩ : SubSpace).blades, b ≠ 0 → NullBlade pga3 b ∧ popcount b = 2 := by
  unfold OneNull NullBlade; decide +kernel

end C53
end Verif.Props
