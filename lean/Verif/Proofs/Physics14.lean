import Verif.Proofs.Physics12
import Verif.Proofs.Roots2
/-! # Lines of space and their norm -/
namespace Verif
open Model Spec Model.Factory Props

variable {A : Alg} {R : Type}

section
variable [CommRing R]

/-- The scalar part of the regressive product is the pseudoscalar part of the product, up to a sign. -/
theorem coef_meet (hA : WfAlg A) (x y : Cl A R) : coef A R 0 (meet A R x y) = (-1) ^ pc A.n A.negatives * coef A R A.pss (x * y) := by
  have h0 : (0 : Nat) < 2 ^ A.n := Nat.two_pow_pos _
  have hP := pss_lt A
  have : (meet A R).compr₂ (coef A R 0) = ((-1 : R) ^ pc A.n A.negatives) • (LinearMap.mul R (Cl A R)).compr₂ (coef A R A.pss) := by
    refine lin_ext fun a ha => lin_ext fun c hc => ?_
    simp only [LinearMap.compr₂_apply, LinearMap.smul_apply, LinearMap.mul_apply', smul_eq_mul]
    rw [meet_blade hA ha hc, blade_mul hA, map_smul, coef_blade A R (xor_lt ha hc)]
    by_cases h : a ^^^ c = A.pss
    · obtain rfl : c = a ^^^ A.pss := by rw [← h, ← Nat.xor_assoc, Nat.xor_self, Nat.zero_xor]
      have hz : a ^^^ (a ^^^ A.pss) ^^^ A.pss = 0 := by rw [h, Nat.xor_self]
      have e1 : (a ^^^ A.pss) &&& (a ^^^ A.pss ^^^ A.pss) = 0 := by
        rw [xor_xor_pss, Nat.and_comm]
        exact and_compl ha
      rw [if_pos e1, h, if_pos rfl, Nat.xor_self, map_smul, coef_blade A R h0, if_pos rfl, smul_eq_mul, smul_eq_mul, mul_one, mul_one, sgn_disjoint (and_compl ha)]
      push_cast
      rw [← pow_add]
      refine sign_congr ?_
      have p1 := p2_and_xor A.n a (a ^^^ A.pss) A.negatives
      rw [h, p2, pc_neg_pss] at p1
      have q1 : i2 A.n 0 A.pss = 0 := by
        have := i2_left A.n 0 0 A.pss
        rw [Nat.xor_self] at this
        exact left_eq_add.1 this
      have q2 : p2 A.n (0 &&& A.negatives) = 0 := by
        have := p2_xor A.n 0 0
        rw [Nat.xor_self] at this
        rw [Nat.zero_and]
        exact left_eq_add.1 this
      rw [xor_xor_pss]
      simp only [i2, p2] at p1 q1 q2
      push_cast
      rw [q1, q2, p1]
      generalize ((inv A.n a (a ^^^ A.pss) : ℕ) : ZMod 2) = x
      generalize ((inv A.n (a ^^^ A.pss) a : ℕ) : ZMod 2) = y
      generalize ((pc A.n (a &&& A.negatives) : ℕ) : ZMod 2) = z
      generalize ((pc A.n ((a ^^^ A.pss) &&& A.negatives) : ℕ) : ZMod 2) = w
      revert x y z w
      decide
    · rw [if_neg (fun h' : A.pss = a ^^^ c => h h'.symm), smul_zero, mul_zero]
      split
      · rw [map_smul, coef_blade A R (xor_lt (xor_lt ha hc) hP), if_neg, smul_zero]
        intro h'
        exact h (by rw [← Nat.xor_zero (a ^^^ c), ← Nat.xor_self A.pss, ← Nat.xor_assoc, ← h', Nat.zero_xor])
      · exact map_zero _
  exact LinearMap.congr_fun₂ this x y

/-- Elements of grade two and their reverse. -/
theorem grade2_reverse (hA : WfAlg A) {x : Cl A R} (hx : gradePart A R 2 x = x) : CliffordAlgebra.reverse x = -x := by
  apply ext_coef
  intro b hb
  rw [coef_reverse hA R hb, map_neg]
  by_cases h : popcount b = 2
  · rw [h]; simp
  · rw [← hx, gradePart_eq_proj, coef_proj, if_neg h]; simp

/-- Elements of grade two are even. -/
theorem grade2_involute (hA : WfAlg A) {x : Cl A R} (hx : gradePart A R 2 x = x) : CliffordAlgebra.involute x = x := by
  apply ext_coef
  intro b hb
  rw [coef_involute hA R hb]
  by_cases h : popcount b = 2
  · rw [h]; simp
  · rw [← hx, gradePart_eq_proj, coef_proj, if_neg h]; simp

theorem pss_four (h4 : A.n = 4) {b : Nat} (hb : b < 2 ^ A.n) (h : popcount b = 4) : b = 15 := by
  rw [h4] at hb
  revert b
  decide +kernel

end
section
variable [Field R]

/-- The square of a bivector of space is a number if the join of the bivector with itself is zero. -/
theorem line_square (hA : WfAlg A) (h4 : A.n = 4) (h2 : (2 : R) ≠ 0) {f : Cl A R} (hf : gradePart A R 2 f = f) (h0 : meet A R f f = 0) :
    ∃ c : R, f * CliffordAlgebra.reverse f = c • 1 := by
  have hP : A.pss = 15 := by rw [Alg.pss, h4]
  refine ⟨coef A R 0 (f * CliffordAlgebra.reverse f), ?_⟩
  apply ext_coef
  intro b hb
  rw [map_smul, ← blade_zero, coef_blade A R (Nat.two_pow_pos _), smul_eq_mul]
  by_cases hz : b = 0
  · rw [hz, if_pos rfl, mul_one]
  rw [if_neg hz, mul_zero]
  by_cases h15 : b = 15
  · have := coef_meet hA f f
    rw [h0, map_zero, hP] at this
    rw [h15, grade2_reverse hA hf, mul_neg, map_neg, neg_eq_zero]
    exact (mul_eq_zero.1 this.symm).resolve_left (pow_ne_zero _ (by simp))
  have e1 := coef_reverse hA R hb (f * CliffordAlgebra.reverse f)
  rw [CliffordAlgebra.reverse.map_mul, CliffordAlgebra.reverse_reverse] at e1
  have e2 := coef_involute hA R hb (f * CliffordAlgebra.reverse f)
  rw [grade2_reverse hA hf, map_mul, map_neg, grade2_involute hA hf, ← grade2_reverse hA hf] at e2
  have hle : popcount b ≤ 4 := by rw [popcount_of_lt hA.le32 hb, ← h4]; exact pc_le A.n b
  have hne : popcount b ≠ 0 := fun h => hz ((popcount_eq_zero hA.le32 hb).1 h)
  have key : ∀ {x : R}, x = -x → x = 0 := fun {x} h => by
    have : 2 * x = 0 := by linear_combination h
    exact (mul_eq_zero.1 this).resolve_left h2
  have h4' : popcount b ≠ 4 := fun h => h15 (pss_four h4 hb h)
  have : popcount b = 1 ∨ popcount b = 2 ∨ popcount b = 3 := by omega
  rcases this with h | h | h <;> rw [h] at e1 e2 <;> norm_num at e1 e2
  · exact key e2
  · exact key e1
  · exact key e2

/-- The join of two points is a line. -/
theorem join_line (hA : WfAlg A) (h2 : (2 : R) ≠ 0) {p q : Cl A R} (hp : gradePart A R (A.n - 1) p = p) (hq : gradePart A R (A.n - 1) q = q) :
    meet A R (meet A R p q) (meet A R p q) = 0 := by
  have hqq : meet A R q q = 0 := by
    have h := meet_anti hA hq hq
    have : (2 : R) • meet A R q q = 0 := by rw [two_smul]; nth_rw 2 [h]; exact add_neg_cancel _
    exact (smul_eq_zero.1 this).resolve_left h2
  rw [meet_assoc hA, meet_anti hA hp hq, map_neg, map_neg, ← meet_assoc hA q q, hqq]
  simp

end
section
variable [Field R] [DecidableEq R]

/-! ### the root of a study number has a scalar -/

omit [Field R] [DecidableEq R] in
theorem ok_bind' {α β : Type} (a : α) (f : α → Except Fail β) : ((.ok a : Except Fail α) >>= f) = f a := rfl

omit [DecidableEq R] in
theorem add_keeps (hA : WfAlg A) {x y z : MV R} (hx : WfMV A x) (hy : WfMV A y) (h : x.add A (.mv y) = some z) : SubOf x.sub z.sub := by
  obtain ⟨U, u1, ⟨w, w1, w2, -⟩, -⟩ := C44_sum hA hx hy
  cases w1.symm.trans h
  obtain ⟨V, v1, v2, v3⟩ := union_spec hA hx.sub hy.sub
  cases u1.symm.trans v1
  intro b hb
  rw [w2, v3]
  exact ⟨hx.sub.lt b hb, Or.inl hb⟩

omit [Field R] [DecidableEq R] in
theorem sqrt_sub {rt : Roots R} {x y : MV R} (h : x.sqrt rt = .ok y) : y.sub = x.sub := by
  rw [MV.sqrt] at h
  obtain ⟨v, -, h⟩ := bind_ok h
  have h := lift_ok h
  rw [MV.copy, MV.construct] at h
  split at h
  · cases h; rfl
  · cases h

omit [DecidableEq R] in
theorem scalar_keeps (hA : WfAlg A) {x s0 : MV R} (hx : WfMV A x) (h0 : 0 ∈ x.sub.blades) (h : x.restrictSubspace A ⟨[0]⟩ = some s0) : 0 ∈ s0.sub.blades := by
  obtain ⟨T, t1, z, z1, z2, -⟩ := restrictSubspace_gives hA hx (wf_scalar (A := A))
  obtain ⟨V, v1, v2, v3⟩ := intersection_spec hA (wf_scalar (A := A)) (T := x.sub)
  cases t1.symm.trans v1
  cases z1.symm.trans h
  rw [z2, v3]
  exact ⟨Nat.two_pow_pos _, by simp, h0⟩

theorem squareRoot_keeps (hA : WfAlg A) (h2 : (2 : R) ≠ 0) {rt : Roots R} (hr : RootLaw rt) (fuel : Nat) {x y : MV R} (hx : WfMV A x) (h0 : 0 ∈ x.sub.blades)
    (h : x.squareRoot A rt (fuel + 1) = .ok y) : 0 ∈ y.sub.blades := by
  rw [MV.squareRoot] at h
  rcases sqrt_dispatch hA hx.sub with ⟨hs, hm⟩ | ⟨_, hs, hd, hm⟩ | ⟨_, hs, hd, hm⟩ | ⟨_, _, hm⟩ <;> rw [hm] at h <;> simp only at h
  · rw [sqrt_sub h]
    exact h0
  · obtain ⟨s0, a, a1, a2, a3⟩ := scalar_part hA hx
    obtain ⟨S, ns, S1, m1, m2, m3, m4⟩ := nonscalar_part hA hx a3
    rw [MV.runSqrt] at h
    simp only [S1, (scalar_eq hA).1, lift_some, a1, m1, ok_bind'] at h
    obtain ⟨r, hr1, h⟩ := bind_ok h
    obtain ⟨d, hd1, h⟩ := bind_ok h
    obtain ⟨ci, hc1, h⟩ := bind_ok h
    obtain ⟨p, hp1, h⟩ := bind_ok h
    rcases a2.sqrt hr with ⟨c, u, u1, u2, -⟩ | ⟨u1, -⟩
    swap
    · rw [u1] at hr1; cases hr1
    cases u1.symm.trans hr1
    obtain ⟨d', d1, d2⟩ := Sc.product hA (x := ⟨⟨[0]⟩, [2]⟩) (c := 2) (Or.inr rfl) u2
    have e2 : r.rmul A (.num 2) = some d' := by rw [MV.rmul, upcast_num hA]; simpa using d1
    cases e2.symm.trans (lift_ok hd1)
    obtain ⟨ci', i1, i2⟩ := d2.inverseNan hA rt fuel
    cases i1.symm.trans hc1
    obtain ⟨z, z1, z2, -⟩ := product_gives hA m2 (i2.wf (A := A))
    have e1 : ns.mul A (.mv ci) = some z := by rw [MV.mul, MV.upcast]; simpa using z1
    cases e1.symm.trans (lift_ok hp1)
    exact add_keeps hA (u2.wf (A := A)) z2 (lift_ok h) 0 (by rw [sqrt_sub u1]; exact scalar_keeps hA hx h0 a1)
  · obtain ⟨s0, a, a1, a2, a3⟩ := scalar_part hA hx
    obtain ⟨nq, N, n1, n2, n3⟩ := studyNormSquared_sc hA hx
    obtain ⟨S, ns, S1, m1, m2, m3, m4⟩ := nonscalar_part hA hx a3
    rw [MV.runSqrt] at h
    simp only [MV.studyNorm, MV.studyNormSquared, require, hs, S1, (scalar_eq hA).1, lift_some, a1, m1, n1, ok_bind'] at h
    obtain ⟨n, hn1, g1⟩ := bind_ok h
    obtain ⟨t, ht1, g2⟩ := bind_ok g1
    obtain ⟨q, hq1, g3⟩ := bind_ok g2
    obtain ⟨r, hr1, g4⟩ := bind_ok g3
    obtain ⟨d, hd1, g5⟩ := bind_ok g4
    obtain ⟨ci, hc1, g6⟩ := bind_ok g5
    obtain ⟨p, hp1, g7⟩ := bind_ok g6
    rcases n2.sqrt hr with ⟨n', s, s1, s2, -⟩ | ⟨s1, -⟩
    swap
    · rw [s1] at hn1; cases hn1
    cases s1.symm.trans hn1
    obtain ⟨t', t1, t2⟩ := a2.add hA s2
    cases t1.symm.trans (lift_ok ht1)
    have k1 := add_keeps hA (a2.wf (A := A)) (s2.wf (A := A)) t1 0 (scalar_keeps hA hx h0 a1)
    have k2 := (C49_scalar hA (fuel + 1) (t2.wf (A := A)) h2).2
    cases k2.symm.trans hq1
    obtain ⟨q', q1, q2⟩ := t2.half hA h2 (fuel + 1)
    cases k2.symm.trans q1
    rcases q2.sqrt hr with ⟨c, u, u1, u2, -⟩ | ⟨u1, -⟩
    swap
    · rw [u1] at hr1; cases hr1
    cases u1.symm.trans hr1
    obtain ⟨d', d1, d2⟩ := u2.product hA (y := ⟨⟨[0]⟩, [2]⟩) (d := 2) (Or.inr rfl)
    have e2 : r.mul A (.num 2) = some d' := by rw [MV.mul, upcast_num hA]; simpa using d1
    cases e2.symm.trans (lift_ok hd1)
    obtain ⟨ci', i1, i2⟩ := d2.inverseNan hA rt fuel
    cases i1.symm.trans hc1
    obtain ⟨z, z1, z2, -⟩ := product_gives hA m2 (i2.wf (A := A))
    have e1 : ns.mul A (.mv ci) = some z := by rw [MV.mul, MV.upcast]; simpa using z1
    cases e1.symm.trans (lift_ok hp1)
    exact add_keeps hA (u2.wf (A := A)) z2 (lift_ok g7) 0 (by rw [sqrt_sub u1]; exact k1)
  · cases h

end
end Verif
