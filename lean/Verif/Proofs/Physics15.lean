import Verif.Proofs.Physics13
import Verif.Proofs.Physics14
/-! # Steps that a line causes in space -/
namespace Verif
open Model Spec Model.Factory Props

variable {A : Alg} {R : Type}

theorem two_bits {i j : Nat} (hij : i < j) (hj : j < 4) : 2 ^ i ||| 2 ^ j < 16 ∧ popcount (2 ^ i ||| 2 ^ j) = 2 := by
  have : ∀ j < 4, ∀ i < j, 2 ^ i ||| 2 ^ j < 16 ∧ popcount (2 ^ i ||| 2 ^ j) = 2 := by decide +kernel
  exact this j hj i hij

section
variable [Field R] [DecidableEq R]

/-- The norm squared of the bivectors of space. -/
theorem bivector_square (hA : WfAlg A) (h4 : A.n = 4) (h0 : ∃ i j, i < j ∧ j < A.n ∧ A.desc.sig.getD i 0 ≠ 0 ∧ A.desc.sig.getD j 0 ≠ 0)
    {L : SubSpace} (hL : IsSpace A L fun b => popcount b = 2) :
    ∃ T, L.symmetricReverse A = some T ∧ WfSub A T ∧ Flat A T ∧ T.isStudy A = some true := by
  obtain ⟨⟨T, t1, t2, t3, t4⟩, -⟩ := selfProduct_even hA hL.1 fun b hb => by rw [((hL.2 b).1 hb).2]
  refine ⟨T, t1, t2, .inr ⟨h4, ?_, fun e he => ?_⟩, study_even hA (by omega) t2 t4⟩
  · obtain ⟨i, j, hij, hj, hi0, hj0⟩ := h0
    obtain ⟨b1, b2⟩ := two_bits hij (h4 ▸ hj)
    have hb : 2 ^ i ||| 2 ^ j < 2 ^ A.n := by rw [h4]; exact b1
    have hbL := (hL.2 _).2 ⟨hb, b2⟩
    obtain ⟨z, z1, z2, z3⟩ := basis_mv (R := ℚ) hL.1 hbL
    obtain ⟨w, -, w2, w3, w4⟩ := symmetricReverse_in hA z1 (show z.sub.symmetricReverse A = some T by rw [z2]; exact t1)
    rw [← w2]
    refine mem_of_coef w3 ?_
    rw [w4, z3]
    have hg : gradePart A ℚ 2 (blade A ℚ (2 ^ i ||| 2 ^ j)) = blade A ℚ (2 ^ i ||| 2 ^ j) := by rw [gradePart_blade _ hb, if_pos b2]
    rw [grade2_reverse hA hg, mul_neg, map_neg, neg_ne_zero, blade_mul hA, map_smul, Nat.xor_self, coef_blade A ℚ (Nat.two_pow_pos _), if_pos rfl, smul_eq_mul, mul_one]
    have : sgn A (2 ^ i ||| 2 ^ j) (2 ^ i ||| 2 ^ j) ≠ 0 := by
      rw [sgn_ne_zero hA hb]
      rintro ⟨k, -, k1, -, k3⟩
      simp only [Nat.testBit_or, Nat.testBit_two_pow, Bool.or_eq_true, decide_eq_true_eq] at k1
      rcases k1 with rfl | rfl
      · exact hi0 k3
      · exact hj0 k3
    exact_mod_cast this
  · have hlt := t2.lt e he
    have hp := t4 e he
    have hle := pc_le A.n e
    rw [h4] at hle
    have h' : popcount e = pc A.n e := popcount_of_lt hA.le32 hlt
    by_cases hz : popcount e = 0
    · exact .inl ((popcount_eq_zero hA.le32 hlt).1 hz)
    · exact .inr (pss_four h4 hlt (by rw [h4] at h' hp; omega))

/-- The norm of a line. -/
theorem line_norm (hA : WfAlg A) (h4 : A.n = 4) (h0 : ∃ i j, i < j ∧ j < A.n ∧ A.desc.sig.getD i 0 ≠ 0 ∧ A.desc.sig.getD j 0 ≠ 0)
    {rt : Roots R} {fuel : Nat} {f : MV R} (hf : WfMV A f) (hL : IsSpace A f.sub fun b => popcount b = 2) {c : R}
    (hc : val A f * CliffordAlgebra.reverse (val A f) = c • 1) :
    ∃ z, WfMV A z ∧ Flat A z.sub ∧ z.sub.isStudy A = some true ∧ val A z = c • 1 ∧ f.norm A rt fuel = z.squareRoot A rt fuel := by
  obtain ⟨T, t1, t2, t3, t4⟩ := bivector_square hA h4 h0 hL
  obtain ⟨z, z1, z3, z2, z4⟩ := symmetricReverse_in hA hf t1
  obtain ⟨r, r1, r2⟩ := insideScalar_eq hA f.sub
  have r3 : r = false := by
    cases r with
    | false => rfl
    | true =>
      have := (r2.1 rfl) 3 ((hL.2 3).2 ⟨by rw [h4]; decide, by decide⟩)
      simp at this
  refine ⟨z, z2, z3 ▸ t3, z3 ▸ t4, by rw [z4, hc], ?_⟩
  rw [MV.norm, r1, r3, MV.normSquared, z1]
  rfl

theorem line_root (hA : WfAlg A) (h2 : (2 : R) ≠ 0) {rt : Roots R} (hr : RootLaw rt) {fuel : Nat} {z y : MV R} (hz : WfMV A z) (hf : Flat A z.sub) {c : R}
    (hc : val A z = c • 1) (h : z.squareRoot A rt (fuel + 1) = .ok y) : WfMV A y ∧ Flat A y.sub ∧ (∃ d : R, val A y = d • 1) ∧
      (z.sub.isStudy A = some true → y.sub.isStudy A = some true) := by
  obtain ⟨y1, y2, a, d, k, a1, a2, -⟩ := squareRoot_spec' hA h2 hr fuel hz h
  have h0 : 0 ∈ y.sub.blades := squareRoot_keeps hA h2 hr fuel hz hf.zero h
  refine ⟨y1, ?_, ⟨d, ?_⟩, fun hs => study_mono hA hz.sub y1.sub hs y2⟩
  · rcases hf with hf | ⟨h4, -, hf⟩
    · left
      rcases sub_of_scalar y1.sub fun b hb => by
        rcases y2 b hb with rfl | h
        · simp
        · rwa [hf] at h with h | h
      · rw [h] at h0; cases h0
      · exact h
    · exact .inr ⟨h4, h0, fun e he => by
        rcases y2 e he with rfl | h
        · exact .inl rfl
        · exact hf e h⟩
  · rw [hc, gradePart_zero_scalar hA] at a1
    rw [a2, hc, a1, sub_self, smul_zero, add_zero]

omit [DecidableEq R] in
/-- Adding a number to a magnitude. -/
theorem flat_add (hA : WfAlg A) {y : MV R} (hy : WfMV A y) (hf : Flat A y.sub) {d : R} (hd : val A y = d • 1) (c : R) :
    ∃ t, y.add A (.num c) = some t ∧ WfMV A t ∧ Flat A t.sub ∧ val A t = (d + c) • 1 ∧ t.sub = y.sub := by
  obtain ⟨u1, u2⟩ := upcast_num' hA c
  obtain ⟨t, t1, t2, t3, t4⟩ := (add_in hA hy u2 (fun b hb => by
    obtain rfl : b = 0 := by simpa using hb
    exact hf.zero)).1
  refine ⟨t, ?_, t3, t2 ▸ hf, ?_, t2⟩
  · rw [← t1, MV.add, MV.add, u1]
    rfl
  · rw [t4, hd, scalar_val u2 rfl, ← add_smul]
    simp [coeff]

/-- Dividing bivectors by a magnitude. -/
theorem flat_div (hA : WfAlg A) (h4 : A.n = 4) {fuel : Nat} {f t : MV R} (hf : WfMV A f) (hL : IsSpace A f.sub fun b => popcount b = 2) (ht : WfMV A t) (hF : Flat A t.sub)
    (hs : t.sub.isStudy A = some true) {e : R} (he : val A t = e • 1) :
    (e ≠ 0 → ∃ D, f.truediv A (fuel + 2) (.mv t) = .ok D ∧ WfMV A D ∧ D.sub = f.sub ∧ val A D = e⁻¹ • val A f) ∧
    (e = 0 → f.truediv A (fuel + 2) (.mv t) = .error .divZero) := by
  have hne : f.sub.blades ≠ [] := fun h => by
    have := (hL.2 3).2 ⟨by rw [h4]; decide, by decide⟩
    rw [h] at this
    cases this
  by_cases h0 : t.sub = ⟨[0]⟩
  · obtain ⟨x, hx⟩ : ∃ x, t = ⟨⟨[0]⟩, [x]⟩ := by
      have hl := ht.len
      rw [h0] at hl
      obtain ⟨x, hx⟩ := List.length_eq_one_iff.1 hl
      exact ⟨x, by rw [← h0, ← hx]⟩
    have : x = e := smul_one_inj (A := A) (by rw [← he, scalar_val ht h0, hx]; simp [coeff])
    subst this
    have hS : Sc t x := .inr hx
    exact ⟨fun h => (Sc.div hA (fuel + 2) hf hS).1 h, fun h => (Sc.div hA (fuel + 1) hf hS).2 h hne⟩
  have hn := nsimple_study hA ht.sub hs
  have hw := inverse_works1 hA fuel ht hn
  refine ⟨fun h => ?_, fun h => ?_⟩
  · have hu : IsUnit (val A t) := by
      rw [he]
      exact IsUnit.of_mul_eq_one (e⁻¹ • 1) (by rw [smul_mul_smul_comm, mul_one, mul_inv_cancel₀ h, one_smul])
    obtain ⟨i, hi⟩ := inverse_ok1 hA (fuel + 1) ht hn hu
    obtain ⟨i', w1, w2, w3⟩ | hw := hw
    swap
    · rw [hi] at hw; cases hw
    cases hi.symm.trans w1
    have hi' : val A i = e⁻¹ • 1 := by
      rw [he, smul_mul_assoc, one_mul] at w3
      rw [← w3, smul_smul, inv_mul_cancel₀ h, one_smul]
    obtain ⟨z, z1, z2, z3, -⟩ := C49_quotient hA hf h0 hi w2 (mul_eq_one_comm.1 w3)
    refine ⟨z, z1, z2, ?_, by rw [z3, hi', mul_smul_comm, mul_one]⟩
    obtain ⟨w, k1, k2, k3, k4⟩ := Flat.mul_in hA hf hL w2 (inverse_sub1 hA (by omega) ht hn hi ▸ hF)
    simp only [MV.truediv, MV.upcast, lift_some, bind, Except.bind, MV.divideWith, (scalar_eq hA).1] at z1
    rw [if_neg h0, hi] at z1
    simp only [k1, lift_some] at z1
    cases z1
    exact k2
  · obtain ⟨i', w1, w2, w3⟩ | hw := hw
    · rw [he, h, zero_smul, zero_mul] at w3
      exact absurd w3.symm (one_ne_zero' A R)
    · simp only [MV.truediv, MV.upcast, lift_some, bind, Except.bind, MV.divideWith, (scalar_eq hA).1]
      rw [if_neg h0, hw]

/-- What a line of space causes, if there is a result: steps of the two bodies with opposite momenta. -/
theorem impulse_line_ok (hA : WfAlg A) (h4 : A.n = 4) (h2 : (2 : R) ≠ 0)
    (h0 : ∃ i j, i < j ∧ j < A.n ∧ A.desc.sig.getD i 0 ≠ 0 ∧ A.desc.sig.getD j 0 ≠ 0) {rt : Roots R} (hr : RootLaw rt) {fuel : Nat}
    {S0 S1 : SubSpace} (hS0 : WfSub A S0) (hS1 : WfSub A S1) {rows0 rows1 : List (List R)} {b0 b1 : Body R} (m0 : Made A S0 rows0 b0) (m1 : Made A S1 rows1 b1)
    (u0 : val A b0.motor * CliffordAlgebra.reverse (val A b0.motor) = 1) (u1 : val A b1.motor * CliffordAlgebra.reverse (val A b1.motor) = 1) {tiny : R}
    {f comp s0 s1 : MV R} (wf : WfMV A f) (hf : A.antibivector = some f.sub) {c : R} (hc : val A f * CliffordAlgebra.reverse (val A f) = c • 1)
    (ws : WfMV A comp) (hs : comp.sub = ⟨[0]⟩)
    (h : impulse A rt (fuel + 2) tiny f b0.motor b1.motor b0.inertiaInv b1.inertiaInv (.ok comp) = .ok (s0, s1)) :
    WfMV A s0 ∧ WfMV A s1 ∧ A.bivector = some s0.sub ∧ A.bivector = some s1.sub ∧
      ∃ q : Cl A R, Gives A (do b0.motor.sandwich A (← einsumCallMV b0.inertia [s0])) q ∧
        Gives A (do b1.motor.sandwich A (← einsumCallMV b1.inertia [s1])) (-q) := by
  have hn : 2 ≤ A.n := by omega
  obtain ⟨⟨B, L, hb0⟩, -⟩ := m0.live hA hn hS0
  obtain ⟨⟨B', L', hb1⟩, -⟩ := m1.live hA hn hS1
  obtain ⟨rfl, rfl⟩ := live_same hb0 hb1
  have fl : f.sub = L := Option.some.inj (hf.symm.trans hb0.antibivector)
  have hL : IsSpace A f.sub fun b => popcount b = 2 := fl ▸ hb0.spaceL.congr fun b _ => by omega
  obtain ⟨z, z1, z2, z3, z4, z5⟩ := line_norm hA h4 h0 (rt := rt) (fuel := fuel + 2) wf hL hc
  rw [impulse] at h
  obtain ⟨y, y1, h⟩ := bind_ok h
  rw [z5] at y1
  obtain ⟨y2, y3, ⟨d, y4⟩, y5⟩ := line_root hA h2 hr z1 z2 z4 y1
  obtain ⟨t, t1, t2, t3, t4, t5⟩ := flat_add hA y2 y3 y4 tiny
  simp only [t1, lift_some, ok_bind'] at h
  have hdiv := flat_div hA h4 (fuel := fuel) wf hL t2 t3 (t5 ▸ y5 z3) t4
  by_cases hd : d + tiny = 0
  · rw [hdiv.2 hd] at h
    cases h
  obtain ⟨D, D1, D2, D3, D4⟩ := hdiv.1 hd
  obtain ⟨x0, e1, e2, e3, e4⟩ := (turn_in hA hb0.motorWf hb0.motorZero D2 (D3 ▸ hL)).2
  obtain ⟨x1, f1, f2, f3, f4⟩ := (turn_in hA hb1.motorWf hb1.motorZero D2 (D3 ▸ hL)).2
  simp only [D1, e1, f1, lift_some, ok_bind'] at h
  exact distribute_momentum hA (by omega) hn h2 (fuel + 1) hS0 hS1 m0 m1 u0 u1 D2 (by rw [D3]; exact hf) e1 f1 y2 ws y4 y3 hs h

end
section
variable [Field R] [LinearOrder R] [IsStrictOrderedRing R]

/-- `distribute_forque` has a result, also for magnitudes of space. -/
theorem distribute_total (hA : WfAlg A) (hn : 2 ≤ A.n) (hN : NonNeg A) (fuel : Nat) {S0 S1 : SubSpace} (hS0 : WfSub A S0) (hS1 : WfSub A S1)
    {rows0 rows1 : List (List R)} {b0 b1 : Body R} (h0 : Made A S0 rows0 b0) (h1 : Made A S1 rows1 b1) {d0 d1 mag comp : MV R}
    (w0 : WfMV A d0) (w1 : WfMV A d1) (l0 : A.antibivector = some d0.sub) (l1 : A.antibivector = some d1.sub) (wm : WfMV A mag) (ws : WfMV A comp)
    {m : R} (hm : val A mag = m • 1) (hf : Flat A mag.sub) (hs : comp.sub = ⟨[0]⟩) (hc : 0 ≤ coeff comp 0) :
    (∃ r, Constraint.distributeForque A (fuel + 1) d0 d1 mag b0.inertiaInv b1.inertiaInv comp = .ok r) ↔
      ¬ (coeff comp 0 = 0 ∧ val A d0 = 0 ∧ val A d1 = 0) := by
  obtain ⟨⟨B, L, hb0⟩, -⟩ := h0.live hA hn hS0
  obtain ⟨⟨B', L', hb1⟩, -⟩ := h1.live hA hn hS1
  obtain ⟨rfl, rfl⟩ := live_same hb0 hb1
  have l0' : d0.sub = L := Option.some.inj (l0.symm.trans hb0.antibivector)
  have l1' : d1.sub = L := Option.some.inj (l1.symm.trans hb0.antibivector)
  obtain ⟨c0, p1, p2, p3⟩ := compliance_pos hA hN hb0 w0 l0'
  obtain ⟨c1, q1, q2, q3⟩ := compliance_pos hA hN hb1 w1 l1'
  obtain ⟨s0, s1, c0', c1', a1, a2, a3, a4, a5, a6, a7, a8, a9, a10, a11, a12⟩ := distribute_spec hA hb0 hb1 w0 w1 l0' l1' wm hm
    (Sc.of ws (fun e he => hs ▸ he) (scalar_val ws hs))
  have e0 : c0' = c0 := smul_one_inj (A := A) (by
    rw [a1] at p1
    obtain ⟨z, z1, z2, z3⟩ := regressive_gives hA a3 w0
    rw [← a9, meet_eq, ← z3]
    exact (p1.val z1).2)
  have e1 : c1' = c1 := smul_one_inj (A := A) (by
    rw [a2] at q1
    obtain ⟨z, z1, z2, z3⟩ := regressive_gives hA a4 w1
    rw [← a10, meet_eq, ← z3]
    exact (q1.val z1).2)
  subst e0 e1
  constructor
  · rintro ⟨r, hr⟩ ⟨k1, k2, k3⟩
    have hz := hf.zero
    rw [a12 fuel (by rw [k1, p3.2 k2, q3.2 k3]; ring) (fun h => by rw [h] at hz; cases hz)] at hr
    cases hr
  · intro h
    obtain ⟨r0, r1, e, -⟩ := a11 (fuel + 1) fun h' => h ⟨by linarith, p3.1 (by linarith), q3.1 (by linarith)⟩
    exact ⟨_, e⟩

/-- The norm of a line over the reals. -/
theorem line_root_exists (hA : WfAlg A) {rt : Roots R} (hr : RealRoots rt) {fuel : Nat} {z : MV R} (hz : WfMV A z) (hs : z.sub.isStudy A = some true) {c : R}
    (hc : val A z = c • 1) (h0 : 0 ≤ c) : ∃ (y : MV R) (d : R), z.squareRoot A rt (fuel + 1) = .ok y ∧ WfMV A y ∧ 0 ≤ d ∧ val A y = d • 1 := by
  have hv : val A z = c • 1 + 0 := by rw [hc, add_zero]
  by_cases hd : ∀ b ∈ z.sub.blades, b ≠ 0 → NullBlade A b
  · obtain ⟨-, ⟨y, d, y1, y2, d1, d2, y3⟩ | ⟨-, h⟩⟩ := squareRoot_null hA hr fuel hz hs hd hv (map_zero _)
    · exact ⟨y, d, y1, y2, d1, by rw [y3, smul_zero, add_zero]⟩
    · exact absurd h (not_lt.2 h0)
  · obtain ⟨q, q1, ⟨y, d, s, y1, y2, d1, -, -, -, y3⟩ | ⟨-, h⟩⟩ := squareRoot_study hA hr fuel hz hs hd hv (map_zero _)
    · exact ⟨y, d, y1, y2, d1, by rw [y3, smul_zero, add_zero]⟩
    · have : q = 0 := smul_one_inj (A := A) (by rw [← q1, mul_zero, zero_smul])
      rw [this, sub_zero] at h
      rcases h with h | ⟨s, s1, -, s2⟩
      · exact absurd h (not_lt.2 (mul_self_nonneg c))
      · exact absurd s2 (not_lt.2 (add_nonneg h0 s1))

/-- When a line of space has a result. -/
theorem impulse_line_total (hA : WfAlg A) (h4 : A.n = 4) (hN : NonNeg A)
    (h0 : ∃ i j, i < j ∧ j < A.n ∧ A.desc.sig.getD i 0 ≠ 0 ∧ A.desc.sig.getD j 0 ≠ 0) {rt : Roots R} (hr : RealRoots rt) {fuel : Nat}
    {S0 S1 : SubSpace} (hS0 : WfSub A S0) (hS1 : WfSub A S1) {rows0 rows1 : List (List R)} {b0 b1 : Body R} (m0 : Made A S0 rows0 b0) (m1 : Made A S1 rows1 b1)
    (u0 : val A b0.motor * CliffordAlgebra.reverse (val A b0.motor) = 1) {tiny : R} (ht : 0 < tiny)
    {f comp : MV R} (wf : WfMV A f) (hf : A.antibivector = some f.sub) {c : R} (hc : val A f * CliffordAlgebra.reverse (val A f) = c • 1)
    (ws : WfMV A comp) (hs : comp.sub = ⟨[0]⟩) (hk : 0 ≤ coeff comp 0) :
    (∃ r, impulse A rt (fuel + 2) tiny f b0.motor b1.motor b0.inertiaInv b1.inertiaInv (.ok comp) = .ok r) ↔ ¬ (coeff comp 0 = 0 ∧ val A f = 0) := by
  have hn : 2 ≤ A.n := by omega
  obtain ⟨⟨B, L, hb0⟩, -⟩ := m0.live hA hn hS0
  obtain ⟨⟨B', L', hb1⟩, -⟩ := m1.live hA hn hS1
  obtain ⟨rfl, rfl⟩ := live_same hb0 hb1
  have fl : f.sub = L := Option.some.inj (hf.symm.trans hb0.antibivector)
  have hL : IsSpace A f.sub fun b => popcount b = 2 := fl ▸ hb0.spaceL.congr fun b _ => by omega
  obtain ⟨z, z1, z2, z3, z4, z5⟩ := line_norm hA h4 h0 (rt := rt) (fuel := fuel + 2) wf hL hc
  have hc0 : 0 ≤ c := by
    have := hN.norm_nonneg hA (CliffordAlgebra.reverse (val A f))
    rwa [CliffordAlgebra.reverse_reverse, hc, map_smul, ← blade_zero, coef_blade A R (Nat.two_pow_pos _), if_pos rfl, smul_eq_mul, mul_one] at this
  obtain ⟨y, d, y1, y2, hd0, y4⟩ := line_root_exists hA hr (fuel := fuel + 1) z1 z3 z4 hc0
  obtain ⟨-, y3, -, y5⟩ := line_root hA two_ne_zero hr.law z1 z2 z4 y1
  obtain ⟨t, t1, t2, t3, t4, t5⟩ := flat_add hA y2 y3 y4 tiny
  have hd : d + tiny ≠ 0 := by positivity
  obtain ⟨D, D1, D2, D3, D4⟩ := (flat_div hA h4 (fuel := fuel) wf hL t2 t3 (t5 ▸ y5 z3) t4).1 hd
  obtain ⟨x0, e1, e2, e3, e4⟩ := (turn_in hA hb0.motorWf hb0.motorZero D2 (D3 ▸ hL)).2
  obtain ⟨x1, f1, f2, f3, f4⟩ := (turn_in hA hb1.motorWf hb1.motorZero D2 (D3 ▸ hL)).2
  have e : impulse A rt (fuel + 2) tiny f b0.motor b1.motor b0.inertiaInv b1.inertiaInv (.ok comp) =
      Constraint.distributeForque A (fuel + 2) x0 x1 y b0.inertiaInv b1.inertiaInv comp := by
    simp only [impulse, z5, y1, t1, D1, e1, f1, lift_some, ok_bind']
  rw [e, distribute_total hA hn hN (fuel + 1) hS0 hS1 m0 m1 e3 f3 (by rw [e2, D3]; exact hf) (by rw [f2, D3]; exact hf) y2 ws y4 y3 hs hk]
  refine not_congr (and_congr_right fun _ => ⟨fun h => ?_, fun h => ?_⟩)
  · have hE := val_even hA hb0.motorWf hb0.motorEven
    have hrev : CliffordAlgebra.involute (CliffordAlgebra.reverse (val A b0.motor)) = CliffordAlgebra.reverse (val A b0.motor) := by
      rw [← CliffordAlgebra.reverse_involute, hE]
    have gD : gradePart A R 2 (val A D) = val A D := within_grade (D3 ▸ hL) ⟨D, D2, rfl, rfl⟩
    have t := even_turn hA (by omega) (two_ne_zero (α := R)) (show 2 + 2 = A.n by omega) hrev gD
    rw [CliffordAlgebra.reverse_reverse] at t
    have z := h.1
    rw [e4, t] at z
    have zz : val A b0.motor * (CliffordAlgebra.reverse (val A b0.motor) * val A D * val A b0.motor) * CliffordAlgebra.reverse (val A b0.motor) = val A D := by
      rw [← mul_assoc, ← mul_assoc, u0, one_mul, mul_assoc, u0, mul_one]
    rw [z, mul_zero, zero_mul, D4] at zz
    exact (smul_eq_zero.1 zz.symm).resolve_left (inv_ne_zero hd)
  · rw [e4, f4, D4, h]
    simp

end
end Verif
