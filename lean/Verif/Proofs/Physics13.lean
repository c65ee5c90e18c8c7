import Verif.Proofs.Physics12
import Verif.Props.Physics3
/-! # Steps that a forque causes in the plane -/
namespace Verif
open Model Spec Model.Factory Props

variable {A : Alg} {R : Type}

section
variable [Field R] [DecidableEq R]

omit [DecidableEq R] in
theorem scalar_mul_in (hA : WfAlg A) {x : MV R} (hx : WfMV A x) (c : R) : GivesIn A (MV.mul A ⟨⟨[0]⟩, [c]⟩ (.mv x)) x.sub (c • val A x) := by
  have hc : WfMV A (⟨⟨[0]⟩, [c]⟩ : MV R) := ⟨(scalar_eq hA).2, rfl⟩
  obtain ⟨U, u1, z, z1, z2, z3, z4⟩ := mul_in hA hc hx
  refine ⟨z, z1, ?_, z3, by rw [z4, scalar_val hc rfl, smul_mul_assoc, one_mul]; simp [coeff]⟩
  rw [z2]
  refine WfSub.ext u1.1 hx.sub fun b => ?_
  rw [u1.2]
  constructor
  · rintro ⟨-, a, ha, d, hd, rfl, -⟩
    obtain rfl : a = 0 := by simpa using ha
    rwa [Nat.zero_xor]
  · intro hb
    refine ⟨hx.sub.lt b hb, 0, by simp, b, hb, Nat.zero_xor b, ?_⟩
    rw [sgn_ne_zero hA (Nat.two_pow_pos _)]
    simp

/-- What a forque of the plane causes, if there is a result: steps of the two bodies with opposite momenta. -/
theorem impulse_ok (hA : WfAlg A) (h3 : A.n = 3) (h2 : (2 : R) ≠ 0) (h0 : ∃ j < A.n, A.desc.sig.getD j 0 ≠ 0) {rt : Roots R} (hr : RootLaw rt) {fuel : Nat}
    {S0 S1 : SubSpace} (hS0 : WfSub A S0) (hS1 : WfSub A S1) {rows0 rows1 : List (List R)} {b0 b1 : Body R} (m0 : Made A S0 rows0 b0) (m1 : Made A S1 rows1 b1)
    (u0 : val A b0.motor * CliffordAlgebra.reverse (val A b0.motor) = 1) (u1 : val A b1.motor * CliffordAlgebra.reverse (val A b1.motor) = 1) {tiny : R}
    {f comp s0 s1 : MV R} (wf : WfMV A f) (hf : A.antibivector = some f.sub) (ws : WfMV A comp) (hs : comp.sub = ⟨[0]⟩)
    (h : impulse A rt (fuel + 1) tiny f b0.motor b1.motor b0.inertiaInv b1.inertiaInv (.ok comp) = .ok (s0, s1)) :
    WfMV A s0 ∧ WfMV A s1 ∧ A.bivector = some s0.sub ∧ A.bivector = some s1.sub ∧
      ∃ q : Cl A R, Gives A (do b0.motor.sandwich A (← einsumCallMV b0.inertia [s0])) q ∧
        Gives A (do b1.motor.sandwich A (← einsumCallMV b1.inertia [s1])) (-q) := by
  have hn : 2 ≤ A.n := by omega
  obtain ⟨⟨B, L, hb0⟩, -⟩ := m0.live hA hn hS0
  obtain ⟨⟨B', L', hb1⟩, -⟩ := m1.live hA hn hS1
  obtain ⟨rfl, rfl⟩ := live_same hb0 hb1
  have fl : f.sub = L := Option.some.inj (hf.symm.trans hb0.antibivector)
  have hL : IsSpace A L fun b => popcount b = 1 := hb0.spaceL.congr fun b _ => by omega
  obtain ⟨c, c1, ⟨d, d1, d2, -⟩ | ⟨hx, -⟩⟩ := vector_norm hA h3 h0 hr (fuel + 1) hL wf fl
  swap
  · rw [impulse, hx] at h
    cases h
  obtain ⟨t, t1, t2⟩ := Sc.add hA (x := ⟨⟨[0]⟩, [d]⟩) (y := ⟨⟨[0]⟩, [tiny]⟩) (Or.inr rfl) (Or.inr rfl)
  have t1' : MV.add A ⟨⟨[0]⟩, [d]⟩ (.num tiny) = some t := by
    rw [← t1, MV.add, MV.add, (upcast_num' hA tiny).1]
    rfl
  obtain ⟨k1, k2⟩ := Sc.div hA fuel wf t2
  have hnf : f.sub.blades ≠ [] := fun he => by
    have hb : 2 ^ 0 ∈ L.blades := (hL.2 _).2 ⟨Nat.pow_lt_pow_right (by norm_num) (by omega), by decide⟩
    rw [← fl, he] at hb
    cases hb
  simp only [impulse, d1, t1', lift_some, bind, Except.bind] at h
  by_cases hd : d + tiny = 0
  · rw [k2 hd hnf] at h
    cases h
  obtain ⟨D, D1, D2, D3, D4⟩ := (Sc.div hA (fuel + 1) wf t2).1 hd
  rw [D1] at h
  have DL : IsSpace A D.sub fun b => popcount b = 1 := by rw [D3, fl]; exact hL
  obtain ⟨x0, e1, e2, e3, e4⟩ := (turn_in hA hb0.motorWf hb0.motorZero D2 DL).2
  obtain ⟨x1, f1, f2, f3, f4⟩ := (turn_in hA hb1.motorWf hb1.motorZero D2 DL).2
  simp only [e1, f1, lift_some] at h
  have wm : WfMV A (⟨⟨[0]⟩, [d]⟩ : MV R) := ⟨(scalar_eq hA).2, rfl⟩
  have hab : A.antibivector = some D.sub := by rw [D3]; exact hf
  exact distribute_momentum hA (by omega) hn h2 fuel hS0 hS1 m0 m1 u0 u1 D2 hab e1 f1 wm ws (scalar_val wm rfl) (.inl rfl) hs h

end
section
variable [Field R] [LinearOrder R] [IsStrictOrderedRing R] [DecidableEq R]

/-- When a forque has a result. -/
theorem impulse_total (hA : WfAlg A) (h3 : A.n = 3) (hN : NonNeg A) (h0 : ∃ j < A.n, A.desc.sig.getD j 0 ≠ 0) {rt : Roots R} (hr : RealRoots rt) {fuel : Nat}
    {S0 S1 : SubSpace} (hS0 : WfSub A S0) (hS1 : WfSub A S1) {rows0 rows1 : List (List R)} {b0 b1 : Body R} (m0 : Made A S0 rows0 b0) (m1 : Made A S1 rows1 b1)
    (u0 : val A b0.motor * CliffordAlgebra.reverse (val A b0.motor) = 1) {tiny : R} (ht : 0 < tiny)
    {f comp : MV R} (wf : WfMV A f) (hf : A.antibivector = some f.sub) (ws : WfMV A comp) (hs : comp.sub = ⟨[0]⟩) (hc : 0 ≤ coeff comp 0) :
    (∃ r, impulse A rt (fuel + 1) tiny f b0.motor b1.motor b0.inertiaInv b1.inertiaInv (.ok comp) = .ok r) ↔ ¬ (coeff comp 0 = 0 ∧ val A f = 0) := by
  have hn : 2 ≤ A.n := by omega
  obtain ⟨⟨B, L, hb0⟩, -⟩ := m0.live hA hn hS0
  obtain ⟨⟨B', L', hb1⟩, -⟩ := m1.live hA hn hS1
  obtain ⟨rfl, rfl⟩ := live_same hb0 hb1
  have fl : f.sub = L := Option.some.inj (hf.symm.trans hb0.antibivector)
  have hL : IsSpace A L fun b => popcount b = 1 := hb0.spaceL.congr fun b _ => by omega
  have hfg : gradePart A R 1 (val A f) = val A f := within_grade hL ⟨f, wf, fl, rfl⟩
  obtain ⟨c, c1, hc'⟩ := vector_norm hA h3 h0 hr.law (fuel + 1) hL wf fl
  have hc0 : 0 ≤ c := by
    obtain ⟨v, hv⟩ := exists_vec hA hfg
    rw [hv, vec, CliffordAlgebra.reverse_ι, ← vec, vec_sq] at c1
    rw [← smul_one_inj (A := A) c1]
    exact hN.dot_nonneg v
  obtain ⟨d0, d01, d02, d03⟩ := hr.nonneg c hc0
  obtain ⟨d, d1, hd0⟩ : ∃ d : R, f.norm A rt (fuel + 1) = .ok ⟨⟨[0]⟩, [d]⟩ ∧ 0 ≤ d := by
    rcases hc' with ⟨d, d1, -, rfl | h⟩ | ⟨-, h⟩
    · exact ⟨0, d1, le_refl _⟩
    · exact ⟨d, d1, by cases d01.symm.trans h; exact d02⟩
    · rw [d01] at h; cases h
  obtain ⟨t, t1, t2⟩ := Sc.add hA (x := ⟨⟨[0]⟩, [d]⟩) (y := ⟨⟨[0]⟩, [tiny]⟩) (Or.inr rfl) (Or.inr rfl)
  have t1' : MV.add A ⟨⟨[0]⟩, [d]⟩ (.num tiny) = some t := by
    rw [← t1, MV.add, MV.add, (upcast_num' hA tiny).1]
    rfl
  have hd : d + tiny ≠ 0 := by positivity
  obtain ⟨D, D1, D2, D3, D4⟩ := (Sc.div hA (fuel + 1) wf t2).1 hd
  have DL : IsSpace A D.sub fun b => popcount b = 1 := by rw [D3, fl]; exact hL
  obtain ⟨x0, e1, e2, e3, e4⟩ := (turn_in hA hb0.motorWf hb0.motorZero D2 DL).2
  obtain ⟨x1, f1, f2, f3, f4⟩ := (turn_in hA hb1.motorWf hb1.motorZero D2 DL).2
  have wm : WfMV A (⟨⟨[0]⟩, [d]⟩ : MV R) := ⟨(scalar_eq hA).2, rfl⟩
  have e : impulse A rt (fuel + 1) tiny f b0.motor b1.motor b0.inertiaInv b1.inertiaInv (.ok comp) =
      Constraint.distributeForque A (fuel + 1) x0 x1 ⟨⟨[0]⟩, [d]⟩ b0.inertiaInv b1.inertiaInv comp := by
    simp only [impulse, d1, t1', D1, e1, f1, lift_some, bind, Except.bind]
  rw [e, C96_total hA hn hN fuel hS0 hS1 m0 m1 e3 f3 (by rw [e2, D3]; exact hf) (by rw [f2, D3]; exact hf) wm ws rfl hs hc]
  refine not_congr (and_congr_right fun _ => ⟨fun h => ?_, fun h => ?_⟩)
  · have hE := val_even hA hb0.motorWf hb0.motorEven
    have hrev : CliffordAlgebra.involute (CliffordAlgebra.reverse (val A b0.motor)) = CliffordAlgebra.reverse (val A b0.motor) := by
      rw [← CliffordAlgebra.reverse_involute, hE]
    have gD : gradePart A R 1 (val A D) = val A D := within_grade DL ⟨D, D2, rfl, rfl⟩
    have t := even_turn hA (by omega) (two_ne_zero (α := R)) (show 1 + 2 = A.n by omega) hrev gD
    rw [CliffordAlgebra.reverse_reverse] at t
    have z := h.1
    rw [e4, t] at z
    have zz : val A b0.motor * (CliffordAlgebra.reverse (val A b0.motor) * val A D * val A b0.motor) * CliffordAlgebra.reverse (val A b0.motor) = val A D := by
      rw [← mul_assoc, ← mul_assoc, u0, one_mul, mul_assoc, u0, mul_one]
    rw [z, mul_zero, zero_mul, D4] at zz
    exact (smul_eq_zero.1 zz.symm).resolve_left (inv_ne_zero hd)
  · rw [e4, f4, D4, h]
    simp

end
end Verif
