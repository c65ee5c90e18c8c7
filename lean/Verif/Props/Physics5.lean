import Verif.Proofs.Physics16
import Verif.Props.Physics4
import Verif.Proofs.Optimized
/-! # Constraints in space (C98) -/
namespace Verif.Props
open Model Spec Model.Factory

variable {A : Alg} {R : Type}

section
variable [Field R] [DecidableEq R]

/-- Adding opposite steps to the rates of two bodies keeps the sum of the momenta. -/
theorem rates_add (hA : WfAlg A) {b0 b1 : Body R} {ps0 ps1 : List (Cl A R)} {B L : SubSpace} (hb0 : Live A b0 ps0 B L) (hb1 : Live A b1 ps1 B L)
    {s0 s1 r0 r1 : MV R} {q : Cl A R} (w0 : WfMV A s0) (w1 : WfMV A s1) (t0 : s0.sub = B) (t1 : s1.sub = B)
    (q1 : Gives A (do b0.motor.sandwich A (← einsumCallMV b0.inertia [s0])) q) (q2 : Gives A (do b1.motor.sandwich A (← einsumCallMV b1.inertia [s1])) (-q))
    (hy0 : b0.rate.add A (.mv s0) = some r0) (hy1 : b1.rate.add A (.mv s1) = some r1) :
    WfMV A r0 ∧ WfMV A r1 ∧ A.bivector = some r0.sub ∧ A.bivector = some r1.sub ∧
    ∃ q : Cl A R,
      Gives A (do (← b0.motor.sandwich A (← einsumCallMV b0.inertia [b0.rate])).add A (.mv (← b1.motor.sandwich A (← einsumCallMV b1.inertia [b1.rate])))) q ∧
      Gives A (do (← b0.motor.sandwich A (← einsumCallMV b0.inertia [r0])).add A (.mv (← b1.motor.sandwich A (← einsumCallMV b1.inertia [r1])))) q := by
  obtain ⟨y0', y01, y02, y03, y04⟩ := (add_in hA hb0.rateWf w0 (by rw [hb0.rateSub, t0]; exact fun _ h => h)).1
  obtain ⟨y1', y11, y12, y13, y14⟩ := (add_in hA hb1.rateWf w1 (by rw [hb1.rateSub, t1]; exact fun _ h => h)).1
  cases y01.symm.trans hy0
  cases y11.symm.trans hy1
  rw [hb0.rateSub] at y02
  rw [hb1.rateSub] at y12
  have two : ∀ {x y : Option (MV R)} {p q : Cl A R}, GivesIn A x L p → GivesIn A y L q → Gives A (do (← x).add A (.mv (← y))) (p + q) := by
    rintro x y p q ⟨z, rfl, z2, z3, rfl⟩ ⟨w, rfl, w2, w3, rfl⟩
    exact (add_in hA z3 w3 (by rw [z2, w2]; exact fun _ h => h)).1.gives
  refine ⟨y03, y13, by rw [y02]; exact hb0.bivector, by rw [y12]; exact hb0.bivector, _,
    by simpa only [bind_assoc] using two (world_in hA hb0 hb0.rateWf hb0.rateSub) (world_in hA hb1 hb1.rateWf hb1.rateSub), ?_⟩
  suffices hq : Gives A (do (← (do b0.motor.sandwich A (← einsumCallMV b0.inertia [r0]))).add A (.mv (← (do b1.motor.sandwich A (← einsumCallMV b1.inertia [r1]))))) _ by
    simpa only [bind_assoc] using hq
  refine (two (world_in hA hb0 y03 y02) (world_in hA hb1 y13 y12)).congr ?_
  obtain ⟨z, z1, -, -, z4⟩ := world_in hA hb0 w0 t0
  obtain ⟨z', z1', -, -, z4'⟩ := world_in hA hb1 w1 t1
  have e1 := (q1.val z1).2
  have e2 := (q2.val z1').2
  rw [z4] at e1
  rw [z4'] at e2
  rw [y04, y14]
  simp only [map_add, mul_add, add_mul]
  rw [e1, e2]
  abel

/-- An anchor of a body in the world. -/
theorem anchor_in (hA : WfAlg A) (h4 : A.n = 4) (h2 : (2 : R) ≠ 0) {b : Body R} {ps : List (Cl A R)} {B L : SubSpace} (hb : Live A b ps B L)
    (u : val A b.motor * CliffordAlgebra.reverse (val A b.motor) = 1) {anchor : MV R} (ha : WfMV A anchor) (hs : A.antivector = some anchor.sub) :
    Turns A R (val A b.motor) ∧ gradePart A R 3 (val A anchor) = val A anchor ∧
    GivesIn A (b.motor.sandwich A anchor) anchor.sub (val A b.motor * val A anchor * CliffordAlgebra.reverse (val A b.motor)) := by
  obtain ⟨-, -, -, -, -, -, ⟨V, v1, v2⟩, -⟩ := id (C14_named hA)
  have s0 : anchor.sub = V := Option.some.inj (hs.symm.trans v1)
  have hV : IsSpace A anchor.sub fun b => popcount b = 3 := s0 ▸ v2.congr fun b _ => by omega
  have hT : Turns A R (val A b.motor) := ⟨val_even hA hb.motorWf hb.motorEven, u⟩
  have hg : gradePart A R 3 (val A anchor) = val A anchor := within_grade hV ⟨anchor, ha, rfl, rfl⟩
  refine ⟨hT, hg, ?_⟩
  have := (turn_in hA hb.motorWf hb.motorZero ha hV).1
  rwa [hT.grade hA h4 h2 (by omega) (by omega) hg] at this

/-- The connecting line of `apply_indexed` in space squares to a number. -/
theorem join_square (hA : WfAlg A) (h4 : A.n = 4) (h2 : (2 : R) ≠ 0) {b0 b1 : Body R} {ps0 ps1 : List (Cl A R)} {B L : SubSpace} (hb0 : Live A b0 ps0 B L)
    (hb1 : Live A b1 ps1 B L) (u0 : val A b0.motor * CliffordAlgebra.reverse (val A b0.motor) = 1) (u1 : val A b1.motor * CliffordAlgebra.reverse (val A b1.motor) = 1)
    {a0 a1 f : MV R} (w0 : WfMV A a0) (w1 : WfMV A a1) (s0 : A.antivector = some a0.sub) (s1 : A.antivector = some a1.sub)
    (hf : (do (← b0.motor.sandwich A a0).regressive A (← b1.motor.sandwich A a1)) = some f) : ∃ c : R, val A f * CliffordAlgebra.reverse (val A f) = c • 1 := by
  obtain ⟨t0, g0, p0, p01, p02, p03, p04⟩ := anchor_in hA h4 h2 hb0 u0 w0 s0
  obtain ⟨t1, g1, p1, p11, p12, p13, p14⟩ := anchor_in hA h4 h2 hb1 u1 w1 s1
  rw [p01, p11] at hf
  have h31 : A.n - 1 = 3 := by omega
  have e : val A f = meet A R (val A p0) (val A p1) := by
    rw [((regressive_gives hA p03 p13).val hf).2, meet_eq]
  have k0 := t0.grade hA h4 h2 (by omega) (by omega) g0
  have k1 := t1.grade hA h4 h2 (by omega) (by omega) g1
  rw [← p04] at k0
  rw [← p14] at k1
  rw [e]
  exact line_square hA h4 h2 (meet_grade hA k0 k1 (by omega) (by omega) (by omega)) (join_line hA h2 (h31.symm ▸ k0) (h31.symm ▸ k1))

/-- The difference of the velocities of a hinge in space squares to a number. -/
theorem hinge_square (hA : WfAlg A) (h4 : A.n = 4) (h2 : (2 : R) ≠ 0) {b0 b1 : Body R} {ps0 ps1 : List (Cl A R)} {B L : SubSpace} (hb0 : Live A b0 ps0 B L)
    (hb1 : Live A b1 ps1 B L) (u0 : val A b0.motor * CliffordAlgebra.reverse (val A b0.motor) = 1) (u1 : val A b1.motor * CliffordAlgebra.reverse (val A b1.motor) = 1)
    {a0 a1 : MV R} (w0 : WfMV A a0) (w1 : WfMV A a1) (s0 : A.antivector = some a0.sub) (s1 : A.antivector = some a1.sub)
    {p : Cl A R} (h0 : Gives A (b0.motor.sandwich A a0) p) (h1 : Gives A (b1.motor.sandwich A a1) p) {v0 v1 : Cl A R}
    (g0 : GivesIn A (anchorVelocity A b0.motor a0 b0.rate) L v0) (g1 : GivesIn A (anchorVelocity A b1.motor a1 b1.rate) L v1) (k : R) :
    ∃ c : R, (k • (v1 - v0)) * CliffordAlgebra.reverse (k • (v1 - v0)) = c • 1 := by
  have h31 : A.n - 1 = 3 := by omega
  have h22 : A.n - 2 = 2 := by omega
  have one : ∀ {b : Body R} {ps : List (Cl A R)} (hb : Live A b ps B L) (u : val A b.motor * CliffordAlgebra.reverse (val A b.motor) = 1)
      {a : MV R} (w : WfMV A a) (s : A.antivector = some a.sub) (h : Gives A (b.motor.sandwich A a) p) {v : Cl A R}
      (g : GivesIn A (anchorVelocity A b.motor a b.rate) L v), gradePart A R 3 p = p ∧ ∃ x, gradePart A R 3 x = x ∧ v = meet A R p x := by
    intro b ps hb u a w s h v g
    obtain ⟨t, gr, P, p1, p2, p3, p4⟩ := anchor_in hA h4 h2 hb u w s
    have ep := (h.val p1).2
    rw [p4] at ep
    have rg : gradePart A R 2 (val A b.rate) = val A b.rate := within_grade hb.spaceB ⟨b.rate, hb.rateWf, hb.rateSub, rfl⟩
    obtain ⟨m1, m2⟩ := t.momentum hA h4 h2 gr rg
    obtain ⟨z, z1, -, -, z4⟩ := anchorVelocity_in hA hb w s hb.rateWf hb.rateSub
    have ev := (g.gives.val z1).2
    have gp := t.grade hA h4 h2 (by omega) (by omega) gr
    rw [ep] at gp m1 m2
    refine ⟨gp, _, m1, ?_⟩
    rw [← ev, z4, m2, h22]
    exact meet_grade hA gp m1 (by omega) (by omega) (by omega)
  obtain ⟨gp, x0, y0, rfl⟩ := one hb0 u0 w0 s0 h0 g0
  obtain ⟨-, x1, y1, rfl⟩ := one hb1 u1 w1 s1 h1 g1
  rw [← map_sub, ← map_smul]
  have gx : gradePart A R 3 (k • (x1 - x0)) = k • (x1 - x0) := by rw [map_smul, map_sub, y0, y1]
  exact line_square hA h4 h2 (meet_grade hA gp gx (by omega) (by omega) (by omega)) (join_line hA h2 (h31.symm ▸ gp) (h31.symm ▸ gx))

end

/-! ## C98 -/

section
variable [Field R] [DecidableEq R]

/-- C98: in space `apply_indexed` adds steps to the two motors that conserve the momentum: the momenta of the steps, seen from the
world, are opposite. -/
theorem C98_position (hA : WfAlg A) (h4 : A.n = 4) (h2 : (2 : R) ≠ 0)
    (h0 : ∃ i j, i < j ∧ j < A.n ∧ A.desc.sig.getD i 0 ≠ 0 ∧ A.desc.sig.getD j 0 ≠ 0) {rt : Roots R} (hr : RootLaw rt) {fuel : Nat}
    {S0 S1 : SubSpace} (hS0 : WfSub A S0) (hS1 : WfSub A S1) {rows0 rows1 : List (List R)} {b0 b1 : Body R} (m0 : Made A S0 rows0 b0) (m1 : Made A S1 rows1 b1)
    (u0 : val A b0.motor * CliffordAlgebra.reverse (val A b0.motor) = 1) (u1 : val A b1.motor * CliffordAlgebra.reverse (val A b1.motor) = 1)
    {c : Constraint R} (hc : c.init A = .ok c) (w0 : WfMV A c.anchor0) (w1 : WfMV A c.anchor1) (wc : WfMV A c.compliance) {tiny dt : R} (hdt : dt ≠ 0)
    {n0 n1 : MV R} (h : c.applyIndexed A rt (fuel + 2) tiny b0.motor b1.motor b0.inertiaInv b1.inertiaInv dt = .ok (n0, n1)) :
    WfMV A n0 ∧ WfMV A n1 ∧ val A n0 * CliffordAlgebra.reverse (val A n0) = 1 ∧ val A n1 * CliffordAlgebra.reverse (val A n1) = 1 ∧
    ∃ (s0 s1 : MV R) (q : Cl A R), WfMV A s0 ∧ WfMV A s1 ∧ A.bivector = some s0.sub ∧ A.bivector = some s1.sub ∧
      motorAddStep A rt (fuel + 2) b0.motor s0 = .ok n0 ∧ motorAddStep A rt (fuel + 2) b1.motor s1 = .ok n1 ∧
      Gives A (do b0.motor.sandwich A (← einsumCallMV b0.inertia [s0])) q ∧ Gives A (do b1.motor.sandwich A (← einsumCallMV b1.inertia [s1])) (-q) := by
  have hn : 2 ≤ A.n := by omega
  obtain ⟨⟨B, L, hb0⟩, -⟩ := m0.live hA hn hS0
  obtain ⟨⟨B', L', hb1⟩, -⟩ := m1.live hA hn hS1
  obtain ⟨rfl, rfl⟩ := live_same hb0 hb1
  obtain ⟨-, a0, a1, -⟩ := constraint_ok hA hc
  obtain ⟨f, k, f1, f2, f3, k2, k3, -, e⟩ := apply_reduce hA rt (fuel + 2) tiny hb0 hb1 hc w0 w1 wc hdt
  obtain ⟨d, hd⟩ := join_square hA h4 h2 hb0 hb1 u0 u1 w0 w1 a0 a1 f1
  rw [e] at h
  obtain ⟨s, hs, h⟩ := bind_ok h
  obtain ⟨y0, hy0, h⟩ := bind_ok h
  obtain ⟨y1, hy1, h⟩ := bind_ok h
  cases h
  obtain ⟨s1, s2, s3, s4, q, q1, q2⟩ := impulse_line_ok hA h4 h2 h0 hr hS0 hS1 m0 m1 u0 u1 f2 f3 hd k2 k3 hs
  have t0 : s.1.sub = B := Option.some.inj (s3.symm.trans hb0.bivector)
  have t1 : s.2.sub = B := Option.some.inj (s4.symm.trans hb0.bivector)
  obtain ⟨x1, -, x2, -⟩ := C94_add hA hn h2 hr (by omega) hb0.motorWf hb0.motorEven s1 (fun a ha => ((hb0.spaceB.2 a).1 (t0 ▸ ha)).2) u0 hy0
  obtain ⟨c1, -, c2, -⟩ := C94_add hA hn h2 hr (by omega) hb1.motorWf hb1.motorEven s2 (fun a ha => ((hb0.spaceB.2 a).1 (t1 ▸ ha)).2) u1 hy1
  exact ⟨x1, c1, x2, c2, s.1, s.2, q, s1, s2, s3, s4, hy0, hy1, q1, q2⟩

/-- C98: in space `v_apply_indexed` on two anchors at the same place in the world conserves the momentum: the sum of the momenta of the two
bodies, seen from the world, is the same for the old and the new rates. -/
theorem C98_velocity (hA : WfAlg A) (h4 : A.n = 4) (h2 : (2 : R) ≠ 0)
    (h0 : ∃ i j, i < j ∧ j < A.n ∧ A.desc.sig.getD i 0 ≠ 0 ∧ A.desc.sig.getD j 0 ≠ 0) {rt : Roots R} (hr : RootLaw rt) {fuel : Nat}
    {S0 S1 : SubSpace} (hS0 : WfSub A S0) (hS1 : WfSub A S1) {rows0 rows1 : List (List R)} {b0 b1 : Body R} (m0 : Made A S0 rows0 b0) (m1 : Made A S1 rows1 b1)
    (u0 : val A b0.motor * CliffordAlgebra.reverse (val A b0.motor) = 1) (u1 : val A b1.motor * CliffordAlgebra.reverse (val A b1.motor) = 1)
    {c : Constraint R} (hc : c.init A = .ok c) (w0 : WfMV A c.anchor0) (w1 : WfMV A c.anchor1) (wc : WfMV A c.compliance)
    {p : Cl A R} (p0 : Gives A (b0.motor.sandwich A c.anchor0) p) (p1 : Gives A (b1.motor.sandwich A c.anchor1) p) {tiny : R} {r0 r1 : MV R}
    (h : c.vApplyIndexed A rt (fuel + 2) tiny b0.motor b1.motor b0.rate b1.rate b0.inertiaInv b1.inertiaInv = .ok (r0, r1)) :
    WfMV A r0 ∧ WfMV A r1 ∧ A.bivector = some r0.sub ∧ A.bivector = some r1.sub ∧
    ∃ q : Cl A R,
      Gives A (do (← b0.motor.sandwich A (← einsumCallMV b0.inertia [b0.rate])).add A (.mv (← b1.motor.sandwich A (← einsumCallMV b1.inertia [b1.rate])))) q ∧
      Gives A (do (← b0.motor.sandwich A (← einsumCallMV b0.inertia [r0])).add A (.mv (← b1.motor.sandwich A (← einsumCallMV b1.inertia [r1])))) q := by
  have hn : 2 ≤ A.n := by omega
  obtain ⟨⟨B, L, hb0⟩, -⟩ := m0.live hA hn hS0
  obtain ⟨⟨B', L', hb1⟩, -⟩ := m1.live hA hn hS1
  obtain ⟨rfl, rfl⟩ := live_same hb0 hb1
  obtain ⟨-, a0, a1, -⟩ := constraint_ok hA hc
  obtain ⟨v0, v1, f, k, g0, g1, f2, f3, f4, k2, k3, -, e⟩ := vApply_reduce hA rt (fuel + 2) tiny hb0 hb1 hc w0 w1 wc
  obtain ⟨d, hd⟩ := hinge_square hA h4 h2 hb0 hb1 u0 u1 w0 w1 a0 a1 p0 p1 g0 g1 (1 / 2)
  rw [← f4] at hd
  rw [e] at h
  obtain ⟨s, hs, h⟩ := bind_ok h
  obtain ⟨y0, hy0, h⟩ := bind_ok h
  obtain ⟨y1, hy1, h⟩ := bind_ok h
  cases h
  obtain ⟨s1, s2, s3, s4, q, q1, q2⟩ := impulse_line_ok hA h4 h2 h0 hr hS0 hS1 m0 m1 u0 u1 f2 f3 hd k2 k3 hs
  exact rates_add hA hb0 hb1 s1 s2 (Option.some.inj (s3.symm.trans hb0.bivector)) (Option.some.inj (s4.symm.trans hb0.bivector)) q1 q2 (lift_ok hy0) (lift_ok hy1)

end

section
variable [Field R] [LinearOrder R] [IsStrictOrderedRing R]

/-- C98: over the reals `v_apply_indexed` in space on two anchors at the same place has a result exactly if their velocities in the world differ;
else it divides zero by zero. -/
theorem C98_velocity_total (hA : WfAlg A) (h4 : A.n = 4) (hN : ∀ s ∈ A.desc.sig, 0 ≤ s)
    (h0 : ∃ i j, i < j ∧ j < A.n ∧ A.desc.sig.getD i 0 ≠ 0 ∧ A.desc.sig.getD j 0 ≠ 0) {rt : Roots R} (hr : RealRoots rt) {fuel : Nat}
    {S0 S1 : SubSpace} (hS0 : WfSub A S0) (hS1 : WfSub A S1) {rows0 rows1 : List (List R)} {b0 b1 : Body R} (m0 : Made A S0 rows0 b0) (m1 : Made A S1 rows1 b1)
    (u0 : val A b0.motor * CliffordAlgebra.reverse (val A b0.motor) = 1) (u1 : val A b1.motor * CliffordAlgebra.reverse (val A b1.motor) = 1)
    {c : Constraint R} (hc : c.init A = .ok c) (w0 : WfMV A c.anchor0) (w1 : WfMV A c.anchor1) (wc : WfMV A c.compliance)
    {p : Cl A R} (p0 : Gives A (b0.motor.sandwich A c.anchor0) p) (p1 : Gives A (b1.motor.sandwich A c.anchor1) p) {tiny : R} (ht : 0 < tiny) :
    ∃ v0 v1 : Cl A R,
      Gives A (do b0.motor.sandwich A (← einsumCallMV (← c.anchor0.inertiaMap A (← A.bivector)) [b0.rate])) v0 ∧
      Gives A (do b1.motor.sandwich A (← einsumCallMV (← c.anchor1.inertiaMap A (← A.bivector)) [b1.rate])) v1 ∧
      ((∃ r, c.vApplyIndexed A rt (fuel + 2) tiny b0.motor b1.motor b0.rate b1.rate b0.inertiaInv b1.inertiaInv = .ok r) ↔ v0 ≠ v1) := by
  have hn : 2 ≤ A.n := by omega
  obtain ⟨⟨B, L, hb0⟩, -⟩ := m0.live hA hn hS0
  obtain ⟨⟨B', L', hb1⟩, -⟩ := m1.live hA hn hS1
  obtain ⟨rfl, rfl⟩ := live_same hb0 hb1
  obtain ⟨-, a0, a1, -⟩ := constraint_ok hA hc
  obtain ⟨v0, v1, f, k, g0, g1, f2, f3, f4, k2, k3, k4, e⟩ := vApply_reduce hA rt (fuel + 2) tiny hb0 hb1 hc w0 w1 wc
  obtain ⟨d, hd⟩ := hinge_square hA h4 two_ne_zero hb0 hb1 u0 u1 w0 w1 a0 a1 p0 p1 g0 g1 (1 / 2)
  rw [← f4] at hd
  have key := impulse_line_total hA h4 hN h0 hr (fuel := fuel) hS0 hS1 m0 m1 u0 ht f2 f3 hd k2 k3 k4.ge
  have e2 : (coeff k 0 = 0 ∧ val A f = 0) ↔ v0 = v1 := by
    rw [f4, smul_eq_zero, sub_eq_zero]
    refine ⟨fun ⟨_, h⟩ => ?_, fun h => ⟨k4, .inr h.symm⟩⟩
    rcases h with h | h
    · norm_num at h
    · exact h.symm
  rw [e2] at key
  refine ⟨v0, v1, g0.gives, g1.gives, Iff.trans ?_ key⟩
  rw [e]
  constructor
  · rintro ⟨r, h⟩
    obtain ⟨s, hs, -⟩ := bind_ok h
    exact ⟨s, hs⟩
  · rintro ⟨s, hs⟩
    obtain ⟨s1, s2, -⟩ := impulse_line_ok hA h4 two_ne_zero h0 hr.law hS0 hS1 m0 m1 u0 u1 f2 f3 hd k2 k3 hs
    obtain ⟨-, -, ⟨y0, y01, -⟩, -⟩ := C44_sum hA hb0.rateWf s1
    obtain ⟨-, -, ⟨y1, y11, -⟩, -⟩ := C44_sum hA hb1.rateWf s2
    exact ⟨(y0, y1), by rw [hs, ok_bind, y01, lift_some, ok_bind, y11, lift_some, ok_bind]⟩

/-- C98: over the reals `apply_indexed` in space has a result exactly if the compliance and the line joining the anchors are not both zero;
so constraints with zero compliance and coinciding anchors divide zero by zero. -/
theorem C98_position_total (hA : WfAlg A) (h4 : A.n = 4) (hN : ∀ s ∈ A.desc.sig, 0 ≤ s)
    (h0 : ∃ i j, i < j ∧ j < A.n ∧ A.desc.sig.getD i 0 ≠ 0 ∧ A.desc.sig.getD j 0 ≠ 0) {rt : Roots R} (hr : RealRoots rt) {fuel : Nat}
    {S0 S1 : SubSpace} (hS0 : WfSub A S0) (hS1 : WfSub A S1) {rows0 rows1 : List (List R)} {b0 b1 : Body R} (m0 : Made A S0 rows0 b0) (m1 : Made A S1 rows1 b1)
    (u0 : val A b0.motor * CliffordAlgebra.reverse (val A b0.motor) = 1) (u1 : val A b1.motor * CliffordAlgebra.reverse (val A b1.motor) = 1)
    {c : Constraint R} (hc : c.init A = .ok c) (w0 : WfMV A c.anchor0) (w1 : WfMV A c.anchor1) (wc : WfMV A c.compliance) (hk : 0 ≤ coeff c.compliance 0)
    {tiny dt : R} (ht : 0 < tiny) (hdt : dt ≠ 0) :
    ∃ f : Cl A R, Gives A (do (← b0.motor.sandwich A c.anchor0).regressive A (← b1.motor.sandwich A c.anchor1)) f ∧
      ((∃ r, c.applyIndexed A rt (fuel + 2) tiny b0.motor b1.motor b0.inertiaInv b1.inertiaInv dt = .ok r) ↔ ¬ (coeff c.compliance 0 = 0 ∧ f = 0)) := by
  have hn : 2 ≤ A.n := by omega
  obtain ⟨⟨B, L, hb0⟩, -⟩ := m0.live hA hn hS0
  obtain ⟨⟨B', L', hb1⟩, -⟩ := m1.live hA hn hS1
  obtain ⟨rfl, rfl⟩ := live_same hb0 hb1
  obtain ⟨-, a0, a1, -⟩ := constraint_ok hA hc
  obtain ⟨f, k, f1, f2, f3, k2, k3, k4, e⟩ := apply_reduce hA rt (fuel + 2) tiny hb0 hb1 hc w0 w1 wc hdt
  obtain ⟨d, hd'⟩ := join_square hA h4 two_ne_zero hb0 hb1 u0 u1 w0 w1 a0 a1 f1
  have hd : 0 < dt ^ 2 := by positivity
  have key := impulse_line_total hA h4 hN h0 hr (fuel := fuel) hS0 hS1 m0 m1 u0 ht f2 f3 hd' k2 k3 (by rw [k4]; positivity)
  have e2 : coeff k 0 = 0 ↔ coeff c.compliance 0 = 0 := by
    rw [k4, div_eq_zero_iff, or_iff_left hd.ne']
  rw [e2] at key
  refine ⟨val A f, ⟨f, f1, f2, rfl⟩, Iff.trans ?_ key⟩
  rw [e]
  constructor
  · rintro ⟨r, h⟩
    obtain ⟨s, hs, -⟩ := bind_ok h
    exact ⟨s, hs⟩
  · rintro ⟨s, hs⟩
    obtain ⟨s1, s2, s3, s4, -⟩ := impulse_line_ok hA h4 two_ne_zero h0 hr.law hS0 hS1 m0 m1 u0 u1 f2 f3 hd' k2 k3 hs
    have t0 : s.1.sub = B := Option.some.inj (s3.symm.trans hb0.bivector)
    have t1 : s.2.sub = B := Option.some.inj (s4.symm.trans hb0.bivector)
    obtain ⟨y0, y01⟩ := addStep_exists hA (by omega) hn hN hr (fuel := fuel + 2) (by omega) hb0.motorWf s1 (fun a ha => ((hb0.spaceB.2 a).1 (t0 ▸ ha)).2)
    obtain ⟨y1, y11⟩ := addStep_exists hA (by omega) hn hN hr (fuel := fuel + 2) (by omega) hb1.motorWf s2 (fun a ha => ((hb0.spaceB.2 a).1 (t1 ▸ ha)).2)
    exact ⟨(y0, y1), by rw [hs, ok_bind, y01, ok_bind, y11, ok_bind]⟩

end
/-! ### examples -/

/-- Three points of space with homogeneous coordinates. -/
def spaceRows {R : Type} [Field R] : List (List R) := [[1, 0, 0, 0], [1, 1, 0, 0], [1, 0, 1, 0]]
def spaceSub : SubSpace := ⟨[7, 11, 13, 14]⟩
theorem wf_spaceSub : WfSub pga3d spaceSub := wfSub_of_B (by decide +kernel)

section
variable [Field R] [LinearOrder R] [IsStrictOrderedRing R]

omit [LinearOrder R] [IsStrictOrderedRing R] in
theorem space_meet {a c : Nat} (h : a < 16 ∧ c < 16 ∧ (a ^^^ 15) &&& (c ^^^ 15) = 0) :
    ∃ s : R, s ≠ 0 ∧ meet pga3d R (blade pga3d R a) (blade pga3d R c) = s • blade pga3d R (a ^^^ c ^^^ 15) :=
  ⟨_, pow_ne_zero _ (neg_ne_zero.2 one_ne_zero), by rw [meet_blade wf_pga3d h.1 h.2.1]; exact if_pos h.2.2⟩

omit [LinearOrder R] [IsStrictOrderedRing R] in
theorem space_apart {a c : Nat} (h : a < 16 ∧ c < 16 ∧ (a ^^^ 15) &&& (c ^^^ 15) ≠ 0) : meet pga3d R (blade pga3d R a) (blade pga3d R c) = 0 := by
  rw [meet_blade wf_pga3d h.1 h.2.1]
  exact if_neg h.2.2

theorem space_square {s t u : R} (e : (s • blade pga3d R 1 + (t • blade pga3d R 2 + u • blade pga3d R 4)) * (s • blade pga3d R 1 + (t • blade pga3d R 2 + u • blade pga3d R 4)) = 0) :
    s = 0 ∧ t = 0 ∧ u = 0 := by
  have f : sgn pga3d 1 1 = 1 ∧ sgn pga3d 2 2 = 1 ∧ sgn pga3d 4 4 = 1 := by decide +kernel
  have := congrArg (coef pga3d R 0) e
  have k : ∀ {b}, b < 2 ^ pga3d.n → coef pga3d R 0 (blade pga3d R b) = if 0 = b then 1 else 0 := fun h => coef_blade pga3d R h 0
  simp only [add_mul, mul_add, smul_mul_smul_comm, blade_mul wf_pga3d, map_add, map_smul, map_zero, f.1, f.2.1, f.2.2] at this
  rw [k (show 1 ^^^ 1 < _ by decide), k (show 1 ^^^ 2 < _ by decide), k (show 1 ^^^ 4 < _ by decide), k (show 2 ^^^ 1 < _ by decide), k (show 2 ^^^ 2 < _ by decide),
    k (show 2 ^^^ 4 < _ by decide), k (show 4 ^^^ 1 < _ by decide), k (show 4 ^^^ 2 < _ by decide), k (show 4 ^^^ 4 < _ by decide)] at this
  simp at this
  have h1 := mul_self_nonneg s
  have h2 := mul_self_nonneg t
  have h3 := mul_self_nonneg u
  exact ⟨mul_self_eq_zero.1 (by linarith), mul_self_eq_zero.1 (by linarith), mul_self_eq_zero.1 (by linarith)⟩

/-- The points make a body. -/
theorem space_exists : ∃ b : Body R, Body.fromPointCloud pga3d spaceSub spaceRows = .ok b := by
  rw [C93_exists wf_pga3d (by decide) (by decide) wf_spaceSub]
  refine ⟨by decide, by simp [spaceRows, spaceSub], fun x hx hs h => ?_⟩
  have hb : pga3d.bivector = some ⟨[3, 5, 6, 9, 10, 12]⟩ := by decide +kernel
  obtain ⟨S, v⟩ := x
  obtain rfl : S = ⟨[3, 5, 6, 9, 10, 12]⟩ := Option.some.inj (hs.symm.trans hb)
  have hl : v.length = 6 := hx.len
  obtain ⟨a, b, c, d, e, f, rfl⟩ : ∃ a b c d e f, v = [a, b, c, d, e, f] := by
    match v, hl with
    | [a, b, c, d, e, f], _ => exact ⟨a, b, c, d, e, f, rfl⟩
  have hv : val pga3d (⟨⟨[3, 5, 6, 9, 10, 12]⟩, [a, b, c, d, e, f]⟩ : MV R) = a • blade pga3d R 3 + (b • blade pga3d R 5 + (c • blade pga3d R 6 +
      (d • blade pga3d R 9 + (e • blade pga3d R 10 + f • blade pga3d R 12)))) := by
    simp [val, denote]
  have sq : ∀ r : List R, r.length = 4 → r ∈ spaceRows → meet pga3d R (denote pga3d R spaceSub r) (val pga3d (⟨⟨[3, 5, 6, 9, 10, 12]⟩, [a, b, c, d, e, f]⟩ : MV R)) *
      meet pga3d R (denote pga3d R spaceSub r) (val pga3d (⟨⟨[3, 5, 6, 9, 10, 12]⟩, [a, b, c, d, e, f]⟩ : MV R)) = 0 := by
    intro r hl hr
    obtain ⟨z, z1, -, z3⟩ := h r hr
    obtain ⟨-, h3⟩ := ((regressive_gives wf_pga3d (x := ⟨spaceSub, r⟩) ⟨wf_spaceSub, hl⟩ hx).bind fun z hz ez => ez ▸ product_gives wf_pga3d hz hz).val z1
    rw [meet_eq]
    exact h3.symm.trans z3
  have z3 := space_apart (R := R) (a := 7) (c := 3) (by decide)
  have z5 := space_apart (R := R) (a := 7) (c := 5) (by decide)
  have z6 := space_apart (R := R) (a := 7) (c := 6) (by decide)
  obtain ⟨s1, n1, e1⟩ := space_meet (R := R) (a := 7) (c := 9) (by decide)
  obtain ⟨s2, n2, e2⟩ := space_meet (R := R) (a := 7) (c := 10) (by decide)
  obtain ⟨s3, n3, e3⟩ := space_meet (R := R) (a := 7) (c := 12) (by decide)
  have y3 := space_apart (R := R) (a := 11) (c := 3) (by decide)
  obtain ⟨s4, n4, e4⟩ := space_meet (R := R) (a := 11) (c := 5) (by decide)
  obtain ⟨s5, n5, e5⟩ := space_meet (R := R) (a := 11) (c := 6) (by decide)
  obtain ⟨s6, n6, e6⟩ := space_meet (R := R) (a := 13) (c := 3) (by decide)
  have p1 := sq [1, 0, 0, 0] rfl (by simp [spaceRows])
  have p2 := sq [1, 1, 0, 0] rfl (by simp [spaceRows])
  have p3 := sq [1, 0, 1, 0] rfl (by simp [spaceRows])
  rw [show denote pga3d R spaceSub [1, 0, 0, 0] = blade pga3d R 7 by simp [denote, spaceSub]] at p1
  rw [show denote pga3d R spaceSub [1, 1, 0, 0] = blade pga3d R 7 + blade pga3d R 11 by simp [denote, spaceSub]] at p2
  rw [show denote pga3d R spaceSub [1, 0, 1, 0] = blade pga3d R 7 + blade pga3d R 13 by simp [denote, spaceSub]] at p3
  rw [hv] at p1 p2 p3 ⊢
  simp only [map_add, map_smul, z3, z5, z6, e1, e2, e3, smul_zero, zero_add, smul_smul] at p1
  obtain ⟨q1, q2, q3⟩ := space_square p1
  obtain rfl := (mul_eq_zero.1 q1).resolve_right n1
  obtain rfl := (mul_eq_zero.1 q2).resolve_right n2
  obtain rfl := (mul_eq_zero.1 q3).resolve_right n3
  simp only [map_add, map_smul, LinearMap.add_apply, z3, z5, z6, y3, e4, e5, smul_zero, zero_add, zero_smul, add_zero, smul_smul] at p2
  obtain ⟨q4, q5, -⟩ := space_square (s := b * s4) (t := c * s5) (u := 0) (by rw [zero_smul, add_zero]; exact p2)
  obtain rfl := (mul_eq_zero.1 q4).resolve_right n4
  obtain rfl := (mul_eq_zero.1 q5).resolve_right n5
  simp only [map_add, map_smul, LinearMap.add_apply, z3, e6, zero_add, zero_smul, add_zero, smul_smul] at p3
  obtain ⟨q6, -⟩ := space_square (s := a * s6) (t := 0) (u := 0) (by rw [zero_smul, zero_smul, add_zero, add_zero]; exact p3)
  obtain rfl := (mul_eq_zero.1 q6).resolve_right n6
  simp

end

theorem space_made : ∃ b : Body ℝ, Made pga3d spaceSub spaceRows b ∧ val pga3d b.motor = 1 ∧ b.rate = ⟨⟨[3, 5, 6, 9, 10, 12]⟩, [0, 0, 0, 1, 0, 0]⟩ := by
  obtain ⟨b, hb⟩ := space_exists (R := ℝ)
  have hr := C93_rest wf_pga3d (by decide) wf_spaceSub hb
  have hi : b.asserts pga3d = some true := by
    obtain ⟨B, L, -, -, h, -⟩ := cloud_spec wf_pga3d (by decide) wf_spaceSub hb
    by_contra hc
    rw [Body.init, if_neg hc] at h
    cases h
  have h2 : pga3d.antivector = some spaceSub := by decide +kernel
  have h3 : pga3d.bivector = some ⟨[3, 5, 6, 9, 10, 12]⟩ := by decide +kernel
  have h6 : pga3d.evenGrade = some ⟨[0, 3, 5, 6, 9, 10, 12, 15]⟩ := by decide +kernel
  have h7 : pga3d.scalar = some ⟨[0]⟩ := by decide +kernel
  have h15 : pga3d.antibivector = some ⟨[3, 5, 6, 9, 10, 12]⟩ := by decide +kernel
  simp only [Body.asserts, h2, h3, h6, h7, h15, bind, Option.bind, Option.some.injEq, Bool.and_eq_true] at hi
  refine ⟨_, .copy (.cloud hb) (m := none) (r := some ⟨⟨[3, 5, 6, 9, 10, 12]⟩, [0, 0, 0, 1, 0, 0]⟩) (g := none) (d := none)
    (by simp) ?_ (by simp) (by simp) (if_pos ?_), hr.1, rfl⟩
  · rintro x ⟨⟩
    exact ⟨wfSub_of_B (show wfSubB pga3d ⟨[3, 5, 6, 9, 10, 12]⟩ = true by decide +kernel), rfl⟩
  · simp only [Body.asserts, h2, h3, h6, h7, h15, bind, Option.bind, Option.some.injEq, Bool.and_eq_true, Option.getD_none, Option.getD_some]
    exact ⟨⟨⟨⟨⟨hi.1.1.1.1.1, by decide +kernel⟩, hi.1.1.1.2⟩, hi.1.1.2⟩, hi.1.2⟩, hi.2⟩

theorem space_moves : coef pga3d ℝ 6 (meet pga3d ℝ (blade pga3d ℝ 7) (comm pga3d ℝ (blade pga3d ℝ 7) (blade pga3d ℝ 9))) ≠ 0 := by
  obtain ⟨s, hs, e⟩ := space_meet (R := ℝ) (a := 7) (c := 14) (by decide)
  rw [comm_blade_cast (by decide) (by decide), map_smul, show 7 ^^^ 9 = 14 by decide, e, map_smul, map_smul, coef_blade pga3d ℝ (by decide), if_pos (by decide), smul_eq_mul, smul_eq_mul, mul_one]
  refine mul_ne_zero ?_ hs
  have : halfSign (sgn pga3d) (-1) 7 9 ≠ 0 := by decide +kernel
  exact_mod_cast this

/-- A hinge in the origin between two bodies of space, one of them moving away from it and the other at rest: steps exist for the positions and for the
velocities; between the resting body and itself none for the velocities. -/
theorem space_hinge : ∃ (b0 b1 : Body ℝ) (c : Constraint ℝ), Made pga3d spaceSub spaceRows b0 ∧ Made pga3d spaceSub spaceRows b1 ∧
    val pga3d b0.motor * CliffordAlgebra.reverse (val pga3d b0.motor) = 1 ∧ val pga3d b1.motor * CliffordAlgebra.reverse (val pga3d b1.motor) = 1 ∧
    c.init pga3d = .ok c ∧ WfMV pga3d c.anchor0 ∧ WfMV pga3d c.anchor1 ∧ WfMV pga3d c.compliance ∧
    (∃ p, Gives pga3d (b0.motor.sandwich pga3d c.anchor0) p ∧ Gives pga3d (b1.motor.sandwich pga3d c.anchor1) p) ∧
    (∃ r, c.vApplyIndexed pga3d (realRoots 1) 4 (1 / 10) b0.motor b1.motor b0.rate b1.rate b0.inertiaInv b1.inertiaInv = .ok r) ∧
    (¬ ∃ r, c.vApplyIndexed pga3d (realRoots 1) 4 (1 / 10) b1.motor b1.motor b1.rate b1.rate b1.inertiaInv b1.inertiaInv = .ok r) ∧
    (∃ r, c.applyIndexed pga3d (realRoots 1) 4 (1 / 10) b0.motor b1.motor b0.inertiaInv b1.inertiaInv (1 / 60) = .ok r) := by
  obtain ⟨b0, h0, u0, r0⟩ := space_made
  obtain ⟨b1, hb1⟩ := space_exists (R := ℝ)
  obtain ⟨u1, r1, -⟩ := C93_rest wf_pga3d (by decide) wf_spaceSub hb1
  have h1 : Made pga3d spaceSub spaceRows b1 := .cloud hb1
  have one : ∀ {b : Body ℝ}, val pga3d b.motor = 1 → val pga3d b.motor * CliffordAlgebra.reverse (val pga3d b.motor) = 1 := fun h => by
    rw [h, CliffordAlgebra.reverse.map_one, one_mul]
  have hsc : pga3d.scalar = some ⟨[0]⟩ := by decide +kernel
  have hav : pga3d.antivector = some spaceSub := by decide +kernel
  have hN : ∀ s ∈ pga3d.desc.sig, 0 ≤ s := by decide
  have hs0 : ∃ i j, i < j ∧ j < pga3d.n ∧ pga3d.desc.sig.getD i 0 ≠ 0 ∧ pga3d.desc.sig.getD j 0 ≠ 0 := ⟨0, 1, by decide, by decide, by decide, by decide⟩
  let c : Constraint ℝ := ⟨⟨spaceSub, [1, 0, 0, 0]⟩, ⟨spaceSub, [1, 0, 0, 0]⟩, ⟨⟨[0]⟩, [1 / 1000000000]⟩⟩
  have hc : c.init pga3d = .ok c := by
    simp [Constraint.init, hav, hsc, c]
  have wa : WfMV pga3d (⟨spaceSub, [1, 0, 0, 0]⟩ : MV ℝ) := ⟨wf_spaceSub, rfl⟩
  have wc : WfMV pga3d c.compliance := ⟨wfSub_of_B (show wfSubB pga3d ⟨[0]⟩ = true by decide +kernel), rfl⟩
  obtain ⟨⟨B, L, l0⟩, -⟩ := h0.live wf_pga3d (by decide) wf_spaceSub
  obtain ⟨⟨B', L', l1⟩, -⟩ := h1.live wf_pga3d (by decide) wf_spaceSub
  have wld : ∀ {b : Body ℝ} {ps : List (Cl pga3d ℝ)} {B L : SubSpace}, Live pga3d b ps B L → val pga3d b.motor = 1 →
      Gives pga3d (b.motor.sandwich pga3d c.anchor0) (val pga3d c.anchor0) := fun hb hu =>
    ((anchor_in wf_pga3d rfl two_ne_zero hb (one hu) wa hav).2.2.gives).congr (by rw [hu, CliffordAlgebra.reverse.map_one, one_mul, mul_one])
  obtain ⟨x0, x1, g0, g1, g2⟩ := C98_velocity_total wf_pga3d rfl hN hs0 (realRoots_law 1) (fuel := 2) wf_spaceSub wf_spaceSub h0 h1 (one u0) (one u1) hc wa wa wc
    (wld l0 u0) (wld l1 u1) (tiny := 1 / 10) (by norm_num)
  obtain ⟨y0, y1, k0, k1, k2⟩ := C98_velocity_total wf_pga3d rfl hN hs0 (realRoots_law 1) (fuel := 2) wf_spaceSub wf_spaceSub h1 h1 (one u1) (one u1) hc wa wa wc
    (wld l1 u1) (wld l1 u1) (tiny := 1 / 10) (by norm_num)
  obtain ⟨f, -, p2⟩ := C98_position_total wf_pga3d rfl hN hs0 (realRoots_law 1) (fuel := 2) wf_spaceSub wf_spaceSub h0 h1 (one u0) (one u1) hc wa wa wc
    (show (0 : ℝ) ≤ coeff (⟨⟨[0]⟩, [1 / 1000000000]⟩ : MV ℝ) 0 by simp [coeff]) (tiny := 1 / 10) (dt := 1 / 60) (by norm_num) (by norm_num)
  refine ⟨b0, b1, c, h0, h1, one u0, one u1, hc, wa, wa, wc, ⟨_, wld l0 u0, wld l1 u1⟩, g2.2 ?_, ?_, p2.2 ?_⟩
  · obtain ⟨z0, z1, z2, z3, z4⟩ := anchorVelocity_in wf_pga3d l0 wa hav l0.rateWf l0.rateSub
    obtain ⟨z0', z1', z2', z3', z4'⟩ := anchorVelocity_in wf_pga3d l1 wa hav l1.rateWf l1.rateSub
    have e1 : val pga3d (⟨spaceSub, [1, 0, 0, 0]⟩ : MV ℝ) = blade pga3d ℝ 7 := by simp [val, denote, spaceSub]
    have e2 : val pga3d (⟨⟨[3, 5, 6, 9, 10, 12]⟩, [0, 0, 0, 1, 0, 0]⟩ : MV ℝ) = blade pga3d ℝ 9 := by simp [val, denote]
    rw [← (g0.val z1).2, ← (g1.val z1').2, z4, z4', r1, map_zero, map_zero, mul_zero, zero_mul, map_zero, u0, r0, one_mul, CliffordAlgebra.reverse.map_one, mul_one, e1, e2]
    intro h
    have h' := congrArg (coef pga3d ℝ 6) h
    rw [gradePart_eq_proj, coef_proj, if_pos (by decide +kernel), map_zero] at h'
    exact space_moves h'
  · rw [k2]
    obtain ⟨z0, z1, z2, z3⟩ := k0
    obtain ⟨-, e⟩ := k1.val z1
    exact fun h => h (z3.symm.trans e)
  · rintro ⟨h, -⟩
    simp [coeff, c] at h

end Verif.Props
