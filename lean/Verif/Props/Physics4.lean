import Verif.Proofs.Physics13
import Verif.Props.Physics2
import Verif.Proofs.SparseMatrix
/-! # Constraints in the plane (C97) -/
namespace Verif.Props
open Model Spec Model.Factory

variable {A : Alg} {R : Type}

section
variable [Field R] [DecidableEq R]

omit [Field R] [DecidableEq R] in
/-- What the constructor of constraints asserts. -/
theorem constraint_ok (hA : WfAlg A) {c c' : Constraint R} (h : c.init A = .ok c') : c' = c ∧ A.antivector = some c.anchor0.sub ∧ A.antivector = some c.anchor1.sub ∧
    c.compliance.sub = ⟨[0]⟩ := by
  unfold Constraint.init at h
  split at h
  swap
  · cases h
  rename_i ha
  cases h
  simp only [Option.bind_eq_bind, Option.bind_eq_some_iff, Option.some.injEq, Bool.and_eq_true, beq_iff_eq] at ha
  obtain ⟨V, v1, V', v1', s, s1, ⟨h1, h2⟩, h3⟩ := ha
  exact ⟨rfl, h1 ▸ v1, h2 ▸ v1', by rw [h3]; exact Option.some.inj (s1.symm.trans (scalar_eq hA).1)⟩

/-- The momentum of a body with another rate, seen from the world. -/
theorem world_in (hA : WfAlg A) {b : Body R} {ps : List (Cl A R)} {B L : SubSpace} (hb : Live A b ps B L) {r : MV R} (hr : WfMV A r) (hs : r.sub = B) :
    GivesIn A (do b.motor.sandwich A (← einsumCallMV b.inertia [r])) L
      (gradePart A R (A.n - 2) (val A b.motor * opMap A b.inertia B L (val A r) * CliffordAlgebra.reverse (val A b.motor))) := by
  obtain ⟨p, p1, p2, p3, p4⟩ := hb.inertia.call hr hs
  have hL : IsSpace A L fun b => popcount b = A.n - 2 := hb.spaceL.congr fun b _ => by have := hb.two; omega
  have g := (turn_in hA hb.motorWf hb.motorZero p3 (p2 ▸ hL)).1
  rw [p4, p2] at g
  rw [p1]
  exact g

/-- The velocity of an anchor of a body in the world. -/
theorem anchorVelocity_in (hA : WfAlg A) {b : Body R} {ps : List (Cl A R)} {B L : SubSpace} (hb : Live A b ps B L) {anchor rate : MV R} (ha : WfMV A anchor)
    (hs : A.antivector = some anchor.sub) (hr : WfMV A rate) (hrs : rate.sub = B) : 
    GivesIn A (anchorVelocity A b.motor anchor rate) L (gradePart A R (A.n - 2)
      (val A b.motor * meet A R (val A anchor) (comm A R (val A anchor) (val A rate)) * CliffordAlgebra.reverse (val A b.motor))) := by
  obtain ⟨-, -, -, -, -, -, ⟨V, v1, v2⟩, -⟩ := id (C14_named hA)
  cases hs.symm.trans v1
  obtain ⟨o, o1, o2⟩ := inertiaMap_unary (R := R) hA v2.1 hb.spaceB.1
  have ho := hb.mapOutput hA v2 o1
  obtain ⟨q, q1, q2, q3⟩ := o2 anchor ha rfl
  obtain ⟨z, z1, z2, z3, z4⟩ := q2.call hr hrs
  have hL : IsSpace A L fun b => popcount b = A.n - 2 := hb.spaceL.congr fun b _ => by have := hb.two; omega
  have hz : z.sub = L := z2.trans ho
  have g := (turn_in hA hb.motorWf hb.motorZero z3 (hz ▸ hL)).1
  rw [hz, z4, q3 _ ⟨rate, hr, hrs, rfl⟩] at g
  rw [anchorVelocity, hb.bivector]
  simp only [bind, Option.bind, q1, z1]
  exact g

omit [DecidableEq R] in
theorem velForque (hA : WfAlg A) {L : SubSpace} {v0 v1 : MV R} (h0 : WfMV A v0) (h1 : WfMV A v1) (s0 : v0.sub = L) (s1 : v1.sub = L) :
    ∃ w0 w1 f : MV R, MV.mul A ⟨⟨[0]⟩, [1 / 2]⟩ (.mv v0) = some w0 ∧ MV.mul A ⟨⟨[0]⟩, [-1 / 2]⟩ (.mv v1) = some w1 ∧
      (do (← w0.copy (List.zipWith (· + ·) w0.vals w1.vals)).neg) = some f ∧ WfMV A f ∧ f.sub = L ∧ val A f = (1 / 2 : R) • (val A v1 - val A v0) := by
  obtain ⟨x0, x01, x02, x03, x04⟩ := scalar_mul_in hA h0 (1 / 2)
  obtain ⟨x1, x11, x12, x13, x14⟩ := scalar_mul_in hA h1 (-1 / 2)
  have l0 : x0.vals.length = L.blades.length := by rw [x03.len, x02, s0]
  have l1 : x1.vals.length = L.blades.length := by rw [x13.len, x12, s1]
  have hl : (List.zipWith (· + ·) x0.vals x1.vals).length = x0.sub.blades.length := by rw [List.length_zipWith, l0, l1, x02, s0, min_self]
  have hc : x0.copy (List.zipWith (· + ·) x0.vals x1.vals) = some ⟨x0.sub, List.zipWith (· + ·) x0.vals x1.vals⟩ := by
    rw [MV.copy, MV.construct, if_pos hl]
  have hv : val A (⟨x0.sub, List.zipWith (· + ·) x0.vals x1.vals⟩ : MV R) = val A x0 + val A x1 := by
    have : x1 = ⟨x0.sub, x1.vals⟩ := by rw [x02, s0, ← s1, ← x12]
    rw [this, val, val, val]
    exact denote_add (by rw [l0, x02, s0]) (by rw [l1, x02, s0])
  obtain ⟨f, f1, f2, f3, f4⟩ := C44_neg (A := A) (x := ⟨x0.sub, List.zipWith (· + ·) x0.vals x1.vals⟩) ⟨x03.sub, hl⟩
  refine ⟨x0, x1, f, x01, x11, by rw [hc]; exact f1, f3, by rw [f2, x02, s0], ?_⟩
  rw [f4, hv, x04, x14, neg_div, neg_smul, smul_sub]
  abel

theorem ok_bind {α β : Type} (a : α) (f : α → Except Fail β) : ((.ok a : Except Fail α) >>= f) = f a := rfl

/-- The velocities of the anchors and the forque of `v_apply_indexed`. -/
theorem vApply_reduce (hA : WfAlg A) (rt : Roots R) (fuel : Nat) (tiny : R) {b0 b1 : Body R} {ps0 ps1 : List (Cl A R)} {B L : SubSpace} (hb0 : Live A b0 ps0 B L)
    (hb1 : Live A b1 ps1 B L) {c : Constraint R} (hc : c.init A = .ok c) (w0 : WfMV A c.anchor0) (w1 : WfMV A c.anchor1) (wc : WfMV A c.compliance) :
    ∃ v0 v1 f k, GivesIn A (anchorVelocity A b0.motor c.anchor0 b0.rate) L v0 ∧ GivesIn A (anchorVelocity A b1.motor c.anchor1 b1.rate) L v1 ∧
      WfMV A f ∧ A.antibivector = some f.sub ∧ val A f = (1 / 2 : R) • (v1 - v0) ∧ WfMV A k ∧ k.sub = ⟨[0]⟩ ∧ coeff k 0 = 0 ∧
      c.vApplyIndexed A rt fuel tiny b0.motor b1.motor b0.rate b1.rate b0.inertiaInv b1.inertiaInv = (do
        let s ← impulse A rt fuel tiny f b0.motor b1.motor b0.inertiaInv b1.inertiaInv (.ok k)
        .ok (← lift (b0.rate.add A (.mv s.1)), ← lift (b1.rate.add A (.mv s.2)))) := by
  obtain ⟨-, a0, a1, ac⟩ := constraint_ok hA hc
  have g0 := anchorVelocity_in hA hb0 w0 a0 hb0.rateWf hb0.rateSub
  have g1 := anchorVelocity_in hA hb1 w1 a1 hb1.rateWf hb1.rateSub
  obtain ⟨v0, v01, v02, v03, v04⟩ := id g0
  obtain ⟨v1, v11, v12, v13, v14⟩ := id g1
  obtain ⟨x0, x1, f, x01, x11, f1, f2, f3, f4⟩ := velForque hA v03 v13 v02 v12
  obtain ⟨u1, u2⟩ := upcast_num' hA (0 : R)
  obtain ⟨k, k1, k2, k3, k4⟩ := mul_scalar_in hA wc u2 rfl
  have k1' : c.compliance.mul A (.num 0) = some k := by
    rw [← k1, MV.mul, MV.mul, u1]
    rfl
  refine ⟨_, _, f, k, g0, g1, f2, by rw [f3]; exact hb0.antibivector, by rw [f4, v04, v14], k3, k2.trans ac, ?_, ?_⟩
  · have e : (coeff k 0 : R) • (1 : Cl A R) = (0 : R) • 1 := by
      rw [← scalar_val k3 (k2.trans ac), k4, zero_smul]
      simp [coeff]
    exact smul_one_inj e
  · rw [vApplyIndexed_eq rt fuel tiny c _ _ _ _ _ _ hb0.bivector (scalar_eq hA).1]
    simp only [v01, v11, x01, x11, f1, k1', lift_some, ok_bind]

/-- The connecting line and the compliance of `apply_indexed`. -/
theorem apply_reduce (hA : WfAlg A) (rt : Roots R) (fuel : Nat) (tiny : R) {b0 b1 : Body R} {ps0 ps1 : List (Cl A R)} {B L : SubSpace} (hb0 : Live A b0 ps0 B L)
    (hb1 : Live A b1 ps1 B L) {c : Constraint R} (hc : c.init A = .ok c) (w0 : WfMV A c.anchor0) (w1 : WfMV A c.anchor1) (wc : WfMV A c.compliance) {dt : R} (hdt : dt ≠ 0) :
    ∃ f k, (do (← b0.motor.sandwich A c.anchor0).regressive A (← b1.motor.sandwich A c.anchor1)) = some f ∧
      WfMV A f ∧ A.antibivector = some f.sub ∧ WfMV A k ∧ k.sub = ⟨[0]⟩ ∧ coeff k 0 = coeff c.compliance 0 / dt ^ 2 ∧
      c.applyIndexed A rt fuel tiny b0.motor b1.motor b0.inertiaInv b1.inertiaInv dt = (do
        let s ← impulse A rt fuel tiny f b0.motor b1.motor b0.inertiaInv b1.inertiaInv (.ok k)
        .ok (← motorAddStep A rt fuel b0.motor s.1, ← motorAddStep A rt fuel b1.motor s.2)) := by
  obtain ⟨-, a0, a1, ac⟩ := constraint_ok hA hc
  obtain ⟨-, -, -, -, -, -, ⟨V, v1, v2⟩, -⟩ := id (C14_named hA)
  have s0 : c.anchor0.sub = V := Option.some.inj (a0.symm.trans v1)
  have s1 : c.anchor1.sub = V := Option.some.inj (a1.symm.trans v1)
  have hV : IsSpace A V fun b => popcount b = A.n - 1 := v2.congr fun b _ => by have := hb0.two; omega
  obtain ⟨p0, p01, p02, p03, -⟩ := (turn_in hA hb0.motorWf hb0.motorZero w0 (s0 ▸ hV)).1
  obtain ⟨p1, p11, p12, p13, -⟩ := (turn_in hA hb1.motorWf hb1.motorZero w1 (s1 ▸ hV)).1
  obtain ⟨f, f1, f2, f3, -⟩ := hb0.join hA v2 p03 p13 (p02.trans s0) (p12.trans s1)
  have hd := (C49_scalar hA fuel wc (pow_ne_zero 2 hdt)).2
  have ef : (do (← b0.motor.sandwich A c.anchor0).regressive A (← b1.motor.sandwich A c.anchor1)) = some f := by
    rw [p01, p11]
    exact f1
  refine ⟨f, ⟨c.compliance.sub, c.compliance.vals.map (· / dt ^ 2)⟩, ef, f3, by rw [f2]; exact hb0.antibivector, ⟨wc.sub, by simp [wc.len]⟩, ac, ?_, ?_⟩
  · have hl := wc.len
    rw [ac] at hl
    obtain ⟨x, hx⟩ := List.length_eq_one_iff.1 hl
    simp [coeff, ac, hx]
  · rw [applyIndexed_eq, ef, hd, lift_some, ok_bind]

end

/-! ## C97 -/

section
variable [Field R] [DecidableEq R]

/-- C97: in the plane `v_apply_indexed` conserves the momentum: the sum of the momenta of the two bodies, seen from the world, is the
same for the old and the new rates. -/
theorem C97_velocity (hA : WfAlg A) (h3 : A.n = 3) (h2 : (2 : R) ≠ 0) (h0 : ∃ j < A.n, A.desc.sig.getD j 0 ≠ 0) {rt : Roots R} (hr : RootLaw rt) {fuel : Nat}
    {S0 S1 : SubSpace} (hS0 : WfSub A S0) (hS1 : WfSub A S1) {rows0 rows1 : List (List R)} {b0 b1 : Body R} (m0 : Made A S0 rows0 b0) (m1 : Made A S1 rows1 b1)
    (u0 : val A b0.motor * CliffordAlgebra.reverse (val A b0.motor) = 1) (u1 : val A b1.motor * CliffordAlgebra.reverse (val A b1.motor) = 1)
    {c : Constraint R} (hc : c.init A = .ok c) (w0 : WfMV A c.anchor0) (w1 : WfMV A c.anchor1) (wc : WfMV A c.compliance) {tiny : R} {r0 r1 : MV R}
    (h : c.vApplyIndexed A rt (fuel + 1) tiny b0.motor b1.motor b0.rate b1.rate b0.inertiaInv b1.inertiaInv = .ok (r0, r1)) :
    WfMV A r0 ∧ WfMV A r1 ∧ A.bivector = some r0.sub ∧ A.bivector = some r1.sub ∧
    ∃ q : Cl A R,
      Gives A (do (← b0.motor.sandwich A (← einsumCallMV b0.inertia [b0.rate])).add A (.mv (← b1.motor.sandwich A (← einsumCallMV b1.inertia [b1.rate])))) q ∧
      Gives A (do (← b0.motor.sandwich A (← einsumCallMV b0.inertia [r0])).add A (.mv (← b1.motor.sandwich A (← einsumCallMV b1.inertia [r1])))) q := by
  have hn : 2 ≤ A.n := by omega
  obtain ⟨⟨B, L, hb0⟩, -⟩ := m0.live hA hn hS0
  obtain ⟨⟨B', L', hb1⟩, -⟩ := m1.live hA hn hS1
  obtain ⟨rfl, rfl⟩ := live_same hb0 hb1
  obtain ⟨_, _, f, k, -, -, f2, f3, -, k2, k3, -, e⟩ := vApply_reduce hA rt (fuel + 1) tiny hb0 hb1 hc w0 w1 wc
  rw [e] at h
  obtain ⟨s, hs, h⟩ := bind_ok h
  obtain ⟨y0, hy0, h⟩ := bind_ok h
  obtain ⟨y1, hy1, h⟩ := bind_ok h
  cases h
  obtain ⟨s1, s2, s3, s4, q, q1, q2⟩ := impulse_ok hA h3 h2 h0 hr hS0 hS1 m0 m1 u0 u1 f2 f3 k2 k3 hs
  have t0 : s.1.sub = B := Option.some.inj (s3.symm.trans hb0.bivector)
  have t1 : s.2.sub = B := Option.some.inj (s4.symm.trans hb0.bivector)
  obtain ⟨y0', y01, y02, y03, y04⟩ := (add_in hA hb0.rateWf s1 (by rw [hb0.rateSub, t0]; exact fun _ h => h)).1
  obtain ⟨y1', y11, y12, y13, y14⟩ := (add_in hA hb1.rateWf s2 (by rw [hb1.rateSub, t1]; exact fun _ h => h)).1
  cases y01.symm.trans (lift_ok hy0)
  cases y11.symm.trans (lift_ok hy1)
  rw [hb0.rateSub] at y02
  rw [hb1.rateSub] at y12
  have two : ∀ {x y : Option (MV R)} {p q : Cl A R}, GivesIn A x L p → GivesIn A y L q → Gives A (do (← x).add A (.mv (← y))) (p + q) := by
    rintro x y p q ⟨z, rfl, z2, z3, rfl⟩ ⟨w, rfl, w2, w3, rfl⟩
    exact (add_in hA z3 w3 (by rw [z2, w2]; exact fun _ h => h)).1.gives
  refine ⟨y03, y13, by rw [y02]; exact hb0.bivector, by rw [y12]; exact hb0.bivector, _,
    by simpa only [bind_assoc] using two (world_in hA hb0 hb0.rateWf hb0.rateSub) (world_in hA hb1 hb1.rateWf hb1.rateSub), ?_⟩
  suffices hq : Gives A (do (← (do b0.motor.sandwich A (← einsumCallMV b0.inertia [r0]))).add A (.mv (← (do b1.motor.sandwich A (← einsumCallMV b1.inertia [r1]))))) _ by
    simpa only [bind_assoc] using hq
  refine (two (world_in hA hb0 y03 y02) (world_in hA hb1 y13 y12)).congr ?_
  obtain ⟨z, z1, -, -, z4⟩ := world_in hA hb0 s1 t0
  obtain ⟨z', z1', -, -, z4'⟩ := world_in hA hb1 s2 t1
  have e1 := (q1.val z1).2
  have e2 := (q2.val z1').2
  rw [z4] at e1
  rw [z4'] at e2
  rw [y04, y14]
  simp only [map_add, mul_add, add_mul]
  rw [e1, e2]
  abel

/-- C97: in the plane `apply_indexed` adds steps to the two motors that conserve the momentum: the momenta of the steps, seen from the
world, are opposite. -/
theorem C97_position (hA : WfAlg A) (h3 : A.n = 3) (h2 : (2 : R) ≠ 0) (h0 : ∃ j < A.n, A.desc.sig.getD j 0 ≠ 0) {rt : Roots R} (hr : RootLaw rt) {fuel : Nat}
    {S0 S1 : SubSpace} (hS0 : WfSub A S0) (hS1 : WfSub A S1) {rows0 rows1 : List (List R)} {b0 b1 : Body R} (m0 : Made A S0 rows0 b0) (m1 : Made A S1 rows1 b1)
    (u0 : val A b0.motor * CliffordAlgebra.reverse (val A b0.motor) = 1) (u1 : val A b1.motor * CliffordAlgebra.reverse (val A b1.motor) = 1)
    {c : Constraint R} (hc : c.init A = .ok c) (w0 : WfMV A c.anchor0) (w1 : WfMV A c.anchor1) (wc : WfMV A c.compliance) {tiny dt : R} (hdt : dt ≠ 0)
    {n0 n1 : MV R} (h : c.applyIndexed A rt (fuel + 2) tiny b0.motor b1.motor b0.inertiaInv b1.inertiaInv dt = .ok (n0, n1)) :
    WfMV A n0 ∧ WfMV A n1 ∧ val A n0 * CliffordAlgebra.reverse (val A n0) = 1 ∧ val A n1 * CliffordAlgebra.reverse (val A n1) = 1 ∧
    ∃ (s0 s1 : MV R) (q : Cl A R), WfMV A s0 ∧ WfMV A s1 ∧ A.bivector = some s0.sub ∧ A.bivector = some s1.sub ∧
      motorAddStep A rt (fuel + 2) b0.motor s0 = .ok n0 ∧ motorAddStep A rt (fuel + 2) b1.motor s1 = .ok n1 ∧
      Gives A (do b0.motor.sandwich A (← einsumCallMV b0.inertia [s0])) q ∧ Gives A (do b1.motor.sandwich A (← einsumCallMV b1.inertia [s1])) (-q) := by
  have hn : 2 ≤ A.n := by omega
  obtain ⟨⟨B, L, hb0⟩, -⟩ := m0.live hA hn hS0
  obtain ⟨⟨B', L', hb1⟩, -⟩ := m1.live hA hn hS1
  obtain ⟨rfl, rfl⟩ := live_same hb0 hb1
  obtain ⟨f, k, -, f2, f3, k2, k3, -, e⟩ := apply_reduce hA rt (fuel + 2) tiny hb0 hb1 hc w0 w1 wc hdt
  rw [e] at h
  obtain ⟨s, hs, h⟩ := bind_ok h
  obtain ⟨y0, hy0, h⟩ := bind_ok h
  obtain ⟨y1, hy1, h⟩ := bind_ok h
  cases h
  obtain ⟨s1, s2, s3, s4, q, q1, q2⟩ := impulse_ok hA h3 h2 h0 hr hS0 hS1 m0 m1 u0 u1 f2 f3 k2 k3 hs
  have t0 : s.1.sub = B := Option.some.inj (s3.symm.trans hb0.bivector)
  have t1 : s.2.sub = B := Option.some.inj (s4.symm.trans hb0.bivector)
  obtain ⟨a1, -, a2, -⟩ := C94_add hA hn h2 hr (by omega) hb0.motorWf hb0.motorEven s1 (fun a ha => ((hb0.spaceB.2 a).1 (t0 ▸ ha)).2) u0 hy0
  obtain ⟨c1, -, c2, -⟩ := C94_add hA hn h2 hr (by omega) hb1.motorWf hb1.motorEven s2 (fun a ha => ((hb0.spaceB.2 a).1 (t1 ▸ ha)).2) u1 hy1
  exact ⟨a1, c1, a2, c2, s.1, s.2, q, s1, s2, s3, s4, hy0, hy1, q1, q2⟩

end

section
variable [Field R] [LinearOrder R] [IsStrictOrderedRing R]

/-- C97: over the reals `v_apply_indexed` in the plane has a result exactly if the velocities of the two anchors in the world differ; else
it divides zero by zero. -/
theorem C97_velocity_total (hA : WfAlg A) (h3 : A.n = 3) (hN : ∀ s ∈ A.desc.sig, 0 ≤ s) (h0 : ∃ j < A.n, A.desc.sig.getD j 0 ≠ 0) {rt : Roots R} (hr : RealRoots rt) {fuel : Nat}
    {S0 S1 : SubSpace} (hS0 : WfSub A S0) (hS1 : WfSub A S1) {rows0 rows1 : List (List R)} {b0 b1 : Body R} (m0 : Made A S0 rows0 b0) (m1 : Made A S1 rows1 b1)
    (u0 : val A b0.motor * CliffordAlgebra.reverse (val A b0.motor) = 1) (u1 : val A b1.motor * CliffordAlgebra.reverse (val A b1.motor) = 1)
    {c : Constraint R} (hc : c.init A = .ok c) (w0 : WfMV A c.anchor0) (w1 : WfMV A c.anchor1) (wc : WfMV A c.compliance) {tiny : R} (ht : 0 < tiny) :
    ∃ v0 v1 : Cl A R,
      Gives A (do b0.motor.sandwich A (← einsumCallMV (← c.anchor0.inertiaMap A (← A.bivector)) [b0.rate])) v0 ∧
      Gives A (do b1.motor.sandwich A (← einsumCallMV (← c.anchor1.inertiaMap A (← A.bivector)) [b1.rate])) v1 ∧
      ((∃ r, c.vApplyIndexed A rt (fuel + 1) tiny b0.motor b1.motor b0.rate b1.rate b0.inertiaInv b1.inertiaInv = .ok r) ↔ v0 ≠ v1) := by
  have hn : 2 ≤ A.n := by omega
  obtain ⟨⟨B, L, hb0⟩, -⟩ := m0.live hA hn hS0
  obtain ⟨⟨B', L', hb1⟩, -⟩ := m1.live hA hn hS1
  obtain ⟨rfl, rfl⟩ := live_same hb0 hb1
  obtain ⟨v0, v1, f, k, g0, g1, f2, f3, f4, k2, k3, k4, e⟩ := vApply_reduce hA rt (fuel + 1) tiny hb0 hb1 hc w0 w1 wc
  have key := impulse_total hA h3 hN h0 hr (fuel := fuel) hS0 hS1 m0 m1 u0 ht f2 f3 k2 k3 k4.ge
  have e2 : (coeff k 0 = 0 ∧ val A f = 0) ↔ v0 = v1 := by
    rw [f4, smul_eq_zero, sub_eq_zero]
    refine ⟨fun ⟨_, h⟩ => ?_, fun h => ⟨k4, .inr h.symm⟩⟩
    rcases h with h | h
    · norm_num at h
    · exact h.symm
  rw [e2] at key
  refine ⟨v0, v1, g0.gives, g1.gives, Iff.trans ?_ key⟩
  rw [e]
  constructor
  · rintro ⟨r, h⟩
    obtain ⟨s, hs, -⟩ := bind_ok h
    exact ⟨s, hs⟩
  · rintro ⟨s, hs⟩
    obtain ⟨s1, s2, -⟩ := impulse_ok hA h3 two_ne_zero h0 hr.law hS0 hS1 m0 m1 u0 u1 f2 f3 k2 k3 hs
    obtain ⟨-, -, ⟨y0, y01, -⟩, -⟩ := C44_sum hA hb0.rateWf s1
    obtain ⟨-, -, ⟨y1, y11, -⟩, -⟩ := C44_sum hA hb1.rateWf s2
    exact ⟨(y0, y1), by rw [hs, ok_bind, y01, lift_some, ok_bind, y11, lift_some, ok_bind]⟩

/-- C97: over the reals `apply_indexed` in the plane has a result exactly if the compliance and the line joining the anchors are not both zero;
so constraints with zero compliance and coinciding anchors divide zero by zero. -/
theorem C97_position_total (hA : WfAlg A) (h3 : A.n = 3) (hN : ∀ s ∈ A.desc.sig, 0 ≤ s) (h0 : ∃ j < A.n, A.desc.sig.getD j 0 ≠ 0) {rt : Roots R} (hr : RealRoots rt) {fuel : Nat}
    {S0 S1 : SubSpace} (hS0 : WfSub A S0) (hS1 : WfSub A S1) {rows0 rows1 : List (List R)} {b0 b1 : Body R} (m0 : Made A S0 rows0 b0) (m1 : Made A S1 rows1 b1)
    (u0 : val A b0.motor * CliffordAlgebra.reverse (val A b0.motor) = 1) (u1 : val A b1.motor * CliffordAlgebra.reverse (val A b1.motor) = 1)
    {c : Constraint R} (hc : c.init A = .ok c) (w0 : WfMV A c.anchor0) (w1 : WfMV A c.anchor1) (wc : WfMV A c.compliance) (hk : 0 ≤ coeff c.compliance 0)
    {tiny dt : R} (ht : 0 < tiny) (hdt : dt ≠ 0) :
    ∃ f : Cl A R, Gives A (do (← b0.motor.sandwich A c.anchor0).regressive A (← b1.motor.sandwich A c.anchor1)) f ∧
      ((∃ r, c.applyIndexed A rt (fuel + 2) tiny b0.motor b1.motor b0.inertiaInv b1.inertiaInv dt = .ok r) ↔ ¬ (coeff c.compliance 0 = 0 ∧ f = 0)) := by
  have hn : 2 ≤ A.n := by omega
  obtain ⟨⟨B, L, hb0⟩, -⟩ := m0.live hA hn hS0
  obtain ⟨⟨B', L', hb1⟩, -⟩ := m1.live hA hn hS1
  obtain ⟨rfl, rfl⟩ := live_same hb0 hb1
  obtain ⟨f, k, f1, f2, f3, k2, k3, k4, e⟩ := apply_reduce hA rt (fuel + 2) tiny hb0 hb1 hc w0 w1 wc hdt
  have hd : 0 < dt ^ 2 := by positivity
  have key := impulse_total hA h3 hN h0 hr (fuel := fuel + 1) hS0 hS1 m0 m1 u0 ht f2 f3 k2 k3 (by rw [k4]; positivity)
  have e2 : coeff k 0 = 0 ↔ coeff c.compliance 0 = 0 := by
    rw [k4, div_eq_zero_iff, or_iff_left hd.ne']
  rw [e2] at key
  refine ⟨val A f, ⟨f, f1, f2, rfl⟩, Iff.trans ?_ key⟩
  rw [e]
  constructor
  · rintro ⟨r, h⟩
    obtain ⟨s, hs, -⟩ := bind_ok h
    exact ⟨s, hs⟩
  · rintro ⟨s, hs⟩
    obtain ⟨s1, s2, s3, s4, -⟩ := impulse_ok hA h3 two_ne_zero h0 hr.law hS0 hS1 m0 m1 u0 u1 f2 f3 k2 k3 hs
    have t0 : s.1.sub = B := Option.some.inj (s3.symm.trans hb0.bivector)
    have t1 : s.2.sub = B := Option.some.inj (s4.symm.trans hb0.bivector)
    obtain ⟨y0, y01⟩ := addStep_exists hA (by omega) hn hN hr (fuel := fuel + 2) (by omega) hb0.motorWf s1 (fun a ha => ((hb0.spaceB.2 a).1 (t0 ▸ ha)).2)
    obtain ⟨y1, y11⟩ := addStep_exists hA (by omega) hn hN hr (fuel := fuel + 2) (by omega) hb1.motorWf s2 (fun a ha => ((hb0.spaceB.2 a).1 (t1 ▸ ha)).2)
    exact ⟨(y0, y1), by rw [hs, ok_bind, y01, ok_bind, y11, ok_bind]⟩

end
/-! ### examples -/

theorem anchor_meet : coef pga2s ℝ 1 (meet pga2s ℝ (val pga2s (⟨cloudSub, [1, 0, 0]⟩ : MV ℝ)) (comm pga2s ℝ (val pga2s (⟨cloudSub, [1, 0, 0]⟩ : MV ℝ))
    (val pga2s (⟨cloudSub, [2, 3, 1]⟩ : MV ℝ)))) = 1 := by
  have e1 : val pga2s (⟨cloudSub, [1, 0, 0]⟩ : MV ℝ) = blade pga2s ℝ 3 := by simp [val, denote, cloudSub]
  have e2 : val pga2s (⟨cloudSub, [2, 3, 1]⟩ : MV ℝ) = (2 : ℝ) • blade pga2s ℝ 3 + ((3 : ℝ) • blade pga2s ℝ 5 + blade pga2s ℝ 6) := by
    simp [val, denote, cloudSub]
  have c1 : comm pga2s ℝ (blade pga2s ℝ 3) (blade pga2s ℝ 3) = 0 := by
    rw [comm_blade_cast (by decide) (by decide), show halfSign (sgn pga2s) (-1) 3 3 = 0 by decide +kernel]
    simp
  have c2 : comm pga2s ℝ (blade pga2s ℝ 3) (blade pga2s ℝ 5) = (-1 : ℝ) • blade pga2s ℝ 6 := by
    rw [comm_blade_cast (by decide) (by decide), show halfSign (sgn pga2s) (-1) 3 5 = -1 by decide +kernel]
    simp
  have c3 : comm pga2s ℝ (blade pga2s ℝ 3) (blade pga2s ℝ 6) = (1 : ℝ) • blade pga2s ℝ 5 := by
    rw [comm_blade_cast (by decide) (by decide), show halfSign (sgn pga2s) (-1) 3 6 = 1 by decide +kernel]
    simp
  have e3 : comm pga2s ℝ (blade pga2s ℝ 3) ((2 : ℝ) • blade pga2s ℝ 3 + ((3 : ℝ) • blade pga2s ℝ 5 + blade pga2s ℝ 6)) =
      (0 : ℝ) • blade pga2s ℝ 3 + ((1 : ℝ) • blade pga2s ℝ 5 + (-3 : ℝ) • blade pga2s ℝ 6) := by
    rw [map_add, map_add, map_smul, map_smul, c1, c2, c3, smul_smul, smul_zero, zero_smul, add_comm ((3 * -1 : ℝ) • _)]
    norm_num
  rw [e1, e2, e3, (cloud_meets (1 : ℝ) 0 (-3)).1]
  simp [coef_blade pga2s ℝ (show 1 < 2 ^ pga2s.n by decide), coef_blade pga2s ℝ (show 2 < 2 ^ pga2s.n by decide)]

/-- A hinge in the origin between two bodies of the plane, one of them moving and the other at rest: a step exists for the positions and for the
velocities; between the resting body and itself none for the velocities. -/
theorem plane_hinge : ∃ (b0 b1 : Body ℝ) (c : Constraint ℝ), Made pga2s cloudSub cloudRows b0 ∧ Made pga2s cloudSub cloudRows b1 ∧
    val pga2s b0.motor * CliffordAlgebra.reverse (val pga2s b0.motor) = 1 ∧ val pga2s b1.motor * CliffordAlgebra.reverse (val pga2s b1.motor) = 1 ∧
    c.init pga2s = .ok c ∧ WfMV pga2s c.anchor0 ∧ WfMV pga2s c.anchor1 ∧ WfMV pga2s c.compliance ∧
    (∃ r, c.vApplyIndexed pga2s (realRoots 1) 4 (1 / 10) b0.motor b1.motor b0.rate b1.rate b0.inertiaInv b1.inertiaInv = .ok r) ∧
    (∃ r, c.vApplyIndexed pga2s (realRoots 1) 4 (1 / 10) b1.motor b0.motor b1.rate b0.rate b1.inertiaInv b0.inertiaInv = .ok r) ∧
    (¬ ∃ r, c.vApplyIndexed pga2s (realRoots 1) 4 (1 / 10) b1.motor b1.motor b1.rate b1.rate b1.inertiaInv b1.inertiaInv = .ok r) ∧
    (∃ r, c.applyIndexed pga2s (realRoots 1) 4 (1 / 10) b0.motor b1.motor b0.inertiaInv b1.inertiaInv (1 / 60) = .ok r) := by
  obtain ⟨b0, h0, -, u0, r0, -⟩ := cloud_made (R := ℝ)
  obtain ⟨b1, hb1⟩ := cloud_exists (R := ℝ)
  obtain ⟨u1, r1, -⟩ := C93_rest wf_pga2s (by decide) wf_cloudSub hb1
  have h1 : Made pga2s cloudSub cloudRows b1 := .cloud hb1
  have one : ∀ {b : Body ℝ}, val pga2s b.motor = 1 → val pga2s b.motor * CliffordAlgebra.reverse (val pga2s b.motor) = 1 := fun h => by
    rw [h, CliffordAlgebra.reverse.map_one, one_mul]
  have hsc : pga2s.scalar = some ⟨[0]⟩ := by decide +kernel
  have hav : pga2s.antivector = some cloudSub := by decide +kernel
  have hN : ∀ s ∈ pga2s.desc.sig, 0 ≤ s := by decide
  have hs0 : ∃ j < pga2s.n, pga2s.desc.sig.getD j 0 ≠ 0 := ⟨0, by decide, by decide⟩
  let c : Constraint ℝ := ⟨⟨cloudSub, [1, 0, 0]⟩, ⟨cloudSub, [1, 0, 0]⟩, ⟨⟨[0]⟩, [1 / 1000000000]⟩⟩
  have hc : c.init pga2s = .ok c := by
    simp [Constraint.init, hav, hsc, c]
  have wa : WfMV pga2s (⟨cloudSub, [1, 0, 0]⟩ : MV ℝ) := ⟨wf_cloudSub, rfl⟩
  have wc : WfMV pga2s c.compliance := ⟨wfSub_of_B (show wfSubB pga2s ⟨[0]⟩ = true by decide +kernel), rfl⟩
  obtain ⟨⟨B, L, l0⟩, -⟩ := h0.live wf_pga2s (by decide) wf_cloudSub
  obtain ⟨⟨B', L', l1⟩, -⟩ := h1.live wf_pga2s (by decide) wf_cloudSub
  obtain ⟨x0, x1, g0, g1, g2⟩ := C97_velocity_total wf_pga2s rfl hN hs0 (realRoots_law 1) (fuel := 3) wf_cloudSub wf_cloudSub h0 h1 (one u0) (one u1) hc wa wa wc
    (tiny := 1 / 10) (by norm_num)
  obtain ⟨y0, y1, k0, k1, k2⟩ := C97_velocity_total wf_pga2s rfl hN hs0 (realRoots_law 1) (fuel := 3) wf_cloudSub wf_cloudSub h1 h1 (one u1) (one u1) hc wa wa wc
    (tiny := 1 / 10) (by norm_num)
  obtain ⟨x0', x1', g0', g1', g2'⟩ := C97_velocity_total wf_pga2s rfl hN hs0 (realRoots_law 1) (fuel := 3) wf_cloudSub wf_cloudSub h1 h0 (one u1) (one u0) hc wa wa wc
    (tiny := 1 / 10) (by norm_num)
  obtain ⟨f, -, p2⟩ := C97_position_total wf_pga2s rfl hN hs0 (realRoots_law 1) (fuel := 2) wf_cloudSub wf_cloudSub h0 h1 (one u0) (one u1) hc wa wa wc
    (show (0 : ℝ) ≤ coeff (⟨⟨[0]⟩, [1 / 1000000000]⟩ : MV ℝ) 0 by simp [coeff]) (tiny := 1 / 10) (dt := 1 / 60) (by norm_num) (by norm_num)
  refine ⟨b0, b1, c, h0, h1, one u0, one u1, hc, wa, wa, wc, g2.2 ?_, g2'.2 ?_, ?_, p2.2 ?_⟩
  · obtain ⟨z0, z1, z2, z3, z4⟩ := anchorVelocity_in wf_pga2s l0 wa hav l0.rateWf l0.rateSub
    obtain ⟨z0', z1', z2', z3', z4'⟩ := anchorVelocity_in wf_pga2s l1 wa hav l1.rateWf l1.rateSub
    rw [← (g0.val z1).2, ← (g1.val z1').2, z4, z4', r1, map_zero, map_zero, mul_zero, zero_mul, map_zero, u0, r0, one_mul, CliffordAlgebra.reverse.map_one, mul_one]
    intro h
    have h' := congrArg (coef pga2s ℝ 1) h
    rw [gradePart_eq_proj, coef_proj, if_pos (by decide +kernel), anchor_meet, map_zero] at h'
    exact one_ne_zero h'
  · obtain ⟨z0, z1, z2, z3, z4⟩ := anchorVelocity_in wf_pga2s l0 wa hav l0.rateWf l0.rateSub
    obtain ⟨z0', z1', z2', z3', z4'⟩ := anchorVelocity_in wf_pga2s l1 wa hav l1.rateWf l1.rateSub
    rw [← (g1'.val z1).2, ← (g0'.val z1').2, z4, z4', r1, map_zero, map_zero, mul_zero, zero_mul, map_zero, u0, r0, one_mul, CliffordAlgebra.reverse.map_one, mul_one]
    intro h
    have h := h.symm
    have h' := congrArg (coef pga2s ℝ 1) h
    rw [gradePart_eq_proj, coef_proj, if_pos (by decide +kernel), anchor_meet, map_zero] at h'
    exact one_ne_zero h'
  · rw [k2]
    obtain ⟨z0, z1, z2, z3⟩ := k0
    obtain ⟨-, e⟩ := k1.val z1
    exact fun h => h (z3.symm.trans e)
  · rintro ⟨h, -⟩
    simp [coeff, c] at h

end Verif.Props
