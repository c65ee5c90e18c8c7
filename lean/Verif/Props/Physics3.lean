import Verif.Proofs.Physics9
import Verif.Proofs.Physics11
import Verif.Props.Physics
/-! # Constraints between bodies (C96) -/
namespace Verif.Props
open Model Spec Model.Factory

variable {A : Alg} {R : Type}

theorem live_same [Field R] [DecidableEq R] {b0 b1 : Body R} {ps0 ps1 : List (Cl A R)} {B L B' L' : SubSpace} (h0 : Live A b0 ps0 B L)
    (h1 : Live A b1 ps1 B' L') : B = B' ∧ L = L' :=
  ⟨Option.some.inj (h0.bivector.symm.trans h1.bivector), Option.some.inj (h0.antibivector.symm.trans h1.antibivector)⟩

/-! ## C96 -/

section
variable [Field R] [DecidableEq R]

/-- C96: `distribute_forque` for two bodies made of points, directions `d0` and `d1` and a scalar magnitude: with the compliances
`c = inertia_inv(d) & d` of the bodies the multiplier `l` solves `(compliance + c0 + c1) l = magnitude`, and the steps are those of the impulses
`d0 l / 2` and `- d1 l / 2`.  If the sum of the compliances is zero the
division fails. -/
theorem C96_distribute (hA : WfAlg A) (hn : 2 ≤ A.n) (fuel : Nat) {S0 S1 : SubSpace} (hS0 : WfSub A S0) (hS1 : WfSub A S1)
    {rows0 rows1 : List (List R)} {b0 b1 : Body R} (h0 : Made A S0 rows0 b0) (h1 : Made A S1 rows1 b1) {d0 d1 mag comp : MV R}
    (w0 : WfMV A d0) (w1 : WfMV A d1) (l0 : A.antibivector = some d0.sub) (l1 : A.antibivector = some d1.sub) (wm : WfMV A mag) (ws : WfMV A comp)
    (hm : mag.sub = ⟨[0]⟩) (hs : comp.sub = ⟨[0]⟩) :
    ∃ c0 c1 : R, Gives A (do (← einsumCallMV b0.inertiaInv [d0]).regressive A d0) (c0 • 1) ∧
      Gives A (do (← einsumCallMV b1.inertiaInv [d1]).regressive A d1) (c1 • 1) ∧
      (coeff comp 0 + c0 + c1 ≠ 0 → ∃ r0 r1 l, Constraint.distributeForque A fuel d0 d1 mag b0.inertiaInv b1.inertiaInv comp = .ok (r0, r1) ∧
        (coeff comp 0 + c0 + c1) * l = coeff mag 0 ∧ WfMV A r0 ∧ WfMV A r1 ∧ A.bivector = some r0.sub ∧ A.bivector = some r1.sub ∧
        Gives A (einsumCallMV b0.inertia [r0]) ((l / 2) • val A d0) ∧ Gives A (einsumCallMV b1.inertia [r1]) (-(l / 2) • val A d1)) ∧
      (coeff comp 0 + c0 + c1 = 0 →
        Constraint.distributeForque A (fuel + 1) d0 d1 mag b0.inertiaInv b1.inertiaInv comp = .error .divZero) := by
  obtain ⟨⟨B, L, hb0⟩, -⟩ := h0.live hA hn hS0
  obtain ⟨⟨B', L', hb1⟩, -⟩ := h1.live hA hn hS1
  obtain ⟨rfl, rfl⟩ := live_same hb0 hb1
  have l0' : d0.sub = L := Option.some.inj (l0.symm.trans hb0.antibivector)
  have l1' : d1.sub = L := Option.some.inj (l1.symm.trans hb0.antibivector)
  obtain ⟨s0, s1, c0, c1, a1, a2, a3, a4, a5, a6, a7, a8, a9, a10, a11, a12⟩ := distribute_spec hA hb0 hb1 w0 w1 l0' l1' wm (scalar_val wm hm)
    (Sc.of ws (fun e he => hs ▸ he) (scalar_val ws hs))
  refine ⟨c0, c1, ?_, ?_, fun hne => ?_, fun he => a12 fuel (by rw [← add_assoc, he]) (by rw [hm]; simp)⟩
  · rw [a1, ← a9, meet_eq]
    exact regressive_gives hA a3 w0
  · rw [a2, ← a10, meet_eq]
    exact regressive_gives hA a4 w1
  · obtain ⟨r0, r1, e1, e2, e3, e4, e5, -, e6⟩ := a11 fuel (by rwa [← add_assoc])
    obtain ⟨e6, e7⟩ := e6 (.inl hm)
    refine ⟨r0, r1, (coeff comp 0 + c0 + c1)⁻¹ * coeff mag 0, e1, by rw [mul_inv_cancel_left₀ hne], e2, e3, by rw [e6]; exact hb0.bivector, by rw [e7]; exact hb0.bivector, ?_, ?_⟩
    · refine (hb0.inertia.call e2 e6).gives.congr ?_
      rw [e4, map_smul, a7, hb0.right _ ⟨d0, w0, l0', rfl⟩, ← add_assoc]
      congr 1
      ring
    · refine (hb1.inertia.call e3 e7).gives.congr ?_
      rw [e5, map_smul, a8, hb1.right _ ⟨d1, w1, l1', rfl⟩, ← add_assoc]
      congr 1
      ring

/-- C96: the steps of `distribute_forque` move the bodies relative to each other along the direction by only half of what the multiplier
accounts for: `steps[0] & d0 - steps[1] & d1 = (magnitude - compliance l) / 2`, so half of the violation for zero compliance. -/
theorem C96_half (hA : WfAlg A) (hn : 2 ≤ A.n) (h2 : (2 : R) ≠ 0) (fuel : Nat) {S0 S1 : SubSpace} (hS0 : WfSub A S0) (hS1 : WfSub A S1)
    {rows0 rows1 : List (List R)} {b0 b1 : Body R} (h0 : Made A S0 rows0 b0) (h1 : Made A S1 rows1 b1) {d0 d1 mag comp r0 r1 : MV R}
    (w0 : WfMV A d0) (w1 : WfMV A d1) (l0 : A.antibivector = some d0.sub) (l1 : A.antibivector = some d1.sub) (wm : WfMV A mag) (ws : WfMV A comp)
    (hm : mag.sub = ⟨[0]⟩) (hs : comp.sub = ⟨[0]⟩)
    (h : Constraint.distributeForque A (fuel + 1) d0 d1 mag b0.inertiaInv b1.inertiaInv comp = .ok (r0, r1)) :
    ∃ x0 x1 c0 c1 : R, Gives A (do (← einsumCallMV b0.inertiaInv [d0]).regressive A d0) (c0 • 1) ∧
      Gives A (do (← einsumCallMV b1.inertiaInv [d1]).regressive A d1) (c1 • 1) ∧ Gives A (r0.regressive A d0) (x0 • 1) ∧
      Gives A (r1.regressive A d1) (x1 • 1) ∧ 2 * (x0 - x1) * (coeff comp 0 + c0 + c1) = coeff mag 0 * (c0 + c1) ∧
      (coeff comp 0 = 0 → x0 - x1 = coeff mag 0 / 2) := by
  obtain ⟨⟨B, L, hb0⟩, -⟩ := h0.live hA hn hS0
  obtain ⟨⟨B', L', hb1⟩, -⟩ := h1.live hA hn hS1
  obtain ⟨rfl, rfl⟩ := live_same hb0 hb1
  have l0' : d0.sub = L := Option.some.inj (l0.symm.trans hb0.antibivector)
  have l1' : d1.sub = L := Option.some.inj (l1.symm.trans hb0.antibivector)
  obtain ⟨c0, c1, l, a1, a2, a3, a4, a5, a6, a7, a8, -, a9⟩ := distribute_ok hA hb0 hb1 w0 w1 l0' l1' wm (scalar_val wm hm)
    (Sc.of ws (fun e he => hs ▸ he) (scalar_val ws hs)) (by rw [hm]; simp) h
  obtain ⟨s0, s01, -, s03, s04⟩ := hb0.inverse.call w0 l0'
  obtain ⟨s1, s11, -, s13, s14⟩ := hb1.inverse.call w1 l1'
  have e : 2 * (l / 2 * c0 - -(l / 2) * c1) * (coeff comp 0 + c0 + c1) = coeff mag 0 * (c0 + c1) := by
    rw [← a4]; field_simp; ring
  refine ⟨l / 2 * c0, -(l / 2) * c1, c0, c1, ?_, ?_, ?_, ?_, e, fun h0 => ?_⟩
  · rw [s01, ← a1, ← s04, meet_eq]
    exact regressive_gives hA s03 w0
  · rw [s11, ← a2, ← s14, meet_eq]
    exact regressive_gives hA s13 w1
  · refine (regressive_gives hA a5 w0).congr ?_
    rw [← meet_eq, a7, map_smul, LinearMap.smul_apply, a1, smul_smul]
  · refine (regressive_gives hA a6 w1).congr ?_
    rw [← meet_eq, a8, map_smul, LinearMap.smul_apply, a2, smul_smul]
  · rw [h0, zero_add] at a3 a4
    rw [← a4]
    field_simp
    ring

/-- The momenta of the steps of `distribute_forque`, seen from the world. -/
theorem distribute_momentum (hA : WfAlg A) (h5 : A.n < 6) (hn : 2 ≤ A.n) (h2 : (2 : R) ≠ 0) (fuel : Nat) {S0 S1 : SubSpace} (hS0 : WfSub A S0) (hS1 : WfSub A S1)
    {rows0 rows1 : List (List R)} {b0 b1 : Body R} (h0 : Made A S0 rows0 b0) (h1 : Made A S1 rows1 b1)
    (u0 : val A b0.motor * CliffordAlgebra.reverse (val A b0.motor) = 1) (u1 : val A b1.motor * CliffordAlgebra.reverse (val A b1.motor) = 1)
    {d d0 d1 mag comp r0 r1 : MV R} (wd : WfMV A d) (ld : A.antibivector = some d.sub) (hd0 : b0.motor.reverseSandwich A d = some d0)
    (hd1 : b1.motor.reverseSandwich A d = some d1) (wm : WfMV A mag) (ws : WfMV A comp) {m : R} (hm : val A mag = m • 1) (hf : Flat A mag.sub) (hs : comp.sub = ⟨[0]⟩)
    (h : Constraint.distributeForque A (fuel + 1) d0 d1 mag b0.inertiaInv b1.inertiaInv comp = .ok (r0, r1)) :
    WfMV A r0 ∧ WfMV A r1 ∧ A.bivector = some r0.sub ∧ A.bivector = some r1.sub ∧ ∃ q : Cl A R, Gives A (do b0.motor.sandwich A (← einsumCallMV b0.inertia [r0])) q ∧
      Gives A (do b1.motor.sandwich A (← einsumCallMV b1.inertia [r1])) (-q) := by
  obtain ⟨⟨B, L, hb0⟩, -⟩ := h0.live hA hn hS0
  obtain ⟨⟨B', L', hb1⟩, -⟩ := h1.live hA hn hS1
  obtain ⟨rfl, rfl⟩ := live_same hb0 hb1
  have hz := hf.zero
  have ld' : d.sub = L := Option.some.inj (ld.symm.trans hb0.antibivector)
  have hL : IsSpace A L fun b => popcount b = A.n - 2 := hb0.spaceL.congr fun b _ => by omega
  have key : ∀ {b : Body R} {ps : List (Cl A R)}, Live A b ps B L → val A b.motor * CliffordAlgebra.reverse (val A b.motor) = 1 → ∀ {e : MV R},
      b.motor.reverseSandwich A d = some e → WfMV A e ∧ e.sub = L ∧ ∀ {r : MV R} {x : R}, WfMV A r → r.sub = B →
        val A r = x • opMap A b.inertiaInv L B (val A e) → Gives A (do b.motor.sandwich A (← einsumCallMV b.inertia [r])) (x • val A d) := by
    intro b ps hb u e he
    obtain ⟨e', e1, e2, e3, e4⟩ := (turn_in hA hb.motorWf hb.motorZero wd (ld' ▸ hL)).2
    cases e1.symm.trans he
    rw [ld'] at e2
    refine ⟨e3, e2, fun {r x} hr hrs hv => ?_⟩
    obtain ⟨p, p1, p2, p3, p4⟩ := hb.inertia.call hr hrs
    rw [p1]
    have hE := val_even hA hb.motorWf hb.motorEven
    have hrev : CliffordAlgebra.involute (CliffordAlgebra.reverse (val A b.motor)) = CliffordAlgebra.reverse (val A b.motor) := by
      rw [← CliffordAlgebra.reverse_involute, hE]
    have gd : gradePart A R (A.n - 2) (val A d) = val A d := within_grade hL ⟨d, wd, ld', rfl⟩
    have t1 := even_turn hA h5 h2 (show A.n - 2 + 2 = A.n by omega) hrev gd
    rw [CliffordAlgebra.reverse_reverse] at t1
    rw [t1] at e4
    refine (turn_in hA hb.motorWf hb.motorZero p3 (p2 ▸ hL)).1.gives.congr ?_
    have : val A p = x • val A e := by rw [p4, hv, map_smul, hb.right _ ⟨e, e3, e2, rfl⟩]
    rw [this, e4, mul_smul_comm, smul_mul_assoc, map_smul]
    have : val A b.motor * (CliffordAlgebra.reverse (val A b.motor) * val A d * val A b.motor) * CliffordAlgebra.reverse (val A b.motor) = val A d := by
      rw [← mul_assoc, ← mul_assoc, u, one_mul, mul_assoc, u, mul_one]
    rw [this, gd]
  obtain ⟨w0, l0, k0⟩ := key hb0 u0 hd0
  obtain ⟨w1, l1, k1⟩ := key hb1 u1 hd1
  obtain ⟨c0, c1, l, -, -, -, -, a5, a6, a7, a8, -, a9⟩ := distribute_ok hA hb0 hb1 w0 w1 l0 l1 wm hm
    (Sc.of ws (fun e he => hs ▸ he) (scalar_val ws hs)) (fun h => by rw [h] at hz; cases hz) h
  obtain ⟨a9, a10⟩ := a9 hf
  exact ⟨a5, a6, by rw [a9]; exact hb0.bivector, by rw [a10]; exact hb0.bivector, (l / 2) • val A d, k0 a5 a9 a7, by rw [← neg_smul]; exact k1 a6 a10 a8⟩

/-- C96: `distribute_forque` conserves the momentum: for the directions `motor << d` of any direction `d` in the world the changes of the momenta of
the two bodies, seen from the world, are opposite. -/
theorem C96_momentum (hA : WfAlg A) (h5 : A.n < 6) (hn : 2 ≤ A.n) (h2 : (2 : R) ≠ 0) (fuel : Nat) {S0 S1 : SubSpace} (hS0 : WfSub A S0) (hS1 : WfSub A S1)
    {rows0 rows1 : List (List R)} {b0 b1 : Body R} (h0 : Made A S0 rows0 b0) (h1 : Made A S1 rows1 b1)
    (u0 : val A b0.motor * CliffordAlgebra.reverse (val A b0.motor) = 1) (u1 : val A b1.motor * CliffordAlgebra.reverse (val A b1.motor) = 1)
    {d d0 d1 mag comp r0 r1 : MV R} (wd : WfMV A d) (ld : A.antibivector = some d.sub) (hd0 : b0.motor.reverseSandwich A d = some d0)
    (hd1 : b1.motor.reverseSandwich A d = some d1) (wm : WfMV A mag) (ws : WfMV A comp) (hm : mag.sub = ⟨[0]⟩) (hs : comp.sub = ⟨[0]⟩)
    (h : Constraint.distributeForque A (fuel + 1) d0 d1 mag b0.inertiaInv b1.inertiaInv comp = .ok (r0, r1)) :
    ∃ q : Cl A R, Gives A (do b0.motor.sandwich A (← einsumCallMV b0.inertia [r0])) q ∧
      Gives A (do b1.motor.sandwich A (← einsumCallMV b1.inertia [r1])) (-q) :=
  (distribute_momentum hA h5 hn h2 fuel hS0 hS1 h0 h1 u0 u1 wd ld hd0 hd1 wm ws (scalar_val wm hm) (.inl hm) hs h).2.2.2.2

end
section
variable [Field R] [LinearOrder R] [IsStrictOrderedRing R] [DecidableEq R]

/-- The compliance of a body in a direction. -/
theorem compliance_pos (hA : WfAlg A) (hN : NonNeg A) {b : Body R} {ps : List (Cl A R)} {B L : SubSpace} (hb : Live A b ps B L) {d : MV R}
    (wd : WfMV A d) (ld : d.sub = L) : ∃ c : R, Gives A (do (← einsumCallMV b.inertiaInv [d]).regressive A d) (c • 1) ∧ 0 ≤ c ∧ (c = 0 ↔ val A d = 0) := by
  have hn := hb.two
  obtain ⟨s, s1, s2, s3, s4⟩ := hb.inverse.call wd ld
  have hc := hb.copy_total hA (m := none) (r := some s) rfl s2
  have hb' := hb.copy hA (m := none) (r := some s) (g := none) (d := none) (by simp) (by simpa using s3) (by simp) (by simp) hc
  obtain ⟨e, e1, e2, e3⟩ := hb'.positive hA hN
  simp only [Option.getD_some] at e1 e3
  have hL : IsSpace A L fun b => popcount b = A.n - 2 := hb.spaceL.congr fun b _ => by omega
  have wL : Within A L (val A d) := ⟨d, wd, ld, rfl⟩
  refine ⟨e, ?_, e2, e3.trans ⟨fun h => ?_, fun h => by rw [s4, h, map_zero]⟩⟩
  · rw [s1]
    refine (regressive_gives hA s3 wd).congr ?_
    rw [← meet_eq, meet_bivector_comm hA (show A.n - 2 + 2 = A.n by omega) (within_grade hb.spaceB ⟨s, s3, s2, rfl⟩) (within_grade hL wL), ← e1, s4, hb.right _ wL]
  · rw [← hb.right _ wL, ← s4, h, map_zero]

/-- C96: without negative basis vectors the compliances of the bodies are at least zero, and zero only for the direction zero; so
`distribute_forque` has a result for every compliance that is at least zero, unless this and both directions are zero. -/
theorem C96_total (hA : WfAlg A) (hn : 2 ≤ A.n) (hN : ∀ s ∈ A.desc.sig, 0 ≤ s) (fuel : Nat) {S0 S1 : SubSpace} (hS0 : WfSub A S0) (hS1 : WfSub A S1)
    {rows0 rows1 : List (List R)} {b0 b1 : Body R} (h0 : Made A S0 rows0 b0) (h1 : Made A S1 rows1 b1) {d0 d1 mag comp : MV R}
    (w0 : WfMV A d0) (w1 : WfMV A d1) (l0 : A.antibivector = some d0.sub) (l1 : A.antibivector = some d1.sub) (wm : WfMV A mag) (ws : WfMV A comp)
    (hm : mag.sub = ⟨[0]⟩) (hs : comp.sub = ⟨[0]⟩) (hc : 0 ≤ coeff comp 0) :
    (∃ r, Constraint.distributeForque A (fuel + 1) d0 d1 mag b0.inertiaInv b1.inertiaInv comp = .ok r) ↔
      ¬ (coeff comp 0 = 0 ∧ val A d0 = 0 ∧ val A d1 = 0) := by
  obtain ⟨⟨B, L, hb0⟩, -⟩ := h0.live hA hn hS0
  obtain ⟨⟨B', L', hb1⟩, -⟩ := h1.live hA hn hS1
  obtain ⟨rfl, rfl⟩ := live_same hb0 hb1
  have l0' : d0.sub = L := Option.some.inj (l0.symm.trans hb0.antibivector)
  have l1' : d1.sub = L := Option.some.inj (l1.symm.trans hb0.antibivector)
  obtain ⟨c0, p1, p2, p3⟩ := compliance_pos hA hN hb0 w0 l0'
  obtain ⟨c1, q1, q2, q3⟩ := compliance_pos hA hN hb1 w1 l1'
  have inj : ∀ {r : Option (MV R)} {x y : R}, Gives A r (x • 1) → Gives A r (y • 1) → x = y := by
    rintro r x y ⟨z, z1, -, z3⟩ g
    exact smul_one_inj (A := A) (z3.symm.trans (g.val z1).2)
  obtain ⟨c0', c1', g1, g2, g3, -⟩ := C96_distribute hA hn (fuel + 1) hS0 hS1 h0 h1 w0 w1 l0 l1 wm ws hm hs
  obtain ⟨c0'', c1'', g1', g2', -, g4⟩ := C96_distribute hA hn fuel hS0 hS1 h0 h1 w0 w1 l0 l1 wm ws hm hs
  obtain rfl := inj p1 g1
  obtain rfl := inj q1 g2
  obtain rfl := inj p1 g1'
  obtain rfl := inj q1 g2'
  constructor
  · rintro ⟨r, hr⟩ ⟨k1, k2, k3⟩
    rw [g4 (by rw [k1, p3.2 k2, q3.2 k3]; ring)] at hr
    cases hr
  · intro h
    obtain ⟨r0, r1, -, e, -⟩ := g3 fun h' => h ⟨by linarith, p3.1 (by linarith), q3.1 (by linarith)⟩
    exact ⟨_, e⟩

end

/-! ### examples -/

/-- Two bodies of the plane and a direction that meet the hypotheses of C96: the steps exist for compliance zero. -/
example : ∃ b0 b1 : Body ℚ, ∃ d0 d1 r0 r1 : MV ℚ, Made pga2s cloudSub cloudRows b0 ∧ Made pga2s cloudSub cloudRows b1 ∧
    val pga2s b0.motor * CliffordAlgebra.reverse (val pga2s b0.motor) = 1 ∧ b0.motor.reverseSandwich pga2s ⟨⟨[1, 2, 4]⟩, [3, 4, 5]⟩ = some d0 ∧
    b1.motor.reverseSandwich pga2s ⟨⟨[1, 2, 4]⟩, [3, 4, 5]⟩ = some d1 ∧ val pga2s d0 ≠ 0 ∧
    Constraint.distributeForque pga2s 4 d0 d1 ⟨⟨[0]⟩, [7]⟩ b0.inertiaInv b1.inertiaInv ⟨⟨[0]⟩, [0]⟩ = .ok (r0, r1) := by
  obtain ⟨b, hb, -, hm, -⟩ := cloud_made (R := ℚ)
  obtain ⟨⟨B, L, hl⟩, -⟩ := hb.live wf_pga2s (by decide) wf_cloudSub
  have hL : pga2s.antibivector = some ⟨[1, 2, 4]⟩ := by decide +kernel
  have wd : WfMV pga2s (⟨⟨[1, 2, 4]⟩, [3, 4, 5]⟩ : MV ℚ) := ⟨wfSub_of_B (by decide +kernel), rfl⟩
  obtain rfl : (⟨[1, 2, 4]⟩ : SubSpace) = L := Option.some.inj (hL.symm.trans hl.antibivector)
  have hL' : IsSpace pga2s ⟨[1, 2, 4]⟩ fun b => popcount b = 1 := hl.spaceL.congr fun b _ => by show _ + 2 = 3 ↔ _; omega
  obtain ⟨d0, e1, e2, e3, e4⟩ := (turn_in wf_pga2s hl.motorWf hl.motorZero wd hL').2
  have hne : val pga2s d0 ≠ 0 := by
    rw [e4, hm, CliffordAlgebra.reverse.map_one, one_mul, mul_one, within_grade hL' ⟨_, wd, rfl, rfl⟩]
    intro h
    have := congrArg (coef pga2s ℚ 1) h
    rw [← coeff_eq wd] at this
    simp [coeff] at this
  obtain ⟨⟨r0, r1⟩, hr⟩ := (C96_total wf_pga2s (by decide) (by decide) 3 wf_cloudSub wf_cloudSub hb hb (d0 := d0) (d1 := d0) (mag := ⟨⟨[0]⟩, [7]⟩)
    (comp := ⟨⟨[0]⟩, [0]⟩) e3 e3 (by rw [e2]; exact hL) (by rw [e2]; exact hL) ⟨wfSub_of_B (by decide +kernel), rfl⟩ ⟨wfSub_of_B (by decide +kernel), rfl⟩
    rfl rfl (by simp [coeff])).2 fun h => hne h.2.1
  exact ⟨b, b, d0, d0, r0, r1, hb, hb, by rw [hm, CliffordAlgebra.reverse.map_one, one_mul], e1, e1, hne, hr⟩

end Verif.Props
