import Verif.Proofs.LieIntegrators
import Verif.Props.Physics2
/-! # C100: Lie group integrators -/
namespace Verif.Props
open Model Spec Model.Factory

section
variable {A : Alg} {R : Type} [Field R] [DecidableEq R] (hA : WfAlg A) (h5 : A.n < 6) (h2 : (2 : R) ≠ 0) {fuel : Nat} (hf : 4 ≤ fuel)
  {B L : SubSpace} (hB : IsSpace A B fun b => popcount b = 2) (hL : IsSpace A L fun b => popcount b + 2 = A.n)
  {I J : Operator R} (hI : Unary A I B L) (hJ : Unary A J L B) {ext : MV R → MV R → Except Fail (MV R)} {F : Cl A R → Cl A R → Cl A R}
  (hF : Forces A B L I ext F) {solver : (List R → Except Fail (List R)) → List R → Except Fail (List R)}
include hA h5 h2 hf hB hL hI hJ hF

/-- C100: every integrator returns a unit motor and a rate, from a unit motor and a rate, whatever the solver of the implicit equation
returns. -/
theorem C100_unit {m r m' r' : MV R} (hm : WfMV A m) (he : EvenSub m.sub) (hu : val A m * CliffordAlgebra.reverse (val A m) = 1) (hr : WfMV A r)
    (hs : r.sub = B) {dt : R}
    (h : Lie.variationalLieVerlet A fuel solver I J ext m r dt = .ok (m', r') ∨ Lie.explicitLieNewmark A fuel solver I J ext m r dt = .ok (m', r') ∨
      Lie.explicitLieNewmarkRev A fuel solver I J ext m r dt = .ok (m', r') ∨ Lie.explicitRk1 A fuel I J ext m r dt = .ok (m', r') ∨
      Lie.explicitRk4 A fuel I J ext m r dt = .ok (m', r')) :
    WfMV A m' ∧ EvenSub m'.sub ∧ val A m' * CliffordAlgebra.reverse (val A m') = 1 ∧ WfMV A r' ∧ r'.sub = B := by
  have acts : ∀ u : Fin B.blades.length → R, ∃ w : Fin B.blades.length → R, Lie.rateDerivative A I J ext m (mvOf B u) = .ok (mvOf B w) := by
    intro u
    obtain ⟨d, d1, d2, d3, d4⟩ := inv_in hJ (forque_in hA hB hL hI hF hm he (wf_mvOf hB.1 u) rfl)
    obtain ⟨w, rfl⟩ := mvOf_of d3 d2
    exact ⟨w, d1⟩
  choose G hG using acts
  obtain ⟨u, hu'⟩ := mvOf_of hr hs
  rcases h with h | h | h | h | h
  · obtain ⟨rh, h1, h⟩ := bind_ok h
    obtain ⟨w1, w2⟩ := wrap_some hr h1
    obtain ⟨m1, h3, h⟩ := bind_ok (r := do lift (m.mul A (.mv (← Lie.exp2 A fuel (← (← lift (rh.mul A (.num dt))).truediv A fuel (.num (-4))))))) (by
      simpa only [bind_assoc] using h)
    obtain ⟨a1, a2, a3, -⟩ := verletMotor_spec hA hB h5 h2 hf hm he w1 (w2.trans hs) h3
    obtain ⟨r1, r2, r3, r4, r5⟩ := verlet_last hA hB hL hI hJ hF a1 a2 w1 (w2.trans hs) dt
    obtain ⟨r1', h4, h⟩ := bind_ok (r := do
      let f ← lift ((← Lie.forque A I ext m1 rh).add A (.mv (← Lie.energy A I dt rh)))
      lift (rh.add A (.mv (← lift ((← lift (einsumCallMV J [f])).mul A (.num (dt / 2))))))) (k := fun x => .ok (m1, x)) (by
      simpa only [bind_assoc] using h)
    cases r2.symm.trans h4
    cases h
    exact ⟨a1, a2, a3 hu, r4, r3⟩
  · obtain ⟨x, h1, h⟩ := bind_ok h
    obtain ⟨x1, x2, x3, x4, x5⟩ := impulse_in hA hB hL hI hF hm he hr hs dt
    cases x2.symm.trans h1
    obtain ⟨j, j1, j2, j3, j4⟩ := hJ.call x4 x3
    obtain ⟨j', h1, h⟩ := bind_ok h
    rw [j1, lift_some] at h1
    cases h1
    obtain ⟨y, y1, y2, y3, y4⟩ := (add_in hA hr j3 (by rw [j2, hs]; exact fun _ => id)).1
    obtain ⟨y', h1, h⟩ := bind_ok h
    rw [y1, lift_some] at h1
    cases h1
    obtain ⟨m1, h1, h⟩ := bind_ok h
    obtain ⟨a1, a2, a3, -⟩ := motorStep_spec hA hB h5 h2 hf hm he y3 (y2.trans hs) h1
    obtain ⟨k, k1, k2, k3, k4⟩ := (add_in hA y3 j3 (by rw [j2, y2, hs]; exact fun _ => id)).1
    obtain ⟨k', h1, h⟩ := bind_ok h
    rw [k1, lift_some] at h1
    cases h1
    obtain ⟨z, h1, h⟩ := bind_ok h
    obtain ⟨w1, w2⟩ := wrap_some k3 h1
    cases h
    exact ⟨a1, a2, a3 hu, w1, w2.trans (k2.trans (y2.trans hs))⟩
  · obtain ⟨x, h1, h⟩ := bind_ok h
    obtain ⟨x1, x2, x3, x4, x5⟩ := impulse_in hA hB hL hI hF hm he hr hs dt
    cases x2.symm.trans h1
    obtain ⟨j, j1, j2, j3, j4⟩ := hJ.call x4 x3
    obtain ⟨j', h1, h⟩ := bind_ok h
    rw [j1, lift_some] at h1
    cases h1
    obtain ⟨y, y1, y2, y3, y4⟩ := (add_in hA hr j3 (by rw [j2, hs]; exact fun _ => id)).1
    obtain ⟨y', h1, h⟩ := bind_ok h
    rw [y1, lift_some] at h1
    cases h1
    obtain ⟨rh, h1, h⟩ := bind_ok h
    obtain ⟨w1, w2⟩ := wrap_some y3 h1
    have ws := w2.trans (y2.trans hs)
    obtain ⟨m1, h1, h⟩ := bind_ok h
    obtain ⟨a1, a2, a3, -⟩ := motorStep_spec hA hB h5 h2 hf hm he w1 ws h1
    obtain ⟨p, h1, h⟩ := bind_ok h
    obtain ⟨p1, p2, p3, p4, p5⟩ := impulse_in hA hB hL hI hF a1 a2 w1 ws dt
    cases p2.symm.trans h1
    obtain ⟨q, q1, q2, q3, q4⟩ := hJ.call p4 p3
    obtain ⟨q', h1, h⟩ := bind_ok h
    rw [q1, lift_some] at h1
    cases h1
    obtain ⟨z, z1, z2, z3, z4⟩ := (add_in hA w1 q3 (by rw [q2, ws]; exact fun _ => id)).1
    obtain ⟨z', h1, h⟩ := bind_ok h
    rw [z1, lift_some] at h1
    cases h1
    cases h
    exact ⟨a1, a2, a3 hu, z3, z2.trans ws⟩
  · obtain ⟨x, h1, h⟩ := bind_ok h
    rw [hu', RK1_mvOf hA hB.1 hG] at h1
    cases h1
    obtain ⟨m1, h1, h⟩ := bind_ok h
    cases h
    obtain ⟨a1, a2, a3, -⟩ := motorStep_spec hA hB h5 h2 hf hm he (wf_mvOf hB.1 _) rfl h1
    exact ⟨a1, a2, a3 hu, wf_mvOf hB.1 _, rfl⟩
  · obtain ⟨x, h1, h⟩ := bind_ok h
    rw [hu', RK4_mvOf hA hB.1 hG] at h1
    cases h1
    obtain ⟨m1, h1, h⟩ := bind_ok h
    cases h
    obtain ⟨a1, a2, a3, -⟩ := motorStep_spec hA hB h5 h2 hf hm he (wf_mvOf hB.1 _) rfl h1
    exact ⟨a1, a2, a3 hu, wf_mvOf hB.1 _, rfl⟩

/-- C100: `explicit_lie_newmark` is reversible: when the solver has found a root, then the step back by `-dt` is the start, if the solver
finds the root that the start is. -/
theorem C100_newmark (hx : Exact solver) {m r m' r' : MV R} (hm : WfMV A m) (he : EvenSub m.sub) (hr : WfMV A r) (hs : r.sub = B) {dt : R}
    (h : Lie.explicitLieNewmark A fuel solver I J ext m r dt = .ok (m', r')) :
    ∃ (eq : List R → Except Fail (List R)) (x0 : List R), (∃ w, eq r.vals = .ok w ∧ ∀ a ∈ w, a = 0) ∧
      ∀ solver', solver' eq x0 = .ok r.vals → ∃ m'', Lie.explicitLieNewmark A fuel solver' I J ext m' r' (-dt) = .ok (m'', r) ∧
        WfMV A m'' ∧ val A m'' = val A m := by
  obtain ⟨x, h1, h⟩ := bind_ok h
  obtain ⟨x1, x2, x3, x4, x5⟩ := impulse_in hA hB hL hI hF hm he hr hs dt
  cases x2.symm.trans h1
  obtain ⟨j, j1, j2, j3, j4⟩ := hJ.call x4 x3
  obtain ⟨j', h1, h⟩ := bind_ok h
  rw [j1, lift_some] at h1
  cases h1
  obtain ⟨y, y1, y2, y3, y4⟩ := (add_in hA hr j3 (by rw [j2, hs]; exact fun _ => id)).1
  obtain ⟨y', h1, h⟩ := bind_ok h
  rw [y1, lift_some] at h1
  cases h1
  have ys := y2.trans hs
  obtain ⟨m1, h1, h⟩ := bind_ok h
  obtain ⟨a1, a2, a3, m'', b1, b2, b3, b4⟩ := motorStep_spec hA hB h5 h2 hf hm he y3 ys h1
  obtain ⟨k, k1, k2, k3, k4⟩ := (add_in hA y3 j3 (by rw [j2, ys]; exact fun _ => id)).1
  obtain ⟨k', h1, h⟩ := bind_ok h
  rw [k1, lift_some] at h1
  cases h1
  obtain ⟨z, h1, h⟩ := bind_ok h
  obtain ⟨w1, w2⟩ := wrap_some k3 h1
  have ws := w2.trans (k2.trans ys)
  obtain ⟨v, v1, v2⟩ := wrap_root hx k3 h1
  obtain ⟨n, n1, n2, n3, n4⟩ := newmark_in hA hB hL hI hJ hF a1 a2 y3 ys w1 ws dt
  cases n1.symm.trans v1
  rw [n4] at v2
  cases h
  -- the way back
  obtain ⟨p, p1, p2, p3, p4⟩ := impulse_in hA hB hL hI hF a1 a2 w1 ws (-dt)
  obtain ⟨q, q1, q2, q3, q4⟩ := hJ.call p3 p2
  obtain ⟨s, s1, s2, s3, s4⟩ := (add_in hA w1 q3 (by rw [q2, ws]; exact fun _ => id)).1
  obtain rfl : s = y := by
    refine mv_eq s3 y3 (s2.trans (ws.trans ys.symm)) ?_
    rw [s4, q4, p4, map_smul, neg_div, neg_smul, ← sub_eq_add_neg, ← sub_eq_zero, ← neg_eq_zero, ← v2]
    abel
  obtain ⟨t, t1, t2, t3, t4⟩ := (add_in hA s3 q3 (by rw [q2, ys]; exact fun _ => id)).1
  have ts := t2.trans ys
  refine ⟨wrapped (Lie.newmarkEquation A I J ext m'' s (-dt)) t, t.vals, wrapped_root hr (hs.trans ts.symm) (S := B) ?_, fun solver' h' => ⟨m'', ?_, b2, b4⟩⟩
  · obtain ⟨g, g1, g2, g3, g4⟩ := newmark_in hA hB hL hI hJ hF b2 b3 s3 ys hr hs (-dt)
    refine ⟨g, g1, g2, g3, ?_⟩
    rw [g4, b4, y4, j4, x5, map_smul]
    module
  · simp only [Lie.explicitLieNewmark, p1, q1, s1, b1, t1, lift_some, bind, Except.bind, wrap_of hr (hs.trans ts.symm) h']

/-- C100: `explicit_lie_newmark_rev` is reversible. -/
theorem C100_newmark_rev (hx : Exact solver) {m r m' r' : MV R} (hm : WfMV A m) (he : EvenSub m.sub) (hr : WfMV A r) (hs : r.sub = B) {dt : R}
    (h : Lie.explicitLieNewmarkRev A fuel solver I J ext m r dt = .ok (m', r')) :
    ∃ (rh : MV R) (eq : List R → Except Fail (List R)) (x0 : List R), (∃ w, eq rh.vals = .ok w ∧ ∀ a ∈ w, a = 0) ∧
      ∀ solver', solver' eq x0 = .ok rh.vals → ∃ m'', Lie.explicitLieNewmarkRev A fuel solver' I J ext m' r' (-dt) = .ok (m'', r) ∧
        WfMV A m'' ∧ val A m'' = val A m := by
  obtain ⟨x, h1, h⟩ := bind_ok h
  obtain ⟨x1, x2, x3, x4, x5⟩ := impulse_in hA hB hL hI hF hm he hr hs dt
  cases x2.symm.trans h1
  obtain ⟨j, j1, j2, j3, j4⟩ := hJ.call x4 x3
  obtain ⟨j', h1, h⟩ := bind_ok h
  rw [j1, lift_some] at h1
  cases h1
  obtain ⟨y, y1, y2, y3, y4⟩ := (add_in hA hr j3 (by rw [j2, hs]; exact fun _ => id)).1
  obtain ⟨y', h1, h⟩ := bind_ok h
  rw [y1, lift_some] at h1
  cases h1
  obtain ⟨rh, h1, h⟩ := bind_ok h
  obtain ⟨w1, w2⟩ := wrap_some y3 h1
  have ws := w2.trans (y2.trans hs)
  obtain ⟨v, v1, v2⟩ := wrap_root hx y3 h1
  obtain ⟨n, n1, n2, n3, n4⟩ := newmark_in hA hB hL hI hJ hF hm he hr hs w1 ws dt
  cases n1.symm.trans v1
  rw [n4] at v2
  obtain ⟨m1, h1, h⟩ := bind_ok h
  obtain ⟨a1, a2, a3, m'', b1, b2, b3, b4⟩ := motorStep_spec hA hB h5 h2 hf hm he w1 ws h1
  obtain ⟨p, h1, h⟩ := bind_ok h
  obtain ⟨p', p1, p2, p3, p4⟩ := impulse_in hA hB hL hI hF a1 a2 w1 ws dt
  cases p1.symm.trans h1
  obtain ⟨q, q1, q2, q3, q4⟩ := hJ.call p3 p2
  obtain ⟨q', h1, h⟩ := bind_ok h
  rw [q1, lift_some] at h1
  cases h1
  obtain ⟨z, z1, z2, z3, z4⟩ := (add_in hA w1 q3 (by rw [q2, ws]; exact fun _ => id)).1
  obtain ⟨z', h1, h⟩ := bind_ok h
  rw [z1, lift_some] at h1
  cases h1
  cases h
  have zs := z2.trans ws
  -- the way back
  obtain ⟨i, i1, i2, i3, i4⟩ := impulse_in hA hB hL hI hF a1 a2 z3 zs (-dt)
  obtain ⟨c, c1, c2, c3, c4⟩ := hJ.call i3 i2
  obtain ⟨s, s1, s2, s3, s4⟩ := (add_in hA z3 c3 (by rw [c2, zs]; exact fun _ => id)).1
  have ss := s2.trans zs
  refine ⟨rh, wrapped (Lie.newmarkEquation A I J ext m' r' (-dt)) s, s.vals, wrapped_root w1 (ws.trans ss.symm) (S := B) ?_, fun solver' h' => ⟨m'', ?_, b2, b4⟩⟩
  · obtain ⟨g, g1, g2, g3, g4⟩ := newmark_in hA hB hL hI hJ hF a1 a2 z3 zs w1 ws (-dt)
    refine ⟨g, g1, g2, g3, ?_⟩
    rw [g4, z4, q4, p4, map_smul]
    module
  · obtain ⟨d, d1, d2, d3, d4⟩ := impulse_in hA hB hL hI hF b2 b3 w1 ws (-dt)
    obtain ⟨e, e1, e2, e3, e4⟩ := hJ.call d3 d2
    obtain ⟨f, f1, f2, f3, f4⟩ := (add_in hA w1 e3 (by rw [e2, ws]; exact fun _ => id)).1
    obtain rfl : f = r := by
      refine mv_eq f3 hr (f2.trans (ws.trans hs.symm)) ?_
      rw [f4, e4, d4, b4, map_smul, neg_div, neg_smul, ← sub_eq_add_neg, ← sub_eq_zero, ← neg_eq_zero, ← v2]
      abel
    simp only [Lie.explicitLieNewmarkRev, i1, c1, s1, b1, d1, e1, f1, lift_some, bind, Except.bind, wrap_of w1 (ws.trans ss.symm) h']

/-- C100: `variational_lie_verlet` is reversible. -/
theorem C100_verlet (hx : Exact solver) {m r m' r' : MV R} (hm : WfMV A m) (he : EvenSub m.sub) (hr : WfMV A r) (hs : r.sub = B) {dt : R}
    (h : Lie.variationalLieVerlet A fuel solver I J ext m r dt = .ok (m', r')) :
    ∃ (rh : MV R) (eq : List R → Except Fail (List R)) (x0 : List R), (∃ w, eq rh.vals = .ok w ∧ ∀ a ∈ w, a = 0) ∧
      ∀ solver', solver' eq x0 = .ok rh.vals → ∃ m'', Lie.variationalLieVerlet A fuel solver' I J ext m' r' (-dt) = .ok (m'', r) ∧
        WfMV A m'' ∧ val A m'' = val A m := by
  obtain ⟨rh, h1, h⟩ := bind_ok h
  obtain ⟨w1, w2⟩ := wrap_some hr h1
  have ws := w2.trans hs
  obtain ⟨v, v1, v2⟩ := wrap_root hx hr h1
  obtain ⟨n, n1, n2, n3, n4⟩ := verlet_in hA hB hL hI hJ hF hm he hr hs w1 ws dt
  cases n1.symm.trans v1
  rw [n4] at v2
  obtain ⟨m1, h3, h⟩ := bind_ok (r := do lift (m.mul A (.mv (← Lie.exp2 A fuel (← (← lift (rh.mul A (.num dt))).truediv A fuel (.num (-4))))))) (by
    simpa only [bind_assoc] using h)
  obtain ⟨a1, a2, a3, m'', b1, b2, b3, b4⟩ := verletMotor_spec hA hB h5 h2 hf hm he w1 ws h3
  obtain ⟨r1, r2, r3, r4, r5⟩ := verlet_last hA hB hL hI hJ hF a1 a2 w1 ws dt
  obtain ⟨r1', h4, h⟩ := bind_ok (r := do
    let f ← lift ((← Lie.forque A I ext m1 rh).add A (.mv (← Lie.energy A I dt rh)))
    lift (rh.add A (.mv (← lift ((← lift (einsumCallMV J [f])).mul A (.num (dt / 2))))))) (k := fun x => .ok (m1, x)) (by
    simpa only [bind_assoc] using h)
  cases r2.symm.trans h4
  cases h
  refine ⟨rh, wrapped (Lie.verletEquation A I J ext m' r' (-dt)) r', r'.vals, wrapped_root w1 (ws.trans r3.symm) (S := B) ?_, fun solver' h' => ⟨m'', ?_, b2, b4⟩⟩
  · obtain ⟨g, g1, g2, g3, g4⟩ := verlet_in hA hB hL hI hJ hF a1 a2 r4 r3 w1 ws (-dt)
    refine ⟨g, g1, g2, g3, ?_⟩
    rw [g4, r5]
    simp only [map_add, map_sub, map_smul]
    module
  · obtain ⟨f, f1, f2, f3, f4⟩ := verlet_last hA hB hL hI hJ hF b2 b3 w1 ws (-dt)
    obtain rfl : f = r := by
      refine mv_eq f3 hr (f2.trans hs.symm) ?_
      rw [f4, b4, ← sub_eq_zero, ← neg_eq_zero, ← v2]
      simp only [map_add, map_sub, map_smul]
      module
    have e : Lie.variationalLieVerlet A fuel solver' I J ext m' r' (-dt) = (do
      let rateHalf ← Lie.solverWrap solver' (Lie.verletEquation A I J ext m' r' (-dt)) r'
      let motorNew ← (do lift (m'.mul A (.mv (← Lie.exp2 A fuel (← (← lift (rateHalf.mul A (.num (-dt)))).truediv A fuel (.num (-4)))))))
      let rateNew ← (do
        let f ← lift ((← Lie.forque A I ext motorNew rateHalf).add A (.mv (← Lie.energy A I (-dt) rateHalf)))
        lift (rateHalf.add A (.mv (← lift ((← lift (einsumCallMV J [f])).mul A (.num (-dt / 2)))))))
      .ok (motorNew, rateNew)) := by
      simp only [Lie.variationalLieVerlet, bind_assoc]
    rw [e, wrap_of w1 (ws.trans r3.symm) h']
    show ((do lift (m'.mul A (.mv (← Lie.exp2 A fuel (← (← lift (rh.mul A (.num (-dt)))).truediv A fuel (.num (-4)))))) : Except Fail (MV R)) >>= _) = _
    rw [b1]
    show ((do
        let f ← lift ((← Lie.forque A I ext m'' rh).add A (.mv (← Lie.energy A I (-dt) rh)))
        lift (rh.add A (.mv (← lift ((← lift (einsumCallMV J [f])).mul A (.num (-dt / 2)))))) : Except Fail (MV R)) >>= _) = _
    rw [f1]
    rfl

/-- C100: the Runge-Kutta methods integrate the rate with the motor held, `r' = J (F(m, r) - I(r) x r)`, by the explicit Euler method and by the classical method of
order four, and then turn the motor by the new rate; so does `explicit_lie_newmark` with the rate at half of the time. -/
theorem C100_rk {m r m' r' : MV R} (hm : WfMV A m) (he : EvenSub m.sub) (hr : WfMV A r) (hs : r.sub = B) {dt : R} {G : Cl A R → Cl A R}
    (hG : ∀ x, G x = opMap A J L B (F (val A m) x - comm A R (opMap A I B L x) x)) :
    (Lie.explicitRk1 A fuel I J ext m r dt = .ok (m', r') → Lie.motorStep A fuel m r' dt = .ok m' ∧ val A r' = val A r + dt • G (val A r)) ∧
    (Lie.explicitRk4 A fuel I J ext m r dt = .ok (m', r') → Lie.motorStep A fuel m r' dt = .ok m' ∧
      ∃ k1 k2 k3 k4, k1 = G (val A r) ∧ k2 = G (val A r + (dt / 2) • k1) ∧ k3 = G (val A r + (dt / 2) • k2) ∧ k4 = G (val A r + dt • k3) ∧
        val A r' = val A r + (dt / 3) • (k2 + k3 + (1 / 2 : R) • (k1 + k4))) ∧
    (Lie.explicitLieNewmark A fuel solver I J ext m r dt = .ok (m', r') → ∃ rh, Lie.motorStep A fuel m rh dt = .ok m' ∧ WfMV A rh ∧ rh.sub = B ∧
      val A rh = val A r + (dt / 2) • G (val A r)) := by
  have acts : ∀ u : Fin B.blades.length → R, ∃ w : Fin B.blades.length → R, Lie.rateDerivative A I J ext m (mvOf B u) = .ok (mvOf B w) ∧
      val A (mvOf B w) = G (val A (mvOf B u)) := by
    intro u
    obtain ⟨d, d1, d2, d3, d4⟩ := inv_in hJ (forque_in hA hB hL hI hF hm he (wf_mvOf hB.1 u) rfl)
    obtain ⟨w, rfl⟩ := mvOf_of d3 d2
    exact ⟨w, d1, d4.trans (hG _).symm⟩
  choose g g1 g2 using acts
  obtain ⟨u, rfl⟩ := mvOf_of hr hs
  have va : ∀ a b : Fin B.blades.length → R, val A (mvOf B (a + b)) = val A (mvOf B a) + val A (mvOf B b) := fun a b => by
    simp only [val_mvOf, Pi.add_apply, add_smul, Finset.sum_add_distrib]
  have vs : ∀ (c : R) (a : Fin B.blades.length → R), val A (mvOf B (c • a)) = c • val A (mvOf B a) := fun c a => by
    simp only [val_mvOf, Pi.smul_apply, smul_eq_mul, mul_smul, Finset.smul_sum]
  refine ⟨fun h => ?_, fun h => ?_, fun h => ?_⟩
  · obtain ⟨x, h1, h⟩ := bind_ok h
    rw [RK1_mvOf hA hB.1 g1] at h1
    cases h1
    obtain ⟨m1, h1, h⟩ := bind_ok h
    cases h
    exact ⟨h1, by rw [va, vs, g2]⟩
  · obtain ⟨x, h1, h⟩ := bind_ok h
    rw [RK4_mvOf hA hB.1 g1] at h1
    cases h1
    obtain ⟨m1, h1, h⟩ := bind_ok h
    cases h
    refine ⟨h1, _, _, _, _, rfl, rfl, rfl, rfl, ?_⟩
    simp only [RK.rk4, va, vs, g2, one_div_mul_eq_div]
  · obtain ⟨x, h1, h⟩ := bind_ok h
    obtain ⟨x1, x2, x3, x4, x5⟩ := impulse_in hA hB hL hI hF hm he hr hs dt
    cases x2.symm.trans h1
    obtain ⟨j, j1, j2, j3, j4⟩ := hJ.call x4 x3
    obtain ⟨j', h1, h⟩ := bind_ok h
    rw [j1, lift_some] at h1
    cases h1
    obtain ⟨y, y1, y2, y3, y4⟩ := (add_in hA hr j3 (by rw [j2, hs]; exact fun _ => id)).1
    obtain ⟨y', h1, h⟩ := bind_ok h
    rw [y1, lift_some] at h1
    cases h1
    obtain ⟨m1, h1, h⟩ := bind_ok h
    obtain ⟨k', -, h⟩ := bind_ok h
    obtain ⟨z, -, h⟩ := bind_ok h
    cases h
    refine ⟨y, h1, y3, y2.trans hs, ?_⟩
    rw [y4, j4, x5, map_smul, hG]
    rfl

end
section
variable {A : Alg} {R : Type} [Field R] [DecidableEq R] (hA : WfAlg A) (h5 : A.n < 6) (hn : 2 ≤ A.n) (h2 : (2 : R) ≠ 0) {rt : Roots R} (hrt : RootLaw rt)
  {fuel : Nat} (hf : 4 ≤ fuel)
include hA h5 hn h2 hrt hf

/-- The Cayley transform is the square of the normalised linear exponential of half the bivector. -/
theorem exp2_square {b t e k : MV R} (hb : WfMV A b) (hh : Homogeneous 2 b) (h : Lie.exp2 A fuel b = .ok e) (ht : WfMV A t)
    (hv : val A b = (2 : R) • val A t) (h' : t.expLinearNormalized A rt fuel = .ok k) : val A e = val A k * val A k := by
  obtain ⟨k1, k2, k3, k4, q, i, q1, q2, q3, q4, q5, -⟩ := exp_split hA hn h2 hrt (by omega) ht h'
  rw [Lie.exp2] at h
  rcases expCayley_spec hA h5 h2 hf hb hh hv with ⟨e', e1, e2, e3, hu, e5⟩ | ⟨hd, _⟩
  swap
  · rw [hd] at h; cases h
  cases e1.symm.trans h
  refine hu.mul_right_cancel (e5.trans ?_)
  have hrc := bivector_rev hA ht k3
  have e6 : val A k = i * (1 + val A t) := by rw [q5, mul_add, mul_one]
  have e7 : CliffordAlgebra.reverse (val A k) = (1 - val A t) * i := by
    rw [e6, CliffordAlgebra.reverse.map_mul, map_add, CliffordAlgebra.reverse.map_one, hrc, q3, sub_eq_add_neg]
  have c1 : (1 + val A t) * i = i * (1 + val A t) := by rw [add_mul, mul_add, one_mul, mul_one, q4.eq]
  have c2 : (1 - val A t) * i = i * (1 - val A t) := by rw [sub_mul, mul_sub, one_mul, mul_one, q4.eq]
  rw [e7, e6] at k4
  have e8 : i * i * ((1 + val A t) * (1 - val A t)) = 1 := by
    refine Eq.trans ?_ k4
    rw [c2, mul_assoc i (1 + val A t), ← mul_assoc (1 + val A t) i, c1]; simp only [mul_assoc]
  have e9 : val A k * val A k = (1 + val A t) * (1 + val A t) * (i * i) := by
    rw [e6, ← c1, show (1 + val A t) * i * ((1 + val A t) * i) = (1 + val A t) * (i * (1 + val A t)) * i by simp only [mul_assoc], ← c1]
    simp only [mul_assoc]
  rw [e9, mul_assoc, e8, mul_one]

/-- C100, speed: `variational_lie_verlet` turns the motor by two `motor_add_step`s of a quarter of `rate_half * dt` each, that is, it moves
the body by half of the rate that it has. -/
theorem C100_speed_verlet {B : SubSpace} (hB : IsSpace A B fun b => popcount b = 2) {I J : Operator R} {ext : MV R → MV R → Except Fail (MV R)}
    {solver : (List R → Except Fail (List R)) → List R → Except Fail (List R)} {m r m' r' : MV R} (hm : WfMV A m) (hr : WfMV A r)
    (hs : r.sub = B) {dt : R} (h : Lie.variationalLieVerlet A fuel solver I J ext m r dt = .ok (m', r')) :
    ∃ rh, Lie.solverWrap solver (Lie.verletEquation A I J ext m r dt) r = .ok rh ∧ WfMV A rh ∧
      ∀ s m1 m2, WfMV A s → Homogeneous 2 s → val A s = (dt / 4) • val A rh → motorAddStep A rt fuel m s = .ok m1 → motorAddStep A rt fuel m1 s = .ok m2 →
        val A m' = val A m2 := by
  have h4 : (-4 : R) ≠ 0 := by rw [show (-4 : R) = -(2 * 2) by norm_num]; exact neg_ne_zero.2 (mul_ne_zero h2 h2)
  obtain ⟨rh, h1, h⟩ := bind_ok h
  obtain ⟨w1, w2⟩ := wrap_some hr h1
  refine ⟨rh, h1, w1, fun s m1 m2 hs1 hs2 hsv hm1 hm2 => ?_⟩
  obtain ⟨d, h3, h⟩ := bind_ok h
  obtain ⟨t, t1, t2, t3, t4⟩ := num_in hA w1 dt
  rw [t1, lift_some] at h3
  cases h3
  obtain ⟨q, q1, q2, q3, q4⟩ := div_num hA fuel t3 h4
  obtain ⟨q', h3, h⟩ := bind_ok h
  cases q1.symm.trans h3
  obtain ⟨e, h3, h⟩ := bind_ok h
  have hq : Homogeneous 2 q := fun a ha => ((hB.2 a).1 (by rw [← hs, ← w2, ← t2, ← q3]; exact ha)).2
  obtain ⟨e1, e2, e3, -⟩ := exp2_spec hA h5 h2 hf q2 hq h3
  obtain ⟨y, y1, y2, y3⟩ := product_gives hA hm e1
  obtain ⟨m3, h', h⟩ := bind_ok h
  have h' := lift_ok h'
  rw [MV.mul] at h'
  cases y1.symm.trans h'
  have hm' : y = m' := by
    obtain ⟨_, -, h⟩ := bind_ok h
    obtain ⟨_, -, h⟩ := bind_ok h
    obtain ⟨_, -, h⟩ := bind_ok h
    obtain ⟨_, -, h⟩ := bind_ok h
    obtain ⟨_, -, h⟩ := bind_ok h
    obtain ⟨_, -, h⟩ := bind_ok h
    cases h
    rfl
  subst hm'
  -- the two steps
  obtain ⟨u, u1, u2, u3, u4⟩ := num_in hA hs1 (-1 / 2 : R)
  obtain ⟨u', h6, hm1⟩ := bind_ok hm1
  rw [u1, lift_some] at h6
  cases h6
  obtain ⟨k, h6, hm1⟩ := bind_ok hm1
  obtain ⟨u', h7, hm2⟩ := bind_ok hm2
  rw [u1, lift_some] at h7
  cases h7
  obtain ⟨k', h7, hm2⟩ := bind_ok hm2
  cases h6.symm.trans h7
  obtain ⟨k1, k2, -⟩ := exp_split hA hn h2 hrt (by omega) u3 h6
  obtain ⟨x, x1, x2, x3⟩ := product_gives hA hm k1
  have h8 := lift_ok hm1
  rw [MV.mul] at h8
  cases x1.symm.trans h8
  obtain ⟨z, z1, z2, z3⟩ := product_gives hA x2 k1
  have h9 := lift_ok hm2
  rw [MV.mul] at h9
  cases z1.symm.trans h9
  rw [y3, z3, x3, mul_assoc, exp2_square hA h5 hn h2 hrt hf q2 hq h3 u3 ?_ h6]
  have h44 : (4 : R) ≠ 0 := fun h => h4 (by rw [h, neg_zero])
  rw [q4, t4, u4, hsv, smul_smul, smul_smul, smul_smul]
  congr 1
  field_simp

/-- C100, speed: the step of the motor of the other integrators turns the reversed motor by two `motor_add_step`s of half of `rate * dt` each,
that is, by the rate that the body has. -/
theorem C100_speed_newmark {B : SubSpace} (hB : IsSpace A B fun b => popcount b = 2) {m r m' : MV R} (hm : WfMV A m) (hr : WfMV A r)
    (hs : r.sub = B) {dt : R} (h : Lie.motorStep A fuel m r dt = .ok m') {v s m1 m2 : MV R} (hv : m.reverse A = some v) (hs1 : WfMV A s)
    (hs2 : Homogeneous 2 s) (hsv : val A s = (dt / 2) • val A r) (hm1 : motorAddStep A rt fuel v s = .ok m1) (hm2 : motorAddStep A rt fuel m1 s = .ok m2) :
    CliffordAlgebra.reverse (val A m') = val A m2 := by
  obtain ⟨d, h3, h⟩ := bind_ok h
  obtain ⟨t, t1, t2, t3, t4⟩ := num_in hA hr dt
  rw [t1, lift_some] at h3
  cases h3
  obtain ⟨q, q1, q2, q3, q4⟩ := div_num hA fuel t3 h2
  obtain ⟨q', h3, h⟩ := bind_ok h
  cases q1.symm.trans h3
  obtain ⟨e, h3, h⟩ := bind_ok h
  have hq : Homogeneous 2 q := fun a ha => ((hB.2 a).1 (by rw [← hs, ← t2, ← q3]; exact ha)).2
  obtain ⟨e1, e2, e3, e4⟩ := exp2_spec hA h5 h2 hf q2 hq h3
  obtain ⟨y, y1, y2, y3⟩ := product_gives hA e1 hm
  have h' := lift_ok h
  rw [MV.mul] at h'
  cases y1.symm.trans h'
  obtain ⟨v', v1, v2, v3, v4⟩ := reverse_in hA hm
  cases v1.symm.trans hv
  -- the two steps
  obtain ⟨u, u1, u2, u3, u4⟩ := num_in hA hs1 (-1 / 2 : R)
  obtain ⟨u', h6, hm1⟩ := bind_ok hm1
  rw [u1, lift_some] at h6
  cases h6
  obtain ⟨k, h6, hm1⟩ := bind_ok hm1
  obtain ⟨u', h7, hm2⟩ := bind_ok hm2
  rw [u1, lift_some] at h7
  cases h7
  obtain ⟨k', h7, hm2⟩ := bind_ok hm2
  cases h6.symm.trans h7
  obtain ⟨k1, k2, -⟩ := exp_split hA hn h2 hrt (by omega) u3 h6
  obtain ⟨x, x1, x2, x3⟩ := product_gives hA v3 k1
  have h8 := lift_ok hm1
  rw [MV.mul] at h8
  cases x1.symm.trans h8
  obtain ⟨z, z1, z2, z3⟩ := product_gives hA x2 k1
  have h9 := lift_ok hm2
  rw [MV.mul] at h9
  cases z1.symm.trans h9
  -- the negative of the bivector
  obtain ⟨w, w1, w2, w3, w4⟩ := num_in hA hs1 (-1 : R)
  obtain ⟨e', f1, f2, f3, f4⟩ := e4 w w3 (fun a ha => hs2 a (w2 ▸ ha)) (by
    rw [w4, hsv, q4, t4, smul_smul, smul_smul, ← neg_smul]; congr 1; field_simp)
  have hre : CliffordAlgebra.reverse (val A e) = val A e' := by
    have := congrArg (val A e' * ·) e3
    simp only [← mul_assoc, f4, one_mul, mul_one] at this
    exact this
  rw [y3, CliffordAlgebra.reverse.map_mul, v4.symm, hre, z3, x3, mul_assoc,
    exp2_square hA h5 hn h2 hrt hf w3 (fun a ha => hs2 a (w2 ▸ ha)) f1 u3 ?_ h6]
  rw [w4, u4, smul_smul]
  congr 1
  field_simp

/-- C100: `exp4` takes the result of `log4` back to the motor. -/
theorem C100_log4 {m b : MV R} (hm : WfMV A m) (h1 : val A m * CliffordAlgebra.reverse (val A m) = 1) (h : Lie.log4 A rt fuel m = .ok b) :
    WfMV A b ∧ Homogeneous 2 b ∧ ∃ m', Lie.exp4 A fuel b = .ok m' ∧ WfMV A m' ∧ val A m' = val A m := by
  obtain ⟨k, h3, h⟩ := bind_ok h
  obtain ⟨k1, k2, k3⟩ := C51_square_root hA h2 hrt (by omega) hm h1 h3
  obtain ⟨l, h4, h⟩ := bind_ok h
  obtain ⟨l1, l2, -⟩ := C52_cayley_exp hA h5 hn h2 hrt hf k1 k3 h4
  obtain ⟨z, z1, z2, z3, z4⟩ := num_in hA l1 (2 : R)
  cases z1.symm.trans (lift_ok h)
  refine ⟨z3, fun a ha => l2 a (z2 ▸ ha), ?_⟩
  obtain ⟨q, q1, q2, q3, q4⟩ := div_num hA fuel z3 h2
  obtain rfl : q = l := mv_eq q2 l1 (q3.trans z2) (by rw [q4, z4, smul_smul, inv_mul_cancel₀ h2, one_smul])
  obtain ⟨-, -, g, g1, g2, g3⟩ := C52_cayley_exp hA h5 hn h2 hrt hf k1 k3 h4
  obtain ⟨o, o1, o2, o3⟩ := (C38_values hA g2).1
  refine ⟨o, ?_, o2, by rw [o3, g3, k2]⟩
  simp only [Lie.exp4, q1, Lie.exp2, g1, o1, lift_some, bind, Except.bind]

end

/-! ### examples -/
section
namespace LieEx
def bv : SubSpace := ⟨[3]⟩
def sc : SubSpace := ⟨[0]⟩
theorem bv_space : IsSpace euc2 bv fun b => popcount b = 2 :=
  ⟨wfSub_of_B (by decide +kernel), by
    intro b
    constructor
    · intro h
      rw [show b = 3 by simpa [bv] using h]
      decide +kernel
    · rintro ⟨h1, h2⟩
      have : b < 4 := h1
      interval_cases b <;> first | exact absurd h2 (by decide +kernel) | decide⟩
theorem sc_space : IsSpace euc2 sc fun b => popcount b + 2 = euc2.n :=
  ⟨wfSub_of_B (by decide +kernel), by
    intro b
    constructor
    · intro h
      rw [show b = 0 by simpa [sc] using h]
      decide +kernel
    · rintro ⟨h1, h2⟩
      have : b < 4 := h1
      interval_cases b <;> first | exact absurd h2 (by decide +kernel) | decide⟩
/-- A wheel with moment of inertia 2. -/
def wheel : Operator ℚ := ⟨⟨[1, 1], fun _ => 2⟩, [bv, sc]⟩
def wheelInv : Operator ℚ := ⟨⟨[1, 1], fun _ => 1 / 2⟩, [sc, bv]⟩
theorem wheel_un : Unary euc2 wheel bv sc := ⟨rfl, rfl, bv_space.1, sc_space.1⟩
theorem wheelInv_un : Unary euc2 wheelInv sc bv := ⟨rfl, rfl, sc_space.1, bv_space.1⟩
/-- A constant torque. -/
def motor4 (_ _ : MV ℚ) : Except Fail (MV ℚ) := .ok ⟨sc, [4]⟩
theorem motor4_forces : Forces euc2 bv sc wheel motor4 fun _ _ => val euc2 (⟨sc, [4]⟩ : MV ℚ) :=
  ⟨fun m r _ _ _ _ => ⟨_, rfl, ⟨sc_space.1, rfl⟩, fun _ h => h, rfl, fun _ _ _ _ _ h => Or.inl h⟩⟩
/-- A solver that returns one candidate when this is a root. -/
def checked (y : List ℚ) (fn : List ℚ → Except Fail (List ℚ)) (_ : List ℚ) : Except Fail (List ℚ) :=
  match fn y with
  | .ok w => if w.all (· == 0) then .ok y else .error .raised
  | .error e => .error e
theorem checked_exact (y : List ℚ) : Exact (checked y) := by
  intro fn x z h
  rw [checked] at h
  split at h
  · rename_i w hw
    split at h
    · rename_i ha
      cases h
      exact ⟨w, hw, fun a h => by simpa using List.all_eq_true.1 ha a h⟩
    · cases h
  · cases h

def m0 : MV ℚ := ⟨⟨[0, 3]⟩, [4/5, 3/5]⟩
def r0 : MV ℚ := ⟨bv, [1]⟩
theorem wf_m0 : WfMV euc2 m0 ∧ EvenSub m0.sub ∧ WfMV euc2 r0 :=
  ⟨⟨wfSub_of_B (by decide +kernel), rfl⟩, by unfold EvenSub; decide +kernel, bv_space.1, rfl⟩

/-- The wheel under a constant torque for the time 1/2: the rate goes from 1 to 2. -/
theorem run : Lie.explicitLieNewmark euc2 4 (checked [2]) wheel wheelInv motor4 m0 r0 (1/2) = .ok (⟨⟨[0, 3]⟩, [28/53, 45/53]⟩, ⟨bv, [2]⟩) := by
  decide +kernel
theorem run_rev : Lie.explicitLieNewmarkRev euc2 4 (checked [3/2]) wheel wheelInv motor4 m0 r0 (1/2) =
    .ok (⟨⟨[0, 3]⟩, [28/53, 45/53]⟩, ⟨bv, [2]⟩) := by decide +kernel
example : ∃ (eq : List ℚ → Except Fail (List ℚ)) (x0 : List ℚ), (∃ w, eq r0.vals = .ok w ∧ ∀ a ∈ w, a = 0) ∧
    ∀ solver', solver' eq x0 = .ok r0.vals → ∃ m'',
      Lie.explicitLieNewmark euc2 4 solver' wheel wheelInv motor4 ⟨⟨[0, 3]⟩, [28/53, 45/53]⟩ ⟨bv, [2]⟩ (-(1/2)) = .ok (m'', r0) ∧ WfMV euc2 m'' ∧ val euc2 m'' = val euc2 m0 :=
  C100_newmark wf_euc2 (by decide) (by norm_num) (by decide) bv_space sc_space wheel_un wheelInv_un motor4_forces (checked_exact _) wf_m0.1 wf_m0.2.1 wf_m0.2.2 rfl run
example : Lie.explicitLieNewmark euc2 4 (checked [1]) wheel wheelInv motor4 ⟨⟨[0, 3]⟩, [28/53, 45/53]⟩ ⟨bv, [2]⟩ (-(1/2)) = .ok (m0, r0) := by decide +kernel
example : ∃ (rh : MV ℚ) (eq : List ℚ → Except Fail (List ℚ)) (x0 : List ℚ), (∃ w, eq rh.vals = .ok w ∧ ∀ a ∈ w, a = 0) ∧
    ∀ solver', solver' eq x0 = .ok rh.vals → ∃ m'',
      Lie.explicitLieNewmarkRev euc2 4 solver' wheel wheelInv motor4 ⟨⟨[0, 3]⟩, [28/53, 45/53]⟩ ⟨bv, [2]⟩ (-(1/2)) = .ok (m'', r0) ∧ WfMV euc2 m'' ∧ val euc2 m'' = val euc2 m0 :=
  C100_newmark_rev wf_euc2 (by decide) (by norm_num) (by decide) bv_space sc_space wheel_un wheelInv_un motor4_forces (checked_exact _) wf_m0.1 wf_m0.2.1 wf_m0.2.2 rfl run_rev
/-- The variational method on the same wheel, with another torque. -/
def brake (_ _ : MV ℚ) : Except Fail (MV ℚ) := .ok ⟨sc, [-4]⟩
theorem brake_forces : Forces euc2 bv sc wheel brake fun _ _ => val euc2 (⟨sc, [-4]⟩ : MV ℚ) :=
  ⟨fun _ _ _ _ _ _ => ⟨_, rfl, ⟨sc_space.1, rfl⟩, fun _ h => h, rfl, fun _ _ _ _ _ h => Or.inl h⟩⟩
theorem wf_r1 : WfMV euc2 (⟨bv, [-2]⟩ : MV ℚ) := ⟨bv_space.1, rfl⟩
theorem run_verlet : Lie.variationalLieVerlet euc2 4 (checked [1]) wheel wheelInv brake m0 ⟨bv, [-2]⟩ 6 =
    .ok (⟨⟨[0, 3]⟩, [4/5, -3/5]⟩, ⟨bv, [-14]⟩) := by decide +kernel
example : ∃ (rh : MV ℚ) (eq : List ℚ → Except Fail (List ℚ)) (x0 : List ℚ), (∃ w, eq rh.vals = .ok w ∧ ∀ a ∈ w, a = 0) ∧
    ∀ solver', solver' eq x0 = .ok rh.vals → ∃ m'',
      Lie.variationalLieVerlet euc2 4 solver' wheel wheelInv brake ⟨⟨[0, 3]⟩, [4/5, -3/5]⟩ ⟨bv, [-14]⟩ (-6) = .ok (m'', ⟨bv, [-2]⟩) ∧ WfMV euc2 m'' ∧
        val euc2 m'' = val euc2 m0 :=
  C100_verlet wf_euc2 (by decide) (by norm_num) (by decide) bv_space sc_space wheel_un wheelInv_un brake_forces (checked_exact _) wf_m0.1 wf_m0.2.1 wf_r1 rfl run_verlet
example : Lie.variationalLieVerlet euc2 4 (checked [1]) wheel wheelInv brake ⟨⟨[0, 3]⟩, [4/5, -3/5]⟩ ⟨bv, [-14]⟩ (-6) = .ok (m0, ⟨bv, [-2]⟩) := by
  decide +kernel
/-- At the rate 1 for the time 6 the variational method turns the motor by two steps of 3/2, which is what `motor_add_step` does in the time 3. -/
example : (∃ rh, Lie.solverWrap (checked [1]) (Lie.verletEquation euc2 wheel wheelInv brake m0 ⟨bv, [-2]⟩ 6) ⟨bv, [-2]⟩ = .ok rh ∧ WfMV euc2 rh ∧
      ∀ s m1 m2, WfMV euc2 s → Homogeneous 2 s → val euc2 s = (6 / 4 : ℚ) • val euc2 rh → motorAddStep euc2 rootsE 4 m0 s = .ok m1 →
        motorAddStep euc2 rootsE 4 m1 s = .ok m2 → val euc2 (⟨⟨[0, 3]⟩, [4/5, -3/5]⟩ : MV ℚ) = val euc2 m2) ∧
    Lie.solverWrap (checked [1]) (Lie.verletEquation euc2 wheel wheelInv brake m0 ⟨bv, [-2]⟩ 6) ⟨bv, [-2]⟩ = .ok ⟨bv, [1]⟩ ∧
    motorAddStep euc2 rootsE 4 m0 ⟨bv, [3/2]⟩ = .ok ⟨⟨[0, 3]⟩, [1, 0]⟩ ∧
    motorAddStep euc2 rootsE 4 ⟨⟨[0, 3]⟩, [1, 0]⟩ ⟨bv, [3/2]⟩ = .ok ⟨⟨[0, 3]⟩, [4/5, -3/5]⟩ :=
  ⟨C100_speed_verlet wf_euc2 (by decide) (by decide) (by norm_num) rootsE_law (by decide) bv_space wf_m0.1 wf_r1 rfl run_verlet, by decide +kernel⟩
/-- At the rate 1 for the time 3 the other methods turn the reversed motor by two steps of 3/2. -/
example : Lie.motorStep euc2 4 m0 r0 3 = .ok ⟨⟨[0, 3]⟩, [-44/125, 117/125]⟩ ∧ m0.reverse euc2 = some ⟨⟨[0, 3]⟩, [4/5, -3/5]⟩ ∧
    motorAddStep euc2 rootsE 4 ⟨⟨[0, 3]⟩, [4/5, -3/5]⟩ ⟨bv, [3/2]⟩ = .ok ⟨⟨[0, 3]⟩, [7/25, -24/25]⟩ ∧
    motorAddStep euc2 rootsE 4 ⟨⟨[0, 3]⟩, [7/25, -24/25]⟩ ⟨bv, [3/2]⟩ = .ok ⟨⟨[0, 3]⟩, [-44/125, -117/125]⟩ := by decide +kernel
example : val euc2 (⟨bv, [3/2]⟩ : MV ℚ) = (3 / 2 : ℚ) • val euc2 r0 := by simp [val, denote, r0, bv]
example : m0.symmetricReverse euc2 = some ⟨⟨[0]⟩, [1]⟩ := by decide +kernel
example : Lie.explicitRk1 euc2 4 wheel wheelInv motor4 m0 r0 1 = .ok (⟨⟨[0, 3]⟩, [-44/125, 117/125]⟩, ⟨bv, [3]⟩) ∧
    Lie.explicitRk4 euc2 4 wheel wheelInv motor4 m0 r0 1 = .ok (⟨⟨[0, 3]⟩, [-44/125, 117/125]⟩, ⟨bv, [3]⟩) := by decide +kernel
example (h : Lie.explicitRk1 euc2 4 wheel wheelInv motor4 m0 r0 1 = .ok (⟨⟨[0, 3]⟩, [-44/125, 117/125]⟩, ⟨bv, [3]⟩)) :
    Lie.motorStep euc2 4 m0 ⟨bv, [3]⟩ 1 = .ok (⟨⟨[0, 3]⟩, [-44/125, 117/125]⟩ : MV ℚ) :=
  ((C100_rk wf_euc2 (by decide) (by norm_num) (by decide) bv_space sc_space wheel_un wheelInv_un motor4_forces (solver := checked [1]) wf_m0.1 wf_m0.2.1 wf_m0.2.2 rfl
    (fun _ => rfl)).1 h).1
/-- `exp4` and `log4` of a translation. -/
example : Lie.log4 pga3 rootsE 4 (⟨⟨[0, 3]⟩, [1, 6]⟩ : MV ℚ) = .ok ⟨⟨[3]⟩, [6]⟩ ∧ Lie.exp4 pga3 4 (⟨⟨[3]⟩, [6]⟩ : MV ℚ) = .ok ⟨⟨[0, 3]⟩, [1, 6]⟩ ∧
    (⟨⟨[0, 3]⟩, [1, 6]⟩ : MV ℚ).symmetricReverse pga3 = some ⟨⟨[0]⟩, [1]⟩ := by decide +kernel

end LieEx
end

end Verif.Props
