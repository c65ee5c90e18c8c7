import Verif.Proofs.Physics9
import Verif.Props.Physics
/-! # Steps of motors and integration (C94) -/
namespace Verif.Props
open Model Spec Model.Factory

variable {A : Alg} {R : Type}

/-! ## C94 -/

section
variable [Field R] [DecidableEq R]

/-- C94: `motor_add_step` keeps a motor a unit motor, and multiplies it from the right with `1 - step / 2` up to an invertible factor that
commutes with the step and is its own reverse. -/
theorem C94_add (hA : WfAlg A) (hn : 2 ≤ A.n) (h2 : (2 : R) ≠ 0) {rt : Roots R} (hr : RootLaw rt) {fuel : Nat} (hf : 2 ≤ fuel) {m s m' : MV R}
    (hm : WfMV A m) (he : EvenSub m.sub) (hs : WfMV A s) (hs2 : Homogeneous 2 s) (hu : val A m * CliffordAlgebra.reverse (val A m) = 1)
    (h : motorAddStep A rt fuel m s = .ok m') :
    WfMV A m' ∧ EvenSub m'.sub ∧ val A m' * CliffordAlgebra.reverse (val A m') = 1 ∧
      ∃ i : Cl A R, IsUnit i ∧ CliffordAlgebra.reverse i = i ∧ Commute (val A s) i ∧ val A m' = val A m * (i * (1 - (1 / 2 : R) • val A s)) := by
  obtain ⟨m1, m2, E, q, i, e1, e2, e3, q1, q2, hi, hc, e4, -⟩ := addStep_spec hA hn h2 hr hf hm he hs hs2 h
  refine ⟨m1, m2, ?_, i, ⟨⟨i, q, q2, q1⟩, rfl⟩, hi, hc, ?_⟩
  · rw [e1, CliffordAlgebra.reverse.map_mul, mul_assoc, ← mul_assoc E, e2, one_mul, hu]
  · rw [e1, e4, mul_sub, mul_one, neg_div, neg_smul, mul_neg, sub_eq_add_neg]

/-- C94: `motor_relative_step` of the reversed motors, as `post_integrate` calls it, is the inverse of `motor_add_step`. -/
theorem C94_local (hA : WfAlg A) (h5 : A.n < 6) (hn : 2 ≤ A.n) (h2 : (2 : R) ≠ 0) (h0 : ∃ j < A.n, A.desc.sig.getD j 0 ≠ 0) {rt : Roots R}
    (hr : RootLaw rt) {fuel : Nat} (hf : 4 ≤ fuel) {m s m' : MV R} (hm : WfMV A m) (he : EvenSub m.sub) (hs : WfMV A s) (hs2 : Homogeneous 2 s)
    (hu : val A m * CliffordAlgebra.reverse (val A m) = 1) (h : motorAddStep A rt fuel m s = .ok m') :
    ∃ z, (do motorRelativeStep A fuel (← lift (m'.reverse A)) (← lift (m.reverse A))) = .ok z ∧ WfMV A z ∧ Homogeneous 2 z ∧ val A z = val A s := by
  obtain ⟨m1, m2, E, q, i, e1, e2, e3, q1, q2, hi, hc, e4, -⟩ := addStep_spec hA hn h2 hr (by omega) hm he hs hs2 h
  obtain ⟨x, x1, x2, x3, x4⟩ := reverse_in hA m1
  obtain ⟨y, y1, y2, y3, y4⟩ := reverse_in hA hm
  obtain ⟨z, z1, z2⟩ := relStep_spec hA h5 hn h2 h0 hf x3 (x2 ▸ m2) y3 (y2 ▸ he) q1 q2 hi (bivector_rev hA hs hs2) (val_even hA hs hs2.even) hc (by
    rw [x4, y4, CliffordAlgebra.reverse_reverse, e1, ← mul_assoc, mul_eq_one_comm.1 hu, one_mul, e4])
  exact ⟨z, by simp only [x1, y1, lift_some, bind, Except.bind, z1], z2⟩

/-- C94: `motor_relative_step` of the motors themselves is the step seen from the world, and taking it back to the frame of the new motor
gives the step, as the comment in `post_integrate` says. -/
theorem C94_world (hA : WfAlg A) (h5 : A.n < 6) (hn : 2 ≤ A.n) (h2 : (2 : R) ≠ 0) (h0 : ∃ j < A.n, A.desc.sig.getD j 0 ≠ 0) {rt : Roots R}
    (hr : RootLaw rt) {fuel : Nat} (hf : 4 ≤ fuel) {m s m' : MV R} (hm : WfMV A m) (he : EvenSub m.sub) (hs : WfMV A s) (hs2 : Homogeneous 2 s)
    (hu : val A m * CliffordAlgebra.reverse (val A m) = 1) (h : motorAddStep A rt fuel m s = .ok m') :
    ∃ z, motorRelativeStep A fuel m m' = .ok z ∧ WfMV A z ∧ val A z = val A m * val A s * CliffordAlgebra.reverse (val A m) ∧
      Gives A (m'.reverseSandwich A z) (val A s) := by
  obtain ⟨m1, m2, E, q, i, e1, e2, e3, q1, q2, hi, hc, e4, -⟩ := addStep_spec hA hn h2 hr (by omega) hm he hs hs2 h
  have hu' : CliffordAlgebra.reverse (val A m) * val A m = 1 := mul_eq_one_comm.1 hu
  set M := val A m with hM
  have conj : ∀ a b : Cl A R, (M * a * CliffordAlgebra.reverse M) * (M * b * CliffordAlgebra.reverse M) = M * (a * b) * CliffordAlgebra.reverse M := by
    intro a b
    rw [mul_assoc (M * a), ← mul_assoc (CliffordAlgebra.reverse M), ← mul_assoc (CliffordAlgebra.reverse M), hu', one_mul, mul_assoc, mul_assoc M (a * b), mul_assoc a]
  have rev : ∀ a : Cl A R, CliffordAlgebra.reverse (M * a * CliffordAlgebra.reverse M) = M * CliffordAlgebra.reverse a * CliffordAlgebra.reverse M := by
    intro a
    rw [CliffordAlgebra.reverse.map_mul, CliffordAlgebra.reverse.map_mul, CliffordAlgebra.reverse_reverse, mul_assoc]
  have hs' := bivector_rev hA hs hs2
  obtain ⟨z, z1, z2, z3, z4⟩ := relStep_spec hA h5 hn h2 h0 hf hm he m1 m2 (q := M * q * CliffordAlgebra.reverse M) (i := M * i * CliffordAlgebra.reverse M)
    (s := M * val A s * CliffordAlgebra.reverse M) (by rw [conj, q1, mul_one, hu]) (by rw [conj, q2, mul_one, hu]) (by rw [rev, hi])
    (by rw [rev, hs', mul_neg, neg_mul]) (by
      rw [map_mul, map_mul, ← CliffordAlgebra.reverse_involute, val_even hA hm he, val_even hA hs hs2.even])
    (by rw [Commute, SemiconjBy, conj, conj, hc.eq]) (by
      rw [e1, ← smul_mul_assoc, ← mul_smul_comm, conj, e4, mul_add, add_mul])
  refine ⟨z, z1, z2, z4, ?_⟩
  refine (reverseSandwich_gives hA m1 z2).congr ?_
  have hcs : Commute (val A s) E := by
    rw [e4]
    exact hc.add_right (hc.mul_right ((Commute.refl _).smul_right _))
  have e : CliffordAlgebra.reverse (val A m') * val A z * val A m' = val A s := by
    rw [z4, e1, CliffordAlgebra.reverse.map_mul]
    calc CliffordAlgebra.reverse E * CliffordAlgebra.reverse M * (M * val A s * CliffordAlgebra.reverse M) * (M * E)
        = CliffordAlgebra.reverse E * (CliffordAlgebra.reverse M * M) * val A s * (CliffordAlgebra.reverse M * M) * E := by simp only [mul_assoc]
      _ = val A s := by rw [hu', mul_one, mul_one, mul_assoc, hcs.eq, ← mul_assoc, mul_eq_one_comm.1 e2, one_mul]
  rw [e]
  by_cases hz : val A s = 0
  · rw [hz, map_zero]
  have gs : gradePart A R 2 (val A s) = val A s := gradePart_val hs hs2
  have : ∃ c ∈ z.sub.blades, popcount c = 2 := by
    cases hc : z.sub.blades with
    | nil =>
      have : val A z = 0 := by rw [val, denote, hc]; simp
      rw [this, mul_zero, zero_mul] at e
      exact absurd e.symm hz
    | cons c l => exact ⟨c, by simp, z3 c (by rw [hc]; simp)⟩
  rw [← gs, gradesOf_gradePart this]

/-- C94: a step of `integrate` without constraints of a body with a unit motor: the rate is that of the Runge-Kutta step, the motor is a unit
motor again and, up to sign, `motor_add_step` of the old motor and `rate * dt`. -/
theorem C94_integrate (hA : WfAlg A) (h5 : A.n < 6) (hn : 2 ≤ A.n) (h2 : (2 : R) ≠ 0) (h0 : ∃ j < A.n, A.desc.sig.getD j 0 ≠ 0) {rt : Roots R}
    (hr : RootLaw rt) {fuel : Nat} (hf : 4 ≤ fuel) {S : SubSpace} (hS : WfSub A S) {rows : List (List R)} {b c : Body R} (hb : Made A S rows b)
    (hu : val A b.motor * CliffordAlgebra.reverse (val A b.motor) = 1) {dt : R} (hdt : dt ≠ 0) (h : b.integrate A rt fuel dt = .ok c) :
    Made A S rows c ∧ val A c.motor * CliffordAlgebra.reverse (val A c.motor) = 1 ∧
      ∃ r s m, Integrators.RK4 A (fun r => do lift ((← b.copy A none (some r) none none).rateDerivative A)) b.rate dt = .ok r ∧
        r.mul A (.num dt) = some s ∧ motorAddStep A rt fuel b.motor s = .ok m ∧ val A c.rate = val A r ∧
        (val A c.motor = val A m ∨ val A c.motor = -val A m) := by
  obtain ⟨⟨B, L, hl⟩, -⟩ := hb.live hA hn hS
  obtain ⟨r, r1, r2, r3⟩ := hl.rk4 hA dt
  obtain ⟨s, s1, s2, s3⟩ := mul_num_in hA r2 dt
  obtain ⟨b', h1, h⟩ := bind_ok h
  obtain ⟨r', h3, h1⟩ := bind_ok h1
  cases r1.symm.trans h3
  obtain ⟨s', h3, h1⟩ := bind_ok h1
  cases s1.symm.trans (lift_ok h3)
  obtain ⟨m, hm, h1⟩ := bind_ok h1
  obtain ⟨n, hn', h'⟩ := bind_ok h
  obtain ⟨e, -⟩ := copy_ok h1
  simp only [Option.getD_some, Option.getD_none] at e
  subst e
  obtain ⟨p1, p2, p3, p4, p5, ⟨k, t, -, k1, k2⟩, z, z1, z2, z3, z4⟩ := post_spec hA h5 hn h2 h0 hr hf hl hu hdt r2 r3 s1 hm hn'
  cases z4.symm.trans h
  refine ⟨?_, ?_, r, s, m, r1, s1, hm, z3, ?_⟩
  · exact .copy hb (m := some n) (r := some z) (g := none) (d := none) (by rintro x ⟨⟩; exact p4) (by rintro x ⟨⟩; exact z1) (by simp) (by simp)
      (hl.copy_total hA p5 z2)
  · show val A n * _ = 1
    rw [k2, map_smul, smul_mul_smul_comm, k1, p3, one_smul]
  · rcases mul_self_eq_one_iff.1 k1 with rfl | rfl
    · exact Or.inl (k2.trans (one_smul _ _))
    · exact Or.inr (k2.trans (by rw [neg_smul, one_smul]))

end

section
variable [Field R] [LinearOrder R] [IsStrictOrderedRing R]

/-- C94: in a space without negative basis vectors, over the numbers with real roots, `integrate` without constraints always has a result:
the body with the rate of the Runge-Kutta step and the motor of `motor_add_step`.  So `post_integrate` changes nothing. -/
theorem C94_total (hA : WfAlg A) (h5 : A.n < 6) (hn : 2 ≤ A.n) (hN : ∀ s ∈ A.desc.sig, 0 ≤ s) (h0 : ∃ j < A.n, A.desc.sig.getD j 0 ≠ 0) {rt : Roots R}
    (hr : RealRoots rt) {fuel : Nat} (hf : 4 ≤ fuel) {S : SubSpace} (hS : WfSub A S) {rows : List (List R)} {b : Body R} (hb : Made A S rows b)
    (hu : val A b.motor * CliffordAlgebra.reverse (val A b.motor) = 1) {dt : R} (hdt : dt ≠ 0) :
    ∃ r s m, Integrators.RK4 A (fun r => do lift ((← b.copy A none (some r) none none).rateDerivative A)) b.rate dt = .ok r ∧
      r.mul A (.num dt) = some s ∧ motorAddStep A rt fuel b.motor s = .ok m ∧ b.integrate A rt fuel dt = .ok { b with motor := m, rate := r } := by
  have h2 : (2 : R) ≠ 0 := two_ne_zero
  obtain ⟨⟨B, L, hl⟩, -⟩ := hb.live hA hn hS
  obtain ⟨r, r1, r2, r3⟩ := hl.rk4 hA dt
  obtain ⟨s, s1, s2, s3⟩ := mul_num_in hA r2 dt
  have hsg : Homogeneous 2 s := fun a ha => ((hl.spaceB.2 a).1 (r3 ▸ s3 ▸ ha)).2
  obtain ⟨m, hm⟩ := addStep_exists hA h5 hn hN hr (show 2 ≤ fuel by omega) hl.motorWf s2 hsg
  obtain ⟨m1, m2, E, q, i, e1, e2, -⟩ := addStep_spec hA hn h2 hr.law (show 2 ≤ fuel by omega) hl.motorWf hl.motorEven s2 hsg hm
  have m3 : val A m * CliffordAlgebra.reverse (val A m) = 1 := by
    rw [e1, CliffordAlgebra.reverse.map_mul, mul_assoc, ← mul_assoc E, e2, one_mul, hu]
  obtain ⟨n, hn'⟩ := normalized_unit_exists hA h5 hr (show 2 ≤ fuel by omega) m1 m2 m3
  obtain ⟨p1, p2, p3, p4, p5, ⟨k, t, k0, k1, k2⟩, z, z1, z2, z3, z4⟩ := post_spec hA h5 hn h2 h0 hr.law hf hl hu hdt r2 r3 s1 hm hn'
  have hk : k = 1 := by
    have : 0 ≤ k := by
      rcases lt_or_ge t 0 with ht | ht
      · rw [hr.neg t ht] at k0; cases k0
      · obtain ⟨k', a1, a2, -⟩ := hr.nonneg t ht
        cases a1.symm.trans k0
        exact a2
    rcases mul_self_eq_one_iff.1 k1 with h | h
    · exact h
    · linarith
  have ez : z = r := mv_eq z1 r2 (z2.trans r3.symm) z3
  have en : n = m := mv_eq p4 p1 (p5.trans p2.symm) (by rw [k2, hk, one_smul])
  subst ez en
  refine ⟨z, s, n, r1, s1, hm, ?_⟩
  have hc := hl.copy_total hA (m := some n) (r := some z) p2 r3
  simp only [Option.getD_some] at hc
  rw [Body.integrate, Body.preIntegrate, r1]
  simp only [s1, hm, hc, lift_some, bind, Except.bind]
  exact z4

/-- C94: so any number of steps can be made, and the motor stays a unit motor. -/
theorem C94_run (hA : WfAlg A) (h5 : A.n < 6) (hn : 2 ≤ A.n) (hN : ∀ s ∈ A.desc.sig, 0 ≤ s) (h0 : ∃ j < A.n, A.desc.sig.getD j 0 ≠ 0) {rt : Roots R}
    (hr : RealRoots rt) {fuel : Nat} (hf : 4 ≤ fuel) {S : SubSpace} (hS : WfSub A S) {rows : List (List R)} {b : Body R} (hb : Made A S rows b)
    (hu : val A b.motor * CliffordAlgebra.reverse (val A b.motor) = 1) (dts : List R) (hdt : ∀ dt ∈ dts, dt ≠ 0) :
    ∃ c, dts.foldlM (fun b dt => b.integrate A rt fuel dt) b = .ok c ∧ Made A S rows c ∧ val A c.motor * CliffordAlgebra.reverse (val A c.motor) = 1 := by
  induction dts generalizing b with
  | nil => exact ⟨b, rfl, hb, hu⟩
  | cons dt dts ih =>
    obtain ⟨r, s, m, -, -, -, e⟩ := C94_total hA h5 hn hN h0 hr hf hS hb hu (hdt dt (List.mem_cons_self ..))
    obtain ⟨c1, c2, -⟩ := C94_integrate hA h5 hn two_ne_zero h0 hr.law hf hS hb hu (hdt dt (List.mem_cons_self ..)) e
    obtain ⟨c, c3, c4⟩ := ih c1 c2 fun x hx => hdt x (List.mem_cons_of_mem _ hx)
    exact ⟨c, by rw [List.foldlM_cons, e]; exact c3, c4⟩

end

/-! ### examples -/

/-- A rotor of the plane, a step, the new rotor, and the step back from both. -/
example : motorAddStep euc2 rootsE 4 (⟨⟨[0, 3]⟩, [3/5, 4/5]⟩ : MV ℚ) ⟨⟨[3]⟩, [-3/2]⟩ = .ok ⟨⟨[0, 3]⟩, [0, 1]⟩ ∧
    motorRelativeStep euc2 4 (⟨⟨[0, 3]⟩, [0, -1]⟩ : MV ℚ) ⟨⟨[0, 3]⟩, [3/5, -4/5]⟩ = .ok ⟨⟨[3]⟩, [-3/2]⟩ ∧
    (⟨⟨[0, 3]⟩, [3/5, 4/5]⟩ : MV ℚ).symmetricReverse euc2 = some ⟨⟨[0]⟩, [1]⟩ ∧ RootLaw rootsE ∧ EvenSub ⟨[0, 3]⟩ ∧ Homogeneous 2 (⟨⟨[3]⟩, [-3/2]⟩ : MV ℚ) :=
  ⟨by decide +kernel, by decide +kernel, by decide +kernel, rootsE_law, by unfold EvenSub; decide, by unfold Homogeneous; decide⟩

/-- A falling body of the plane, integrated over real numbers with steps of any size. -/
example (dts : List ℝ) (hdt : ∀ dt ∈ dts, dt ≠ 0) : ∃ b c : Body ℝ, b.rate = ⟨cloudSub, [2, 3, 1]⟩ ∧ b.gravity = ⟨⟨[5, 6]⟩, [0, -9]⟩ ∧
    dts.foldlM (fun b dt => b.integrate pga2s (realRoots 1) 4 dt) b = .ok c ∧ val pga2s c.motor * CliffordAlgebra.reverse (val pga2s c.motor) = 1 := by
  obtain ⟨b, b1, -, b2, b3, b4, -⟩ := cloud_made (R := ℝ)
  obtain ⟨c, c1, c2, c3⟩ := C94_run wf_pga2s (by decide) (by decide) (by decide) ⟨0, by decide, by decide⟩ (realRoots_law 1) (le_refl 4) wf_cloudSub b1
    (by rw [b2, CliffordAlgebra.reverse.map_one, one_mul]) dts hdt
  exact ⟨b, c, b3, b4, c1, c3⟩

end Verif.Props
