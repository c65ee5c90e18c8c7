import Verif.Proofs.Physics8
/-! # Integration of a body -/
namespace Verif
open Model Spec Model.Factory Props

variable {A : Alg} {R : Type}

theorem mvOf_of [CommRing R] {S : SubSpace} {x : MV R} (hx : WfMV A x) (hs : x.sub = S) : ∃ u, x = mvOf S u := by
  subst hs
  refine ⟨fun i => x.vals.getD i 0, ?_⟩
  obtain ⟨S, v⟩ := x
  have hl : v.length = S.blades.length := hx.len
  simp only [mvOf, MV.mk.injEq, true_and]
  refine List.ext_getElem (by simp [hl]) fun i h1 h2 => ?_
  simp [List.getD_eq_getElem?_getD, h1]

section
variable [Field R] [DecidableEq R]

namespace Live
variable {b : Body R} {ps : List (Cl A R)} {B L : SubSpace} (h : Live A b ps B L)
include h

/-- `copy` with another motor and another rate on the same subspaces has a result. -/
theorem copy_total (hA : WfAlg A) {m r : Option (MV R)} (hm : (m.getD b.motor).sub = b.motor.sub) (hr : (r.getD b.rate).sub = B) :
    b.copy A m r none none = .ok { b with motor := m.getD b.motor, rate := r.getD b.rate } := by
  obtain ⟨⟨sc, sc1, sc2⟩, -, -, -, -, -, ⟨V, v1, v2⟩, -, -, -, -, -, ⟨E, e1, e2⟩, -⟩ := id (C14_named hA)
  rw [Body.copy, Body.init, if_pos]
  · rfl
  have hE : b.motor.sub = E := by
    refine WfSub.ext h.motorSub.1 e2.1 fun a => ?_
    rw [h.motorSub.2, e2.2]
  have hV : V.contains b.gravity.sub = true := by
    refine contains_iff.2 fun a ha => (v2.2 a).2 ⟨h.gravityWf.sub.lt a ha, h.gravitySub a ha⟩
  have hsc : b.damping.sub = sc := by rw [h.dampingSub]; exact Option.some_inj.1 ((scalar_eq hA).1.symm.trans sc1)
  simp only [Body.asserts, e1, h.bivector, v1, h.antibivector, sc1, Option.bind_eq_bind, Option.bind_some, Option.getD_none, hm, hr, hE, hV, hsc,
    Operator.output, h.inertia.axes, h.inverse.axes]
  simp

/-- The Runge-Kutta step for the rate has a result. -/
theorem rk4 (hA : WfAlg A) (dt : R) : ∃ r, Integrators.RK4 A (fun r => do lift ((← b.copy A none (some r) none none).rateDerivative A)) b.rate dt = .ok r ∧
    WfMV A r ∧ r.sub = B := by
  have hB := h.spaceB.1
  have key : ∀ u : Fin B.blades.length → R, ∃ w : Fin B.blades.length → R,
      (do lift ((← b.copy A none (some (mvOf B u)) none none).rateDerivative A) : Except Fail (MV R)) = .ok (mvOf B w) := by
    intro u
    have hc := h.copy_total hA (m := none) (r := some (mvOf B u)) rfl rfl
    have hl := h.copy hA (by simp) (by rintro x ⟨⟩; exact wf_mvOf hB u) (by simp) (by simp) hc
    obtain ⟨d, d1, d2, d3, d4⟩ := hl.rateDerivative hA (hl.forques hA)
    obtain ⟨w, rfl⟩ := mvOf_of d3 d2
    exact ⟨w, by rw [hc]; simp only [bind, Except.bind, d1, lift_some]⟩
  choose F hF using key
  obtain ⟨u, hu⟩ := mvOf_of h.rateWf h.rateSub
  refine ⟨mvOf B (RK.rk4 F u dt), ?_, wf_mvOf hB _, rfl⟩
  rw [hu]
  exact RK4_mvOf hA hB (f := fun r => do lift ((← b.copy A none (some r) none none).rateDerivative A)) hF u dt

theorem motorEven : EvenSub b.motor.sub := fun a ha => ((h.motorSub.2 a).1 ha).2

theorem motorZero : 0 ∈ b.motor.sub.blades := (h.motorSub.2 0).2 ⟨Nat.two_pow_pos _, by decide⟩

end Live

/-- The even multivectors that have all even blades. -/
theorem even_full {S T : SubSpace} (hS : IsSpace A S fun b => popcount b % 2 = 0) (hT : WfSub A T) (he : EvenSub T) (h : SubOf S T) : T = S :=
  WfSub.ext hT hS.1 fun b => ⟨fun hb => (hS.2 b).2 ⟨hT.lt b hb, he b hb⟩, h b⟩

/-- `normalized` of a unit even multivector is the multivector or its negative. -/
theorem normalized_unit (hA : WfAlg A) (h2 : (2 : R) ≠ 0) {rt : Roots R} (hr : RootLaw rt) {fuel : Nat} (hf : 2 ≤ fuel) {m n : MV R} (hm : WfMV A m)
    (h1 : val A m * CliffordAlgebra.reverse (val A m) = 1) (h : m.normalized A rt fuel = .ok n) :
    WfMV A n ∧ ∃ c t : R, rt.sqrt t = some c ∧ c * c = 1 ∧ val A n = c • val A m := by
  obtain ⟨fuel, rfl⟩ : ∃ f, fuel = f + 2 := ⟨fuel - 2, by omega⟩
  obtain ⟨hn, q, i, u, v, q1, q2, q3, q4, q5, c, t, c1, c2⟩ := normalized_spec' hA h2 hr fuel hm h
  rw [h1, ← add_smul] at q3
  rw [q3, gradePart_zero_scalar hA] at c2
  have hc : u + v = c := smul_one_inj c2
  rw [hc] at q3
  rw [h1, q3, smul_mul_smul_comm, mul_one] at q4
  have hcc : c * c = 1 := smul_one_inj (A := A) (q4.trans (one_smul _ _).symm)
  refine ⟨hn, c, t, c1, hcc, ?_⟩
  have hi : i = c • 1 := by
    rw [q3, smul_mul_assoc, one_mul] at q1
    rw [← q1, smul_smul, hcc, one_smul]
  rw [q5, hi, smul_mul_assoc, one_mul]

/-- The pieces of a step of `integrate`: the motor `n` before `copy` is the motor of `motor_add_step` up to a sign, the rate is the one of
the Runge-Kutta step. -/
theorem post_spec (hA : WfAlg A) (h5 : A.n < 6) (hn : 2 ≤ A.n) (h2 : (2 : R) ≠ 0) (h0 : ∃ j < A.n, A.desc.sig.getD j 0 ≠ 0) {rt : Roots R} (hr : RootLaw rt)
    {fuel : Nat} (hf : 4 ≤ fuel) {b : Body R} {ps : List (Cl A R)} {B L : SubSpace} (h : Live A b ps B L)
    (hu : val A b.motor * CliffordAlgebra.reverse (val A b.motor) = 1) {dt : R} (hdt : dt ≠ 0) {r s m n : MV R} (hrw : WfMV A r) (hrs : r.sub = B)
    (hs : r.mul A (.num dt) = some s) (hm : motorAddStep A rt fuel b.motor s = .ok m) (hnm : m.normalized A rt fuel = .ok n) :
    WfMV A m ∧ m.sub = b.motor.sub ∧ val A m * CliffordAlgebra.reverse (val A m) = 1 ∧ WfMV A n ∧ n.sub = b.motor.sub ∧
    (∃ c t : R, rt.sqrt t = some c ∧ c * c = 1 ∧ val A n = c • val A m) ∧
    ∃ z, WfMV A z ∧ z.sub = B ∧ val A z = val A r ∧
      ({ b with motor := m, rate := r } : Body R).postIntegrate A rt fuel b dt = .ok { b with motor := n, rate := z } := by
  have hrg : Homogeneous 2 r := fun a ha => ((h.spaceB.2 a).1 (hrs ▸ ha)).2
  obtain ⟨s', s1, s2, s3⟩ := mul_num_in hA hrw dt
  cases s1.symm.trans hs
  obtain ⟨s', s1, -, -, s4⟩ := mul_num hA hrw dt
  cases s1.symm.trans hs
  have hsg : Homogeneous 2 s := fun a ha => hrg a (s3 ▸ ha)
  obtain ⟨m1, m2, E, q, i, e1, e2, e3, q1, q2, hi, hc, e4, u, v, N, N1, N2, N3, N4⟩ := addStep_spec hA hn h2 hr (by omega) h.motorWf h.motorEven s2 hsg hm
  have m3 : m.sub = b.motor.sub := even_full h.motorSub m1.sub m2 (addStep_keeps hA h5 hn h2 hr (by omega) h.motorWf s2 hm)
  have hu' : CliffordAlgebra.reverse (val A b.motor) * val A b.motor = 1 := mul_eq_one_comm.1 hu
  have m4 : val A m * CliffordAlgebra.reverse (val A m) = 1 := by
    rw [e1, CliffordAlgebra.reverse.map_mul, mul_assoc, ← mul_assoc E, e2, one_mul, hu]
  obtain ⟨n1, c, t, c1, c2, n2⟩ := normalized_unit hA h2 hr (by omega) m1 m4 hnm
  have n3 : n.sub = b.motor.sub := even_full h.motorSub n1.sub (normalized_even hA h2 hr (by omega) m1 m2 hnm)
    (m3 ▸ normalized_keeps hA h5 h2 hr (by omega) m1 m2 hnm)
  refine ⟨m1, m3, m4, n1, n3, ⟨c, t, c1, c2, n2⟩, ?_⟩
  obtain ⟨x, x1, x2, x3, x4⟩ := reverse_in hA n1
  obtain ⟨y, y1, y2, y3, y4⟩ := reverse_in hA h.motorWf
  have hrev := bivector_rev hA s2 hsg
  have hc0 : c ≠ 0 := by rintro rfl; rw [mul_zero] at c2; exact zero_ne_one c2
  have hv : val A y * CliffordAlgebra.reverse (val A x) = (c • i) + (c • i) * ((-1 / 2 : R) • val A s) := by
    rw [x4, y4, CliffordAlgebra.reverse_reverse, n2, e1, mul_smul_comm, ← mul_assoc, hu', one_mul, e4, smul_add, smul_mul_assoc]
  have hi' : CliffordAlgebra.reverse (c • i) = c • i := by rw [map_smul, hi]
  have ci' : Commute (val A s) (c • i) := hc.smul_right c
  have q1' : (c • q) * (c • i) = 1 := by rw [smul_mul_smul_comm, c2, q1, one_smul]
  have q2' : (c • i) * (c • q) = 1 := by rw [smul_mul_smul_comm, c2, q2, one_smul]
  obtain ⟨w, w1, w2, w3, w4⟩ := relStep_spec hA h5 hn h2 h0 hf x3 (x2 ▸ n3 ▸ h.motorEven) y3 (y2 ▸ h.motorEven) q1' q2' hi' hrev
    (val_even hA s2 hsg.even) ci' hv
  -- the scalar part of the root
  have hq0 : coef A R 0 (c • q) ≠ 0 := by
    rw [map_smul, smul_eq_mul]
    exact mul_ne_zero hc0 (root_scalar hA h5 h2 N1 N2 q1 N3 N4).1
  obtain ⟨z, z1, z2, z3, z4⟩ := div_num hA fuel w2 hdt
  have hwB : w.sub = B := by
    refine WfSub.ext w2.sub h.spaceB.1 fun a => ⟨fun ha => (h.spaceB.2 a).2 ⟨w2.sub.lt a ha, w3 a ha⟩, fun ha => ?_⟩
    have ha' := (h.spaceB.2 a).1 ha
    refine relStep_keeps hA h5 hn h2 hf x3 (x2 ▸ n3 ▸ h.motorEven) y3 (y2 ▸ h.motorEven) (x2 ▸ n3 ▸ h.motorZero) q1' hq0 hi' ?_ hv w1 (y2 ▸ (h.motorSub.2 a).2 ⟨ha'.1, ?_⟩) ha'.2
    · rw [CliffordAlgebra.reverse.map_mul, hi', map_smul, hrev, smul_neg, neg_mul, (ci'.smul_left (-1 / 2 : R)).eq]
    · simp only [show popcount a = 2 from ha'.2]
  have hz : z.sub = B := z3.trans hwB
  refine ⟨z, z2, hz, ?_, ?_⟩
  · rw [z4, w4, s4, smul_smul, inv_mul_cancel₀ hdt, one_smul]
  · have hl := h.copy_total hA (m := some m) (r := some r) m3 hrs
    have hl' := h.copy hA (by rintro x ⟨⟩; exact m1) (by rintro x ⟨⟩; exact hrw) (by simp) (by simp) hl
    have := hl'.copy_total hA (m := some n) (r := some z) (n3.trans m3.symm) hz
    simp only [Option.getD_some] at this
    simp only [Body.postIntegrate, hnm, x1, y1, lift_some, w1, z1, bind, Except.bind, this]

end
end Verif
