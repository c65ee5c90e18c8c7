import Verif.Proofs.Fall2
import Verif.Props.System
import Verif.Proofs.Turns3
/-! # Constraints that are satisfied -/
namespace Verif
open Model Spec Model.Factory Props

variable {A : Alg} {R : Type}

section
variable [Field R] [DecidableEq R]

/-- A point joined with itself. -/
theorem meet_point (hA : WfAlg A) {k : Nat} (hk : k + 1 = A.n) {p : Cl A R} (hp : gradePart A R k p = p) : meet A R p p = 0 := by
  rw [meet_eq, vector_wedge_self hA, map_zero]
  rw [rh_grade hA (k := k) hk, hp]

/-- A step of zero. -/
theorem idle_step (hA : WfAlg A) (hn : 2 ≤ A.n) (h2 : (2 : R) ≠ 0) {rt : Roots R} (hr : RootLaw rt) {fuel : Nat} (hf : 2 ≤ fuel) {m s m' : MV R} (hm : WfMV A m)
    (he : EvenSub m.sub) (hs : WfMV A s) (hs2 : Homogeneous 2 s) (h0 : val A s = 0) (h : motorAddStep A rt fuel m s = .ok m') :
    WfMV A m' ∧ EvenSub m'.sub ∧ ∃ ε : R, ε * ε = 1 ∧ val A m' = ε • val A m := by
  obtain ⟨m1, m2, E, q, j, e1, e2, -, q1, -, q3, q4, q5, u, v, N, -, -, n1, n2⟩ := addStep_spec hA hn h2 hr hf hm he hs hs2 h
  rw [h0, smul_zero, mul_zero, add_zero] at q5
  subst q5
  rw [q3] at e2
  have qj : q = E := by
    calc q = q * (E * E) := by rw [e2, mul_one]
      _ = E := by rw [← mul_assoc, q1, one_mul]
  rw [qj, e2] at n2
  rw [qj, ← n2, ← add_smul] at n1
  refine ⟨m1, m2, u + v, ?_, by rw [e1, n1, mul_smul_comm, mul_one]⟩
  rw [n1, smul_mul_smul_comm, one_mul] at e2
  have := congrArg (coef A R 0) e2
  rwa [map_smul, ← blade_zero, coef_blade _ _ (by positivity), if_pos rfl, smul_eq_mul, mul_one] at this

/-- A forque of zero causes steps of zero. -/
theorem impulse_zero (hA : WfAlg A) (h4 : A.n = 4) (h2 : (2 : R) ≠ 0)
    (h0 : ∃ i j, i < j ∧ j < A.n ∧ A.desc.sig.getD i 0 ≠ 0 ∧ A.desc.sig.getD j 0 ≠ 0) {rt : Roots R} (hr : RootLaw rt) {fuel : Nat}
    {b0 b1 : Body R} {ps0 ps1 : List (Cl A R)} {B L : SubSpace} (hb0 : Live A b0 ps0 B L) (hb1 : Live A b1 ps1 B L) {tiny : R}
    {f comp s0 s1 : MV R} (wf : WfMV A f) (hf : A.antibivector = some f.sub) (hz : val A f = 0) (ws : WfMV A comp) (hs : comp.sub = ⟨[0]⟩)
    (h : impulse A rt (fuel + 2) tiny f b0.motor b1.motor b0.inertiaInv b1.inertiaInv (.ok comp) = .ok (s0, s1)) :
    (WfMV A s0 ∧ s0.sub = B ∧ val A s0 = 0) ∧ WfMV A s1 ∧ s1.sub = B ∧ val A s1 = 0 := by
  have fl : f.sub = L := Option.some.inj (hf.symm.trans hb0.antibivector)
  have hL : IsSpace A f.sub fun b => popcount b = 2 := fl ▸ hb0.spaceL.congr fun b _ => by omega
  obtain ⟨z, z1, z2, z3, z4, z5⟩ := line_norm hA h4 h0 (rt := rt) (fuel := fuel + 2) wf hL (c := 0) (by rw [hz, zero_mul, zero_smul])
  rw [impulse] at h
  obtain ⟨y, y1, h⟩ := bind_ok h
  rw [z5] at y1
  obtain ⟨y2, y3, ⟨d, y4⟩, y5⟩ := line_root hA h2 hr z1 z2 z4 y1
  obtain ⟨t, t1, t2, t3, t4, t5⟩ := flat_add hA y2 y3 y4 tiny
  simp only [t1, lift_some, ok_bind'] at h
  have hdiv := flat_div hA h4 (fuel := fuel) wf hL t2 t3 (t5 ▸ y5 z3) t4
  by_cases hd : d + tiny = 0
  · rw [hdiv.2 hd] at h
    cases h
  obtain ⟨D, D1, D2, D3, D4⟩ := hdiv.1 hd
  rw [hz, smul_zero] at D4
  obtain ⟨x0, e1, e2, e3, e4⟩ := (turn_in hA hb0.motorWf hb0.motorZero D2 (D3 ▸ hL)).2
  obtain ⟨x1, f1, f2, f3, f4⟩ := (turn_in hA hb1.motorWf hb1.motorZero D2 (D3 ▸ hL)).2
  simp only [D1, e1, f1, lift_some, ok_bind'] at h
  rw [D4, mul_zero, zero_mul, map_zero] at e4 f4
  obtain ⟨r0, r1, c0, c1, a1, a2, a3, a4, a5, a6, a7, a8, a9, a10, a11, a12⟩ := distribute_spec hA hb0 hb1 e3 f3 (e2.trans (D3.trans fl)) (f2.trans (D3.trans fl)) y2 y4
    (Sc.of ws (fun e he => hs ▸ he) (scalar_val ws hs))
  rw [e4, map_zero] at a7
  rw [f4, map_zero] at a8
  have hy := y3.zero
  by_cases hk : coeff comp 0 + (c0 + c1) = 0
  · rw [a12 (fuel + 1) hk (fun h => by rw [h] at hy; cases hy)] at h
    cases h
  obtain ⟨s0', s1', k1, k2, k3, k4, k5, -, k7⟩ := a11 (fuel + 2) hk
  cases k1.symm.trans h
  obtain ⟨k8, k9⟩ := k7 y3
  exact ⟨⟨k2, k8, by rw [k4, a7, smul_zero]⟩, k3, k9, by rw [k5, a8, smul_zero]⟩

/-- A forque of zero causes steps of zero, in the plane. -/
theorem impulse_zero3 (hA : WfAlg A) (h3 : A.n = 3)
    (h0 : ∃ i j, i < j ∧ j < A.n ∧ A.desc.sig.getD i 0 ≠ 0 ∧ A.desc.sig.getD j 0 ≠ 0) {rt : Roots R} (hr : RootLaw rt) {fuel : Nat}
    {b0 b1 : Body R} {ps0 ps1 : List (Cl A R)} {B L : SubSpace} (hb0 : Live A b0 ps0 B L) (hb1 : Live A b1 ps1 B L) {tiny : R}
    {f comp s0 s1 : MV R} (wf : WfMV A f) (hf : A.antibivector = some f.sub) (hz : val A f = 0) (ws : WfMV A comp) (hs : comp.sub = ⟨[0]⟩)
    (h : impulse A rt (fuel + 2) tiny f b0.motor b1.motor b0.inertiaInv b1.inertiaInv (.ok comp) = .ok (s0, s1)) :
    (WfMV A s0 ∧ s0.sub = B ∧ val A s0 = 0) ∧ WfMV A s1 ∧ s1.sub = B ∧ val A s1 = 0 := by
  have fl : f.sub = L := Option.some.inj (hf.symm.trans hb0.antibivector)
  have hL : IsSpace A L fun b => popcount b = 1 := hb0.spaceL.congr fun b _ => by omega
  obtain ⟨i, j, -, hj, -, hj0⟩ := h0
  obtain ⟨c, -, ⟨d, d1, -⟩ | ⟨hx, -⟩⟩ := vector_norm hA h3 ⟨j, hj, hj0⟩ hr (fuel + 2) hL wf fl
  swap
  · rw [impulse, hx] at h
    cases h
  obtain ⟨t, t1, t2⟩ := Sc.add hA (x := ⟨⟨[0]⟩, [d]⟩) (y := ⟨⟨[0]⟩, [tiny]⟩) (Or.inr rfl) (Or.inr rfl)
  have t1' : MV.add A ⟨⟨[0]⟩, [d]⟩ (.num tiny) = some t := by
    rw [← t1, MV.add, MV.add, (upcast_num' hA tiny).1]
    rfl
  have hnf : f.sub.blades ≠ [] := fun he => by
    have hb : 2 ^ 0 ∈ L.blades := (hL.2 _).2 ⟨Nat.pow_lt_pow_right (by norm_num) (by omega), by decide⟩
    rw [← fl, he] at hb
    cases hb
  simp only [impulse, d1, t1', lift_some, ok_bind'] at h
  by_cases hd : d + tiny = 0
  · rw [(Sc.div hA (fuel + 1) wf t2).2 hd hnf] at h
    cases h
  obtain ⟨D, D1, D2, D3, D4⟩ := (Sc.div hA (fuel + 2) wf t2).1 hd
  rw [hz, smul_zero] at D4
  have DL : IsSpace A D.sub fun b => popcount b = 1 := by rw [D3, fl]; exact hL
  obtain ⟨x0, e1, e2, e3, e4⟩ := (turn_in hA hb0.motorWf hb0.motorZero D2 DL).2
  obtain ⟨x1, f1, f2, f3, f4⟩ := (turn_in hA hb1.motorWf hb1.motorZero D2 DL).2
  simp only [D1, e1, f1, lift_some, ok_bind'] at h
  rw [D4, mul_zero, zero_mul, map_zero] at e4 f4
  have wm : WfMV A (⟨⟨[0]⟩, [d]⟩ : MV R) := ⟨(scalar_eq hA).2, rfl⟩
  obtain ⟨r0, r1, c0, c1, a1, a2, a3, a4, a5, a6, a7, a8, a9, a10, a11, a12⟩ := distribute_spec hA hb0 hb1 e3 f3 (e2.trans (D3.trans fl)) (f2.trans (D3.trans fl)) wm (scalar_val wm rfl)
    (Sc.of ws (fun e he => hs ▸ he) (scalar_val ws hs))
  rw [e4, map_zero] at a7
  rw [f4, map_zero] at a8
  by_cases hk : coeff comp 0 + (c0 + c1) = 0
  · rw [a12 (fuel + 1) hk (by simp)] at h
    cases h
  obtain ⟨s0', s1', k1, k2, k3, k4, k5, -, k7⟩ := a11 (fuel + 2) hk
  cases k1.symm.trans h
  obtain ⟨k8, k9⟩ := k7 (.inl rfl)
  exact ⟨⟨k2, k8, by rw [k4, a7, smul_zero]⟩, k3, k9, by rw [k5, a8, smul_zero]⟩

/-- Where an anchor is. -/
theorem anchor_grade (hA : WfAlg A) (h4 : A.n = 3 ∨ A.n = 4) (h2 : (2 : R) ≠ 0) {b : Body R} {ps : List (Cl A R)} {B L : SubSpace} (hb : Live A b ps B L)
    (u : val A b.motor * CliffordAlgebra.reverse (val A b.motor) = 1) {anchor : MV R} (ha : WfMV A anchor) (hs : A.antivector = some anchor.sub) :
    GivesIn A (b.motor.sandwich A anchor) anchor.sub (val A b.motor * val A anchor * CliffordAlgebra.reverse (val A b.motor)) ∧
    gradePart A R (A.n - 1) (val A b.motor * val A anchor * CliffordAlgebra.reverse (val A b.motor)) = val A b.motor * val A anchor * CliffordAlgebra.reverse (val A b.motor) := by
  rcases h4 with h3 | h4
  · obtain ⟨T, g, q⟩ := anchor_in3 hA h3 h2 hb u ha hs
    exact ⟨q, by rw [show A.n - 1 = 2 by omega]; exact T.grade3 hA h3 h2 (by omega) (by omega) g⟩
  · obtain ⟨T, g, q⟩ := anchor_in hA h4 h2 hb u ha hs
    exact ⟨q, by rw [show A.n - 1 = 3 by omega]; exact T.grade hA h4 h2 (by omega) (by omega) g⟩

/-- `apply_indexed` with anchors at the same place keeps the motors, up to their signs. -/
theorem idle_apply (hA : WfAlg A) (h4 : A.n = 3 ∨ A.n = 4) (h2 : (2 : R) ≠ 0)
    (h0 : ∃ i j, i < j ∧ j < A.n ∧ A.desc.sig.getD i 0 ≠ 0 ∧ A.desc.sig.getD j 0 ≠ 0) {rt : Roots R} (hr : RootLaw rt) {fuel : Nat}
    {b0 b1 : Body R} {ps0 ps1 : List (Cl A R)} {B L : SubSpace} (hb0 : Live A b0 ps0 B L) (hb1 : Live A b1 ps1 B L)
    (u0 : val A b0.motor * CliffordAlgebra.reverse (val A b0.motor) = 1)
    {c : Constraint R} (hc : c.init A = .ok c) (w0 : WfMV A c.anchor0) (w1 : WfMV A c.anchor1) (wc : WfMV A c.compliance)
    {p : Cl A R} (p0 : Gives A (b0.motor.sandwich A c.anchor0) p) (p1 : Gives A (b1.motor.sandwich A c.anchor1) p) {tiny dt : R} (hdt : dt ≠ 0) {n0 n1 : MV R}
    (h : c.applyIndexed A rt (fuel + 2) tiny b0.motor b1.motor b0.inertiaInv b1.inertiaInv dt = .ok (n0, n1)) :
    (WfMV A n0 ∧ n0.sub = b0.motor.sub ∧ ∃ ε : R, ε * ε = 1 ∧ val A n0 = ε • val A b0.motor) ∧
    (WfMV A n1 ∧ n1.sub = b1.motor.sub ∧ ∃ ε : R, ε * ε = 1 ∧ val A n1 = ε • val A b1.motor) := by
  have hn : 2 ≤ A.n := by omega
  obtain ⟨f, k, f1, f2, f3, k2, k3, k4, e⟩ := apply_reduce hA rt (fuel + 2) tiny hb0 hb1 hc w0 w1 wc hdt
  obtain ⟨-, a0, a1, -⟩ := constraint_ok hA hc
  have hz : val A f = 0 := by
    obtain ⟨⟨q0, q01, q02, q03, q04⟩, g0⟩ := anchor_grade hA h4 h2 hb0 u0 w0 a0
    obtain ⟨q1, q11, q13, q14⟩ := p1
    rw [q01, q11] at f1
    have e0 := (p0.val q01).2
    have : val A f = meet A R (val A q0) (val A q1) := by rw [((regressive_gives hA q03 q13).val f1).2, meet_eq]
    rw [this, q14, e0]
    refine meet_point hA (k := A.n - 1) (by omega) ?_
    rw [← e0, q04]
    exact g0
  rw [e] at h
  obtain ⟨⟨s0, s1⟩, hs, h⟩ := bind_ok h
  obtain ⟨⟨x1, x2, x3⟩, y1, y2, y3⟩ : (WfMV A s0 ∧ s0.sub = B ∧ val A s0 = 0) ∧ WfMV A s1 ∧ s1.sub = B ∧ val A s1 = 0 := by
    rcases h4 with h3 | h4
    · exact impulse_zero3 hA h3 h0 hr hb0 hb1 f2 f3 hz k2 k3 hs
    · exact impulse_zero hA h4 h2 h0 hr hb0 hb1 f2 f3 hz k2 k3 hs
  obtain ⟨m0, g0, h⟩ := bind_ok h
  obtain ⟨m1, g1, h⟩ := bind_ok h
  cases h
  have one : ∀ {b : Body R} {ps : List (Cl A R)} (hb : Live A b ps B L) {s m : MV R}, WfMV A s → s.sub = B → val A s = 0 → motorAddStep A rt (fuel + 2) b.motor s = .ok m →
      WfMV A m ∧ m.sub = b.motor.sub ∧ ∃ ε : R, ε * ε = 1 ∧ val A m = ε • val A b.motor := by
    intro b ps hb s m w1 w2 w3 w4
    obtain ⟨i1, i2, i3⟩ := idle_step hA hn h2 hr (by omega) hb.motorWf hb.motorEven w1 (fun a ha => ((hb.spaceB.2 a).1 (w2 ▸ ha)).2) w3 w4
    exact ⟨i1, even_full hb.motorSub i1.sub i2 (addStep_keeps hA (by omega) hn h2 hr (by omega) hb.motorWf w1 w4), i3⟩
  exact ⟨one hb0 x1 x2 x3 g0, one hb1 y1 y2 y3 g1⟩

/-- `post_integrate` of a motor whose sign has changed. -/
theorem post_sign (hA : WfAlg A) (h5 : A.n < 6) (hn : 2 ≤ A.n) (h2 : (2 : R) ≠ 0) (h0 : ∃ j < A.n, A.desc.sig.getD j 0 ≠ 0) {rt : Roots R} (hr : RootLaw rt)
    {fuel : Nat} (hf : 4 ≤ fuel) {b : Body R} {ps : List (Cl A R)} {B L : SubSpace} (h : Live A b ps B L)
    (hu : val A b.motor * CliffordAlgebra.reverse (val A b.motor) = 1) {dt : R} (hdt : dt ≠ 0) {r s m m' n : MV R} (hrw : WfMV A r) (hrs : r.sub = B)
    (hs : r.mul A (.num dt) = some s) (hm : motorAddStep A rt fuel b.motor s = .ok m) (hm' : WfMV A m') (hms : m'.sub = b.motor.sub) {ε : R} (hε : ε * ε = 1)
    (hmv : val A m' = ε • val A m) (hnm : m'.normalized A rt fuel = .ok n) :
    WfMV A n ∧ n.sub = b.motor.sub ∧ (∃ c : R, c * c = 1 ∧ val A n = c • val A m) ∧
    ∃ z, WfMV A z ∧ z.sub = B ∧ val A z = val A r ∧
      ({ b with motor := m', rate := r } : Body R).postIntegrate A rt fuel b dt = .ok { b with motor := n, rate := z } := by
  have hrg : Homogeneous 2 r := fun a ha => ((h.spaceB.2 a).1 (hrs ▸ ha)).2
  obtain ⟨s', s1, s2, s3⟩ := mul_num_in hA hrw dt
  cases s1.symm.trans hs
  obtain ⟨s', s1, -, -, s4⟩ := mul_num hA hrw dt
  cases s1.symm.trans hs
  have hsg : Homogeneous 2 s := fun a ha => hrg a (s3 ▸ ha)
  obtain ⟨m1, m2, E, q, i, e1, e2, e3, q1, q2, hi, hc, e4, u, v, N, N1, N2, N3, N4⟩ := addStep_spec hA hn h2 hr (by omega) h.motorWf h.motorEven s2 hsg hm
  have hu' : CliffordAlgebra.reverse (val A b.motor) * val A b.motor = 1 := mul_eq_one_comm.1 hu
  have m4 : val A m' * CliffordAlgebra.reverse (val A m') = 1 := by
    rw [hmv, map_smul, smul_mul_smul_comm, hε, one_smul, e1, CliffordAlgebra.reverse.map_mul, mul_assoc, ← mul_assoc E, e2, one_mul, hu]
  have me : EvenSub m'.sub := hms ▸ h.motorEven
  obtain ⟨n1, c', t, c1, c2', n2'⟩ := normalized_unit hA h2 hr (by omega) hm' m4 hnm
  have n3 : n.sub = b.motor.sub := even_full h.motorSub n1.sub (normalized_even hA h2 hr (by omega) hm' me hnm)
    (hms ▸ normalized_keeps hA h5 h2 hr (by omega) hm' me hnm)
  obtain ⟨c, hcd⟩ : ∃ c, c = c' * ε := ⟨_, rfl⟩
  have c2 : c * c = 1 := by rw [hcd, mul_mul_mul_comm, c2', hε, one_mul]
  have n2 : val A n = c • val A m := by rw [n2', hmv, smul_smul, hcd]
  refine ⟨n1, n3, ⟨c, c2, n2⟩, ?_⟩
  obtain ⟨x, x1, x2, x3, x4⟩ := reverse_in hA n1
  obtain ⟨y, y1, y2, y3, y4⟩ := reverse_in hA h.motorWf
  have hrev := bivector_rev hA s2 hsg
  have hc0 : c ≠ 0 := by rintro rfl; rw [mul_zero] at c2; exact zero_ne_one c2
  have hv : val A y * CliffordAlgebra.reverse (val A x) = (c • i) + (c • i) * ((-1 / 2 : R) • val A s) := by
    rw [x4, y4, CliffordAlgebra.reverse_reverse, n2, e1, mul_smul_comm, ← mul_assoc, hu', one_mul, e4, smul_add, smul_mul_assoc]
  have hi' : CliffordAlgebra.reverse (c • i) = c • i := by rw [map_smul, hi]
  have ci' : Commute (val A s) (c • i) := hc.smul_right c
  have q1' : (c • q) * (c • i) = 1 := by rw [smul_mul_smul_comm, c2, q1, one_smul]
  have q2' : (c • i) * (c • q) = 1 := by rw [smul_mul_smul_comm, c2, q2, one_smul]
  obtain ⟨w, w1, w2, w3, w4⟩ := relStep_spec hA h5 hn h2 h0 hf x3 (x2 ▸ n3 ▸ h.motorEven) y3 (y2 ▸ h.motorEven) q1' q2' hi' hrev
    (val_even hA s2 hsg.even) ci' hv
  have hq0 : coef A R 0 (c • q) ≠ 0 := by
    rw [map_smul, smul_eq_mul]
    exact mul_ne_zero hc0 (root_scalar hA h5 h2 N1 N2 q1 N3 N4).1
  obtain ⟨z, z1, z2, z3, z4⟩ := div_num hA fuel w2 hdt
  have hwB : w.sub = B := by
    refine WfSub.ext w2.sub h.spaceB.1 fun a => ⟨fun ha => (h.spaceB.2 a).2 ⟨w2.sub.lt a ha, w3 a ha⟩, fun ha => ?_⟩
    have ha' := (h.spaceB.2 a).1 ha
    refine relStep_keeps hA h5 hn h2 hf x3 (x2 ▸ n3 ▸ h.motorEven) y3 (y2 ▸ h.motorEven) (x2 ▸ n3 ▸ h.motorZero) q1' hq0 hi' ?_ hv w1 (y2 ▸ (h.motorSub.2 a).2 ⟨ha'.1, ?_⟩) ha'.2
    · rw [CliffordAlgebra.reverse.map_mul, hi', map_smul, hrev, smul_neg, neg_mul, (ci'.smul_left (-1 / 2 : R)).eq]
    · simp only [show popcount a = 2 from ha'.2]
  have hz : z.sub = B := z3.trans hwB
  refine ⟨z, z2, hz, ?_, ?_⟩
  · rw [z4, w4, s4, smul_smul, inv_mul_cancel₀ hdt, one_smul]
  · have hl := h.copy_total hA (m := some m') (r := some r) hms hrs
    have hl' := h.copy hA (by rintro x ⟨⟩; exact hm') (by rintro x ⟨⟩; exact hrw) (by simp) (by simp) hl
    have := hl'.copy_total hA (m := some n) (r := some z) (n3.trans hms.symm) hz
    simp only [Option.getD_some] at this
    simp only [Body.postIntegrate, hnm, x1, y1, lift_some, w1, z1, bind, Except.bind, this]

/-- Results of sums and products have arrays of the right length. -/
theorem mul_length {x z : MV R} {y : MV.Operand R} (h : x.mul A y = some z) : z.vals.length = z.sub.blades.length := by
  rw [MV.mul, Option.bind_eq_bind, Option.bind_eq_some_iff] at h
  obtain ⟨y, -, h⟩ := h
  rw [MV.product] at h
  cases ho : Factory.product A (.sub x.sub) (.sub y.sub) with
  | none => rw [ho] at h; simp [MV.call] at h
  | some o =>
    rw [ho] at h
    obtain ⟨h1, h2⟩ := call_output h
    rw [h1, h2]

theorem add_length {x z : MV R} {y : MV.Operand R} (h : x.add A y = some z) : z.vals.length = z.sub.blades.length := by
  have con : ∀ {v : List R} {S : SubSpace} {z : MV R}, MV.construct v S = some z → z.vals.length = z.sub.blades.length := by
    intro v S z h
    unfold MV.construct at h
    split_ifs at h with hl
    cases h
    simpa using hl
  rw [MV.add, Option.bind_eq_bind, Option.bind_eq_some_iff] at h
  obtain ⟨y, -, h⟩ := h
  unfold MV.combine at h
  split_ifs at h with hs
  · exact con h
  · simp only [Option.bind_eq_bind, Option.bind_eq_some_iff] at h
    obtain ⟨_, -, _, -, _, -, h⟩ := h
    exact con h

theorem pre_sound {rt : Roots R} {fuel : Nat} {b c : Body R} {dt : R} (h : b.preIntegrate A rt fuel dt = .ok c) : Sound A c := by
  unfold Body.preIntegrate at h
  obtain ⟨r, h1, h⟩ := bind_ok h
  obtain ⟨s, h2, h⟩ := bind_ok h
  obtain ⟨m, h3, h⟩ := bind_ok h
  obtain ⟨rfl, hi⟩ := copy_ok h
  refine ⟨hi, ?_, ?_⟩
  · unfold motorAddStep at h3
    obtain ⟨_, -, h3⟩ := bind_ok h3
    obtain ⟨_, -, h3⟩ := bind_ok h3
    exact mul_length (lift_ok h3)
  · unfold Integrators.RK4 at h1
    repeat
      obtain ⟨_, -, h1⟩ := bind_ok h1
    exact add_length (lift_ok h1)

end
end Verif
