import Verif.Proofs.Stuck
import Verif.Props.Fall
/-! # Falling bodies whose constraints are satisfied -/
namespace Verif
open Model Spec Model.Factory Props

/-- The translation of a step of the length `x` against an axis. -/
noncomputable def slip (A : Alg) {R : Type} [Field R] (i : Fin A.n) (x : R) : Cl A R := 1 + (-1 / 2 : R) • (x • slide A R i)

namespace Spec.Flat
variable {A : Alg} {d : Nat} (h : Flat A d) {R : Type} [Field R] [DecidableEq R] {i : Fin A.n} (hi : i ≠ h.iw)
include h hi

theorem slip_trans {v : List R} (hv : v.length = d) (s : R) : slip A i s * trans A v = trans A (v.set i (v.getD i 0 - s)) := by
  have e3 : arm A v * last A R * slide A R i = 0 := h.vw_vw (u := fun i : Fin A.n => v.getD i 0) (v := Pi.single i 1) (h.single_iw (R := R) hi)
  have e2 : slide A R i * (arm A v * last A R) = 0 := h.vw_vw (u := Pi.single i 1) (v := fun i : Fin A.n => v.getD i 0) (h.arm_last hv)
  rw [← h.trans_slide hi hv, slip, Spec.trans_def]
  simp only [add_mul, mul_add, one_mul, mul_one, smul_mul_assoc, mul_smul_comm, e2, e3, smul_zero, add_zero]
  abel

theorem trans_fix {v : List R} (hv : v.length = d) : trans A v * slide A R i * CliffordAlgebra.reverse (trans A v) = slide A R i := by
  have e3 : arm A v * last A R * slide A R i = 0 := h.vw_vw (u := fun i : Fin A.n => v.getD i 0) (v := Pi.single i 1) (h.single_iw (R := R) hi)
  have e2 : slide A R i * (arm A v * last A R) = 0 := h.vw_vw (u := Pi.single i 1) (v := fun i : Fin A.n => v.getD i 0) (h.arm_last hv)
  have e6 : CliffordAlgebra.reverse (arm A v * last A R) = -(arm A v * last A R) := h.rev_vw (u := fun i : Fin A.n => v.getD i 0) (h.arm_last hv)
  rw [Spec.trans_def, map_add, map_smul, e6, CliffordAlgebra.reverse.map_one]
  simp only [add_mul, mul_add, one_mul, mul_one, smul_mul_assoc, mul_smul_comm, e2, e3, smul_zero, add_zero, mul_neg, smul_neg, neg_zero]

end Spec.Flat

section
variable {A : Alg} {d : Nat} {R : Type} [Field R] [LinearOrder R] [IsStrictOrderedRing R]

/-- A body that is in the middle of its step: it has been translated along the axis. -/
structure Mid (A : Alg) (d : Nat) (rt : Roots R) (fuel : Nat) (i : Fin A.n) (c dt : R) (b x : Body R) : Prop where
  mid : ∃ (S : SubSpace) (rows : List (List R)) (B L : SubSpace) (v : List R) (r s m m' : MV R), WfSub A S ∧ Made A S rows b ∧ Live A b (rows.map (denote A R S)) B L ∧ v.length = d ∧ (val A b.motor = trans A v ∨ val A b.motor = -trans A v) ∧
    WfMV A r ∧ r.sub = B ∧ val A r = c • slide A R i ∧ r.mul A (.num dt) = some s ∧ motorAddStep A rt fuel b.motor s = .ok m ∧
    (∃ σ : R, σ * σ = 1 ∧ val A m = σ • (slip A i (c * dt) * val A b.motor)) ∧ WfMV A m' ∧ m'.sub = b.motor.sub ∧ (∃ ε : R, ε * ε = 1 ∧ val A m' = ε • val A m) ∧
    x = { b with motor := m', rate := r }

/-- A body after `post_integrate`. -/
structure Done (A : Alg) (d : Nat) (i : Fin A.n) (c dt : R) (b y : Body R) : Prop where
  done : ∃ (S : SubSpace) (rows : List (List R)) (v : List R), WfSub A S ∧ Made A S rows y ∧ v.length = d ∧ (val A b.motor = trans A v ∨ val A b.motor = -trans A v) ∧
    (∃ σ : R, σ * σ = 1 ∧ val A y.motor = σ • (slip A i (c * dt) * val A b.motor)) ∧ val A y.rate = c • slide A R i

theorem sign_unit {x y : Cl A R} {σ : R} (hσ : σ * σ = 1) (e : x = σ • y) (p : Cl A R) : x * p * CliffordAlgebra.reverse x = y * p * CliffordAlgebra.reverse y := by
  rw [e, map_smul, smul_mul_assoc, smul_mul_smul_comm, hσ, one_smul]

variable (h : Spec.Flat A d)
include h

theorem motor_unit {v : List R} (hv : v.length = d) {x : Cl A R} (hx : x = trans A v ∨ x = -trans A v) : x * CliffordAlgebra.reverse x = 1 := by
  rcases hx with e | e
  · rw [e, h.trans_unit hv]
  · rw [e, map_neg, neg_mul_neg, h.trans_unit hv]

variable {i : Fin A.n} (hi : i ≠ h.iw)
include hi

theorem motor_next {v : List R} (hv : v.length = d) {x y : Cl A R} (hx : x = trans A v ∨ x = -trans A v) {σ t : R} (hσ : σ * σ = 1) (hy : y = σ • (slip A i t * x)) :
    ∃ w : List R, w.length = d ∧ (y = trans A w ∨ y = -trans A w) := by
  refine ⟨v.set i (v.getD i 0 - t), by rw [List.length_set, hv], ?_⟩
  rw [← h.slip_trans hi hv]
  rcases mul_self_eq_one_iff.1 hσ with e | e <;> rcases hx with e' | e' <;> rw [hy, e, e'] <;> simp

theorem Mid.of_pre (h5 : A.n < 6) (hN : ∀ s ∈ A.desc.sig, 0 ≤ s) {rt : Roots R} (hr : RealRoots rt) {fuel : Nat} (hf : 4 ≤ fuel) {M g δ c c' dt : R} (hM : M ≠ 0) {v : List R} {b x : Body R}
    (hb : Falls A d i M g δ c v b) (hc : RK.rk4 (fun x : R => -g - δ / M * x) c dt = c') (e : b.preIntegrate A rt fuel dt = .ok x) : Mid A d rt fuel i c' dt b x := by
  have h2 : (2 : R) ≠ 0 := two_ne_zero
  have hn : 2 ≤ A.n := by rw [h.n]; have := h.pos; omega
  obtain ⟨⟨S, rows, hS, hm, hp⟩, hb⟩ := hb
  obtain ⟨⟨B, L, hl⟩, -⟩ := hm.live h.wf hn hS
  have hps : ∀ p ∈ rows.map (denote A R S), ∃ v : List R, v.length = d ∧ p = place A v := by
    intro p hp'
    obtain ⟨r, r1, rfl⟩ := List.mem_map.1 hp'
    obtain ⟨u, u1, u2⟩ := hp r r1
    exact ⟨u, u1, by rw [place, ← u2, rhInv_rh]⟩
  obtain ⟨r, f1, f2, f3, f4⟩ := h.fall_rk4 hi h2 hl hps hN hM hb dt
  rw [hc] at f4
  unfold Body.preIntegrate at e
  rw [f1, ok_bind] at e
  obtain ⟨s, e1, e⟩ := bind_ok e
  have e1 := lift_ok e1
  obtain ⟨m, e2, e⟩ := bind_ok e
  obtain ⟨rfl, -⟩ := copy_ok e
  obtain ⟨s', s1, s2, s3⟩ := mul_num_in h.wf f2 dt
  cases e1.symm.trans s1
  have sv : val A s = (c' * dt) • slide A R i := by
    obtain ⟨z, z1, -, -, z4⟩ := mul_num h.wf f2 dt
    cases e1.symm.trans z1
    rw [z4, f4, smul_smul, mul_comm]
  have hs2 : Homogeneous 2 s := fun a ha => ((hl.spaceB.2 a).1 (f3 ▸ s3 ▸ ha)).2
  have hm' := h.fall_step hi h2 hl hps hr.law (by omega) hb.len hb.motor s2 hs2 sv e2
  have hu := motor_unit h hb.len hb.motor
  obtain ⟨m1, m2, -⟩ := C94_add h.wf hn h2 hr.law (by omega) hl.motorWf hl.motorEven s2 hs2 hu e2
  refine ⟨⟨S, rows, B, L, v, r, s, m, m, hS, hm, hl, hb.len, hb.motor, f2, f3, f4, e1, e2, ?_, m1,
    even_full hl.motorSub m1.sub m2 (addStep_keeps h.wf h5 hn h2 hr.law (by omega) hl.motorWf s2 e2), ⟨1, one_mul 1, (one_smul _ _).symm⟩, by simp⟩⟩
  rw [← h.slip_trans hi hb.len] at hm'
  rcases hm' with a | a <;> rcases hb.motor with a' | a'
  · exact ⟨1, one_mul 1, by rw [a, a', one_smul]⟩
  · exact ⟨-1, by norm_num, by rw [a, a', neg_smul, one_smul, mul_neg, neg_neg]⟩
  · exact ⟨-1, by norm_num, by rw [a, a', neg_smul, one_smul]⟩
  · exact ⟨1, one_mul 1, by rw [a, a', one_smul, mul_neg]⟩

omit hi in
theorem Mid.live {rt : Roots R} {fuel : Nat} {c dt : R} {b x : Body R} (hx : Mid A d rt fuel i c dt b x) :
    ∃ S rows B L, WfSub A S ∧ Made A S rows x ∧ Live A x (rows.map (denote A R S)) B L := by
  obtain ⟨S, rows, B, L, v, r, s, m, m', hS, hm, hl, -, -, r1, r2, -, -, -, -, m1, m2, -, rfl⟩ := hx.mid
  have hc := hl.copy_total h.wf (m := some m') (r := some r) m2 r2
  exact ⟨S, rows, B, L, hS, .copy hm (by rintro x ⟨⟩; exact m1) (by rintro x ⟨⟩; exact r1) (by simp) (by simp) hc,
    hl.copy h.wf (by rintro x ⟨⟩; exact m1) (by rintro x ⟨⟩; exact r1) (by simp) (by simp) hc⟩

omit h hi in
theorem Mid.motor {rt : Roots R} {fuel : Nat} {c dt : R} {b x : Body R} (hx : Mid A d rt fuel i c dt b x) :
    ∃ σ : R, σ * σ = 1 ∧ val A x.motor = σ • (slip A i (c * dt) * val A b.motor) := by
  obtain ⟨S, rows, B, L, v, r, s, m, m', -, -, -, -, -, -, -, -, -, -, ⟨σ, σ1, σ2⟩, -, -, ⟨ε, ε1, ε2⟩, rfl⟩ := hx.mid
  exact ⟨ε * σ, by rw [mul_mul_mul_comm, ε1, σ1, one_mul], by rw [← smul_smul, ← σ2]; exact ε2⟩

omit h hi in
theorem Mid.old {rt : Roots R} {fuel : Nat} {c dt : R} {b x : Body R} (hx : Mid A d rt fuel i c dt b x) :
    (∃ S rows B L, WfSub A S ∧ Made A S rows b ∧ Live A b (rows.map (denote A R S)) B L) ∧ ∃ v : List R, v.length = d ∧ (val A b.motor = trans A v ∨ val A b.motor = -trans A v) := by
  obtain ⟨S, rows, B, L, v, r, s, m, m', hS, hm, hl, h1, h2, -⟩ := hx.mid
  exact ⟨⟨S, rows, B, L, hS, hm, hl⟩, v, h1, h2⟩

theorem Mid.unit {rt : Roots R} {fuel : Nat} {c dt : R} {b x : Body R} (hx : Mid A d rt fuel i c dt b x) :
    val A x.motor * CliffordAlgebra.reverse (val A x.motor) = 1 := by
  obtain ⟨σ, σ1, σ2⟩ := hx.motor
  obtain ⟨-, v, v1, v2⟩ := hx.old
  obtain ⟨w, w1, w2⟩ := motor_next h hi v1 v2 σ1 σ2
  exact motor_unit h w1 w2

omit hi in
/-- Where an anchor is. -/
theorem anchor_at (h4 : A.n = 3 ∨ A.n = 4) {S : SubSpace} {rows : List (List R)} {b : Body R} (hS : WfSub A S) (hm : Made A S rows b)
    (u : val A b.motor * CliffordAlgebra.reverse (val A b.motor) = 1) {a : MV R} (ha : WfMV A a) (hs : A.antivector = some a.sub) :
    Gives A (b.motor.sandwich A a) (val A b.motor * val A a * CliffordAlgebra.reverse (val A b.motor)) := by
  obtain ⟨⟨B, L, hl⟩, -⟩ := hm.live h.wf (by omega) hS
  exact (anchor_grade h.wf h4 two_ne_zero hl u ha hs).1.gives

/-- Anchors that were at the same place are at the same place when both bodies have moved. -/
theorem anchor_next (h4 : A.n = 3 ∨ A.n = 4) {S : SubSpace} {rows : List (List R)} {b : Body R} (hS : WfSub A S) (hm : Made A S rows b)
    {S' : SubSpace} {rows' : List (List R)} {x : Body R} (hS' : WfSub A S') (hm' : Made A S' rows' x) {v : List R} (hv : v.length = d)
    (hb : val A b.motor = trans A v ∨ val A b.motor = -trans A v) {σ t : R} (hσ : σ * σ = 1) (hx : val A x.motor = σ • (slip A i t * val A b.motor))
    {a : MV R} (ha : WfMV A a) (hs : A.antivector = some a.sub) {p : Cl A R} (hp : Gives A (b.motor.sandwich A a) p) :
    Gives A (x.motor.sandwich A a) (slip A i t * p * CliffordAlgebra.reverse (slip A i t)) := by
  have hu := motor_unit h hv hb
  obtain ⟨w, w1, w2⟩ := motor_next h hi hv hb hσ hx
  have hu' := motor_unit h w1 w2
  obtain ⟨z, z1, -, z3⟩ := anchor_at h h4 hS hm hu ha hs
  have e := (hp.val z1).2
  refine (anchor_at h h4 hS' hm' hu' ha hs).congr ?_
  rw [sign_unit hσ hx, CliffordAlgebra.reverse.map_mul, ← e, z3]
  simp only [mul_assoc]

/-- A constraint that is satisfied leaves the bodies where they are. -/
theorem Mid.apply (h4 : A.n = 3 ∨ A.n = 4) (h0 : ∃ i j, i < j ∧ j < A.n ∧ A.desc.sig.getD i 0 ≠ 0 ∧ A.desc.sig.getD j 0 ≠ 0)
    {rt : Roots R} (hr : RealRoots rt) {fuel : Nat} {c dt : R} (hdt : dt ≠ 0) {tiny : R} {b0 b1 x0 x1 : Body R}
    (hx0 : Mid A d rt (fuel + 2) i c dt b0 x0) (hx1 : Mid A d rt (fuel + 2) i c dt b1 x1) {k : Constraint R} (hk : Proper A k)
    {p : Cl A R} (p0 : Gives A (b0.motor.sandwich A k.anchor0) p) (p1 : Gives A (b1.motor.sandwich A k.anchor1) p) {n0 n1 : MV R}
    (e : k.applyIndexed A rt (fuel + 2) tiny x0.motor x1.motor x0.inertiaInv x1.inertiaInv dt = .ok (n0, n1)) {y0 y1 : Body R}
    (e0 : putMotor A x0 n0 = .ok y0) (e1 : putMotor A x1 n1 = .ok y1) : Mid A d rt (fuel + 2) i c dt b0 y0 ∧ Mid A d rt (fuel + 2) i c dt b1 y1 := by
  obtain ⟨hk1, hk2, hk3, hk4⟩ := hk
  obtain ⟨-, a0, a1, -⟩ := constraint_ok h.wf hk1
  obtain ⟨S0, rows0, B, L, hS0, hm0, hl0⟩ := hx0.live h
  obtain ⟨S1, rows1, B', L', hS1, hm1, hl1⟩ := hx1.live h
  obtain ⟨rfl, rfl⟩ := live_same hl0 hl1
  have at0 : Gives A (x0.motor.sandwich A k.anchor0) (slip A i (c * dt) * p * CliffordAlgebra.reverse (slip A i (c * dt))) := by
    obtain ⟨⟨S, rows, B, L, hS, hm, hl⟩, v, v1, v2⟩ := hx0.old
    obtain ⟨σ, σ1, σ2⟩ := hx0.motor
    exact anchor_next h hi h4 hS hm hS0 hm0 v1 v2 σ1 σ2 hk2 a0 p0
  have at1 : Gives A (x1.motor.sandwich A k.anchor1) (slip A i (c * dt) * p * CliffordAlgebra.reverse (slip A i (c * dt))) := by
    obtain ⟨⟨S, rows, B, L, hS, hm, hl⟩, v, v1, v2⟩ := hx1.old
    obtain ⟨σ, σ1, σ2⟩ := hx1.motor
    exact anchor_next h hi h4 hS hm hS1 hm1 v1 v2 σ1 σ2 hk3 a1 p1
  obtain ⟨i0, i1⟩ := idle_apply h.wf h4 two_ne_zero h0 hr.law hl0 hl1 (hx0.unit h hi) hk1 hk2 hk3 hk4 at0 at1 hdt e
  have one : ∀ {b x y : Body R} {n : MV R}, Mid A d rt (fuel + 2) i c dt b x → putMotor A x n = .ok y → (WfMV A n ∧ n.sub = x.motor.sub ∧ ∃ ε : R, ε * ε = 1 ∧ val A n = ε • val A x.motor) →
      Mid A d rt (fuel + 2) i c dt b y := by
    rintro b x y n hx hy ⟨g1, g2, ε', g3, g4⟩
    obtain ⟨S, rows, B, L, v, r, s, m, m', q1, q2, q3, q4, q5, q6, q7, q8, q9, q10, q11, q12, q13, ⟨ε, ε1, ε2⟩, rfl⟩ := hx.mid
    obtain ⟨rfl, -, -⟩ := putMotor_ok hy
    simp only at g2 g4
    exact ⟨S, rows, B, L, v, r, s, m, n, q1, q2, q3, q4, q5, q6, q7, q8, q9, q10, q11, g1, g2.trans q13,
      ⟨ε' * ε, by rw [mul_mul_mul_comm, g3, ε1, one_mul], by rw [g4, ε2, smul_smul]⟩, by simp only [← g2]⟩
  exact ⟨one hx0 e0 i0, one hx1 e1 i1⟩

omit hi in
/-- The end of the step. -/
theorem Mid.post (h5 : A.n < 6) {rt : Roots R} (hr : RealRoots rt) {fuel : Nat} (hf : 4 ≤ fuel) {c dt : R} (hdt : dt ≠ 0) {b x y : Body R}
    (hx : Mid A d rt fuel i c dt b x) (e : x.postIntegrate A rt fuel b dt = .ok y) : Done A d i c dt b y := by
  have hn : 2 ≤ A.n := by rw [h.n]; have := h.pos; omega
  obtain ⟨S, rows, B, L, v, r, s, m, m', q1, q2, q3, q4, q5, q6, q7, q8, q9, q10, ⟨σ, σ1, σ2⟩, q12, q13, ⟨ε, ε1, ε2⟩, rfl⟩ := hx.mid
  have hu := motor_unit h q4 q5
  obtain ⟨n, e1, -⟩ := bind_ok e
  obtain ⟨n1, n2, ⟨κ, κ1, κ2⟩, z, z1, z2, z3, z4⟩ := post_sign h.wf h5 hn two_ne_zero ⟨0, by omega, h.unit 0 h.pos⟩ hr.law hf q3 hu hdt q6 q7 q9 q10 q12 q13 ε1 ε2 e1
  cases z4.symm.trans e
  have hc := q3.copy_total h.wf (m := some n) (r := some z) n2 z2
  refine ⟨S, rows, v, q1, .copy q2 (by rintro x ⟨⟩; exact n1) (by rintro x ⟨⟩; exact z1) (by simp) (by simp) hc, q4, q5, ⟨κ * σ, ?_, ?_⟩, z3.trans q8⟩
  · rw [mul_mul_mul_comm, κ1, σ1, one_mul]
  · rw [← smul_smul, ← σ2]; exact κ2

/-- The anchors then have the same velocity, and the velocity step divides zero by zero. -/
theorem Done.stuck (h4 : A.n = 3 ∨ A.n = 4) (hN : ∀ s ∈ A.desc.sig, 0 ≤ s) (h0 : ∃ i j, i < j ∧ j < A.n ∧ A.desc.sig.getD i 0 ≠ 0 ∧ A.desc.sig.getD j 0 ≠ 0)
    {rt : Roots R} (hr : RealRoots rt) {fuel : Nat} {c dt tiny : R} (ht : 0 < tiny) {b0 b1 y0 y1 : Body R} {S0 S1 : SubSpace} {rows0 rows1 : List (List R)}
    (hS0 : WfSub A S0) (hS1 : WfSub A S1) (m0 : Made A S0 rows0 b0) (m1 : Made A S1 rows1 b1)
    (hy0 : Done A d i c dt b0 y0) (hy1 : Done A d i c dt b1 y1) {k : Constraint R} (hk : Proper A k)
    {p : Cl A R} (p0 : Gives A (b0.motor.sandwich A k.anchor0) p) (p1 : Gives A (b1.motor.sandwich A k.anchor1) p) :
    ¬ ∃ r, k.vApplyIndexed A rt (fuel + 2) tiny y0.motor y1.motor y0.rate y1.rate y0.inertiaInv y1.inertiaInv = .ok r := by
  have h2 : (2 : R) ≠ 0 := two_ne_zero
  obtain ⟨hk1, hk2, hk3, hk4⟩ := hk
  obtain ⟨-, a0, a1, -⟩ := constraint_ok h.wf hk1
  obtain ⟨T0, ts0, v0, hT0, n0, l0, o0, ⟨σ0, s0, e0⟩, r0⟩ := hy0.done
  obtain ⟨T1, ts1, v1, hT1, n1, l1, o1, ⟨σ1, s1, e1⟩, r1⟩ := hy1.done
  have at0 := anchor_next h hi h4 hS0 m0 hT0 n0 l0 o0 s0 e0 hk2 a0 p0
  have at1 := anchor_next h hi h4 hS1 m1 hT1 n1 l1 o1 s1 e1 hk3 a1 p1
  obtain ⟨w0, w01, w02⟩ := motor_next h hi l0 o0 s0 e0
  obtain ⟨w1, w11, w12⟩ := motor_next h hi l1 o1 s1 e1
  have u0 := motor_unit h w01 w02
  have u1 := motor_unit h w11 w12
  obtain ⟨V0, V1, g0, g1, key⟩ : ∃ v0 v1 : Cl A R,
      Gives A (do y0.motor.sandwich A (← einsumCallMV (← k.anchor0.inertiaMap A (← A.bivector)) [y0.rate])) v0 ∧
      Gives A (do y1.motor.sandwich A (← einsumCallMV (← k.anchor1.inertiaMap A (← A.bivector)) [y1.rate])) v1 ∧
      ((∃ r, k.vApplyIndexed A rt (fuel + 2) tiny y0.motor y1.motor y0.rate y1.rate y0.inertiaInv y1.inertiaInv = .ok r) ↔ v0 ≠ v1) := by
    rcases h4 with h3 | h4
    · obtain ⟨i, j, -, hj, -, hj0⟩ := h0
      exact C97_velocity_total h.wf h3 hN ⟨j, hj, hj0⟩ hr (fuel := fuel + 1) hT0 hT1 n0 n1 u0 u1 hk1 hk2 hk3 hk4 ht
    · exact C98_velocity_total h.wf h4 hN h0 hr (fuel := fuel) hT0 hT1 n0 n1 u0 u1 hk1 hk2 hk3 hk4 at0 at1 ht
  rw [key, not_not]
  have one : ∀ {S : SubSpace} {rows : List (List R)} {y : Body R}, WfSub A S → Made A S rows y → ∀ {w : List R}, w.length = d → (val A y.motor = trans A w ∨ val A y.motor = -trans A w) →
      val A y.rate = c • slide A R i → ∀ {a : MV R}, WfMV A a → A.antivector = some a.sub → ∀ {q v : Cl A R}, Gives A (y.motor.sandwich A a) q →
      Gives A (do y.motor.sandwich A (← einsumCallMV (← a.inertiaMap A (← A.bivector)) [y.rate])) v →
      v = gradePart A R (A.n - 2) (meet A R q (comm A R q (c • slide A R i))) := by
    intro S rows y hS hm w hw ho hr a wa sa q v hq hv
    obtain ⟨⟨B, L, hl⟩, -⟩ := hm.live h.wf (by omega) hS
    have u := motor_unit h hw ho
    obtain ⟨⟨P, q1, q2, q3, q4⟩, -⟩ := anchor_grade h.wf h4 h2 hl u wa sa
    have ep := (hq.val q1).2
    rw [q4] at ep
    have rg : gradePart A R 2 (val A y.rate) = val A y.rate := within_grade hl.spaceB ⟨y.rate, hl.rateWf, hl.rateSub, rfl⟩
    obtain ⟨z, z1, -, -, z4⟩ := anchorVelocity_in h.wf hl wa sa hl.rateWf hl.rateSub
    have ev := (hv.val z1).2
    have m2 : val A y.motor * meet A R (val A a) (comm A R (val A a) (val A y.rate)) * CliffordAlgebra.reverse (val A y.motor) =
        meet A R (val A y.motor * val A a * CliffordAlgebra.reverse (val A y.motor)) (comm A R (val A y.motor * val A a * CliffordAlgebra.reverse (val A y.motor))
          (val A y.motor * val A y.rate * CliffordAlgebra.reverse (val A y.motor))) := by
      rcases h4 with h3 | h4
      · obtain ⟨t, gr, -⟩ := anchor_in3 h.wf h3 h2 hl u wa sa
        exact t.momentum3 h.wf h3 h2 gr rg
      · obtain ⟨t, gr, -⟩ := anchor_in h.wf h4 h2 hl u wa sa
        exact (t.momentum h.wf h4 h2 gr rg).2
    have hfix : val A y.motor * val A y.rate * CliffordAlgebra.reverse (val A y.motor) = c • slide A R i := by
      rw [hr, mul_smul_comm, smul_mul_assoc]
      rcases ho with e | e
      · rw [e, h.trans_fix hi hw]
      · rw [e, map_neg, mul_neg, neg_mul, neg_mul, neg_neg, h.trans_fix hi hw]
    rw [ep, hfix] at m2
    rw [← ev, z4, m2]
  rw [one hT0 n0 w01 w02 r0 hk2 a0 at0 g0, one hT1 n1 w11 w12 r1 hk3 a1 at1 g1]

end
end Verif
