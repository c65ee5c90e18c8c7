import Verif.Proofs.Fall
/-! # Free fall in a flat space: the body -/
namespace Verif
open Model Spec Model.Factory Props

theorem gradesOf_val {A : Alg} {R : Type} [CommRing R] {x : MV R} (hx : WfMV A x) : gradesOf A R x.sub (val A x) = val A x :=
  proj_val hx _ fun b hb => ⟨b, hb, rfl⟩

namespace Spec.Flat
variable {A : Alg} {d : Nat} (h : Flat A d) {R : Type} [Field R] [DecidableEq R] {i : Fin A.n} (hi : i ≠ h.iw)
include h hi

/-- The step of `motor_add_step` along an axis. -/
theorem slide_step (h2 : (2 : R) ≠ 0) {s : R} {E q j : Cl A R} (e2 : E * CliffordAlgebra.reverse E = 1) (q1 : q * j = 1)
    (q2 : CliffordAlgebra.reverse j = j) (q3 : Commute (s • slide A R i) j) (q4 : E = j + j * ((-1 / 2 : R) • (s • slide A R i))) (q5 : ∃ (u v : R) (N : Cl A R), q = u • 1 + v • N ∧ q * q = N) :
    E = 1 + (-1 / 2 : R) • (s • slide A R i) ∨ E = -(1 + (-1 / 2 : R) • (s • slide A R i)) := by
  set x : Cl A R := (-1 / 2 : R) • (s • slide A R i) with hx
  have x1 : x * x = 0 := by rw [hx, smul_smul, smul_mul_smul_comm, h.slide_sq hi, smul_zero]
  have x2 : CliffordAlgebra.reverse x = -x := by rw [hx, smul_smul, map_smul, h.slide_rev hi, smul_neg]
  have x3 : x * j = j * x := (q3.smul_left (-1 / 2 : R)).eq
  have jj : j * j = 1 := by
    rw [q4, map_add, CliffordAlgebra.reverse.map_mul, x2, q2, neg_mul, x3, mul_add, add_mul, add_mul, mul_neg, mul_neg] at e2
    have e3 : j * x * (j * x) = 0 := by rw [← x3, mul_assoc, ← mul_assoc j, ← x3, mul_assoc x, ← mul_assoc x x, x1, zero_mul]
    rw [e3, neg_zero, add_zero, ← mul_assoc j j x, mul_assoc j x j, x3, ← mul_assoc] at e2
    rw [← e2]; abel
  have qj : q = j := by
    calc q = q * (j * j) := by rw [jj, mul_one]
      _ = j := by rw [← mul_assoc, q1, one_mul]
  obtain ⟨u, v, N, n1, n2⟩ := q5
  rw [qj, jj] at n2
  rw [qj, ← n2, ← add_smul] at n1
  have hk : (u + v) * (u + v) = 1 := by
    rw [n1, smul_mul_smul_comm, one_mul] at jj
    have := congrArg (coef A R 0) jj
    rwa [map_smul, ← blade_zero, coef_blade _ _ (by positivity), if_pos rfl, smul_eq_mul, mul_one] at this
  rcases mul_self_eq_one_iff.1 hk with e | e
  · left; rw [q4, n1, e, one_smul, one_mul]
  · right; rw [q4, n1, e, neg_smul, one_smul, neg_one_mul]; abel

omit [DecidableEq R] hi in
theorem arm_set {v : List R} (hv : v.length = d) (hid : (i : Nat) < d) (s : R) : arm A (v.set i (v.getD i 0 - s)) = arm A v - s • gen A R i := by
  have : (fun j : Fin A.n => (v.set i (v.getD i 0 - s)).getD j 0) = (fun j : Fin A.n => v.getD j 0) - s • (Pi.single i 1 : Fin A.n → R) := by
    funext j
    rw [Pi.sub_apply, Pi.smul_apply, Pi.single_apply, List.getD_eq_getElem?_getD, List.getElem?_set]
    by_cases hj : j = i
    · subst hj; simp [hv, hid]
    · have : (i : Nat) ≠ j := fun e => hj (Fin.ext e.symm)
      simp [this, hj, List.getD_eq_getElem?_getD]
  rw [arm, this, arm]
  simp only [vec, map_sub, map_smul]
  rfl

/-- Translating further along an axis. -/
theorem trans_slide {v : List R} (hv : v.length = d) (s : R) :
    trans A v * (1 + (-1 / 2 : R) • (s • slide A R i)) = trans A (v.set i (v.getD i 0 - s)) := by
  have hid : (i : Nat) < d := by
    have := h.slide_ne hi
    have := i.2
    have := h.n
    omega
  have e3 : arm A v * last A R * slide A R i = 0 := h.vw_vw (u := fun i : Fin A.n => v.getD i 0) (v := Pi.single i 1) (h.single_iw (R := R) hi)
  rw [Spec.trans_def, Spec.trans_def, h.arm_set hv hid, sub_mul, smul_mul_assoc, ← slide, add_mul, one_mul, mul_add, mul_one, smul_mul_assoc, mul_smul_comm, mul_smul_comm, e3,
    smul_zero, smul_zero, smul_zero, add_zero, smul_sub, smul_smul, smul_smul]
  rw [show (-1 / 2 * s : R) = -(1 / 2 * s) by ring, neg_smul]
  abel

/-- A body that falls along an axis: it is not rotated, and its rate is `c` times the translation along the axis. -/
structure _root_.Verif.Spec.Falling (A : Alg) (d : Nat) {R : Type} [Field R] [DecidableEq R] (i : Fin A.n) (M g δ c : R) (v : List R) (b : Body R) : Prop where
  len : v.length = d
  motor : val A b.motor = trans A v ∨ val A b.motor = -trans A v
  rate : val A b.rate = c • slide A R i
  damping : val A b.damping = δ • 1
  gravity : val A b.gravity = g • rhInv A R (gen A R i)
  moment : val A b.firstMoment = M • rhInv A R (last A R)

section
variable (h2 : (2 : R) ≠ 0) {M g δ c : R} {v : List R} {b : Body R} {ps : List (Cl A R)} {B L : SubSpace}
  (hl : Live A b ps B L) (hp : ∀ p ∈ ps, ∃ v : List R, v.length = d ∧ p = place A v)
include h2 hl hp

omit [DecidableEq R] in
theorem slideIn [DecidableEq R] : Within A B (slide A R i) := by
  obtain ⟨s, hs⟩ := h.slide_blade (R := R) hi
  rw [hs]
  have := within_blade (R := R) hl.spaceB.1 ((hl.spaceB.2 _).2 ⟨h.slide_lt hi, h.slide_pop hi⟩)
  rw [within_iff hl.spaceB.1] at this ⊢
  intro c hc hc'
  rw [map_smul, this c hc hc', smul_zero]

/-- The momentum of a translation. -/
theorem fall_inertia (hm : val A b.firstMoment = M • rhInv A R (last A R)) : opMap A b.inertia B L (slide A R i) = M • rhInv A R (slide A R i) := by
  rw [hl.map _ (h.slideIn hi h2 hl hp)]
  have : (ps.map fun p => meet A R p (comm A R p (slide A R i))) = ps.map fun p => (meet A R).flip (-rhInv A R (gen A R i)) p := by
    refine List.map_congr_left fun p hq => ?_
    obtain ⟨v, hv, rfl⟩ := hp p hq
    rw [h.comm_place hi h2 hv, LinearMap.flip_apply]
  rw [this, ← map_list_sum, ← hl.moment, hm, LinearMap.flip_apply, map_neg, map_smul, LinearMap.smul_apply, h.meet_axis hi, smul_neg, neg_neg]

/-- The acceleration of a falling body. -/
theorem fall_rate (hN : NonNeg A) (hM : M ≠ 0) (hb : Falling A d i M g δ c v b) :
    GivesIn A (b.rateDerivative A) B ((-g - δ / M * c) • slide A R i) := by
  have h1 := hl.rateDerivative h.wf (hl.forques h.wf)
  have hI := h.fall_inertia hi h2 hl hp hb.moment
  have hδ : coeff b.damping 0 = δ := by
    have := scalar_val hl.dampingWf hl.dampingSub
    rw [hb.damping] at this
    have := congrArg (coef A R 0) this
    rw [map_smul, map_smul, ← blade_zero, coef_blade _ _ (by positivity), if_pos rfl, smul_eq_mul, smul_eq_mul, mul_one, mul_one] at this
    exact this.symm
  have hg : CliffordAlgebra.reverse (val A b.motor) * val A b.gravity * val A b.motor = val A b.gravity := by
    rw [hb.gravity, mul_smul_comm, smul_mul_assoc]
    rcases hb.motor with e | e
    · rw [e, h.carry_axis hi hb.len]
    · rw [e, map_neg, neg_mul, neg_mul, mul_neg, neg_neg, h.carry_axis hi hb.len]
  have hv : opMap A b.inertiaInv L B (-(coeff b.damping 0 • rhMap A R (val A b.rate)) + meet A R (val A b.firstMoment)
      (gradesOf A R b.gravity.sub (CliffordAlgebra.reverse (val A b.motor) * val A b.gravity * val A b.motor)) - comm A R (opMap A b.inertia B L (val A b.rate)) (val A b.rate)) =
      (-g - δ / M * c) • slide A R i := by
    have : -(coeff b.damping 0 • rhMap A R (val A b.rate)) + meet A R (val A b.firstMoment)
      (gradesOf A R b.gravity.sub (CliffordAlgebra.reverse (val A b.motor) * val A b.gravity * val A b.motor)) - comm A R (opMap A b.inertia B L (val A b.rate)) (val A b.rate) =
      opMap A b.inertia B L ((-g - δ / M * c) • slide A R i) := by
      rw [hδ, hg, gradesOf_val hl.gravityWf, hb.gravity, hb.moment, hb.rate]
      simp only [map_smul, LinearMap.smul_apply, h.meet_axis hi, hI, h.comm_momentum hi h2, smul_zero, sub_zero, h.rh_slide hi hN, smul_smul, ← smul_neg, ← neg_smul, smul_neg]
      rw [← add_smul]
      congr 1
      field_simp
      ring
    rw [this, hl.left]
    have := h.slideIn hi h2 hl hp
    rw [within_iff hl.spaceB.1] at this ⊢
    intro c hc hc'
    rw [map_smul, this c hc hc', smul_zero]
  rwa [hv] at h1

/-- A Runge-Kutta step of a falling body. -/
theorem fall_rk4 (hN : NonNeg A) (hM : M ≠ 0) (hb : Falling A d i M g δ c v b) (dt : R) :
    ∃ r, Integrators.RK4 A (fun r => do lift ((← b.copy A none (some r) none none).rateDerivative A)) b.rate dt = .ok r ∧ WfMV A r ∧ r.sub = B ∧
      val A r = RK.rk4 (fun x : R => -g - δ / M * x) c dt • slide A R i := by
  have hB := hl.spaceB.1
  have hW := h.slideIn hi h2 hl hp
  obtain ⟨T, T1, T2, T3⟩ := hW
  obtain ⟨t, rfl⟩ := mvOf_of T1 T2
  have vt : ∀ x : R, val A (mvOf B (x • t)) = x • slide A R i := fun x => by
    rw [← T3, val_mvOf, val_mvOf, Finset.smul_sum]
    exact Finset.sum_congr rfl fun j _ => by rw [Pi.smul_apply, smul_eq_mul, mul_smul]
  have inj : ∀ u w : Fin B.blades.length → R, val A (mvOf B u) = val A (mvOf B w) → u = w := fun u w e => by
    have := mv_eq (wf_mvOf hB u) (wf_mvOf hB w) rfl e
    simp only [mvOf, MV.mk.injEq, true_and] at this
    exact List.ofFn_injective this
  have key : ∀ u : Fin B.blades.length → R, ∃ w : Fin B.blades.length → R,
      (do lift ((← b.copy A none (some (mvOf B u)) none none).rateDerivative A) : Except Fail (MV R)) = .ok (mvOf B w) ∧
      ∀ x : R, u = x • t → w = (-g - δ / M * x) • t := by
    intro u
    have hc := hl.copy_total h.wf (m := none) (r := some (mvOf B u)) rfl rfl
    have hl' := hl.copy h.wf (by simp) (by rintro x ⟨⟩; exact wf_mvOf hB u) (by simp) (by simp) hc
    obtain ⟨y, d1, d2, d3, d4⟩ := hl'.rateDerivative h.wf (hl'.forques h.wf)
    obtain ⟨w, rfl⟩ := mvOf_of d3 d2
    refine ⟨w, by rw [hc]; simp only [bind, Except.bind, d1, lift_some], fun x hu => ?_⟩
    subst hu
    obtain ⟨z, z1, -, -, z4⟩ := h.fall_rate hi h2 hl' hp hN hM (c := x) (v := v) ⟨hb.len, hb.motor, vt x, hb.damping, hb.gravity, hb.moment⟩
    cases d1.symm.trans z1
    exact inj _ _ (z4.trans (vt _).symm)
  choose F hF h0 using key
  have hr : b.rate = mvOf B (c • t) := mv_eq hl.rateWf (wf_mvOf hB _) hl.rateSub (hb.rate.trans (vt c).symm)
  refine ⟨mvOf B (RK.rk4 F (c • t) dt), ?_, wf_mvOf hB _, rfl, ?_⟩
  · rw [hr]
    exact RK4_mvOf h.wf hB (f := fun r => do lift ((← b.copy A none (some r) none none).rateDerivative A)) hF _ dt
  · rw [← vt]
    congr 2
    have hF' : ∀ x : R, F (x • t) = (-g - δ / M * x) • t := fun x => h0 _ x rfl
    simp only [RK.rk4, hF', smul_smul, ← add_smul, smul_eq_mul]

/-- The motor after a step along the axis. -/
theorem fall_step {rt : Roots R} (hr : RootLaw rt) {fuel : Nat} (hf : 2 ≤ fuel) (hv : v.length = d) (hm : val A b.motor = trans A v ∨ val A b.motor = -trans A v)
    {s m : MV R} {x : R} (hs : WfMV A s) (hs2 : Homogeneous 2 s) (sx : val A s = x • slide A R i) (e : motorAddStep A rt fuel b.motor s = .ok m) :
    val A m = trans A (v.set i (v.getD i 0 - x)) ∨ val A m = -trans A (v.set i (v.getD i 0 - x)) := by
  obtain ⟨-, -, E, q, j, e1, e2, -, q1, -, q3, q4, q5, u, w, N, -, -, n3, n4⟩ := addStep_spec h.wf hl.two h2 hr hf hl.motorWf (fun a ha => ((hl.motorSub.2 a).1 ha).2) hs hs2 e
  rw [sx] at q4 q5
  have hE := h.slide_step hi h2 e2 q1 q3 q4 q5 ⟨u, w, N, n3, n4⟩
  have ht := h.trans_slide hi hv x
  rcases hm with a | a <;> rcases hE with a' | a' <;> rw [e1, a, a'] <;> simp only [mul_neg, neg_mul, neg_neg, ht, true_or, or_true]

end
end Spec.Flat

/-- The classical Runge-Kutta step of `x' = -g - k x`: the Taylor polynomial of order four of the solution. -/
theorem rk4_affine {R : Type} [Field R] (h2 : (2 : R) ≠ 0) (h3 : (3 : R) ≠ 0) (g k x dt : R) : RK.rk4 (fun x : R => -g - k * x) x dt =
    x * (1 - k * dt + (k * dt) ^ 2 / 2 - (k * dt) ^ 3 / 6 + (k * dt) ^ 4 / 24) - g * dt * (1 - k * dt / 2 + (k * dt) ^ 2 / 6 - (k * dt) ^ 3 / 24) := by
  have h6 : (6 : R) ≠ 0 := by rw [show (6 : R) = 2 * 3 by norm_num]; exact mul_ne_zero h2 h3
  have h24 : (24 : R) ≠ 0 := by rw [show (24 : R) = 2 * 2 * 6 by norm_num]; exact mul_ne_zero (mul_ne_zero h2 h2) h6
  simp only [RK.rk4, smul_eq_mul]
  field_simp
  ring

end Verif
