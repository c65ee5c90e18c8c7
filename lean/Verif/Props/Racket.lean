import Verif.Proofs.Racket4
import Verif.Props.Physics2
import Verif.Props.Derived
/-! # The tennis racket example (C105) -/
namespace Verif.Props
open Model Spec

variable {A : Alg} {R : Type}

section
variable [Field R] [DecidableEq R]

/-- C105: `make_point_cloud` makes `2 ^ n` points: the duals of the vectors that have the coordinates `±1, ±2, .. ±n`. -/
theorem C105_cloud (hA : WfAlg A) : ∃ ps : List (MV R), Racket.makePointCloud A = some ps ∧ ps.length = 2 ^ A.n ∧
    (∀ p ∈ ps, WfMV A p ∧ A.antivector = some p.sub) ∧
    ∀ v : Fin A.n → R, (∃ p ∈ ps, val A p = rhMap A R (vec A v)) ↔ ∀ i, v i = (i : Nat) + 1 ∨ v i = -((i : Nat) + 1) := by
  obtain ⟨ps, V, p1, p2, p3, p4⟩ := Euc.cloud_spec' (R := R) hA
  obtain ⟨-, -, -, -, -, -, ⟨V', v1, v2⟩, -⟩ := id (C14_named hA)
  obtain rfl : V = V' := WfSub.ext p2.1 v2.1 fun b => by rw [p2.2, v2.2]
  refine ⟨ps, p1, by simpa [Euc.corners] using congrArg List.length p4, fun p hp => ⟨(p3 p hp).1, (p3 p hp).2 ▸ v1⟩, fun v => ?_⟩
  have e : (∃ p ∈ ps, val A p = rhMap A R (vec A v)) ↔ rhMap A R (vec A v) ∈ ps.map (val A) := by simp
  rw [e, p4]
  have inj : ∀ u w : Fin A.n → R, rhMap A R (vec A u) = rhMap A R (vec A w) → u = w := fun u w h => by
    have h := congrArg (rhInv A R) h
    rw [rhInv_rh, rhInv_rh] at h
    funext i
    rw [← coef_vec u i, h, coef_vec]
  constructor
  · intro hm
    obtain ⟨w, hw, hv⟩ := List.mem_map.1 hm
    obtain rfl := inj _ _ hv
    obtain ⟨p, -, rfl⟩ := List.mem_map.1 hw
    intro i
    simp only [corner]
    split_ifs
    · left; push_cast; ring
    · right; push_cast; ring
  · intro hv
    classical
    refine List.mem_map.2 ⟨v, List.mem_map.2 ⟨Nat.ofBits fun i : Fin A.n => decide (v i = (i : Nat) + 1), List.mem_range.2 (Nat.ofBits_lt_two_pow _), ?_⟩, rfl⟩
    funext i
    rw [corner, Nat.testBit_ofBits_lt _ _ i.2]
    by_cases hi : v i = (i : Nat) + 1
    · simp [hi]
    · rw [if_neg (by simpa using hi), (hv i).resolve_left hi]; push_cast; ring

/-- The bodies that can be made from the point cloud and `copy`. -/
def Box (A : Alg) (b : Body R) : Prop := ∃ p ps, Racket.makePointCloud A = some (p :: ps) ∧ Made A p.sub ((p :: ps).map (·.vals)) b

theorem Box.live (h : Euc A) {b : Body R} (hb : Box A b) : ∃ B L, Live A b ((Euc.corners A R).map fun w => rhMap A R (vec A w)) B L := by
  obtain ⟨p, ps, h1, h2⟩ := hb
  exact h.box_live h1 h2

/-- C105: the inertia of the box in a Euclidean space of any dimension is diagonal: in the plane of the axes `i` and `k` the principal moment is
`2 ^ n ((i + 1)² + (k + 1)²)`. -/
theorem C105_inertia (h : Euc A) {b : Body R} (hb : Box A b) {x : MV R} (hx : WfMV A x) (hs : A.bivector = some x.sub) :
    ∃ y z, einsumCallMV b.inertia [x] = some y ∧ y.dualInverse A = some z ∧ WfMV A z ∧ gradePart A R 2 (val A z) = val A z ∧
      ∀ i k : Fin A.n, spin A (val A z) i k = 2 ^ A.n * (((i : Nat) + 1) ^ 2 + ((k : Nat) + 1) ^ 2) * spin A (val A x) i k := by
  obtain ⟨B, L, hl⟩ := hb.live h
  cases hl.bivector.symm.trans hs
  obtain ⟨y, y1, y2, y3, y4⟩ := hl.momentum hx rfl
  obtain ⟨z, z1, z2, z3⟩ := un_gives (rightHodgeInverse_un h.wf) y3
  have hw : Within A x.sub (val A x) := ⟨x, hx, rfl, rfl⟩
  rw [y4, h.box_inertia hl hw, rhInv_rh] at z3
  refine ⟨y, z, y1, z1, z2, ?_, fun i k => ?_⟩
  · rw [z3, Euc.weigh_grade _ (within_grade hl.spaceB hw)]
  · rw [z3, Euc.spin_weigh, Euc.second, Euc.second]; ring

/-- C105: the kinetic energy is the sum of the principal moments times the squares of the components of the rate.  There is no factor `-1/2`. -/
theorem C105_energy (h : Euc A) {b : Body R} (hb : Box A b) :
    Gives A (b.kineticEnergy A) (algebraMap R _ (∑ q : Fin A.n × Fin A.n with q.1 < q.2,
      2 ^ A.n * (((q.1 : Nat) + 1) ^ 2 + ((q.2 : Nat) + 1) ^ 2) * spin A (val A b.rate) q.1 q.2 ^ 2)) := by
  obtain ⟨B, L, hl⟩ := hb.live h
  refine (hl.energy h.wf).congr ?_
  rw [hl.pairing h.wf hl.rateIn hl.rateGrade, h.principal _ Euc.corners_moment hl.rateGrade hl.rateGrade, Euc.sum_pairs h.wf, Algebra.algebraMap_eq_smul_one]
  · congr 1
    refine Finset.sum_congr rfl fun q hq => ?_
    have hq : q.1 < q.2 := by simpa using hq
    rw [Euc.moment_pair _ hq.ne, spin, if_pos hq, Euc.second, Euc.second]
    ring
  · intro c hc hp
    have := Euc.coef_gradePart 2 (val A b.rate) hc
    rw [hl.rateGrade, if_neg hp] at this
    rw [this]; ring

/-- C105: `rate_derivative` of the box solves Euler's equations of the free top in every dimension, with damping: gravity has no effect. -/
theorem C105_euler (h : Euc A) (h2 : (2 : R) ≠ 0) {b : Body R} (hb : Box A b) : ∃ d, b.rateDerivative A = some d ∧ WfMV A d ∧ d.sub = b.rate.sub ∧
    ∀ i k : Fin A.n, 2 ^ A.n * (((i : Nat) + 1) ^ 2 + ((k : Nat) + 1) ^ 2) * spin A (val A d) i k = -(coeff b.damping 0 * spin A (val A b.rate) i k) +
      2 ^ A.n * (((k : Nat) + 1) ^ 2 - ((i : Nat) + 1) ^ 2) * ∑ j, spin A (val A b.rate) i j * spin A (val A b.rate) j k := by
  obtain ⟨B, L, hl⟩ := hb.live h
  obtain ⟨⟨d, d1, d2, d3, -⟩, e⟩ := h.box_euler hl h2
  rw [d1, Option.getD_some] at e
  refine ⟨d, d1, d3, d2.trans hl.rateSub.symm, fun i k => ?_⟩
  have := e i k
  rw [Euc.second, Euc.second] at this
  linear_combination this

end

section
variable [Field R] [LinearOrder R] [IsStrictOrderedRing R]

/-- C105: the bodies of the example exist in every Euclidean space: one for every plane, at the identity, with the rate of the unit spin in that plane
plus the jitter. -/
theorem C105_bodies (h : Euc A) (jitter : Nat → Nat → R) : ∃ bs, Racket.bodies A jitter = .ok bs ∧ bs.length = A.n.choose 2 ∧
    ∀ (i : Nat) (b : Body R), bs[i]? = some b → Box A b ∧ val A b.motor = 1 ∧ A.bivector = some b.rate.sub ∧
      b.rate.vals = (List.range (A.n.choose 2)).map (fun j => (if i = j then 1 else 0) + jitter i j) ∧ val A b.damping = 0 ∧ val A b.gravity = 0 := by
  obtain ⟨ps, V, p1, p2, p3, p4⟩ := Euc.cloud_spec' (R := R) h.wf
  cases ps with
  | nil => simp [Euc.corners] at p4
  | cons p ps =>
    obtain ⟨b, hb⟩ := h.box_exists p1
    have hbox : Box A b := ⟨p, ps, p1, .cloud hb⟩
    obtain ⟨B, L, hl⟩ := hbox.live h
    obtain ⟨r1, r2, r3, r4, -⟩ := C93_rest h.wf h.two (p3 p (by simp)).1.sub hb
    have hlen : B.blades.length = A.n.choose 2 := by rw [space_card hl.spaceB, card_popcount h.wf.le32]
    let row : Nat → List R := fun i => (List.range (A.n.choose 2)).map fun j => (if i = j then 1 else 0) + jitter i j
    have hw : ∀ i, WfMV A (⟨B, row i⟩ : MV R) := fun i => ⟨hl.spaceB.1, by simp [row, hlen]⟩
    have hadd : ∀ i, b.rate.add A (.mv ⟨B, row i⟩) = some ⟨B, row i⟩ := fun i => by
      obtain ⟨z, z1, z2, z3, z4⟩ := (add_in h.wf hl.rateWf (hw i) (by rw [hl.rateSub]; exact fun _ h => h)).1
      rw [z1, mv_eq z3 (hw i) (z2.trans hl.rateSub) (by rw [z4, r2, zero_add])]
    refine ⟨(List.range (A.n.choose 2)).map fun i => { b with rate := ⟨B, row i⟩ }, ?_, by simp, ?_⟩
    · unfold Racket.bodies
      rw [p1, hl.bivector, lift_some, lift_some]
      simp only [bind, Except.bind, hb, hlen]
      refine mapM_iff.2 ?_
      rw [List.forall₂_map_right_iff, List.forall₂_same]
      intro i _
      rw [MVFactory.kVector, show A.kVector 2 = A.bivector from rfl, hl.bivector]
      have e : MV.construct (row i) B = some ⟨B, row i⟩ := by rw [MV.construct, if_pos (hw i).len]
      simp only [Option.bind_eq_bind, Option.bind_some, MVFactory.multivector]
      rw [show (List.range (A.n.choose 2)).map (fun j => (if i = j then 1 else 0) + jitter i j) = row i from rfl, e, lift_some]
      simp only [hadd, lift_some]
    · intro i c hc
      rw [List.getElem?_map] at hc
      obtain ⟨j, hj, rfl⟩ := Option.map_eq_some_iff.1 hc
      obtain rfl : i = j := by
        rw [List.getElem?_range] at hj <;> grind
      refine ⟨⟨p, ps, p1, .copy (m := none) (r := some ⟨B, row i⟩) (g := none) (d := none) (.cloud hb) (by simp) (by rintro x ⟨⟩; exact hw i) (by simp) (by simp) ?_⟩,
        r1, hl.bivector, rfl, r3, r4⟩
      exact hl.copy_total h.wf (m := none) (r := some ⟨B, row i⟩) rfl rfl

/-- C105: the kinetic energy of a spinning box is positive. -/
theorem C105_positive (h : Euc A) {b : Body R} (hb : Box A b) (h0 : val A b.rate ≠ 0) : ∃ e : R, 0 < e ∧ Gives A (b.kineticEnergy A) (algebraMap R _ e) := by
  refine ⟨_, ?_, C105_energy h hb⟩
  obtain ⟨B, L, hl⟩ := hb.live h
  have nn : ∀ q ∈ Finset.univ.filter (fun q : Fin A.n × Fin A.n => q.1 < q.2),
      0 ≤ 2 ^ A.n * (((q.1 : Nat) + 1 : R) ^ 2 + ((q.2 : Nat) + 1) ^ 2) * spin A (val A b.rate) q.1 q.2 ^ 2 := fun q _ => by positivity
  refine lt_of_le_of_ne (Finset.sum_nonneg nn) fun e => h0 ?_
  refine spin_ext h.wf hl.rateGrade (by rw [map_zero]) fun i k hik => ?_
  have := (Finset.sum_eq_zero_iff_of_nonneg nn).1 e.symm (i, k) (by simpa using hik)
  have hp : (0 : R) < 2 ^ A.n * (((i : Nat) + 1 : R) ^ 2 + ((k : Nat) + 1) ^ 2) := by positivity
  rw [mul_eq_zero, or_iff_right hp.ne'] at this
  rw [pow_eq_zero_iff two_ne_zero |>.1 this]
  simp [spin]

/-- C105: without damping a rate is steady if and only if the square of its matrix is diagonal. -/
theorem C105_steady (h : Euc A) {b : Body R} (hb : Box A b) (hd : coeff b.damping 0 = 0) :
    Gives A (b.rateDerivative A) 0 ↔ ∀ i k, i ≠ k → ∑ j, spin A (val A b.rate) i j * spin A (val A b.rate) j k = 0 := by
  obtain ⟨d, d1, d2, d3, e⟩ := C105_euler h two_ne_zero hb
  obtain ⟨B, L, hl⟩ := hb.live h
  rw [hd] at e
  have hp : ∀ i k : Fin A.n, (0 : R) < 2 ^ A.n * (((i : Nat) + 1 : R) ^ 2 + ((k : Nat) + 1) ^ 2) := fun i k => by positivity
  constructor
  · rintro ⟨z, z1, -, z3⟩ i k hik
    cases d1.symm.trans z1
    have := e i k
    rw [z3, show spin A (0 : Cl A R) i k = 0 by simp [spin], mul_zero, zero_mul, neg_zero, zero_add, eq_comm, mul_eq_zero, mul_eq_zero] at this
    refine (this.resolve_left ?_)
    rintro (h0 | h0)
    · exact absurd h0 (by positivity)
    · have e1 : (((k : Nat) : R) + 1) ^ 2 = ((i : Nat) + 1) ^ 2 := sub_eq_zero.1 h0
      have e2 : (((k : Nat) : R) + 1) = (i : Nat) + 1 := (pow_left_inj₀ (by positivity) (by positivity) two_ne_zero).1 e1
      have e3 : ((k : Nat) : R) = (i : Nat) := by linarith
      exact hik (Fin.ext (Nat.cast_injective e3).symm)
  · intro h0
    refine ⟨d, d1, d2, ?_⟩
    refine spin_ext h.wf (within_grade hl.spaceB ⟨d, d2, d3.trans hl.rateSub, rfl⟩) (by rw [map_zero]) fun i k hik => ?_
    have := e i k
    rw [h0 i k hik.ne, zero_mul, neg_zero, zero_add, mul_zero, mul_eq_zero, or_iff_right (hp i k).ne'] at this
    rw [this]; simp [spin]

/-- C105: so a spin in one of the planes of the axes is steady, in any dimension. -/
theorem C105_plane (h : Euc A) {b : Body R} (hb : Box A b) (hd : coeff b.damping 0 = 0) {c : R} {a : Nat} (ha : a < 2 ^ A.n) (h2 : popcount a = 2)
    (hr : val A b.rate = c • blade A R a) : Gives A (b.rateDerivative A) 0 := by
  refine (C105_steady h hb hd).2 fun i k hik => Finset.sum_eq_zero fun j _ => ?_
  have key : ∀ p q : Fin A.n, p < q → spin A (blade A R (2 ^ (p : Nat) ^^^ 2 ^ (q : Nat))) i j * spin A (blade A R (2 ^ (p : Nat) ^^^ 2 ^ (q : Nat))) j k = 0 := fun p q hpq => by
    rw [spin_blade hpq, spin_blade hpq]
    have := hpq.ne
    split_ifs <;> simp_all
  rw [hr, spin_smul, spin_smul, mul_mul_mul_comm]
  obtain ⟨p, q, hpq, rfl⟩ := two_bit h.wf ha h2
  rcases lt_or_gt_of_ne hpq with h1 | h1
  · rw [key p q h1, mul_zero]
  · rw [Nat.xor_comm, key q p h1, mul_zero]

/-- C105: the loop of the example can be run for any number of steps in two to five dimensions, and all motors are unit motors. -/
theorem C105_simulate (h : Euc A) (h5 : A.n < 6) {rt : Roots R} (hr : RealRoots rt) {fuel : Nat} (hf : 4 ≤ fuel) {dt : R} (hdt : dt ≠ 0) (n : Nat) {b : Body R}
    (hb : Box A b) (hu : val A b.motor * CliffordAlgebra.reverse (val A b.motor) = 1) :
    ∃ ms, Racket.simulate A rt fuel dt n b = .ok ms ∧ ms.length = n ∧
      ∀ m ∈ ms, WfMV A m ∧ A.evenGrade = some m.sub ∧ val A m * CliffordAlgebra.reverse (val A m) = 1 := by
  have h0 : ∃ j < A.n, A.desc.sig.getD j 0 ≠ 0 := ⟨0, by have := h.two; omega, by rw [h.sigD (by have := h.two; omega)]; decide⟩
  induction n generalizing b with
  | zero => exact ⟨[], rfl, rfl, by simp⟩
  | succ n ih =>
    obtain ⟨p, ps, h1, h2⟩ := id hb
    obtain ⟨ps', V, p1, -, p3, -⟩ := Euc.cloud_spec' (R := R) h.wf
    cases p1.symm.trans h1
    have hS := (p3 p (by simp)).1.sub
    obtain ⟨r, s, m, -, -, -, e⟩ := C94_total h.wf h5 h.two h.nonNeg h0 hr hf hS h2 hu hdt
    obtain ⟨c1, c2, -⟩ := C94_integrate h.wf h5 h.two two_ne_zero h0 hr.law hf hS h2 hu hdt e
    have hc : Box A { b with motor := m, rate := r } := ⟨p, ps, h1, c1⟩
    obtain ⟨ms, m1, m2, m3⟩ := ih hc c2
    obtain ⟨B, L, hl⟩ := hc.live h
    obtain ⟨-, -, -, -, -, -, -, -, -, -, -, -, ⟨E, e1, e2⟩, -⟩ := id (C14_named h.wf)
    refine ⟨m :: ms, ?_, by simp [m2], fun x hx => ?_⟩
    · rw [Racket.simulate, e]
      simp only [bind, Except.bind, m1]
    · rcases List.mem_cons.1 hx with rfl | hx
      · refine ⟨hl.motorWf, ?_, c2⟩
        rw [e1, WfSub.ext hl.motorSub.1 e2.1 fun a => by rw [hl.motorSub.2, e2.2]]
      · exact m3 x hx

/-- C105: `integrate` keeps a steady rate exactly. -/
theorem C105_keeps (h : Euc A) (h5 : A.n < 6) {rt : Roots R} (hr : RealRoots rt) {fuel : Nat} (hf : 4 ≤ fuel) {dt : R} (hdt : dt ≠ 0) {b : Body R}
    (hb : Box A b) (hu : val A b.motor * CliffordAlgebra.reverse (val A b.motor) = 1) (hd : Gives A (b.rateDerivative A) 0) :
    ∃ c, b.integrate A rt fuel dt = .ok c ∧ c.rate = b.rate := by
  have h0 : ∃ j < A.n, A.desc.sig.getD j 0 ≠ 0 := ⟨0, by have := h.two; omega, by rw [h.sigD (by have := h.two; omega)]; decide⟩
  obtain ⟨p, ps, h1, h2⟩ := id hb
  obtain ⟨ps', V, p1, -, p3, -⟩ := Euc.cloud_spec' (R := R) h.wf
  cases p1.symm.trans h1
  have hS := (p3 p (by simp)).1.sub
  obtain ⟨r, s, m, r1, -, -, e⟩ := C94_total h.wf h5 h.two h.nonNeg h0 hr hf hS h2 hu hdt
  refine ⟨_, e, ?_⟩
  show r = b.rate
  obtain ⟨B, L, hl⟩ := hb.live h
  have e1 := hl.rk4_fixed h.wf hd dt
  cases e1.symm.trans r1
  rfl

end
end Verif.Props
