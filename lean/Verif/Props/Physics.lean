import Verif.Proofs.Physics6
import Verif.Proofs.SparseMatrix
import Verif.Props.Spaces
/-! # Rigid bodies (C93) -/
namespace Verif.Props
open Model Spec Model.Factory

variable {A : Alg} {R : Type}

section
variable [Field R] [DecidableEq R]

/-- The bodies that can be made from the points with coordinates `rows` over the subspace `S`: by `from_point_cloud`, and from these by
replacing the motor, the rate, the gravity or the damping with well-formed multivectors, any number of times. -/
inductive Made (A : Alg) (S : SubSpace) (rows : List (List R)) : Body R → Prop
  | cloud {b : Body R} (h : Body.fromPointCloud A S rows = .ok b) : Made A S rows b
  | copy {b c : Body R} {m r g d : Option (MV R)} (h : Made A S rows b) (hm : ∀ x ∈ m, WfMV A x) (hr : ∀ x ∈ r, WfMV A x)
      (hg : ∀ x ∈ g, WfMV A x) (hd : ∀ x ∈ d, WfMV A x) (hc : b.copy A m r g d = .ok c) : Made A S rows c

theorem Made.live (hA : WfAlg A) (hn : 2 ≤ A.n) {S : SubSpace} (hS : WfSub A S) {rows : List (List R)} {b : Body R} (h : Made A S rows b) :
    (∃ B L, Live A b (rows.map (denote A R S)) B L) ∧ ∀ r ∈ rows, r.length = S.blades.length := by
  induction h with
  | cloud h =>
    obtain ⟨B, L, h1, h2, h3, h4, h5, h6, h7, h8, -⟩ := cloud_spec hA hn hS h
    exact ⟨⟨B, L, Live.of_init hA h1 h3 h4 h5 h6 h7 h8⟩, h2⟩
  | copy _ hm hr hg hd hc ih =>
    obtain ⟨⟨B, L, ih⟩, ih'⟩ := ih
    exact ⟨⟨B, L, ih.copy hA hm hr hg hd hc⟩, ih'⟩

/-! ## C93 -/

/-- C93: a body made from points is at rest at the identity: its motor is 1, and its rate, damping and gravity are zero; its first moment
is the sum of the points. -/
theorem C93_rest (hA : WfAlg A) (hn : 2 ≤ A.n) {S : SubSpace} (hS : WfSub A S) {rows : List (List R)} {b : Body R}
    (h : Body.fromPointCloud A S rows = .ok b) :
    val A b.motor = 1 ∧ val A b.rate = 0 ∧ val A b.damping = 0 ∧ val A b.gravity = 0 ∧ val A b.firstMoment = (rows.map (denote A R S)).sum := by
  obtain ⟨B, L, h1, -, -, -, -, -, -, -, h9⟩ := cloud_spec hA hn hS h
  exact ⟨h9.1, h9.2.1, h9.2.2.1, h9.2.2.2, h1.moment⟩

/-- C93: the kinetic energy is the sum over the points `p` of the square of the vector `p & rate`. -/
theorem C93_energy (hA : WfAlg A) (hn : 2 ≤ A.n) {S : SubSpace} (hS : WfSub A S) {rows : List (List R)} {b : Body R} (h : Made A S rows b) :
    ∃ zs, rows.mapM (fun r => (⟨S, r⟩ : MV R).regressive A b.rate) = some zs ∧
      Gives A (b.kineticEnergy A) (zs.map fun z => val A z * val A z).sum := by
  obtain ⟨⟨B, L, hb⟩, hr⟩ := h.live hA hn hS
  obtain ⟨zs, z1, z2⟩ := mapM_forall₂ (f := fun r => (⟨S, r⟩ : MV R).regressive A b.rate)
    (p := fun r z => WfMV A z ∧ val A z = meet A R (denote A R S r) (val A b.rate)) (l := rows) fun r hr' => by
      obtain ⟨z, z1, z2, z3⟩ := regressive_gives hA (x := ⟨S, r⟩) ⟨hS, hr r hr'⟩ hb.rateWf
      exact ⟨z, z1, z2, by rw [z3, meet_eq]; rfl⟩
  refine ⟨zs, z1, (hb.energy hA).congr ?_⟩
  rw [hb.pairing hA hb.rateIn hb.rateGrade, List.map_map]
  have hg := fun p hp => hb.joinGrade hA (p := p) hp hb.rateGrade
  clear z1 hr hb h
  congr 1
  induction z2 with
  | nil => rfl
  | cons e _ ih =>
    rw [List.map_cons, List.map_cons, ih fun p hp => hg p (by rw [List.map_cons]; exact List.mem_cons_of_mem _ hp), e.2]
    congr 1
    obtain ⟨u, hu⟩ := exists_vec hA (hg _ (by rw [List.map_cons]; exact List.mem_cons_self ..))
    rw [Function.comp_apply, hu, inner_vec hA, vec_sq, Algebra.algebraMap_eq_smul_one]

/-- C93: the inertia map is symmetric: `inertia(x) & y = inertia(y) & x` for all rates `x` and `y`. -/
theorem C93_symmetric (hA : WfAlg A) (hn : 2 ≤ A.n) {S : SubSpace} (hS : WfSub A S) {rows : List (List R)} {b : Body R} (h : Made A S rows b)
    {x y : MV R} (hx : WfMV A x) (hxs : x.sub = b.rate.sub) (hy : WfMV A y) (hys : y.sub = b.rate.sub) :
    Agree A (do (← einsumCallMV b.inertia [x]).regressive A y) (do (← einsumCallMV b.inertia [y]).regressive A x) := by
  obtain ⟨⟨B, L, hb⟩, -⟩ := h.live hA hn hS
  rw [hb.rateSub] at hxs hys
  have key : ∀ {x y : MV R}, WfMV A x → x.sub = B → WfMV A y → y.sub = B → Gives A (do (← einsumCallMV b.inertia [x]).regressive A y)
      ((rows.map (denote A R S)).map fun p => innerMap A R (meet A R p (val A x)) (meet A R p (val A y))).sum := by
    intro x y hx hxs hy hys
    obtain ⟨p, p1, p2, p3, p4⟩ := hb.momentum hx hxs
    have := regressive_gives hA p3 hy
    rw [p4, ← meet_eq, hb.pairing hA ⟨x, hx, hxs, rfl⟩ (within_grade hb.spaceB ⟨y, hy, hys, rfl⟩)] at this
    rw [p1]
    exact this
  refine ⟨_, key hx hxs hy hys, (key hy hys hx hxs).congr ?_⟩
  refine congrArg List.sum (List.map_congr_left fun p hp => ?_)
  obtain ⟨u, hu⟩ := exists_vec hA (hb.joinGrade hA hp (within_grade hb.spaceB ⟨x, hx, hxs, rfl⟩))
  obtain ⟨v, hv⟩ := exists_vec hA (hb.joinGrade hA hp (within_grade hb.spaceB ⟨y, hy, hys, rfl⟩))
  have hd : dot A u v = dot A v u := Finset.sum_congr rfl fun i _ => by ring
  rw [hu, hv, inner_vec hA, inner_vec hA, hd]

/-- C93: the maps `inertia` and `inertia_inv` of a body are inverse to each other, exactly. -/
theorem C93_inverse (hA : WfAlg A) (hn : 2 ≤ A.n) {S : SubSpace} (hS : WfSub A S) {rows : List (List R)} {b : Body R} (h : Made A S rows b)
    {x : MV R} (hx : WfMV A x) :
    (x.sub = b.rate.sub → (do einsumCallMV b.inertiaInv [← einsumCallMV b.inertia [x]]) = some x) ∧
    (A.antibivector = some x.sub → (do einsumCallMV b.inertia [← einsumCallMV b.inertiaInv [x]]) = some x) := by
  obtain ⟨⟨B, L, hb⟩, -⟩ := h.live hA hn hS
  rw [hb.rateSub]
  constructor
  · intro hs
    obtain ⟨p, p1, p2, p3, p4⟩ := hb.inertia.call hx hs
    rw [p1]
    refine GivesIn.eq hx ?_
    have := hb.inverse.call p3 p2
    rwa [p4, hb.left _ ⟨x, hx, hs, rfl⟩, ← hs] at this
  · intro hs
    replace hs : x.sub = L := Option.some.inj (hs.symm.trans hb.antibivector)
    obtain ⟨p, p1, p2, p3, p4⟩ := hb.inverse.call hx hs
    rw [p1]
    refine GivesIn.eq hx ?_
    have := hb.inertia.call p3 p2
    rwa [p4, hb.right _ ⟨x, hx, hs, rfl⟩, ← hs] at this

/-- C93: `forques` and `rate_derivative` succeed, and the rate derivative solves Euler's equation of motion
`inertia(rate_derivative) + inertia(rate) x rate = forques`. -/
theorem C93_euler (hA : WfAlg A) (hn : 2 ≤ A.n) {S : SubSpace} (hS : WfSub A S) {rows : List (List R)} {b : Body R} (h : Made A S rows b) :
    ∃ f d, b.forques A = some f ∧ b.rateDerivative A = some d ∧ WfMV A f ∧ WfMV A d ∧ d.sub = b.rate.sub ∧
      Gives A (do (← einsumCallMV b.inertia [d]).add A (.mv (← (← einsumCallMV b.inertia [b.rate]).commutator A b.rate))) (val A f) := by
  obtain ⟨⟨B, L, hb⟩, -⟩ := h.live hA hn hS
  have hF := hb.forques hA
  obtain ⟨f, f1, f2, f3, f4⟩ := id hF
  obtain ⟨d, d1, d2, d3, d4⟩ := hb.rateDerivative hA hF
  refine ⟨f, d, f1, d1, f3, d3, d2.trans hb.rateSub.symm, ?_⟩
  obtain ⟨p, p1, p2, p3, p4⟩ := hb.momentum d3 d2
  obtain ⟨q, q1, q2, q3, q4⟩ := hb.momentum hb.rateWf hb.rateSub
  obtain ⟨c, c1, c2, c3⟩ := commutator_gives hA q3 hb.rateWf
  have hcL : Within A L (val A f - val A c) := by
    have hs : SubOf c.sub f.sub := by
      intro e he
      have := commutator_sub hA q3 hb.rateWf c1 (k := A.n - 2) (fun a ha => by rw [q2, hb.spaceL.2] at ha; omega)
        (fun a ha => by rw [hb.rateSub, hb.spaceB.2] at ha; exact ha.2) he
      rw [f2, hb.spaceL.2]
      exact ⟨c2.sub.lt e he, by omega⟩
    obtain ⟨w, -, w2, w3, w4⟩ := (add_in hA f3 c2 hs).2
    exact ⟨w, w3, w2.trans f2, w4⟩
  rw [p1, q1]
  simp only [Option.bind_eq_bind, Option.bind_some, c1]
  obtain ⟨U, -, u, -⟩ := C44_sum hA p3 c2
  refine u.gives.congr ?_
  rw [p4, d4, ← f4, ← q4, ← c3, hb.right _ hcL, sub_add_cancel]

/-- C93: the gyroscopic term does no work: the power `inertia(rate_derivative) & rate` is the power `forques & rate` of the forques. -/
theorem C93_power (hA : WfAlg A) (hn : 2 ≤ A.n) (h2 : (2 : R) ≠ 0) {S : SubSpace} (hS : WfSub A S) {rows : List (List R)} {b : Body R}
    (h : Made A S rows b) :
    Agree A (do (← einsumCallMV b.inertia [← b.rateDerivative A]).regressive A b.rate) (do (← b.forques A).regressive A b.rate) := by
  obtain ⟨⟨B, L, hb⟩, -⟩ := h.live hA hn hS
  obtain ⟨f, d, f1, d1, f3, d3, d2, e⟩ := C93_euler hA hn hS h
  obtain ⟨p, p1, p2, p3, p4⟩ := hb.momentum d3 (d2.trans hb.rateSub)
  obtain ⟨q, q1, q2, q3, q4⟩ := hb.momentum hb.rateWf hb.rateSub
  obtain ⟨c, c1, c2, c3⟩ := commutator_gives hA q3 hb.rateWf
  simp only [p1, q1, c1, Option.bind_eq_bind, Option.bind_some] at e
  obtain ⟨U, -, u, -⟩ := C44_sum hA p3 c2
  obtain ⟨s, s1, s2, s3⟩ := e
  obtain ⟨-, s3'⟩ := u.gives.val s1
  simp only [p1, d1, f1, Option.bind_eq_bind, Option.bind_some]
  refine ⟨_, regressive_gives hA p3 hb.rateWf, (regressive_gives hA f3 hb.rateWf).congr ?_⟩
  rw [← meet_eq, ← meet_eq, ← s3, s3', map_add, LinearMap.add_apply, c3, q4, hb.gyro hA h2, add_zero]

/-- C93: the momentum in the world frame changes at the rate of the forques in the world frame.  While any motor `M` moves with
`d/dt M = M' = -1/2 M * rate` and the rate with `rate_derivative`, the derivative of `M * inertia(rate) * ~M`, by the product rule,
is `M * forques * ~M`. -/
theorem C93_balance (hA : WfAlg A) (hn : 2 ≤ A.n) (h2 : (2 : R) ≠ 0) {S : SubSpace} (hS : WfSub A S) {rows : List (List R)} {b : Body R}
    (h : Made A S rows b) {f d p q : MV R} (hf : b.forques A = some f) (hd : b.rateDerivative A = some d)
    (hp : einsumCallMV b.inertia [b.rate] = some p) (hq : einsumCallMV b.inertia [d] = some q) {M M' : Cl A R}
    (hM' : M' = (-1 / 2 : R) • (M * val A b.rate)) :
    M' * val A p * CliffordAlgebra.reverse M + M * val A q * CliffordAlgebra.reverse M + M * val A p * CliffordAlgebra.reverse M' =
      M * val A f * CliffordAlgebra.reverse M := by
  obtain ⟨⟨B, L, hb⟩, -⟩ := h.live hA hn hS
  obtain ⟨f', d', f1, d1, f3, d3, d2, e⟩ := C93_euler hA hn hS h
  cases f1.symm.trans hf
  cases d1.symm.trans hd
  obtain ⟨q', p1, p2, p3, p4⟩ := hb.momentum d3 (d2.trans hb.rateSub)
  cases p1.symm.trans hq
  obtain ⟨p', q1, q2, q3, q4⟩ := hb.momentum hb.rateWf hb.rateSub
  cases q1.symm.trans hp
  obtain ⟨c, c1, c2, c3⟩ := commutator_gives hA q3 hb.rateWf
  simp only [p1, q1, c1, Option.bind_eq_bind, Option.bind_some] at e
  obtain ⟨U, -, u, -⟩ := C44_sum hA p3 c2
  obtain ⟨s, s1, s2, s3⟩ := e
  obtain ⟨-, s3'⟩ := u.gives.val s1
  have hr : CliffordAlgebra.reverse (val A b.rate) = - val A b.rate :=
    bivector_rev hA hb.rateWf fun a ha => by rw [hb.rateSub, hb.spaceB.2] at ha; exact ha.2
  have ec : val A c = (1 / 2 : R) • (val A p * val A b.rate - val A b.rate * val A p) := by
    rw [← two_comm hA, smul_smul, c3]
    rw [show (1 / 2 : R) * 2 = 1 by field_simp, one_smul]
  rw [← s3, s3', ec, hM', map_smul, CliffordAlgebra.reverse.map_mul, hr]
  simp only [smul_mul_assoc, mul_smul_comm, neg_mul, mul_neg, mul_add, add_mul, mul_sub, sub_mul, mul_assoc, smul_sub, smul_neg]
  module

end

section
variable [Field R] [LinearOrder R] [IsStrictOrderedRing R] [DecidableEq R]

/-- C93: in a space without negative basis vectors the kinetic energy is a nonnegative number, and it is zero only if the rate is zero. -/
theorem C93_positive (hA : WfAlg A) (hn : 2 ≤ A.n) (hN : ∀ s ∈ A.desc.sig, 0 ≤ s) {S : SubSpace} (hS : WfSub A S) {rows : List (List R)}
    {b : Body R} (h : Made A S rows b) :
    ∃ e : R, Gives A (b.kineticEnergy A) (e • 1) ∧ 0 ≤ e ∧ (e = 0 ↔ val A b.rate = 0) := by
  obtain ⟨⟨B, L, hb⟩, -⟩ := h.live hA hn hS
  obtain ⟨e, e1, e2, e3⟩ := hb.positive hA hN
  exact ⟨e, (hb.energy hA).congr e1, e2, e3⟩

/-- C93: in a space without negative basis vectors and without gravity the power of the forques is `-damping` times the sum of the squares
of the coefficients of the rate. -/
theorem C93_damping (hA : WfAlg A) (hn : 2 ≤ A.n) (hN : ∀ s ∈ A.desc.sig, 0 ≤ s) {S : SubSpace} (hS : WfSub A S) {rows : List (List R)}
    {b : Body R} (h : Made A S rows b) (hg : val A b.gravity = 0) :
    Gives A (do (← b.forques A).regressive A b.rate) (-(coeff b.damping 0 * ∑ a ∈ Finset.range (2 ^ A.n), coeff b.rate a ^ 2) • 1) := by
  obtain ⟨⟨B, L, hb⟩, -⟩ := h.live hA hn hS
  obtain ⟨f, f1, f2, f3, f4⟩ := hb.forques hA
  rw [hg] at f4
  simp only [mul_zero, zero_mul, map_zero, add_zero] at f4
  rw [f1]
  refine (regressive_gives hA f3 hb.rateWf).congr ?_
  rw [← meet_eq, f4, map_neg, LinearMap.neg_apply, map_smul, LinearMap.smul_apply, dual_pairing hA hb.rateGrade hb.rateGrade, smul_smul, neg_smul]
  congr 3
  refine Finset.sum_congr rfl fun a _ => ?_
  rw [NonNeg.sign hA hN, one_mul, coeff_eq hb.rateWf, sq]

/-- C93: in a space without negative basis vectors, `from_point_cloud` succeeds if and only if the points are given by rows of antivectors, and
they are not degenerate: no rate `x` other than zero has `(p & x)² = 0` for all the points `p`. -/
theorem C93_exists (hA : WfAlg A) (hn : 2 ≤ A.n) (hN : ∀ s ∈ A.desc.sig, 0 ≤ s) {S : SubSpace} (hS : WfSub A S) {rows : List (List R)} :
    (∃ b, Body.fromPointCloud A S rows = .ok b) ↔ (∀ a ∈ S.blades, popcount a + 1 = A.n) ∧ (∀ r ∈ rows, r.length = S.blades.length) ∧
      ∀ x : MV R, WfMV A x → A.bivector = some x.sub →
        (∀ r ∈ rows, Gives A (do let z ← (⟨S, r⟩ : MV R).regressive A x; z.product A z) 0) → val A x = 0 := by
  obtain ⟨B, b1, b2⟩ := (C14_named hA).2.2.1 hn
  have hg : ∀ x : MV R, WfMV A x → x.sub = B → gradePart A R 2 (val A x) = val A x := fun x hx hs => within_grade b2 ⟨x, hx, hs, rfl⟩
  have sq : (∀ r ∈ rows, r.length = S.blades.length) → ∀ x : MV R, WfMV A x →
      ((∀ r ∈ rows, Gives A (do let z ← (⟨S, r⟩ : MV R).regressive A x; z.product A z) 0) ↔
        ∀ p ∈ rows.map (denote A R S), meet A R p (val A x) * meet A R p (val A x) = 0) := by
    intro hr x hx
    have e : ∀ r ∈ rows, Gives A (do let z ← (⟨S, r⟩ : MV R).regressive A x; z.product A z) (meet A R (denote A R S r) (val A x) * meet A R (denote A R S r) (val A x)) := by
      intro r h
      refine (regressive_gives hA (x := ⟨S, r⟩) ⟨hS, hr r h⟩ hx).bind fun z hz ez => ?_
      rw [meet_eq]
      exact ez ▸ product_gives hA hz hz
    simp only [List.mem_map, forall_exists_index, and_imp, forall_apply_eq_imp_iff₂]
    refine forall₂_congr fun r h => ⟨fun h0 => ?_, fun h0 => h0 ▸ e r h⟩
    obtain ⟨z, z1, -, z3⟩ := h0
    obtain ⟨-, h3⟩ := (e r h).val z1
    rw [← h3, z3]
  constructor
  · rintro ⟨b, hb⟩
    obtain ⟨B', L, h1, h2, -, h4, -⟩ := cloud_spec hA hn hS hb
    obtain rfl : B = B' := Option.some.inj (b1.symm.trans h1.bivector)
    have hfs := cloud_sub hb
    refine ⟨by rw [hfs] at h4; exact h4, h2, fun x hx hxs h0 => ?_⟩
    have hxs : x.sub = B := Option.some.inj (hxs.symm.trans b1)
    have hz := (momentum_zero hA hn hN h1.points (hg x hx hxs)).2 ((sq h2 x hx).1 h0)
    have hw : Within A B (val A x) := ⟨x, hx, hxs, rfl⟩
    rw [← h1.left _ hw, h1.map _ hw, hz, map_zero]
  · rintro ⟨h1, h2, h3⟩
    have hp : ∀ p ∈ rows.map (denote A R S), gradePart A R (A.n - 1) p = p := by
      intro p hp
      obtain ⟨r, hr, rfl⟩ := List.mem_map.1 hp
      exact gradePart_val (x := ⟨S, r⟩) ⟨hS, h2 r hr⟩ fun b hb => by have := h1 b hb; omega
    refine cloud_total hA hn hS h1 h2 fun x hx h0 => ?_
    obtain ⟨z, z1, z2, rfl⟩ : Within A B x := by
      rw [within_iff b2.1]
      intro b hb hnb
      rw [← hx, gradePart_eq_proj, coef_proj, if_neg]
      intro hc
      exact hnb ((b2.2 b).2 ⟨hb, by simpa using hc⟩)
    exact h3 z z1 (by rw [z2]; exact b1) ((sq h2 z z1).2 ((momentum_zero hA hn hN hp hx).1 h0))

end


/-! ## The hypotheses are met -/

/-- Two points of the plane with homogeneous coordinates. -/
def cloudRows {R : Type} [Field R] : List (List R) := [[1, 0, 0], [1, 1, 0]]
def cloudSub : SubSpace := ⟨[3, 5, 6]⟩
theorem wf_cloudSub : WfSub pga2s cloudSub := wfSub_of_B (by decide +kernel)

section
variable [Field R] [LinearOrder R] [IsStrictOrderedRing R]

theorem cloud_meets (b a c : R) :
    meet pga2s R (blade pga2s R 3) (a • blade pga2s R 3 + (b • blade pga2s R 5 + c • blade pga2s R 6)) = b • blade pga2s R 1 + c • blade pga2s R 2 ∧
    meet pga2s R (blade pga2s R 3 + blade pga2s R 5) (a • blade pga2s R 3) = (-a) • blade pga2s R 1 := by
  simp only [map_add, map_smul, LinearMap.add_apply]
  have e1 : meet pga2s R (blade pga2s R 3) (blade pga2s R 3) = 0 := by
    rw [meet_blade wf_pga2s (by decide) (by decide), if_neg (by decide +kernel)]
  have e2 : meet pga2s R (blade pga2s R 3) (blade pga2s R 5) = (1 : R) • blade pga2s R 1 := by
    rw [meet_blade wf_pga2s (by decide) (by decide), if_pos (by decide +kernel)]
    congr 1
    exact Even.neg_one_pow (by decide +kernel)
  have e3 : meet pga2s R (blade pga2s R 3) (blade pga2s R 6) = (1 : R) • blade pga2s R 2 := by
    rw [meet_blade wf_pga2s (by decide) (by decide), if_pos (by decide +kernel)]
    congr 1
    exact Even.neg_one_pow (by decide +kernel)
  have e4 : meet pga2s R (blade pga2s R 5) (blade pga2s R 3) = (-1 : R) • blade pga2s R 1 := by
    rw [meet_blade wf_pga2s (by decide) (by decide), if_pos (by decide +kernel)]
    congr 1
    exact Odd.neg_one_pow (by decide +kernel)
  rw [e1, e2, e3, e4]
  constructor <;> simp

/-- The points make a body. -/
theorem cloud_exists : ∃ b : Body R, Body.fromPointCloud pga2s cloudSub cloudRows = .ok b := by
  rw [C93_exists wf_pga2s (by decide) (by decide) wf_cloudSub]
  refine ⟨by decide, by simp [cloudRows, cloudSub], fun x hx hs h => ?_⟩
  have hb : pga2s.bivector = some cloudSub := by decide +kernel
  obtain ⟨S, v⟩ := x
  obtain rfl : S = cloudSub := Option.some.inj (hs.symm.trans hb)
  have hl : v.length = 3 := hx.len
  obtain ⟨a, b, c, rfl⟩ : ∃ a b c, v = [a, b, c] := by
    match v, hl with
    | [a, b, c], _ => exact ⟨a, b, c, rfl⟩
  have hv : val pga2s (⟨cloudSub, [a, b, c]⟩ : MV R) = a • blade pga2s R 3 + (b • blade pga2s R 5 + c • blade pga2s R 6) := by
    simp [val, denote, cloudSub]
  have sq : ∀ r : List R, r.length = 3 → r ∈ cloudRows → meet pga2s R (denote pga2s R cloudSub r) (val pga2s (⟨cloudSub, [a, b, c]⟩ : MV R)) *
      meet pga2s R (denote pga2s R cloudSub r) (val pga2s (⟨cloudSub, [a, b, c]⟩ : MV R)) = 0 := by
    intro r hl hr
    obtain ⟨z, z1, -, z3⟩ := h r hr
    obtain ⟨-, h3⟩ := ((regressive_gives wf_pga2s (x := ⟨cloudSub, r⟩) ⟨wf_cloudSub, hl⟩ hx).bind fun z hz ez => ez ▸ product_gives wf_pga2s hz hz).val z1
    rw [meet_eq]
    exact h3.symm.trans z3
  have ev : ∀ s t : R, (s • blade pga2s R 1 + t • blade pga2s R 2) * (s • blade pga2s R 1 + t • blade pga2s R 2) = 0 → s = 0 ∧ t = 0 := by
    intro s t e
    have f1 : sgn pga2s 1 1 = 1 := by decide +kernel
    have f2 : sgn pga2s 1 2 = 1 := by decide +kernel
    have f3 : sgn pga2s 2 1 = -1 := by decide +kernel
    have f4 : sgn pga2s 2 2 = 1 := by decide +kernel
    simp only [add_mul, mul_add, smul_mul_smul_comm, blade_mul wf_pga2s, f1, f2, f3, f4, Nat.xor_self] at e
    have := congrArg (coef pga2s R 0) e
    simp only [map_add, map_smul, map_zero, coef_blade pga2s R (show 0 < 2 ^ pga2s.n by decide), coef_blade pga2s R (show 1 ^^^ 2 < 2 ^ pga2s.n by decide),
      coef_blade pga2s R (show 2 ^^^ 1 < 2 ^ pga2s.n by decide)] at this
    rw [if_neg (by decide : ¬ (0 = 2 ^^^ 1)), if_neg (by decide : ¬ (0 = 1 ^^^ 2))] at this
    have e : s * s + t * t = 0 := by simpa using this
    exact ⟨mul_self_eq_zero.1 (by linarith [mul_self_nonneg s, mul_self_nonneg t]), mul_self_eq_zero.1 (by linarith [mul_self_nonneg s, mul_self_nonneg t])⟩
  have p1 := sq [1, 0, 0] rfl (by simp [cloudRows])
  rw [hv, show denote pga2s R cloudSub [1, 0, 0] = blade pga2s R 3 by simp [denote, cloudSub], (cloud_meets b a c).1] at p1
  obtain ⟨rfl, rfl⟩ := ev b c p1
  have p2 := sq [1, 1, 0] rfl (by simp [cloudRows])
  have hv' : val pga2s (⟨cloudSub, [a, 0, 0]⟩ : MV R) = a • blade pga2s R 3 := by rw [hv]; simp
  rw [hv', show denote pga2s R cloudSub [1, 1, 0] = blade pga2s R 3 + blade pga2s R 5 by simp [denote, cloudSub], (cloud_meets 0 a 0).2] at p2
  obtain ⟨h0, -⟩ := ev (-a) 0 (by rw [zero_smul, add_zero]; exact p2)
  rw [hv', neg_eq_zero.1 h0, zero_smul]

example : WfAlg pga2s ∧ 2 ≤ pga2s.n ∧ WfSub pga2s cloudSub ∧ (∀ s ∈ pga2s.desc.sig, 0 ≤ s) ∧ (2 : ℚ) ≠ 0 := ⟨wf_pga2s, by decide, wf_cloudSub, by decide, by decide⟩

/-- The body with a rate, a gravity and a damping. -/
theorem cloud_made : ∃ b : Body R, Made pga2s cloudSub cloudRows b ∧ b.motor.sub = ⟨[0, 3, 5, 6]⟩ ∧ val pga2s b.motor = 1 ∧ b.rate = ⟨cloudSub, [2, 3, 1]⟩ ∧
    b.gravity = ⟨⟨[5, 6]⟩, [0, -9]⟩ ∧ coeff b.damping 0 = 1 / 2 := by
  obtain ⟨b, hb⟩ := cloud_exists (R := R)
  have hr := C93_rest wf_pga2s (by decide) wf_cloudSub hb
  have hi : b.asserts pga2s = some true := by
    obtain ⟨B, L, -, -, h, -⟩ := cloud_spec wf_pga2s (by decide) wf_cloudSub hb
    by_contra hc
    rw [Body.init, if_neg hc] at h
    cases h
  have h2 : pga2s.antivector = some cloudSub := by decide +kernel
  have h3 : pga2s.bivector = some cloudSub := by decide +kernel
  have h6 : pga2s.evenGrade = some ⟨[0, 3, 5, 6]⟩ := by decide +kernel
  have h7 : pga2s.scalar = some ⟨[0]⟩ := by decide +kernel
  have h15 : pga2s.antibivector = some ⟨[1, 2, 4]⟩ := by decide +kernel
  simp only [Body.asserts, h2, h3, h6, h7, h15, bind, Option.bind, Option.some.injEq, Bool.and_eq_true] at hi
  refine ⟨_, .copy (.cloud hb) (m := none) (r := some ⟨cloudSub, [2, 3, 1]⟩) (g := some ⟨⟨[5, 6]⟩, [0, -9]⟩) (d := some ⟨⟨[0]⟩, [1 / 2]⟩)
    (by simp) ?_ ?_ ?_ (if_pos ?_), by simpa using hi.1.1.1.1.1, hr.1, rfl, rfl, ?_⟩
  · rintro x ⟨⟩
    exact ⟨wf_cloudSub, rfl⟩
  · rintro x ⟨⟩
    exact ⟨wfSub_of_B (show wfSubB pga2s ⟨[5, 6]⟩ = true by decide +kernel), rfl⟩
  · rintro x ⟨⟩
    exact ⟨wfSub_of_B (show wfSubB pga2s ⟨[0]⟩ = true by decide +kernel), rfl⟩
  · simp only [Body.asserts, h2, h3, h6, h7, h15, bind, Option.bind, Option.some.injEq, Bool.and_eq_true, Option.getD_none, Option.getD_some]
    exact ⟨⟨⟨⟨⟨hi.1.1.1.1.1, by decide +kernel⟩, by decide +kernel⟩, hi.1.1.2⟩, hi.1.2⟩, by decide +kernel⟩
  · show coeff (⟨⟨[0]⟩, [1 / 2]⟩ : MV R) 0 = 1 / 2
    simp [coeff]

end

end Verif.Props
