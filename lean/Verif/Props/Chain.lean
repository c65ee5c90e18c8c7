import Verif.Proofs.Chain7
/-!
# C104: the chain of bodies

`numga/examples/physics/setup_chain.py`, in an algebra whose last basis vector is its only null vector (`Flat A d`: `d` axes and the origin).
`arm A v` is the vector `Σ v_i e_i`, `last A R` the null vector `w`; a point is given by its dual `w + Σ v_i e_i`.
-/
namespace Verif.Props
open Model Spec Model.Chain

section
variable {A : Alg} {d : Nat} (h : Spec.Flat A d) {R : Type} [Field R] [DecidableEq R] (fuel n : Nat) (e : R → R)
include h

/-- C104: the translator by `v` is the motor `1 + ½ (Σ v_i e_i) w`; a list of another length than the number of axes raises. -/
theorem C104_translator (h2 : (2 : R) ≠ 0) (v : List R) :
    (v.length = d → ∃ m, translator A fuel e n v = .ok m ∧ WfMV A m ∧ val A m = 1 + (1 / 2 : R) • (arm A v * last A R)) ∧
    (v.length ≠ d → translator A fuel e n v = .error .raised) := by
  constructor
  · intro hv
    obtain ⟨T, -, hT⟩ := h.translator_spec fuel n e h2
    obtain ⟨m, m1, m2, -, m4⟩ := hT v hv
    exact ⟨m, m1, m2, m4⟩
  · intro hv
    obtain ⟨M, m1, rfl, m3⟩ := h.modelSpace_eq (R := R)
    have wo : WfMV A (⟨⟨[2 ^ d]⟩, [1]⟩ : MV R) := ⟨h.wfPow (by rw [h.n]; omega), rfl⟩
    have hc : MVFactory.multivector A (some v) (some ⟨(List.range d).map (2 ^ ·)⟩) = none := by
      simp [MVFactory.multivector, MV.construct, hv]
    rw [translator, h.origin_eq, lift_some]
    show (((⟨⟨[2 ^ d]⟩, [1]⟩ : MV R).truediv A fuel (.num (-2))) >>= _) = _
    rw [(C49_scalar h.wf fuel wo (neg_ne_zero.2 h2)).2, m1]
    show (lift (MVFactory.multivector A (some v) (some ⟨(List.range d).map (2 ^ ·)⟩)) >>= _) = _
    rw [hc]
    rfl

/-- C104: translators compose by adding their vectors, in any order; each has unit norm. -/
theorem C104_compose (h2 : (2 : R) ≠ 0) {u v : List R} (hu : u.length = d) (hv : v.length = d) :
    ∃ s t m, translator A fuel e n u = .ok s ∧ translator A fuel e n v = .ok t ∧ translator A fuel e n (List.zipWith (· + ·) u v) = .ok m ∧
      Gives A (s.mul A (.mv t)) (val A m) ∧ Gives A (t.mul A (.mv s)) (val A m) ∧ Gives A (do s.mul A (.mv (← s.reverse A))) 1 := by
  obtain ⟨T, -, hT⟩ := h.translator_spec fuel n e h2
  obtain ⟨s, s1, s2, -, s4⟩ := hT u hu
  obtain ⟨t, t1, t2, -, t4⟩ := hT v hv
  obtain ⟨m, m1, m2, -, m4⟩ := hT (List.zipWith (· + ·) u v) (by simp [hu, hv])
  have key : ∀ {u v : List R}, u.length = d → v.length = d → (1 + (1 / 2 : R) • (arm A u * last A R)) * (1 + (1 / 2 : R) • (arm A v * last A R)) =
      1 + (1 / 2 : R) • ((arm A u + arm A v) * last A R) := by
    intro u v hu hv
    have h0 : arm A u * last A R * (arm A v * last A R) = 0 := h.vw_vw (u := fun i : Fin A.n => u.getD i 0) (h.arm_last hv)
    simp only [mul_add, add_mul, one_mul, mul_one, smul_mul_assoc, mul_smul_comm, h0, smul_zero, add_zero, smul_add]
    abel
  refine ⟨s, t, m, s1, t1, m1, ?_, ?_, ?_⟩
  · obtain ⟨U, -, z2⟩ := mul_in h.wf s2 t2
    exact z2.gives.congr (by rw [s4, t4, m4, key hu hv, h.arm_add hu hv])
  · obtain ⟨U, -, z2⟩ := mul_in h.wf t2 s2
    exact z2.gives.congr (by rw [s4, t4, m4, key hv hu, h.arm_add hu hv, add_comm (arm A v)])
  · refine (un_gives (reverse_un h.wf) s2).bind fun r hr er => ?_
    obtain ⟨U, -, z2⟩ := mul_in h.wf s2 hr
    exact z2.gives.congr (by rw [er, s4]; exact h.trans_unit hu)

/-- C104: `point_embed` of `v` is the point whose dual is `w + Σ v_i e_i`, in the layout of the antivectors: in every dimension, without a sign. -/
theorem C104_point (h2 : (2 : R) ≠ 0) {v : List R} (hv : v.length = d) :
    ∃ p, pointEmbed A fuel e n v = .ok p ∧ WfMV A p ∧ A.antivector = some p.sub ∧ Gives A (p.dual A) (last A R + arm A v) := by
  obtain ⟨V, v1, v2⟩ := (C14_named h.wf).2.2.2.2.2.2.1
  obtain ⟨p, p1, p2, p3, p4⟩ := h.point_spec fuel n e h2 v2 hv
  refine ⟨p, p1, p2, by rw [p3]; exact v1, (un_gives (rightHodge_un h.wf) p2).congr ?_⟩
  show rhMap A R (val A p) = _
  rw [p4, place, rh_rhInv]

/-- C104: a translator by `u` moves the point of `v` to the point of `u + v`. -/
theorem C104_move (h2 : (2 : R) ≠ 0) {u v : List R} (hu : u.length = d) (hv : v.length = d) :
    ∃ t p q, translator A fuel e n u = .ok t ∧ pointEmbed A fuel e n v = .ok p ∧ pointEmbed A fuel e n (List.zipWith (· + ·) u v) = .ok q ∧
      Gives A (t.sandwich A p) (val A q) := by
  obtain ⟨V, v1, v2⟩ := (C14_named h.wf).2.2.2.2.2.2.1
  obtain ⟨T, -, hT⟩ := h.translator_spec fuel n e h2
  obtain ⟨t, t1, t2, -, t4⟩ := hT u hu
  obtain ⟨p, p1, p2, p3, p4⟩ := h.point_spec fuel n e h2 v2 hv
  obtain ⟨q, q1, q2, q3, q4⟩ := h.point_spec fuel n e h2 v2 (v := List.zipWith (· + ·) u v) (by simp [hu, hv])
  refine ⟨t, p, q, t1, p1, q1, ?_⟩
  have := h.carry_point h2 v2 t2 (by rw [t4]; rfl) p2 p3 (by rw [p4]) hu hv
  rwa [q4]

/-- C104: the bodies of the chain are as many as asked for; body `i` stands at `i * distance` along the last axis, not rotated and at rest, with the damping
that was asked for; gravity is `1/20` of the first axis, and its centre of mass is the origin of its frame with the mass of the `2 d` points. -/
theorem C104_rest (h2 : (2 : R) ≠ 0) {fixing : Bool} {nB : Nat} {compliance distance size damping : R} {bs : List (Body R)} {s0 s1 : List (Link R)}
    (hs : setupBodies A fuel e n fixing nB compliance distance size damping = .ok (bs, s0, s1)) :
    nB ≠ 0 ∧ bs.length = nB ∧ ∀ (i : Nat) b, bs[i]? = some b →
      val A b.motor = 1 + ((i : R) * distance / 2) • (blade A R (2 ^ (d - 1)) * last A R) ∧ val A b.rate = 0 ∧ val A b.damping = damping • 1 ∧
      Gives A (b.gravity.dual A) ((1 / 20 : R) • blade A R 1) ∧ Gives A (b.firstMoment.dual A) (((2 * d : Nat) : R) • last A R) := by
  have hn : 2 ≤ A.n := by rw [h.n]; have := h.pos; omega
  obtain ⟨V, v1, v2⟩ := (C14_named h.wf).2.2.2.2.2.2.1
  obtain ⟨H, k1, k2⟩ := h.horizon_spec (R := R)
  obtain ⟨rows, -, -, r3, r4⟩ := h.setup_spec fuel n e h2 v1 v2 k1 k2 fixing nB compliance distance size damping
  obtain ⟨hnB, b0, hb0⟩ := r3 _ hs
  obtain ⟨bs', c, q1, -, q3, q4⟩ := r4 b0 hnB hb0
  cases hs.symm.trans q1
  refine ⟨hnB, q3, fun i b hb => ?_⟩
  obtain ⟨hh, hf⟩ := q4 i b hb
  have wf : WfMV A b.gravity ∧ WfMV A b.firstMoment := by
    split_ifs at hf
    · obtain ⟨b', m, -, f⟩ := hf
      obtain ⟨⟨B, L, hl⟩, -⟩ := m.live h.wf hn v2.1
      obtain ⟨c', c1, c2, -⟩ := h.fix_spec k2 hl.spaceB hl.inverse
      cases c1.symm.trans f
      rw [c2]
      exact ⟨hl.gravityWf, hl.momentWf⟩
    · obtain ⟨⟨B, L, hl⟩, -⟩ := hf.live h.wf hn v2.1
      exact ⟨hl.gravityWf, hl.momentWf⟩
  refine ⟨?_, hh.rate, hh.damping, ?_, ?_⟩
  · rw [hh.motor, Spec.trans_def, h.arm_along, smul_mul_assoc, smul_smul]
    congr 2
    ring
  · refine (un_gives (rightHodge_un h.wf) wf.1).congr ?_
    show rhMap A R _ = _
    rw [hh.gravity, rh_rhInv]
  · refine (un_gives (rightHodge_un h.wf) wf.2).congr ?_
    show rhMap A R _ = _
    rw [hh.moment, map_smul, rh_rhInv]

/-- C104: the chain is closed at the start.  Every pair of neighbours is joined by one constraint, which is in the first or in the second set by the parity of its
position; the two anchors of each constraint are at the same point of the world, halfway between the bodies.  No body is in two constraints of a set. -/
theorem C104_chain (h2 : (2 : R) ≠ 0) {fixing : Bool} {nB : Nat} {compliance distance size damping : R} {bs : List (Body R)} {s0 s1 : List (Link R)}
    (hs : setupBodies A fuel e n fixing nB compliance distance size damping = .ok (bs, s0, s1)) :
    Apart bs.length s0 ∧ Apart bs.length s1 ∧
    (∀ i : Nat, i + 1 < nB → ∃ l, (if i % 2 = 0 then s0[i / 2]? else s1[i / 2]?) = some l ∧ l.idx0 = i ∧ l.idx1 = i + 1) ∧
    ∀ l ∈ s0 ++ s1, (l.constraint.init A = .ok l.constraint ∧ WfMV A l.constraint.anchor0 ∧ WfMV A l.constraint.anchor1 ∧ WfMV A l.constraint.compliance ∧
        val A l.constraint.compliance = compliance • 1) ∧
      ∃ i : Nat, i + 1 < nB ∧ l.idx0 = i ∧ l.idx1 = i + 1 ∧ ∃ b0 b1 p, pyGet bs l.idx0 = some b0 ∧ pyGet bs l.idx1 = some b1 ∧
        Gives A (b0.motor.sandwich A l.constraint.anchor0) p ∧ Gives A (b1.motor.sandwich A l.constraint.anchor1) p ∧
        rhMap A R p = last A R + (((i : R) + 1 / 2) * distance) • blade A R (2 ^ (d - 1)) := by
  have hn : 2 ≤ A.n := by rw [h.n]; have := h.pos; omega
  obtain ⟨V, v1, v2⟩ := (C14_named h.wf).2.2.2.2.2.2.1
  obtain ⟨H, k1, k2⟩ := h.horizon_spec (R := R)
  obtain ⟨rows, -, -, r3, r4⟩ := h.setup_spec fuel n e h2 v1 v2 k1 k2 fixing nB compliance distance size damping
  obtain ⟨hnB, b0, hb0⟩ := r3 _ hs
  obtain ⟨bs', c, q1, ⟨c1, c2, c3, c4, c5, c6, c7⟩, q3, q4⟩ := r4 b0 hnB hb0
  cases hs.symm.trans q1
  obtain ⟨g1, g2, g3⟩ := C99_chain nB (List.replicate (nB - 1) c) (by simp; omega)
  rw [q3]
  refine ⟨g1, g2, fun i hi => ?_, fun l hl => ?_⟩
  · obtain ⟨l, l1, l2, -, l4⟩ := g3 i c (by rw [List.getElem?_replicate, if_pos (by omega)])
    exact ⟨l, l4, l1, l2⟩
  have hlink : ∃ t : Nat, (List.zipWith (fun (i : Int × Int) c => (⟨i.1, i.2, c⟩ : Link R)) (chainIdx nB) (List.replicate (nB - 1) c))[t]? = some l := by
    rcases List.mem_append.1 hl with hl | hl
    · obtain ⟨k, hk⟩ := List.mem_iff_getElem?.1 hl
      simp only [everySecond_getElem] at hk
      exact ⟨_, hk⟩
    · obtain ⟨k, hk⟩ := List.mem_iff_getElem?.1 hl
      simp only [everySecond_getElem, List.getElem?_drop] at hk
      exact ⟨_, hk⟩
  obtain ⟨i, hi⟩ := hlink
  obtain ⟨t1, t2, t3⟩ := chain_link hi
  obtain rfl : l.constraint = c := by
    rw [List.getElem?_zipWith] at hi
    have e1 : (List.replicate (nB - 1) c)[i]? = some c := by rw [List.getElem?_replicate, if_pos (by omega)]
    rw [e1] at hi
    cases e2 : (chainIdx nB)[i]? with
    | none => rw [e2] at hi; cases hi
    | some x => rw [e2] at hi; cases hi; rfl
  refine ⟨⟨c1, c2, c3, c4, c7⟩, i, t1, t2, t3, ?_⟩
  obtain ⟨x0, hx0⟩ : ∃ b, bs[i]? = some b := ⟨_, List.getElem?_eq_getElem (by omega)⟩
  obtain ⟨x1, hx1⟩ : ∃ b, bs[i + 1]? = some b := ⟨_, List.getElem?_eq_getElem (by omega)⟩
  have h0 := (q4 i x0 hx0).1
  have h1 := (q4 (i + 1) x1 hx1).1
  obtain ⟨-, w2, w3, -⟩ := constraint_ok h.wf c1
  replace w2 := Option.some.inj (w2.symm.trans v1)
  replace w3 := Option.some.inj (w3.symm.trans v1)
  have e0 := h.carry_point h2 v2 h0.motorWf h0.motor c2 w2 c5 (h.along_length _) (h.along_length _)
  have e1 := h.carry_point h2 v2 h1.motorWf h1.motor c3 w3 c6 (h.along_length _) (h.along_length _)
  rw [Spec.Flat.along_add] at e0 e1
  have ee : ((i + 1 : Nat) : R) * distance + -distance / 2 = (i : R) * distance + distance / 2 := by push_cast; field_simp; ring
  rw [ee] at e1
  refine ⟨x0, x1, _, ?_, ?_, e0, e1, ?_⟩
  · rw [t2, pyGet, show pyIndex bs.length ((i : Nat) : Int) = some i by unfold pyIndex; rw [if_pos (by omega)]; simp; omega]; exact hx0
  · rw [t3, pyGet, show ((i : Int) + 1) = ((i + 1 : Nat) : Int) by push_cast; rfl, show pyIndex bs.length ((i + 1 : Nat) : Int) = some (i + 1) by unfold pyIndex; rw [if_pos (by omega)]; simp; omega]; exact hx1
  · rw [place, rh_rhInv, h.arm_along]
    congr 2
    field_simp

/-- C104: without fixing all bodies are bodies made of the points of the cube, with motors of unit norm, so that what is proved of such bodies and of sets of
them holds of the chain. -/
theorem C104_moving (h2 : (2 : R) ≠ 0) {nB : Nat} {compliance distance size damping : R} {bs : List (Body R)} {s0 s1 : List (Link R)}
    (hs : setupBodies A fuel e n false nB compliance distance size damping = .ok (bs, s0, s1)) : ∀ b ∈ bs, Moving A b := by
  obtain ⟨V, v1, v2⟩ := (C14_named h.wf).2.2.2.2.2.2.1
  obtain ⟨H, k1, k2⟩ := h.horizon_spec (R := R)
  obtain ⟨rows, -, -, r3, r4⟩ := h.setup_spec fuel n e h2 v1 v2 k1 k2 false nB compliance distance size damping
  obtain ⟨hnB, b0, hb0⟩ := r3 _ hs
  obtain ⟨bs', c, q1, -, q3, q4⟩ := r4 b0 hnB hb0
  cases hs.symm.trans q1
  intro b hb
  obtain ⟨i, hi⟩ := List.mem_iff_getElem?.1 hb
  obtain ⟨hh, hf⟩ := q4 i b hi
  rw [if_neg (by simp)] at hf
  exact ⟨⟨V, rows, v2.1, hf⟩, by rw [hh.motor, h.trans_unit (h.along_length _)]⟩

/-- C104: fixing changes the first body only, and of it only the map from forces to rates: every rate it gives has no component along a bivector that contains
the null vector (so the body does not translate), and the same other components. -/
theorem C104_fixing (h2 : (2 : R) ≠ 0) {nB : Nat} {compliance distance size damping : R} {bs : List (Body R)} {s0 s1 : List (Link R)}
    (hs : setupBodies A fuel e n true nB compliance distance size damping = .ok (bs, s0, s1)) :
    ∃ b b' rest, bs = b' :: rest ∧ setupBodies A fuel e n false nB compliance distance size damping = .ok (b :: rest, s0, s1) ∧
      b' = { b with inertiaInv := b'.inertiaInv } ∧
      ∀ L, A.antibivector = some L → ∀ f : MV R, WfMV A f → f.sub = L → ∃ r r', einsumCallMV b.inertiaInv [f] = some r ∧ einsumCallMV b'.inertiaInv [f] = some r' ∧
        A.bivector = some r'.sub ∧ WfMV A r' ∧ ∀ a, coeff r' a = if a.testBit d then 0 else coeff r a := by
  have hn : 2 ≤ A.n := by rw [h.n]; have := h.pos; omega
  obtain ⟨V, v1, v2⟩ := (C14_named h.wf).2.2.2.2.2.2.1
  obtain ⟨H, k1, k2⟩ := h.horizon_spec (R := R)
  obtain ⟨b, rest, rows, q1, q2, q3⟩ := h.setup_fix fuel n e h2 v1 v2 k1 k2 hs
  obtain ⟨⟨B, L, hl⟩, -⟩ := q3.live h.wf hn v2.1
  obtain ⟨b', c1, c2, c3, c4⟩ := h.fix_spec k2 hl.spaceB hl.inverse
  refine ⟨b, b', rest, ?_, q2, c2, fun L' hL f hf hfs => ?_⟩
  · rw [c1] at q1
    exact q1
  cases hl.antibivector.symm.trans hL
  obtain ⟨r, r1, r2, r3, r4⟩ := hl.inverse.call hf hfs
  obtain ⟨r', s1, s2, s3, s4⟩ := c3.call hf hfs
  refine ⟨r, r', r1, s1, by rw [s2]; exact hl.bivector, s3, fun a => ?_⟩
  rw [coeff_eq s3, coeff_eq r3, s4, r4, c4]

end

section
variable {A : Alg} {d : Nat} (h : Spec.Flat A d) {R : Type} [Field R] [LinearOrder R] [IsStrictOrderedRing R] (fuel n : Nat) (e : R → R)
include h

/-- C104: without negative basis vectors the set-up succeeds for every number of bodies but zero, every compliance, distance and damping, and every size but zero. -/
theorem C104_total (hN : ∀ s ∈ A.desc.sig, 0 ≤ s) {fixing : Bool} {nB : Nat} {compliance distance size damping : R} (hs : size ≠ 0) :
    (∃ r, setupBodies A fuel e n fixing nB compliance distance size damping = .ok r) ↔ nB ≠ 0 := by
  have h2 : (2 : R) ≠ 0 := two_ne_zero
  obtain ⟨V, v1, v2⟩ := (C14_named h.wf).2.2.2.2.2.2.1
  obtain ⟨H, k1, k2⟩ := h.horizon_spec (R := R)
  obtain ⟨rows, r1, r2, r3, r4⟩ := h.setup_spec fuel n e h2 v1 v2 k1 k2 fixing nB compliance distance size damping
  constructor
  · rintro ⟨r, hr⟩
    exact (r3 r hr).1
  · intro hnB
    obtain ⟨b0, hb0⟩ := h.cloud_cube hN hs v2 r1 r2
    obtain ⟨bs, c, q, -⟩ := r4 b0 hnB hb0
    exact ⟨_, q⟩

/-- C104: with size zero and at least two axes it raises: the points coincide, and the inertia map has no inverse. -/
theorem C104_size (hN : ∀ s ∈ A.desc.sig, 0 ≤ s) (hd : 2 ≤ d) {fixing : Bool} {nB : Nat} {compliance distance damping : R} :
    ¬ ∃ r, setupBodies A fuel e n fixing nB compliance distance 0 damping = .ok r := by
  rintro ⟨r, hr⟩
  have hn : 2 ≤ A.n := by rw [h.n]; omega
  have h2 : (2 : R) ≠ 0 := two_ne_zero
  obtain ⟨V, v1, v2⟩ := (C14_named h.wf).2.2.2.2.2.2.1
  obtain ⟨H, k1, k2⟩ := h.horizon_spec (R := R)
  obtain ⟨rows, r1, r2, r3, -⟩ := h.setup_spec fuel n e h2 v1 v2 k1 k2 fixing nB compliance distance 0 damping
  obtain ⟨-, hx⟩ := (C93_exists h.wf hn hN v2.1).1 (r3 r hr).2
  obtain ⟨B, b1, b2⟩ := (C14_named h.wf).2.2.1 hn
  have h3 : 3 < 2 ^ A.n := by
    have : 2 ^ 2 < 2 ^ A.n := Nat.pow_lt_pow_right (by norm_num) (by rw [h.n]; omega)
    omega
  obtain ⟨x, hw, rfl, hv⟩ := within_blade (R := R) b2.1 ((b2.2 3).2 ⟨h3, by decide⟩)
  have := hx.2 x hw b1 fun r hr => ?_
  · rw [hv] at this
    have := congrArg (coef A R 3) this
    rw [coef_blade A R h3, if_pos rfl, map_zero] at this
    exact one_ne_zero this
  · obtain ⟨v, v1, v2'⟩ := List.mem_map.1 (show denote A R V r ∈ (cube d 0).map (place A) by rw [← r2]; exact List.mem_map_of_mem hr)
    refine (regressive_gives h.wf (x := ⟨V, r⟩) ⟨v2.1, r1 r hr⟩ hw).bind fun z hz ez => (product_gives h.wf hz hz).congr ?_
    obtain ⟨k, hk⟩ := List.mem_iff_getElem?.1 v1
    have hk' : k < 2 * d := by
      rw [← Spec.Flat.length_cube (d := d) (0 : R)]
      exact (List.getElem?_eq_some_iff.1 hk).1
    obtain ⟨v', w1, -, w3⟩ := h.arm_cube (size := (0 : R)) hk'
    cases w1.symm.trans hk
    rw [mul_zero, zero_smul] at w3
    have hm : meet A R (place A v) (blade A R 3) = 0 := by
      rw [place, w3, add_zero, h.rhInv_last, map_smul, LinearMap.smul_apply, meet_blade h.wf h.ltE h3, if_neg, smul_zero]
      intro h0
      have := congrArg (Nat.testBit · d) h0
      rw [← h.xorW, Nat.xor_assoc, Nat.xor_self, Nat.xor_zero] at this
      have h3' : Nat.testBit 3 d = false := Nat.testBit_lt_two_pow (lt_of_lt_of_le (by norm_num) (Nat.pow_le_pow_right (by norm_num) hd))
      simp [h3', pss_testBit (A := A) (l := d) (by rw [h.n]; omega)] at this
    rw [ez, ← meet_eq, hv, show val A (⟨V, r⟩ : MV R) = place A v from v2'.symm, hm, mul_zero]

end

/-! ## Concrete cases -/

theorem flat_pga3d : Spec.Flat pga3d 3 := ⟨wf_pga3d, by decide, by decide, by decide, by decide⟩
theorem flat_pga2s : Spec.Flat pga2s 2 := ⟨wf_pga2s, by decide, by decide, by decide, by decide⟩
/-- One positive and one negative axis. -/
def boost2 : Alg := ⟨⟨["x".toList, "t".toList, "w".toList], [1, -1, 0]⟩, 1, 1⟩
theorem flat_boost2 : Spec.Flat boost2 2 := ⟨by constructor <;> decide, by decide, by decide, by decide, by decide⟩

-- C104: a chain of five bodies in space, at distance 2
example : ∃ bs s0 s1, setupBodies pga3d 5 (fun x : ℚ => x) 3 true 5 (1 / 10) 2 (1 / 2) (1 / 3) = .ok (bs, s0, s1) ∧ bs.length = 5 := by
  obtain ⟨⟨bs, s0, s1⟩, h⟩ := (C104_total flat_pga3d 5 3 (fun x : ℚ => x) (by decide) (fixing := true) (nB := 5) (compliance := 1 / 10) (distance := 2)
    (size := 1 / 2) (damping := 1 / 3) (by norm_num)).2 (by norm_num)
  exact ⟨bs, s0, s1, h, (C104_rest flat_pga3d 5 3 _ two_ne_zero h).2.1⟩
-- C104: without fixing, for `C104_moving`; the first set has two constraints, the second one two
example : ∃ bs s0 s1, setupBodies pga3d 5 (fun x : ℚ => x) 3 false 5 (1 / 10) 2 (1 / 2) (1 / 3) = .ok (bs, s0, s1) ∧
    ∃ l, s0[1]? = some l ∧ l.idx0 = 2 ∧ l.idx1 = 3 := by
  obtain ⟨⟨bs, s0, s1⟩, h⟩ := (C104_total flat_pga3d 5 3 (fun x : ℚ => x) (by decide) (fixing := false) (nB := 5) (compliance := 1 / 10) (distance := 2)
    (size := 1 / 2) (damping := 1 / 3) (by norm_num)).2 (by norm_num)
  obtain ⟨l, l1, l2, l3⟩ := (C104_chain flat_pga3d 5 3 _ two_ne_zero h).2.2.1 2 (by norm_num)
  exact ⟨bs, s0, s1, h, l, by simpa using l1, l2, l3⟩
-- C104: the translator by (2, 3) in the plane, and one with a negative axis
example : translator pga2s 5 (fun x : ℚ => x) 3 [2, 3] = .ok ⟨⟨[0, 5, 6]⟩, [1, 1, 3 / 2]⟩ := by decide +kernel
example : ∃ m, translator boost2 5 (fun x : ℚ => x) 3 [2, 3] = .ok m := ⟨_, ((C104_translator flat_boost2 5 3 _ two_ne_zero [2, 3]).1 rfl).choose_spec.1⟩
-- C104: a vector of a wrong length
example : translator pga2s 5 (fun x : ℚ => x) 3 [2, 3, 1] = .error .raised := (C104_translator flat_pga2s 5 3 _ two_ne_zero [2, 3, 1]).2 (by simp)
-- C104: the point at (2, 3), and that point moved by (1, 1)
example : ∃ p, pointEmbed pga2s 5 (fun x : ℚ => x) 3 [2, 3] = .ok p ∧ p.vals.length = 3 := by
  obtain ⟨p, p1, p2, p3, -⟩ := C104_point flat_pga2s 5 3 (fun x : ℚ => x) two_ne_zero (v := [2, 3]) rfl
  refine ⟨p, p1, ?_⟩
  rw [p2.len, ← Option.some.inj ((show pga2s.antivector = some ⟨[3, 5, 6]⟩ by decide +kernel).symm.trans p3)]
  rfl
example : List.zipWith (· + ·) [1, 1] [2, 3] = [(3 : ℚ), 4] := by norm_num

end Verif.Props
