import Verif.Proofs.Fall2
import Verif.Props.Chain
import Verif.Model.RunChain
/-!
# C106: falling bodies, and the loops of the examples

`numga/examples/physics/run_chain_numpy.py`, `run_chain_jax.py` and `run_chain_torch.py`, in an algebra whose last basis vector is its only null vector.
`slide A R i` is the rate of a translation against axis `i`, `trans A v` the translation by `v`.
-/
namespace Verif.Props
open Model Spec Model.Chain

section
variable {A : Alg} {d : Nat} {R : Type} [Field R] [DecidableEq R]

/-- A body made of points of unit mass, with mass `M` and with the centre of mass at the origin of its frame, that has been translated by `v` without rotation, and moves with
the speed `-c` along axis `i`, which is the direction of the gravity `g`; damped by `δ`. -/
def Falls (A : Alg) (d : Nat) (i : Fin A.n) (M g δ c : R) (v : List R) (b : Body R) : Prop :=
  (∃ S rows, WfSub A S ∧ Made A S rows b ∧ ∀ r ∈ rows, ∃ u : List R, u.length = d ∧ rhMap A R (denote A R S r) = last A R + arm A u) ∧ Falling A d i M g δ c v b

end

section
variable {A : Alg} {d : Nat} (h : Spec.Flat A d) {R : Type} [Field R] [LinearOrder R] [IsStrictOrderedRing R]
include h

/-- C106: a body falls along the direction of gravity without turning, however its points are arranged: its next rate is the Taylor polynomial of order four of the
solution of `c' = -g - (δ/M) c`, and the body is translated by that rate. -/
theorem C106_fall (h5 : A.n < 6) (hN : ∀ s ∈ A.desc.sig, 0 ≤ s) {rt : Roots R} (hr : RealRoots rt) {fuel : Nat} (hf : 4 ≤ fuel) {i : Fin A.n} (hi : (i : Nat) < d) {M g δ c : R}
    (hM : M ≠ 0) {v : List R} {b : Body R} (hb : Falls A d i M g δ c v b) {dt k c' : R} (hdt : dt ≠ 0) (hk : k = δ / M * dt)
    (hc : c' = c * (1 - k + k ^ 2 / 2 - k ^ 3 / 6 + k ^ 4 / 24) - g * dt * (1 - k / 2 + k ^ 2 / 6 - k ^ 3 / 24)) :
    ∃ b', b.integrate A rt fuel dt = .ok b' ∧ Falls A d i M g δ c' (v.set i (v.getD i 0 - c' * dt)) b' := by
  have h2 : (2 : R) ≠ 0 := two_ne_zero
  have hn : 2 ≤ A.n := by rw [h.n]; have := h.pos; omega
  have hiw : i ≠ h.iw := fun e => by
    have : (i : Nat) = d := congrArg Fin.val e
    omega
  obtain ⟨⟨S, rows, hS, hm, hp⟩, hb⟩ := hb
  have hu : val A b.motor * CliffordAlgebra.reverse (val A b.motor) = 1 := by
    rcases hb.motor with e | e
    · rw [e, h.trans_unit hb.len]
    · rw [e, map_neg, neg_mul_neg, h.trans_unit hb.len]
  have h0 : ∃ j < A.n, A.desc.sig.getD j 0 ≠ 0 := ⟨0, by omega, h.unit 0 h.pos⟩
  obtain ⟨⟨B, L, hl⟩, -⟩ := hm.live h.wf hn hS
  have hps : ∀ p ∈ rows.map (denote A R S), ∃ v : List R, v.length = d ∧ p = place A v := by
    intro p hp'
    obtain ⟨r, r1, rfl⟩ := List.mem_map.1 hp'
    obtain ⟨u, u1, u2⟩ := hp r r1
    exact ⟨u, u1, by rw [place, ← u2, rhInv_rh]⟩
  obtain ⟨r, s, m, e1, e2, e3, e4⟩ := C94_total h.wf h5 hn hN h0 hr hf hS hm hu hdt
  obtain ⟨r', f1, f2, f3, f4⟩ := h.fall_rk4 hiw h2 hl hps hN hM hb dt
  cases e1.symm.trans f1
  have hc' : RK.rk4 (fun x : R => -g - δ / M * x) c dt = c' := by rw [rk4_affine h2 three_ne_zero, hc, hk]
  rw [hc'] at f4
  obtain ⟨s', s1, s2, s3⟩ := mul_num_in h.wf f2 dt
  cases e2.symm.trans s1
  have sv : val A s = (c' * dt) • slide A R i := by
    obtain ⟨z, z1, -, -, z4⟩ := mul_num h.wf f2 dt
    cases e2.symm.trans z1
    rw [z4, f4, smul_smul, mul_comm]
  have hm' := h.fall_step hiw h2 hl hps hr.law (by omega) hb.len hb.motor s2 (fun a ha => ((hl.spaceB.2 a).1 (f3 ▸ s3 ▸ ha)).2) sv e3
  obtain ⟨c1, -⟩ := C94_integrate h.wf h5 hn h2 h0 hr.law hf hS hm hu hdt e4
  exact ⟨_, e4, ⟨S, rows, hS, c1, hp⟩, ⟨by rw [List.length_set]; exact hb.len, hm', f4, hb.damping, hb.gravity, hb.moment⟩⟩

/-- C106: a damped body has a terminal speed, at which it stays. -/
theorem C106_terminal (h5 : A.n < 6) (hN : ∀ s ∈ A.desc.sig, 0 ≤ s) {rt : Roots R} (hr : RealRoots rt) {fuel : Nat} (hf : 4 ≤ fuel) {i : Fin A.n} (hi : (i : Nat) < d) {M g δ : R}
    (hM : M ≠ 0) (hδ : δ ≠ 0) {v : List R} {b : Body R} (hb : Falls A d i M g δ (-(g * M / δ)) v b) {dt : R} (hdt : dt ≠ 0) :
    ∃ b', b.integrate A rt fuel dt = .ok b' ∧ Falls A d i M g δ (-(g * M / δ)) (v.set i (v.getD i 0 + g * M / δ * dt)) b' := by
  obtain ⟨b', e1, e2⟩ := C106_fall h h5 hN hr hf hi hM hb hdt rfl rfl
  refine ⟨b', e1, ?_⟩
  have : -(g * M / δ) * (1 - δ / M * dt + (δ / M * dt) ^ 2 / 2 - (δ / M * dt) ^ 3 / 6 + (δ / M * dt) ^ 4 / 24) -
      g * dt * (1 - δ / M * dt / 2 + (δ / M * dt) ^ 2 / 6 - (δ / M * dt) ^ 3 / 24) = -(g * M / δ) := by
    field_simp
    ring
  rw [this, neg_mul, sub_neg_eq_add] at e2
  exact e2

theorem fall_set {v : List R} {i : Nat} (x y : R) (hv : i < v.length) : (v.set i (v.getD i 0 + x)).set i ((v.set i (v.getD i 0 + x)).getD i 0 + y) = v.set i (v.getD i 0 + (x + y)) := by
  rw [List.set_set]
  congr 1
  rw [List.getD_eq_getElem?_getD, List.getElem?_set_self hv, Option.getD_some, add_assoc]

/-- C106: undamped bodies without constraints fall together: after `n` steps of length `dt` the rate is less by `g n dt`, whatever the masses and the points are.
The positions are those of the Euler method that uses the new rate. -/
theorem C106_free (h5 : A.n < 6) (hN : ∀ s ∈ A.desc.sig, 0 ≤ s) {rt : Roots R} (hr : RealRoots rt) {fuel : Nat} (hf : 4 ≤ fuel) {tiny : R} {i : Fin A.n} (hi : (i : Nat) < d) {g c : R}
    {Ms : List R} (hM : ∀ M ∈ Ms, M ≠ 0) {vs : List (List R)} {bs : List (Body R)}
    (hb : List.Forall₂ (fun x b => Falls A d i x.1 g 0 c x.2 b) (Ms.zip vs) bs) {dt : R} (hdt : dt ≠ 0) (n : Nat) :
    ∃ r, (List.range n).foldlM (fun bs _ => Link.integrate A rt fuel tiny [] bs dt) bs = .ok r ∧
      List.Forall₂ (fun x b => Falls A d i x.1 g 0 (c - g * (n * dt)) (x.2.set i (x.2.getD i 0 + (g * dt ^ 2 * (n * (n + 1) / 2) - n * dt * c))) b) (Ms.zip vs) r := by
  induction n with
  | zero =>
    refine ⟨bs, rfl, hb.imp fun x b hx => ?_⟩
    have : x.2.set i (x.2.getD i 0 + (g * dt ^ 2 * (((0 : Nat) : R) * (((0 : Nat) : R) + 1) / 2) - ((0 : Nat) : R) * dt * c)) = x.2 := by
      have hl := hx.2.len
      refine List.ext_getElem (by simp) fun j h1 h2 => ?_
      rw [List.getElem_set]
      split_ifs with e
      · subst e; simp [List.getD_eq_getElem?_getD, h2]
      · rfl
    rw [this]
    simpa using hx
  | succ n ih =>
    obtain ⟨r, r1, r2⟩ := ih
    have key : ∀ x ∈ Ms.zip vs, ∀ b, Falls A d i x.1 g 0 (c - g * (n * dt)) (x.2.set i (x.2.getD i 0 + (g * dt ^ 2 * (n * (n + 1) / 2) - n * dt * c))) b →
        ∃ b', b.integrate A rt fuel dt = .ok b' ∧ Falls A d i x.1 g 0 (c - g * ((n + 1 : Nat) * dt))
          (x.2.set i (x.2.getD i 0 + (g * dt ^ 2 * ((n + 1 : Nat) * ((n + 1 : Nat) + 1) / 2) - (n + 1 : Nat) * dt * c))) b' := by
      intro x hx b hb
      have hl := hb.2.len
      rw [List.length_set] at hl
      obtain ⟨b', e1, e2⟩ := C106_fall h h5 hN hr hf hi (hM x.1 (List.of_mem_zip hx).1) hb hdt (k := 0) (by simp) (c' := c - g * ((n + 1 : Nat) * dt))
        (by push_cast; ring)
      refine ⟨b', e1, ?_⟩
      rw [sub_eq_add_neg (List.getD _ _ _) _, fall_set h _ _ (by omega)] at e2
      have : g * dt ^ 2 * (n * (n + 1) / 2) - n * dt * c + -((c - g * ((n + 1 : Nat) * dt)) * dt) =
          g * dt ^ 2 * ((n + 1 : Nat) * ((n + 1 : Nat) + 1) / 2) - (n + 1 : Nat) * dt * c := by push_cast; ring
      rwa [this] at e2
    obtain ⟨r', q1, q2⟩ : ∃ r', List.Forall₂ (fun b c => b.integrate A rt fuel dt = .ok c) r r' ∧
        List.Forall₂ (fun x b => Falls A d i x.1 g 0 (c - g * ((n + 1 : Nat) * dt))
          (x.2.set i (x.2.getD i 0 + (g * dt ^ 2 * ((n + 1 : Nat) * ((n + 1 : Nat) + 1) / 2) - (n + 1 : Nat) * dt * c))) b) (Ms.zip vs) r' := by
      clear r1 hb
      generalize Ms.zip vs = xs at r2 key ⊢
      induction r2 with
      | nil => exact ⟨[], .nil, .nil⟩
      | cons hx _ ih =>
        obtain ⟨b', a1, a2⟩ := key _ (List.mem_cons_self ..) _ hx
        obtain ⟨r', a3, a4⟩ := ih fun x hx => key x (List.mem_cons_of_mem _ hx)
        exact ⟨b' :: r', .cons a1 a3, .cons a2 a4⟩
    refine ⟨r', ?_, q2⟩
    rw [List.range_succ, List.foldlM_append, r1, ok_bind, List.foldlM_cons, C99_free.2 q1]
    rfl

/-- C106: `step` of the numpy and of the jax example advances the time by `dt`, into however many steps it is divided. -/
theorem C106_step (h5 : A.n < 6) (hN : ∀ s ∈ A.desc.sig, 0 ≤ s) {rt : Roots R} (hr : RealRoots rt) {fuel : Nat} (hf : 4 ≤ fuel) {tiny : R} {i : Fin A.n} (hi : (i : Nat) < d) {g c : R}
    {Ms : List R} (hM : ∀ M ∈ Ms, M ≠ 0) {vs : List (List R)} {bs : List (Body R)}
    (hb : List.Forall₂ (fun x b => Falls A d i x.1 g 0 c x.2 b) (Ms.zip vs) bs) {dt : R} (hdt : dt ≠ 0) {unroll : Nat} (hu : unroll ≠ 0) :
    ∃ r, step A rt fuel tiny bs [] dt unroll = .ok r ∧ List.Forall₂ (fun x b => Falls A d i x.1 g 0 (c - g * dt)
      (x.2.set i (x.2.getD i 0 + (g * dt ^ 2 * ((unroll + 1) / unroll) / 2 - dt * c))) b) (Ms.zip vs) r := by
  have hu' : (unroll : R) ≠ 0 := Nat.cast_ne_zero.2 hu
  obtain ⟨r, r1, r2⟩ := C106_free h h5 hN hr hf (tiny := tiny) hi hM hb (div_ne_zero hdt hu') unroll
  refine ⟨r, r1, ?_⟩
  have e1 : (unroll : R) * (dt / unroll) = dt := by field_simp
  have e2 : g * (dt / unroll) ^ 2 * (unroll * (unroll + 1) / 2) = g * dt ^ 2 * ((unroll + 1) / unroll) / 2 := by field_simp
  rw [e1, e2] at r2
  exact r2

/-- C106: `step` of the torch example advances the time by `10 dt / unroll`, so by `dt` only if `unroll` is 10; with `unroll = 0` it raises. -/
theorem C106_stepTorch (h5 : A.n < 6) (hN : ∀ s ∈ A.desc.sig, 0 ≤ s) {rt : Roots R} (hr : RealRoots rt) {fuel : Nat} (hf : 4 ≤ fuel) {tiny : R} {i : Fin A.n} (hi : (i : Nat) < d) {g c : R}
    {Ms : List R} (hM : ∀ M ∈ Ms, M ≠ 0) {vs : List (List R)} {bs : List (Body R)}
    (hb : List.Forall₂ (fun x b => Falls A d i x.1 g 0 c x.2 b) (Ms.zip vs) bs) {dt : R} (hdt : dt ≠ 0) (unroll : Nat) :
    (unroll = 0 → stepTorch A rt fuel tiny bs [] dt unroll = .error .raised) ∧
    (unroll ≠ 0 → ∃ r, stepTorch A rt fuel tiny bs [] dt unroll = .ok r ∧ List.Forall₂ (fun _ b => val A b.rate = (c - g * (10 / unroll * dt)) • slide A R i) (Ms.zip vs) r) := by
  refine ⟨fun e => by rw [stepTorch, if_pos e], fun hu => ?_⟩
  have hu' : (unroll : R) ≠ 0 := Nat.cast_ne_zero.2 hu
  obtain ⟨r, r1, r2⟩ := C106_free h h5 hN hr hf (tiny := tiny) hi hM hb (div_ne_zero hdt hu') 10
  refine ⟨r, by rw [stepTorch, if_neg hu]; exact r1, r2.imp fun x b hx => ?_⟩
  rw [hx.2.rate]
  congr 3
  push_cast
  ring

/-- C106: the bodies of the chain that is not fixed are ready to fall along the first axis, with the mass of the `2 d` points of the cube. -/
theorem C106_ready (fuel' n : Nat) (e : R → R) {nB : Nat} {compliance distance size damping : R} {bs : List (Body R)} {s0 s1 : List (Link R)}
    (hs : setupBodies A fuel' e n false nB compliance distance size damping = .ok (bs, s0, s1)) (hz : 0 < A.n) :
    bs.length = nB ∧ List.Forall₂ (fun x b => Falls A d ⟨0, hz⟩ x.1 (1 / 20) damping 0 x.2 b)
      ((List.replicate nB ((2 * d : Nat) : R)).zip ((List.range nB).map fun j : Nat => along d ((j : R) * distance))) bs := by
  have h2 : (2 : R) ≠ 0 := two_ne_zero
  have hn : 2 ≤ A.n := by rw [h.n]; have := h.pos; omega
  obtain ⟨V, v1, v2⟩ := (C14_named h.wf).2.2.2.2.2.2.1
  obtain ⟨H, k1, k2⟩ := h.horizon_spec (R := R)
  obtain ⟨rows, -, r2, r3, r4⟩ := h.setup_spec fuel' n e h2 v1 v2 k1 k2 false nB compliance distance size damping
  obtain ⟨hnB, b0, hb0⟩ := r3 _ hs
  obtain ⟨bs', c, q1, -, q3, q4⟩ := r4 b0 hnB hb0
  cases hs.symm.trans q1
  have hb1 : blade A R 1 = gen A R ⟨0, hz⟩ := blade_two_pow A R ⟨0, hz⟩
  have hp : ∀ r ∈ rows, ∃ u : List R, u.length = d ∧ rhMap A R (denote A R V r) = last A R + arm A u := by
    intro r hr
    obtain ⟨v, w1, w2⟩ := List.mem_map.1 (show denote A R V r ∈ (cube d size).map (place A) by rw [← r2]; exact List.mem_map_of_mem hr)
    obtain ⟨k, hk⟩ := List.mem_iff_getElem?.1 w1
    have hk' : k < 2 * d := by
      rw [← Spec.Flat.length_cube (d := d) size]
      exact (List.getElem?_eq_some_iff.1 hk).1
    obtain ⟨v', z1, z2, -⟩ := h.arm_cube (size := size) hk'
    cases z1.symm.trans hk
    exact ⟨v, z2, by rw [← w2, place, rh_rhInv]⟩
  refine ⟨q3, forall₂_getElem.2 ⟨by simp [q3], fun j x b e1 e2 => ?_⟩⟩
  rw [List.getElem?_zip_eq_some] at e1
  obtain ⟨e1, e1'⟩ := e1
  have hj := (List.getElem?_eq_some_iff.1 e2).1
  rw [q3] at hj
  rw [List.getElem?_replicate, if_pos hj] at e1
  rw [List.getElem?_map, List.getElem?_range hj] at e1'
  obtain ⟨hh, hf⟩ := q4 j b e2
  rw [if_neg (by simp)] at hf
  obtain ⟨x1, x2⟩ := x
  simp only [Option.some.injEq, Option.map_some] at e1 e1'
  subst e1 e1'
  exact ⟨⟨V, rows, v2.1, hf, hp⟩, h.along_length _, .inl hh.motor, by rw [hh.rate, zero_smul], hh.damping, by rw [hh.gravity, map_smul, hb1], hh.moment⟩

/-- C106: the bodies of the chain that is not fixed, without damping and without the constraints: all of them fall, and keep their distances. -/
theorem C106_chain (h5 : A.n < 6) (hN : ∀ s ∈ A.desc.sig, 0 ≤ s) {rt : Roots R} (hr : RealRoots rt) {fuel : Nat} (hf : 4 ≤ fuel) {tiny : R} (fuel' n : Nat) (e : R → R)
    {nB : Nat} {compliance distance size : R} {bs : List (Body R)} {s0 s1 : List (Link R)}
    (hs : setupBodies A fuel' e n false nB compliance distance size 0 = .ok (bs, s0, s1)) {dt : R} (hdt : dt ≠ 0) (k : Nat) :
    ∃ r, (List.range k).foldlM (fun bs _ => Link.integrate A rt fuel tiny [] bs dt) bs = .ok r ∧ r.length = nB ∧ ∀ (j : Nat) b, r[j]? = some b →
      val A b.rate = -((k : R) * dt / 20) • (blade A R 1 * last A R) ∧
      ∃ ε : R, (ε = 1 ∨ ε = -1) ∧
        val A b.motor = ε • (1 + (1 / 2 : R) • ((((k * (k + 1) / 2 : R) * dt ^ 2 / 20) • blade A R 1 + ((j : R) * distance) • blade A R (2 ^ (d - 1))) * last A R)) := by
  have hz : (0 : Nat) < A.n := by rw [h.n]; omega
  have hd : 0 < d := h.pos
  have hb1 : blade A R 1 = gen A R ⟨0, hz⟩ := blade_two_pow A R ⟨0, hz⟩
  obtain ⟨-, start⟩ := C106_ready h fuel' n e hs hz
  obtain ⟨r, f1, f2⟩ := C106_free h h5 hN hr hf (tiny := tiny) (i := ⟨0, hz⟩) hd
    (fun M hM => by
      rw [List.eq_of_mem_replicate hM]
      exact Nat.cast_ne_zero.2 (by omega)) start hdt k
  obtain ⟨g1, g2⟩ := forall₂_getElem.1 f2
  rw [List.length_zip, List.length_replicate, List.length_map, List.length_range, min_self] at g1
  refine ⟨r, f1, g1.symm, fun j b hb => ?_⟩
  have hj := (List.getElem?_eq_some_iff.1 hb).1
  have hx := g2 j (((2 * d : Nat) : R), along d ((j : R) * distance)) b (by
    rw [List.getElem?_zip_eq_some, List.getElem?_replicate, if_pos (by omega), List.getElem?_map, List.getElem?_range (by omega)]
    exact ⟨rfl, rfl⟩) hb
  refine ⟨?_, ?_⟩
  · rw [hx.2.rate, slide, hb1]
    congr 1
    ring
  · have ht : trans A ((along d ((j : R) * distance)).set ((⟨0, hz⟩ : Fin A.n) : Nat) ((along d ((j : R) * distance)).getD ((⟨0, hz⟩ : Fin A.n) : Nat) 0 +
        (1 / 20 * dt ^ 2 * (k * (k + 1) / 2) - k * dt * 0))) =
        1 + (1 / 2 : R) • ((((k * (k + 1) / 2 : R) * dt ^ 2 / 20) • blade A R 1 + ((j : R) * distance) • blade A R (2 ^ (d - 1))) * last A R) := by
      have := h.arm_set (h.along_length ((j : R) * distance)) (i := ⟨0, hz⟩) hd (-(1 / 20 * dt ^ 2 * (k * (k + 1) / 2) - k * dt * 0))
      rw [sub_neg_eq_add] at this
      rw [Spec.trans_def, this, h.arm_along, hb1, sub_eq_add_neg, ← neg_smul, add_comm (_ • blade A R _)]
      congr 5
      ring
    rcases hx.2.motor with e | e
    · exact ⟨1, .inl rfl, by rw [one_smul, e, ht]⟩
    · exact ⟨-1, .inr rfl, by rw [neg_smul, one_smul, e, ht]⟩

end

section
variable {A : Alg} {R : Type} [Field R] [DecidableEq R]

/-- C106: the main loop makes `count` calls of `step`, and keeps the state after the first of them and after every tenth further one: so the numpy example keeps one
state, the torch example two. -/
theorem C106_run {rt : Roots R} {fuel : Nat} {tiny dt : R} {count : Nat} {bs r : List (Body R)} {states : List (List (Body R))} {sets : List (List (Link R))} :
    run A rt fuel tiny count bs sets dt = .ok (r, states) ↔ ∃ f : Nat → List (Body R), f 0 = bs ∧ (∀ i < count, step A rt fuel tiny (f i) sets dt = .ok (f (i + 1))) ∧ r = f count ∧
      states = (List.range ((count + 9) / 10)).map fun k => f (10 * k + 1) := by
  induction count generalizing r states with
  | zero =>
    constructor
    · intro h
      cases h
      exact ⟨fun _ => bs, rfl, by simp, rfl, rfl⟩
    · rintro ⟨f, rfl, -, rfl, rfl⟩
      rfl
  | succ n ih =>
    rw [run, List.range_succ, List.foldlM_append] at *
    constructor
    · intro h
      obtain ⟨⟨r', s'⟩, h1, h⟩ := bind_ok h
      obtain ⟨f, f0, f1, rfl, rfl⟩ := ih.1 h1
      rw [List.foldlM_cons] at h
      obtain ⟨x, h2, h⟩ := bind_ok h
      obtain ⟨y, h3, h2⟩ := bind_ok h2
      cases h2
      cases h
      refine ⟨fun i => if i ≤ n then f i else r, by simp [f0], fun i hi => ?_, by simp, ?_⟩
      · rcases Nat.lt_succ_iff_lt_or_eq.1 hi with h | h
        · simp only [h.le, if_true, Nat.succ_le_of_lt h]; exact f1 i h
        · subst h; simp only [le_refl, if_true, Nat.not_succ_le_self, if_false]; exact h3
      · have hold : ∀ m, m ≤ (n + 9) / 10 → (List.range m).map (fun k => f (10 * k + 1)) = (List.range m).map fun k => if 10 * k + 1 ≤ n then f (10 * k + 1) else r := by
          intro m hm
          refine List.map_congr_left fun k hk => ?_
          rw [if_pos]
          have := List.mem_range.1 hk
          omega
        split_ifs with h
        · rw [show (n + 1 + 9) / 10 = (n + 9) / 10 + 1 by omega, List.range_succ, List.map_append, ← hold _ le_rfl]
          congr 1
          rw [List.map_singleton]
          show [r] = [if 10 * ((n + 9) / 10) + 1 ≤ n then _ else r]
          rw [if_neg]
          omega
        · rw [show (n + 1 + 9) / 10 = (n + 9) / 10 by omega, hold _ le_rfl]
    · rintro ⟨f, f0, f1, rfl, rfl⟩
      have := ih.2 ⟨f, f0, fun i hi => f1 i (by omega), rfl, rfl⟩
      rw [this, ok_bind, List.foldlM_cons]
      simp only [f1 n (by omega), bind, Except.bind, List.foldlM_nil, pure, Except.pure]
      congr 2
      split_ifs with h
      · rw [show (n + 1 + 9) / 10 = (n + 9) / 10 + 1 by omega, List.range_succ, List.map_append, List.map_singleton, show 10 * ((n + 9) / 10) + 1 = n + 1 by omega]
      · rw [show (n + 1 + 9) / 10 = (n + 9) / 10 by omega]

theorem run_moved {rt : Roots R} {fuel : Nat} {tiny dt : R} {sets : List (List (Link R))}
    (hI : ∀ bs r : List (Body R), (∀ b ∈ bs, Moving A b) → Link.integrate A rt fuel tiny sets bs (dt / (10 : Nat)) = .ok r → List.Forall₂ (Moved A) bs r)
    {count : Nat} {bs r : List (Body R)} {states : List (List (Body R))} (hb : ∀ b ∈ bs, Moving A b) (h : run A rt fuel tiny count bs sets dt = .ok (r, states)) :
    List.Forall₂ (Moved A) bs r ∧ ∀ s ∈ states, List.Forall₂ (Moved A) bs s := by
  have same : ∀ bs : List (Body R), (∀ b ∈ bs, Moving A b) → List.Forall₂ (Moved A) bs bs := fun bs hb => List.forall₂_same.2 fun b hbm => ⟨fun _ _ _ h => h, (hb b hbm).2⟩
  have hS : ∀ (n : Nat) (bs r : List (Body R)), (∀ b ∈ bs, Moving A b) →
      (List.range n).foldlM (fun bodies _ => Link.integrate A rt fuel tiny sets bodies (dt / (10 : Nat))) bs = .ok r → List.Forall₂ (Moved A) bs r := by
    intro n
    induction n with
    | zero => intro bs r hb h; cases h; exact same _ hb
    | succ n ih =>
      intro bs r hb h
      rw [List.range_succ, List.foldlM_append] at h
      obtain ⟨x, h1, h⟩ := bind_ok h
      rw [List.foldlM_cons] at h
      obtain ⟨y, h2, h⟩ := bind_ok h
      cases h
      have m := ih _ _ hb h1
      exact moved_trans m (hI _ _ (moving_all m hb) h2)
  obtain ⟨f, f0, f1, f2, f3⟩ := C106_run.1 h
  have key : ∀ i ≤ count, List.Forall₂ (Moved A) bs (f i) := by
    intro i
    induction i with
    | zero => intro _; rw [f0]; exact same _ hb
    | succ i ih =>
      intro hi
      have m := ih (by omega)
      exact moved_trans m (hS 10 _ _ (moving_all m hb) (f1 i (by omega)))
  refine ⟨f2 ▸ key count le_rfl, fun s hs => ?_⟩
  rw [f3] at hs
  obtain ⟨k, k1, rfl⟩ := List.mem_map.1 hs
  have := List.mem_range.1 k1
  exact key _ (by omega)

/-- C106: a run in the plane keeps the bodies bodies of the same points with motors of unit norm, in the end and in every state that is kept, with any sets of constraints. -/
theorem C106_run_plane (hA : WfAlg A) (h3 : A.n = 3) (h2 : (2 : R) ≠ 0) (h0 : ∃ j < A.n, A.desc.sig.getD j 0 ≠ 0) {rt : Roots R} (hr : RootLaw rt) {fuel : Nat}
    (hf : 4 ≤ fuel) {tiny dt : R} (hdt : dt / (10 : Nat) ≠ 0) {sets : List (List (Link R))} (hl : ∀ c ∈ sets, ∀ l ∈ c, Proper A l.constraint) {count : Nat} {bs r : List (Body R)}
    {states : List (List (Body R))} (hb : ∀ b ∈ bs, Moving A b) (h : run A rt fuel tiny count bs sets dt = .ok (r, states)) :
    List.Forall₂ (Moved A) bs r ∧ ∀ s ∈ states, List.Forall₂ (Moved A) bs s :=
  run_moved (fun _ _ hb h => C99_integrate_plane hA h3 h2 h0 hr hf hdt hl hb h) hb h

/-- C106: the same in space. -/
theorem C106_run_space (hA : WfAlg A) (h4 : A.n = 4) (h2 : (2 : R) ≠ 0)
    (h0 : ∃ i j, i < j ∧ j < A.n ∧ A.desc.sig.getD i 0 ≠ 0 ∧ A.desc.sig.getD j 0 ≠ 0) {rt : Roots R} (hr : RootLaw rt) {fuel : Nat}
    (hf : 4 ≤ fuel) {tiny dt : R} (hdt : dt / (10 : Nat) ≠ 0) {sets : List (List (Link R))} (hl : ∀ c ∈ sets, ∀ l ∈ c, Proper A l.constraint) {count : Nat} {bs r : List (Body R)}
    {states : List (List (Body R))} (hb : ∀ b ∈ bs, Moving A b) (h : run A rt fuel tiny count bs sets dt = .ok (r, states)) :
    List.Forall₂ (Moved A) bs r ∧ ∀ s ∈ states, List.Forall₂ (Moved A) bs s :=
  run_moved (fun _ _ hb h => C99_integrate_space hA h4 h2 h0 hr hf hdt hl hb h) hb h

end

/-! ## Concrete cases -/

section
variable {A : Alg} {d : Nat} (h : Spec.Flat A d) {R : Type} [Field R] [LinearOrder R] [IsStrictOrderedRing R]

include h in
/-- A falling body may have any speed. -/
theorem falls_rate {i : Fin A.n} (hi : (i : Nat) < d) {M g δ c : R} {v : List R} {b : Body R} (hb : Falls A d i M g δ c v b) (c' : R) :
    ∃ b', Falls A d i M g δ c' v b' := by
  have hn : 2 ≤ A.n := by rw [h.n]; have := h.pos; omega
  have hiw : i ≠ h.iw := fun e => by
    have : (i : Nat) = d := congrArg Fin.val e
    omega
  obtain ⟨⟨S, rows, hS, hm, hp⟩, hb⟩ := hb
  obtain ⟨⟨B, L, hl⟩, -⟩ := hm.live h.wf hn hS
  have hw : Within A B (c' • slide A R i) := by
    obtain ⟨s, hs⟩ := h.slide_blade (R := R) hiw
    rw [hs, smul_smul]
    have := within_blade (R := R) hl.spaceB.1 ((hl.spaceB.2 _).2 ⟨h.slide_lt hiw, h.slide_pop hiw⟩)
    rw [within_iff hl.spaceB.1] at this ⊢
    intro c hc hc'
    rw [map_smul, this c hc hc', smul_zero]
  obtain ⟨z, z1, z2, z3⟩ := hw
  have hc := hl.copy_total h.wf (m := none) (r := some z) rfl z2
  exact ⟨_, ⟨S, rows, hS, .copy hm (by simp) (by rintro x ⟨⟩; exact z1) (by simp) (by simp) hc, hp⟩, hb.len, hb.motor, z3, hb.damping, hb.gravity, hb.moment⟩

end

/-- A body of the chain in space, with the damping `δ` and any speed. -/
theorem falls_pga3d (δ c : ℝ) : ∃ b, Falls pga3d 3 ⟨0, by decide⟩ 6 (1 / 20) δ c (along 3 2) b := by
  obtain ⟨⟨bs, s0, s1⟩, hs⟩ := (C104_total flat_pga3d 5 3 (fun x : ℝ => x) (by decide) (fixing := false) (nB := 2) (compliance := 1 / 10) (distance := 2)
    (size := 1 / 2) (damping := δ) (by norm_num)).2 (by norm_num)
  obtain ⟨l, g⟩ := C106_ready flat_pga3d 5 3 _ hs (by decide)
  obtain ⟨-, g⟩ := forall₂_getElem.1 g
  have := g 1 (_, _) bs[1] (by rw [List.getElem?_zip_eq_some]; exact ⟨rfl, rfl⟩) (List.getElem?_eq_getElem _)
  obtain ⟨b', hb⟩ := falls_rate flat_pga3d (i := ⟨0, by decide⟩) (by decide) this c
  refine ⟨b', ?_⟩
  convert hb using 2 <;> norm_num [along]

-- C106: a damped body of mass 6 in space, with the speed 3, makes a step
example : ∃ b b' : Body ℝ, Falls pga3d 3 ⟨0, by decide⟩ 6 (1 / 20) (1 / 3) (-3) (along 3 2) b ∧ b.integrate pga3d (realRoots 1) 4 (1 / 2) = .ok b' := by
  obtain ⟨b, hb⟩ := falls_pga3d (1 / 3) (-3)
  obtain ⟨b', e, -⟩ := C106_fall flat_pga3d (by decide) (by decide) (realRoots_law 1) (le_refl 4) (by decide) (by norm_num) hb (dt := 1 / 2) (by norm_num) rfl rfl
  exact ⟨b, b', hb, e⟩
-- C106: one at its terminal speed 9/10
example : ∃ b : Body ℝ, Falls pga3d 3 ⟨0, by decide⟩ 6 (1 / 20) (1 / 3) (-(1 / 20 * 6 / (1 / 3))) (along 3 2) b := falls_pga3d _ _
-- C106: two bodies of the mass 6 with the speed 1, for `C106_free`, `C106_step` and `C106_stepTorch`; a step of ten parts gives them the rate of `1/2` time units
example : ∃ (b : Body ℝ) (r : List (Body ℝ)), List.Forall₂ (fun x b => Falls pga3d 3 ⟨0, by decide⟩ x.1 (1 / 20) 0 (-1) x.2 b) ([6, 6].zip [along 3 2, along 3 2]) [b, b] ∧
    step pga3d (realRoots 1) 4 (1 / 10) [b, b] [] (1 / 2) = .ok r := by
  obtain ⟨b, hb⟩ := falls_pga3d 0 (-1)
  have hb' : List.Forall₂ (fun x b => Falls pga3d 3 ⟨0, by decide⟩ x.1 (1 / 20) 0 (-1) x.2 b) ([6, 6].zip [along 3 2, along 3 2]) [b, b] := .cons hb (.cons hb .nil)
  obtain ⟨r, e, -⟩ := C106_step flat_pga3d (by decide) (by decide) (realRoots_law 1) (le_refl 4) (tiny := 1 / 10) (by decide) (by simp) hb' (dt := 1 / 2) (by norm_num)
    (unroll := 10) (by norm_num)
  exact ⟨b, r, hb', e⟩
-- C106: for `C106_ready` and `C106_chain`, a chain of five bodies in space
example : ∃ bs s0 s1, setupBodies pga3d 5 (fun x : ℝ => x) 3 false 5 (1 / 10) 2 (1 / 2) 0 = .ok (bs, s0, s1) := by
  obtain ⟨⟨bs, s0, s1⟩, hs⟩ := (C104_total flat_pga3d 5 3 (fun x : ℝ => x) (by decide) (fixing := false) (nB := 5) (compliance := 1 / 10) (distance := 2)
    (size := 1 / 2) (damping := 0) (by norm_num)).2 (by norm_num)
  exact ⟨bs, s0, s1, hs⟩
-- C106: a run of 12 steps of two falling bodies keeps two states (also for `C106_run_space`, with no constraints)
example : ∃ (b : Body ℝ) (r : List (Body ℝ)) (states : List (List (Body ℝ))), run pga3d (realRoots 1) 4 (1 / 10) 12 [b, b] [] (1 / 20) = .ok (r, states) ∧ states.length = 2 := by
  obtain ⟨b, hb⟩ := falls_pga3d 0 (-1)
  let P : List (Body ℝ) → Prop := fun bs => ∃ c v, List.Forall₂ (fun x b => Falls pga3d 3 ⟨0, by decide⟩ x.1 (1 / 20) 0 c x.2 b) ([6, 6].zip [v, v]) bs
  have next : ∀ bs, ∃ r, P bs → step pga3d (realRoots 1) 4 (1 / 10) bs [] (1 / 20) = .ok r ∧ P r := by
    intro bs
    by_cases hP : P bs
    · obtain ⟨c, v, hP'⟩ := id hP
      obtain ⟨r, e1, e2⟩ := C106_step flat_pga3d (by decide) (by decide) (realRoots_law 1) (le_refl 4) (tiny := 1 / 10) (by decide) (by simp) hP' (dt := 1 / 20) (by norm_num)
        (unroll := 10) (by norm_num)
      refine ⟨r, fun _ => ⟨e1, c - 1 / 20 * (1 / 20), v.set 0 (v.getD 0 0 + (1 / 20 * (1 / 20) ^ 2 * (((10 : Nat) + 1) / (10 : Nat)) / 2 - 1 / 20 * c)), ?_⟩⟩
      rcases e2 with _ | ⟨a, _ | ⟨a', ⟨⟩⟩⟩
      exact .cons a (.cons a' .nil)
    · exact ⟨[], fun h => absurd h hP⟩
  choose F hF using next
  have hP : ∀ i, P (F^[i] [b, b]) := fun i => by
    induction i with
    | zero => exact ⟨_, _, .cons hb (.cons hb .nil)⟩
    | succ i ih => rw [Function.iterate_succ_apply']; exact (hF _ ih).2
  exact ⟨b, _, _, C106_run.2 ⟨fun i => F^[i] [b, b], rfl, fun i _ => by simp only [Function.iterate_succ_apply']; exact (hF _ (hP i)).1, rfl, rfl⟩, by simp⟩

end Verif.Props
