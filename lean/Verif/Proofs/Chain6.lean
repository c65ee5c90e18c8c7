import Verif.Proofs.Chain5
/-! # The whole chain -/
namespace Verif
open Model Spec Props Model.Chain

namespace Spec.Flat
variable {A : Alg} {d : Nat} (h : Flat A d) {R : Type} [Field R] [DecidableEq R]
include h

omit [DecidableEq R] in
theorem along_length (t : R) : (along d t).length = d := by
  have := h.pos
  simp [along]; omega

/-- The value of a translator. -/
noncomputable def _root_.Verif.Spec.trans (A : Alg) {R : Type} [Field R] (v : List R) : Cl A R := 1 + (1 / 2 : R) • (arm A v * last A R)

omit h [DecidableEq R] in
theorem _root_.Verif.Spec.trans_def (v : List R) : trans A v = 1 + (1 / 2 : R) • (arm A v * last A R) := rfl

omit [DecidableEq R] in
/-- The arms along the last axis. -/
theorem arm_along (t : R) : arm A (along d t) = t • blade A R (2 ^ (d - 1)) := by
  have hp := h.pos
  have hd : d - 1 < A.n := by rw [h.n]; omega
  rw [arm, vec_eq_sum, Finset.sum_eq_single ⟨d - 1, hd⟩ _ (by simp), ← blade_two_pow]
  · congr 1
    simp [along, List.getD_eq_getElem?_getD]
  · intro j _ hj
    have hj' : (j : Nat) ≠ d - 1 := fun e => hj (Fin.ext e)
    have : (along d t).getD j 0 = 0 := by
      rw [along, List.getD_eq_getElem?_getD]
      rcases Nat.lt_or_gt_of_ne hj' with hl | hl
      · rw [List.getElem?_append_left (by simpa using hl)]
        simp [hl]
      · rw [List.getElem?_eq_none (by simp; omega)]; rfl
    rw [this, zero_smul]

theorem pop_or {i : Nat} (hi : i < d) : popcount (2 ^ d ||| 2 ^ i) = 2 := by
  have h0 : (2 ^ d &&& 2 ^ i : Nat) = 0 := pow_and (by omega)
  have e1 : (2 ^ d ||| 2 ^ i) = 2 ^ d ^^^ 2 ^ i := by
    apply Nat.eq_of_testBit_eq
    intro k
    have hk := congrArg (Nat.testBit · k) h0
    simp only [Nat.testBit_and, Nat.zero_testBit] at hk
    rw [Nat.testBit_or, Nat.testBit_xor]
    revert hk
    cases (2 ^ d).testBit k <;> cases (2 ^ i).testBit k <;> simp
  have h3 := popcount_xor (2 ^ d) (2 ^ i)
  have p0 : popcount 0 = 0 := by decide
  rw [h0, p0, popcount_two_pow h.wf (by rw [h.n]; omega), popcount_two_pow h.wf (by rw [h.n]; omega)] at h3
  rw [e1]; omega

/-- The state of a body of the chain. -/
structure _root_.Verif.Spec.Hung (A : Alg) (d : Nat) {R : Type} [Field R] [DecidableEq R] (damping t : R) (b : Body R) : Prop where
  motorWf : WfMV A b.motor
  even : A.evenGrade = some b.motor.sub
  motor : val A b.motor = trans A (along d t)
  rate : val A b.rate = 0
  damping : val A b.damping = damping • 1
  gravity : val A b.gravity = rhInv A R ((1 / 20 : R) • blade A R 1)
  moment : val A b.firstMoment = ((2 * d : Nat) : R) • rhInv A R (last A R)

variable (fuel n : Nat) (e : R → R)

/-- Placing the body. -/
theorem place_body (h2 : (2 : R) ≠ 0) {V : SubSpace} (v1 : A.antivector = some V) (hV : IsSpace A V fun b => popcount b + 1 = A.n) {rows : List (List R)}
    {damping : R} {b : Body R} (hm : Made A V rows b) (b1 : val A b.motor = 1) (b2 : val A b.rate = 0) (b3 : val A b.damping = damping • 1)
    (b4 : val A b.gravity = rhInv A R ((1 / 20 : R) • blade A R 1)) (b5 : val A b.firstMoment = ((2 * d : Nat) : R) • rhInv A R (last A R)) (t : R) :
    ∃ q c, translator A fuel e n (along d t) = .ok q ∧
      (do b.copy A (some (← lift (b.motor.mul A (.mv q)))) none none none) = .ok c ∧ Made A V rows c ∧ Hung A d damping t c := by
  have hn : 2 ≤ A.n := by rw [h.n]; have := h.pos; omega
  obtain ⟨T, t1, t2⟩ := h.translator_spec fuel n e h2
  obtain ⟨q, q1, q2, q3, q4⟩ := t2 _ (h.along_length t)
  obtain ⟨⟨B, L, hl⟩, -⟩ := hm.live h.wf hn hV.1
  obtain ⟨U, u1, m, m1, m2, m3, m4⟩ := mul_in h.wf hl.motorWf q2
  obtain ⟨s1, -⟩ := hm.sound h.wf hn hV.1
  obtain ⟨-, i1, i2, ⟨V', i3, i3'⟩, i4, i5, i6⟩ := init_ok s1
  cases v1.symm.trans i3
  have p0 : popcount 0 = 0 := by decide
  have hs : m.sub = b.motor.sub := by
    rw [m2]
    refine WfSub.ext u1.1 hl.motorWf.sub fun c => ?_
    rw [u1.2, hl.motorSub.2]
    constructor
    · rintro ⟨hc, a, ha, s, hs, rfl, -⟩
      refine ⟨hc, ?_⟩
      rw [hl.motorSub.2] at ha
      have hx := popcount_xor a s
      have hs' : popcount s % 2 = 0 := by
        rw [q3, t1.2] at hs
        obtain ⟨-, rfl | ⟨i, hi, rfl⟩⟩ := hs
        · rw [p0]
        · rw [h.pop_or hi]
      have := ha.2
      show popcount (a ^^^ s) % 2 = 0
      omega
    · rintro ⟨hc, hc'⟩
      refine ⟨hc, c, (hl.motorSub.2 c).2 ⟨hc, hc'⟩, 0, ?_, Nat.xor_zero c, ?_⟩
      · rw [q3, t1.2]; exact ⟨by positivity, .inl rfl⟩
      · rw [sgn_disjoint (by simp)]; simp [inv]
  have hc : b.copy A (some m) none none none = .ok { b with motor := m } :=
    init_mk (V := V) (by show A.evenGrade = some m.sub; rw [hs]; exact i1) i2 v1 i3' i4 i5 i6
  refine ⟨q, { b with motor := m }, q1, ?_, .copy hm ?_ (by simp) (by simp) (by simp) hc, ⟨m3, by show A.evenGrade = some m.sub; rw [hs]; exact i1, ?_, b2, b3, b4, b5⟩⟩
  · show (lift (b.motor.mul A (.mv q)) >>= _) = _
    rw [m1]
    exact hc
  · intro x hx; cases hx; exact m3
  · show val A m = _
    rw [m4, b1, one_mul, q4]; rfl

/-- The space of the horizon. -/
theorem horizon_spec : ∃ H, horizon A R = some H ∧ IsSpace A H fun b => ∃ i < d, b = 2 ^ d ||| 2 ^ i := by
  obtain ⟨M, m1, rfl, m3⟩ := h.modelSpace_eq (R := R)
  have hW : WfSub A ⟨[2 ^ d]⟩ := h.wfPow (by rw [h.n]; omega)
  obtain ⟨H, k1, k2⟩ := C70_wedge h.wf hW m3
  refine ⟨H, ?_, k2.congr fun b hb => ?_⟩
  · rw [horizon, h.origin_eq, m1]
    exact k1
  · simp only [List.mem_singleton, exists_eq_left, List.mem_map, List.mem_range, exists_exists_and_eq_and]
    constructor
    · rintro ⟨i, hi, -, rfl⟩; exact ⟨i, hi, rfl⟩
    · rintro ⟨i, hi, rfl⟩
      exact ⟨i, hi, pow_and (by omega), rfl⟩

/-- A bivector blade of the horizon is one that contains the last basis vector. -/
theorem horizon_iff {H : SubSpace} (hH : IsSpace A H fun b => ∃ i < d, b = 2 ^ d ||| 2 ^ i) {b : Nat} (hb : b < 2 ^ A.n) (hp : popcount b = 2) :
    b ∈ H.blades ↔ b.testBit d = true := by
  rw [hH.2]
  constructor
  · rintro ⟨-, i, -, rfl⟩
    rw [Nat.testBit_or, Nat.testBit_two_pow_self, Bool.true_or]
  · intro ht
    refine ⟨hb, ?_⟩
    have hx := popcount_xor b (2 ^ d)
    have hd : d < A.n := by rw [h.n]; omega
    rw [and_two_pow, if_pos ht, popcount_two_pow h.wf hd, hp] at hx
    obtain ⟨V, v1, v2⟩ := (C14_named h.wf).2.1
    cases (vector_eq h.wf).symm.trans v1
    have := (v2.2 (b ^^^ 2 ^ d)).2 ⟨xor_lt hb h.ltW, by omega⟩
    obtain ⟨i, hi, e⟩ := List.mem_map.1 this
    have e : 2 ^ i = b ^^^ 2 ^ d := e
    have hne : i ≠ d := by
      rintro rfl
      have := congrArg (Nat.testBit · i) e
      simp [ht] at this
    refine ⟨i, by have := List.mem_range.1 hi; have := h.n; omega, ?_⟩
    apply Nat.eq_of_testBit_eq
    intro k
    have hk := congrArg (Nat.testBit · k) e
    simp only [Nat.testBit_xor] at hk
    rw [Nat.testBit_or, hk]
    by_cases hkd : k = d
    · subst hkd; simp [ht]
    · rw [Nat.testBit_two_pow_of_ne (Ne.symm hkd)]; simp

/-- Fixing a body. -/
theorem fix_spec {H B L : SubSpace} (hH : IsSpace A H fun b => ∃ i < d, b = 2 ^ d ||| 2 ^ i) (hB : IsSpace A B fun b => popcount b = 2) {b : Body R}
    (hb : Unary A b.inertiaInv L B) : ∃ c, fix H b = some c ∧ c = { b with inertiaInv := c.inertiaInv } ∧ Unary A c.inertiaInv L B ∧
      ∀ x a, coef A R a (opMap A c.inertiaInv L B x) = if a.testBit d then 0 else coef A R a (opMap A b.inertiaInv L B x) := by
  have hsub : ∀ a ∈ H.blades, a ∈ B.blades := by
    intro a ha
    rw [hB.2]
    have ha' := (hH.2 a).1 ha
    refine ⟨ha'.1, ?_⟩
    obtain ⟨-, i, hi, rfl⟩ := ha'
    exact h.pop_or hi
  have ho : b.inertiaInv.output = B := by rw [Operator.output, hb.axes]; rfl
  have hidx : b.inertiaInv.output.toRelativeIndices H.blades = some (H.blades.map B.blades.idxOf) := by
    rw [ho, toRelativeIndices_eq, if_pos hsub]
  refine ⟨{ b with inertiaInv := ⟨⟨b.inertiaInv.kernel.shape, fun ix => if ix.getD 1 0 ∈ H.blades.map B.blades.idxOf then 0 else b.inertiaInv.kernel.get ix⟩,
    b.inertiaInv.axes⟩ }, by rw [fix, hidx]; rfl, rfl, ⟨hb.axes, hb.shape, hb.dom, hb.cod⟩, fun x a => ?_⟩
  rw [opMap_apply, opMap_apply, map_sum, map_sum]
  have hlt : ∀ j ∈ Finset.range B.blades.length, B.blades.getD j 0 ∈ B.blades ∧ B.blades.idxOf (B.blades.getD j 0) = j := by
    intro j hj
    have hj := Finset.mem_range.1 hj
    rw [List.getD_eq_getElem?_getD, List.getElem?_eq_getElem hj, Option.getD_some]
    exact ⟨List.getElem_mem hj, hB.1.nodup.idxOf_getElem j hj⟩
  have hmem : ∀ j ∈ Finset.range B.blades.length, j ∈ H.blades.map B.blades.idxOf ↔ (B.blades.getD j 0).testBit d = true := by
    intro j hj
    obtain ⟨j1, j2⟩ := hlt j hj
    rw [← h.horizon_iff hH (hB.1.lt _ j1) ((hB.2 _).1 j1).2]
    constructor
    · intro hm
      obtain ⟨c, c1, c2⟩ := List.mem_map.1 hm
      have : B.blades.getD j 0 = c := (List.idxOf_inj j1).1 (j2.trans c2.symm)
      rwa [this]
    · intro hm
      exact List.mem_map.2 ⟨_, hm, j2⟩
  have hterm : ∀ j ∈ Finset.range B.blades.length, coef A R a ((∑ i ∈ Finset.range L.blades.length,
      (if [i, j].getD 1 0 ∈ H.blades.map B.blades.idxOf then 0 else b.inertiaInv.kernel.get [i, j]) * coef A R (L.blades.getD i 0) x) • blade A R (B.blades.getD j 0)) =
      if a.testBit d then 0 else coef A R a ((∑ i ∈ Finset.range L.blades.length, b.inertiaInv.kernel.get [i, j] * coef A R (L.blades.getD i 0) x) • blade A R (B.blades.getD j 0)) := by
    intro j hj
    obtain ⟨j1, j2⟩ := hlt j hj
    have hj1 : ∀ i, [i, j].getD 1 0 = j := fun i => rfl
    simp only [hj1, hmem j hj]
    rw [map_smul, map_smul, coef_blade A R (hB.1.lt _ j1)]
    by_cases ea : a = B.blades.getD j 0
    · rw [if_pos ea, ← ea]
      split_ifs <;> simp
    · rw [if_neg ea, smul_zero, smul_zero]; simp
  rw [Finset.sum_congr rfl hterm]
  split_ifs <;> simp

end Spec.Flat
end Verif
