import Verif.Proofs.Physics10
import Verif.Proofs.Conformal
/-! # Distribution of a forque -/
namespace Verif
open Model Spec Model.Factory Props

variable {A : Alg} {R : Type} [Field R] [DecidableEq R]

namespace Live
variable {b : Body R} {ps : List (Cl A R)} {B L : SubSpace} (h : Live A b ps B L)
include h

/-- What the inverse inertia does to a direction. -/
theorem react (hA : WfAlg A) {d : MV R} (hd : WfMV A d) (hs : d.sub = L) :
    ∃ s c x, einsumCallMV b.inertiaInv [d] = some s ∧ WfMV A s ∧ s.sub = B ∧ val A s = opMap A b.inertiaInv L B (val A d) ∧
      s.regressive A d = some c ∧ Sc c x ∧ meet A R (val A s) (val A d) = x • 1 := by
  obtain ⟨s, s1, s2, s3, s4⟩ := h.inverse.call hd hs
  obtain ⟨c, c1, c2, c3⟩ := regressive_gives hA s3 hd
  have hc : SubOf c.sub ⟨[0]⟩ := by
    intro e he
    obtain ⟨a, ha, f, hf, hp⟩ := regressive_sub hA s3 hd c1 he
    rw [s2, h.spaceB.2] at ha
    rw [hs, h.spaceL.2] at hf
    have : popcount e = 0 := by omega
    rw [popcount_of_lt hA.le32 (c2.sub.lt e he), pc_eq_zero_iff] at this
    have : e = 0 := Nat.eq_of_testBit_eq fun i => by
      by_cases hi : i < A.n
      · rw [this i hi, Nat.zero_testBit]
      · rw [Nat.zero_testBit, Nat.testBit_lt_two_pow (lt_of_lt_of_le (c2.sub.lt e he) (Nat.pow_le_pow_right (by norm_num) (not_lt.1 hi)))]
    simp [this]
  obtain ⟨x, x1, x2⟩ := Sc.of' c2 hc
  exact ⟨s, c, x, s1, s3, s2, s4, c1, x1, by rw [meet_eq, ← c3, x2]⟩

end Live

/-- The spaces of the magnitudes of forques: scalars, and in space also the pseudoscalars. -/
def Flat (A : Alg) (S : SubSpace) : Prop := S = ⟨[0]⟩ ∨ A.n = 4 ∧ 0 ∈ S.blades ∧ ∀ e ∈ S.blades, e = 0 ∨ e = 15

theorem Flat.zero {S : SubSpace} (h : Flat A S) : 0 ∈ S.blades := by
  rcases h with rfl | h
  · simp
  · exact h.2.1

theorem flip_two {b : Nat} (hb : b < 16) (h : popcount b = 2) : popcount (b ^^^ 15) = 2 := by
  revert b
  decide +kernel

omit [DecidableEq R] in
/-- Bivectors of space times a flat magnitude. -/
theorem Flat.mul_in (hA : WfAlg A) {x y : MV R} (hx : WfMV A x) (hB : IsSpace A x.sub fun b => popcount b = 2) (hy : WfMV A y) (hf : Flat A y.sub) :
    GivesIn A (x.product A y) x.sub (val A x * val A y) := by
  obtain ⟨w, w1, w2, w3⟩ := product_gives hA hx hy
  refine ⟨w, w1, ?_, w2, w3⟩
  have e : x.mul A (.mv y) = some w := by rw [MV.mul, MV.upcast]; simpa using w1
  rcases hf with hf | ⟨h4, hf⟩
  · obtain ⟨v, v1, v2, -⟩ := mul_scalar_in hA hx hy hf
    cases v1.symm.trans e
    exact v2
  · refine WfSub.ext w2.sub hx.sub fun b => ⟨fun hb => ?_, (product_keeps hA hx hy w1).2 hf.1 b⟩
    obtain ⟨U, u1, u, u2, u3, -⟩ := Verif.mul_in hA hx hy
    cases u2.symm.trans e
    rw [u3, u1.2] at hb
    obtain ⟨hb, a, ha, c, hc, rfl, -⟩ := hb
    have ha' := (hB.2 a).1 ha
    have ha2 : popcount a = 2 := ha'.2
    rcases hf.2 c hc with rfl | rfl
    · rwa [Nat.xor_zero]
    · exact (hB.2 _).2 ⟨hb, flip_two (by simpa [h4] using ha'.1) ha2⟩

theorem distribute_spec (hA : WfAlg A) {b0 b1 : Body R} {ps0 ps1 : List (Cl A R)} {B L : SubSpace} (h0 : Live A b0 ps0 B L)
    (h1 : Live A b1 ps1 B L) {d0 d1 mag comp : MV R} (w0 : WfMV A d0) (w1 : WfMV A d1) (l0 : d0.sub = L) (l1 : d1.sub = L) (wm : WfMV A mag)
    {m e : R} (hm : val A mag = m • 1) (hc : Sc comp e) :
    ∃ s0 s1 c0 c1, einsumCallMV b0.inertiaInv [d0] = some s0 ∧ einsumCallMV b1.inertiaInv [d1] = some s1 ∧ WfMV A s0 ∧ WfMV A s1 ∧
      s0.sub = B ∧ s1.sub = B ∧ val A s0 = opMap A b0.inertiaInv L B (val A d0) ∧ val A s1 = opMap A b1.inertiaInv L B (val A d1) ∧
      meet A R (val A s0) (val A d0) = c0 • 1 ∧ meet A R (val A s1) (val A d1) = c1 • 1 ∧
      (∀ fuel, e + (c0 + c1) ≠ 0 → ∃ r0 r1, Constraint.distributeForque A fuel d0 d1 mag b0.inertiaInv b1.inertiaInv comp = .ok (r0, r1) ∧
        WfMV A r0 ∧ WfMV A r1 ∧ val A r0 = (1 / 2 * ((e + (c0 + c1))⁻¹ * m)) • val A s0 ∧ val A r1 = (-1 / 2 * ((e + (c0 + c1))⁻¹ * m)) • val A s1 ∧
        (0 ∈ mag.sub.blades → SubOf B r0.sub ∧ SubOf B r1.sub) ∧ (Flat A mag.sub → r0.sub = B ∧ r1.sub = B)) ∧
      (∀ fuel, e + (c0 + c1) = 0 → mag.sub.blades ≠ [] →
        Constraint.distributeForque A (fuel + 1) d0 d1 mag b0.inertiaInv b1.inertiaInv comp = .error .divZero) := by
  obtain ⟨s0, k0, c0, s01, s02, s03, s04, k01, k02, k03⟩ := h0.react hA w0 l0
  obtain ⟨s1, k1, c1, s11, s12, s13, s14, k11, k12, k13⟩ := h1.react hA w1 l1
  have hk : k0.sub = k1.sub := by
    rw [MV.regressive, s03, l0] at k01
    rw [MV.regressive, s13, l1] at k11
    cases ho : Factory.regressive A (.sub B) (.sub L) with
    | none => rw [ho] at k01; simp [MV.call] at k01
    | some o => rw [ho] at k01 k11; rw [(call_output k01).1, (call_output k11).1]
  obtain ⟨t, t1, t2⟩ : ∃ t, k0.copy (List.zipWith (· + ·) k0.vals k1.vals) = some t ∧ Sc t (c0 + c1) := by
    rcases k02 with ⟨rfl, rfl⟩ | rfl <;> rcases k12 with ⟨rfl, rfl⟩ | rfl
    · exact ⟨_, rfl, Or.inl ⟨rfl, by rw [add_zero]⟩⟩
    · simp at hk
    · simp at hk
    · exact ⟨_, rfl, Or.inr rfl⟩
  obtain ⟨u, u1, u2⟩ := Sc.add hA hc t2
  refine ⟨s0, s1, c0, c1, s01, s11, s02, s12, s03, s13, s04, s14, k03, k13, fun fuel hne => ?_, fun fuel he hmag => ?_⟩
  · obtain ⟨z, z1, z2, z3, z4⟩ := (Sc.div hA fuel wm u2).1 hne
    obtain ⟨p, p1, p2, p3, p4⟩ := mul_scalar_in hA s02 (y := ⟨⟨[0]⟩, [1 / 2]⟩) ⟨(scalar_eq hA).2, rfl⟩ rfl
    obtain ⟨q, q1, q2, q3, q4⟩ := mul_scalar_in hA s12 (y := ⟨⟨[0]⟩, [-1 / 2]⟩) ⟨(scalar_eq hA).2, rfl⟩ rfl
    have hmul : ∀ {x : MV R}, WfMV A x → x.sub = B → ∃ r, x.mul A (.mv z) = some r ∧ WfMV A r ∧ val A r = ((e + (c0 + c1))⁻¹ * m) • val A x ∧
        (0 ∈ mag.sub.blades → SubOf B r.sub) ∧ (Flat A mag.sub → r.sub = B) := by
      intro x hx hxs
      obtain ⟨w, w1, w2, w3⟩ := product_gives hA hx z2
      refine ⟨w, by rw [MV.mul, MV.upcast]; simpa using w1, w2, by rw [w3, z4, hm, smul_smul, mul_smul_comm, mul_one], fun h => ?_, fun h => ?_⟩
      · exact hxs ▸ (product_keeps hA hx z2 w1).2 (z3 ▸ h)
      · rcases h with h | h
        · obtain ⟨v, v1, v2, -⟩ := mul_scalar_in hA hx z2 (z3.trans h)
          have : x.mul A (.mv z) = some w := by rw [MV.mul, MV.upcast]; simpa using w1
          cases v1.symm.trans this
          exact v2.trans hxs
        · have hB : IsSpace A x.sub fun b => popcount b = 2 := hxs ▸ h0.spaceB
          obtain ⟨v, v1, v2, -⟩ := Flat.mul_in hA hx hB z2 (z3 ▸ .inr h)
          cases v1.symm.trans w1
          exact v2.trans hxs
    obtain ⟨r0, r01, r02, r03, r04, r05⟩ := hmul p3 (p2.trans s03)
    obtain ⟨r1, r11, r12, r13, r14, r15⟩ := hmul q3 (q2.trans s13)
    have cf : ∀ a : R, coeff (⟨⟨[0]⟩, [a]⟩ : MV R) 0 = a := fun a => by simp [coeff]
    refine ⟨r0, r1, ?_, r02, r12, ?_, ?_, fun h => ⟨r04 h, r14 h⟩, fun h => ⟨r05 h, r15 h⟩⟩
    · rw [Constraint.distributeForque]
      have cs : ∀ a : R, MV.construct [a] ⟨[0]⟩ = some ⟨⟨[0]⟩, [a]⟩ := fun a => rfl
      simp only [s01, s11, k01, k11, t1, u1, z1, lift_some, bind, Except.bind, (scalar_eq hA).1, cs, p1, q1, r01, r11]
    · rw [r03, p4, cf, smul_smul, mul_comm]
    · rw [r13, q4, cf, smul_smul, mul_comm]
  · have := (Sc.div hA fuel wm u2).2 he hmag
    rw [Constraint.distributeForque]
    simp only [s01, s11, k01, k11, t1, u1, this, lift_some, bind, Except.bind]

/-- What is known of a result of `distribute_forque`. -/
theorem distribute_ok (hA : WfAlg A) {fuel : Nat} {b0 b1 : Body R} {ps0 ps1 : List (Cl A R)} {B L : SubSpace} (h0 : Live A b0 ps0 B L)
    (h1 : Live A b1 ps1 B L) {d0 d1 mag comp r0 r1 : MV R} (w0 : WfMV A d0) (w1 : WfMV A d1) (l0 : d0.sub = L) (l1 : d1.sub = L) (wm : WfMV A mag)
    {m e : R} (hm : val A mag = m • 1) (hc : Sc comp e) (hne : mag.sub.blades ≠ [])
    (h : Constraint.distributeForque A (fuel + 1) d0 d1 mag b0.inertiaInv b1.inertiaInv comp = .ok (r0, r1)) :
    ∃ c0 c1 l, meet A R (opMap A b0.inertiaInv L B (val A d0)) (val A d0) = c0 • 1 ∧ meet A R (opMap A b1.inertiaInv L B (val A d1)) (val A d1) = c1 • 1 ∧
      e + c0 + c1 ≠ 0 ∧ (e + c0 + c1) * l = m ∧ WfMV A r0 ∧ WfMV A r1 ∧ val A r0 = (l / 2) • opMap A b0.inertiaInv L B (val A d0) ∧
      val A r1 = -(l / 2) • opMap A b1.inertiaInv L B (val A d1) ∧
      (0 ∈ mag.sub.blades → SubOf B r0.sub ∧ SubOf B r1.sub) ∧ (Flat A mag.sub → r0.sub = B ∧ r1.sub = B) := by
  obtain ⟨s0, s1, c0, c1, a1, a2, a3, a4, a5, a6, a7, a8, a9, a10, a11, a12⟩ := distribute_spec hA h0 h1 w0 w1 l0 l1 wm hm hc
  by_cases he : e + (c0 + c1) = 0
  · rw [a12 fuel he hne] at h
    cases h
  · obtain ⟨r0', r1', e1, e2, e3, e4, e5, e6, e7⟩ := a11 (fuel + 1) he
    cases e1.symm.trans h
    refine ⟨c0, c1, (e + (c0 + c1))⁻¹ * m, a7 ▸ a9, a8 ▸ a10, by rwa [add_assoc], by rw [add_assoc, mul_inv_cancel_left₀ he], e2, e3, ?_, ?_, e6, e7⟩
    · rw [e4, a7]; congr 1; ring
    · rw [e5, a8]; congr 1; ring

end Verif
