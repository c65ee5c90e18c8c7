import Verif.Proofs.Roots
import Mathlib.Tactic.Linarith
/-! # Square roots of study numbers over the real numbers -/
namespace Verif
open Model Spec Model.Factory Props

variable {A : Alg} {R : Type} [Field R] [LinearOrder R]

theorem Spec.RealRoots.law [IsStrictOrderedRing R] {rt : Roots R} (h : RealRoots rt) : RootLaw rt := by
  intro a r hr
  rcases lt_or_ge a 0 with h0 | h0
  · rw [h.neg a h0] at hr; cases hr
  · obtain ⟨s, s1, _, s2⟩ := h.nonneg a h0
    rw [s1] at hr; cases hr; exact s2

theorem Spec.RealRoots.some_nonneg [IsStrictOrderedRing R] {rt : Roots R} (h : RealRoots rt) {a r : R} (hr : rt.sqrt a = some r) : 0 ≤ r := by
  rcases lt_or_ge a 0 with h0 | h0
  · rw [h.neg a h0] at hr; cases hr
  · obtain ⟨s, s1, s2, _⟩ := h.nonneg a h0
    rw [s1] at hr; cases hr; exact s2

theorem Spec.RealRoots.none_neg [IsStrictOrderedRing R] {rt : Roots R} (h : RealRoots rt) {a : R} (hr : rt.sqrt a = none) : a < 0 := by
  by_contra h0
  obtain ⟨s, s1, _⟩ := h.nonneg a (not_lt.1 h0)
  rw [hr] at s1; cases s1

variable [IsStrictOrderedRing R]

/-- What a value with a scalar part `a` looks like. -/
theorem scalar_part_eq (hA : WfAlg A) {x n : Cl A R} {a b : R} (hx : x = a • 1 + n) (h0 : gradePart A R 0 n = 0)
    (hb : gradePart A R 0 x = b • (1 : Cl A R)) : b = a := by
  rw [hx, map_add, gradePart_zero_scalar hA, h0, add_zero] at hb
  exact (smul_one_inj hb).symm

/-- `square_root` where every blade but the scalar has a null vector. -/
theorem squareRoot_null (hA : WfAlg A) {rt : Roots R} (hr : RealRoots rt) (fuel : Nat) {x : MV R} (hx : WfMV A x)
    (hs : x.sub.isStudy A = some true) (hd : ∀ b ∈ x.sub.blades, b ≠ 0 → NullBlade A b) {a : R} {n : Cl A R} (hv : val A x = a • 1 + n)
    (h0 : gradePart A R 0 n = 0) :
    n * n = 0 ∧ ((∃ y c, x.squareRoot A rt (fuel + 1) = .ok y ∧ WfMV A y ∧ 0 ≤ c ∧ c * c = a ∧
        val A y = c • 1 + (if c = 0 then rt.big else (2 * c)⁻¹) • n) ∨
      x.squareRoot A rt (fuel + 1) = .error .nan ∧ a < 0) := by
  have h2 : (2 : R) ≠ 0 := two_ne_zero
  have hn : n = val A x - a • 1 := by rw [hv]; abel
  have ha : gradePart A R 0 (val A x) = a • 1 := by rw [hv, map_add, gradePart_zero_scalar hA, h0, add_zero]
  refine ⟨by rw [hn]; exact null_rest hA hx hs hd ha, ?_⟩
  rcases sqrt_dispatch hA hx.sub with ⟨hsc, hm⟩ | ⟨_, _, _, hm⟩ | ⟨_, _, hd', _⟩ | ⟨_, hs', _⟩
  · rw [MV.squareRoot, hm]
    obtain ⟨b, b1, b2⟩ := Sc.of' hx hsc
    have hb : b = a := scalar_part_eq hA hv h0 (by rw [b2, gradePart_zero_scalar hA])
    subst hb
    have hn0 : n = 0 := by rw [hn, b2, sub_self]
    rcases b1.sqrt hr.law with ⟨y, d, d1, d2, d3, d4⟩ | ⟨d1, d2⟩
    · refine Or.inl ⟨y, d, d1, d2.wf, ?_, d3, by rw [hn0, smul_zero, add_zero]; exact d2.val⟩
      rcases d4 with rfl | d4
      · exact le_refl _
      · exact hr.some_nonneg d4
    · exact Or.inr ⟨d1, hr.none_neg d2⟩
  · rw [MV.squareRoot, hm]
    obtain ⟨b, b1, hb⟩ := run_degenerate hA h2 hr.law fuel hx
    obtain rfl := scalar_part_eq hA hv h0 b1
    rcases hb with ⟨y, c, y1, y2, c1, c2, y3, _⟩ | ⟨e, e'⟩
    · refine Or.inl ⟨y, c, y1, y2, ?_, c1, by rw [hn]; exact y3⟩
      rcases c2 with rfl | c2
      · exact le_refl _
      · exact hr.some_nonneg c2
    · exact Or.inr ⟨e, hr.none_neg e'⟩
  · exact absurd hd hd'
  · rw [hs] at hs'; cases hs'

/-- `square_root` of the other study numbers. -/
theorem squareRoot_study (hA : WfAlg A) {rt : Roots R} (hr : RealRoots rt) (fuel : Nat) {x : MV R} (hx : WfMV A x)
    (hs : x.sub.isStudy A = some true) (hd : ¬ ∀ b ∈ x.sub.blades, b ≠ 0 → NullBlade A b) {a : R} {n : Cl A R} (hv : val A x = a • 1 + n)
    (h0 : gradePart A R 0 n = 0) :
    ∃ q : R, n * n = q • 1 ∧ ((∃ y c s, x.squareRoot A rt (fuel + 1) = .ok y ∧ WfMV A y ∧ 0 ≤ c ∧ 0 ≤ s ∧ s * s = a * a - q ∧ c * c = (a + s) / 2 ∧
        val A y = c • 1 + (if c = 0 then rt.big else (2 * c)⁻¹) • n) ∨
      x.squareRoot A rt (fuel + 1) = .error .nan ∧ (a * a - q < 0 ∨ ∃ s, 0 ≤ s ∧ s * s = a * a - q ∧ a + s < 0)) := by
  have h2 : (2 : R) ≠ 0 := two_ne_zero
  have hn : n = val A x - a • 1 := by rw [hv]; abel
  rcases sqrt_dispatch hA hx.sub with ⟨hsc, hm⟩ | ⟨_, _, hd', _⟩ | ⟨_, _, _, hm⟩ | ⟨_, hs', _⟩
  · exact absurd (fun b hb hb0 => absurd (by simpa using hsc b hb) hb0) hd
  · exact absurd hd' hd
  · rw [MV.squareRoot, hm]
    obtain ⟨b, N, b1, b2, hb⟩ := run_study hA h2 hr.law fuel hx hs
    obtain rfl := scalar_part_eq hA hv h0 b1
    refine ⟨b * b - N, by rw [hn]; exact b2, ?_⟩
    rw [sub_sub_cancel]
    have nn : ∀ {s N : R}, s = 0 ∨ rt.sqrt N = some s → 0 ≤ s := by
      rintro s N (rfl | h)
      · exact le_refl _
      · exact hr.some_nonneg h
    rcases hb with ⟨y, c, s, y1, y2, s1, c1, s2, c2, y3, _⟩ | ⟨e, e' | ⟨s, s1, s2, s3⟩⟩
    · exact Or.inl ⟨y, c, s, y1, y2, nn c2, nn s2, s1, c1, by rw [hn]; exact y3⟩
    · exact Or.inr ⟨e, Or.inl (hr.none_neg e')⟩
    · refine Or.inr ⟨e, Or.inr ⟨s, nn s2, s1, ?_⟩⟩
      have := hr.none_neg s3
      linarith
  · rw [hs] at hs'; cases hs'

end Verif
