import Verif.Props.Roots
/-! # C81: inverse square roots -/
namespace Verif.Props
open Model Spec

variable {A : Alg}

section
variable {R : Type} [Field R] [DecidableEq R]

/-- C81: whatever `inverse_square_root` returns is an inverse square root: `y y s = 1`, on both sides, and it commutes with `s`; in dimension
below six, and for study numbers in every dimension. -/
theorem C81_root (hA : WfAlg A) (h2 : (2 : R) ≠ 0) {rt : Roots R} (hr : RootLaw rt) {fuel : Nat} (hf : 4 ≤ fuel) {s y : MV R} (hs : WfMV A s)
    (hd : A.n < 6 ∨ s.sub.isStudy A = some true) (h : s.inverseSquareRoot A rt fuel = .ok y) :
    WfMV A y ∧ val A y * val A y * val A s = 1 ∧ val A s * (val A y * val A y) = 1 ∧ val A y * val A s = val A s * val A y := by
  rw [MV.inverseSquareRoot, (scalar_eq hA).1] at h
  simp only [lift_some, bind, Except.bind] at h
  split_ifs at h with h0
  · obtain ⟨c, c2, c3⟩ := val_scalar hs h0
    rw [c2] at h
    simp only [List.mapM_cons, List.mapM_nil, bind, Except.bind, pure, Except.pure, MV.invSqrtVal] at h
    by_cases hc : c = 0
    · rw [if_pos hc] at h; cases h
    rw [if_neg hc] at h
    cases hq : rt.sqrt c with
    | none => rw [hq] at h; cases h
    | some r =>
      rw [hq] at h
      have hr2 := hr _ _ hq
      have hr0 : r ≠ 0 := by rintro rfl; exact hc (by rw [← hr2, mul_zero])
      have e : s.copy [1 / r] = some ⟨⟨[0]⟩, [1 / r]⟩ := by rw [MV.copy, MV.construct, h0, if_pos (by simp)]
      simp only [e, lift_some] at h
      cases h
      have hv : val A (⟨⟨[0]⟩, [1 / r]⟩ : MV R) = r⁻¹ • 1 := by simp [val, denote, blade_zero]
      refine ⟨⟨wf_scalar, rfl⟩, ?_, ?_, ?_⟩ <;> rw [hv, c3] <;> simp only [smul_mul_smul_comm, one_mul, ← hr2]
      · rw [show r⁻¹ * r⁻¹ * (r * r) = 1 by field_simp, one_smul]
      · rw [show r * r * (r⁻¹ * r⁻¹) = 1 by field_simp, one_smul]
      · rw [mul_comm]
  · cases hq : s.squareRoot A rt fuel with
    | error e => rw [hq] at h; cases h
    | ok q =>
      rw [hq] at h
      simp only at h
      obtain ⟨fuel, rfl⟩ : ∃ f, fuel = f + 2 := ⟨fuel - 2, by omega⟩
      obtain ⟨q1, q2, a, c, k, q3, q4, q5, q6⟩ := squareRoot_spec hA h2 hr (fuel + 1) hs hq
      obtain ⟨y1, y2, y3⟩ : WfMV A y ∧ val A q * val A y = 1 ∧ val A y * val A q = 1 := by
        rcases hd with hn | hst
        · rcases C47_inverse hA hn h2 hf q1 with ⟨i, i1, i2, i3, i4⟩ | hd
          · cases i1.symm.trans h; exact ⟨i2, i3, i4⟩
          · rw [hd] at h; cases h
        · rcases inverse_works1 hA fuel q1 (nsimple_study hA q1.sub (study_mono hA hs.sub q1.sub hst q2)) with ⟨i, i1, i2, i3⟩ | hd
          · cases i1.symm.trans h; exact ⟨i2, i3, mul_eq_one_comm.1 i3⟩
          · rw [hd] at h; cases h
      have hv : val A q * val A q = val A s := q5 fun hc => not_unit_of_square A y2 (q6 hc)
      refine ⟨y1, ?_, ?_, ?_⟩ <;> rw [← hv]
      · rw [mul_assoc, ← mul_assoc (val A y) (val A q), y3, one_mul, y3]
      · rw [mul_assoc, ← mul_assoc (val A q) (val A y), y2, one_mul, y2]
      · rw [← mul_assoc, y3, one_mul, mul_assoc, y2, mul_one]
end

section
variable {R : Type} [Field R] [LinearOrder R] [IsStrictOrderedRing R]

/-- C81: `inverse_square_root` has a result for a study number with scalar part `a` and rest `n`, `n² = q`, if both `a² - q` and
`a + √(a² - q)` are positive. -/
theorem C81_exists (hA : WfAlg A) {rt : Roots R} (hr : RealRoots rt) {fuel : Nat} (hf : 4 ≤ fuel) {x : MV R} (hx : WfMV A x)
    (hs : x.sub.isStudy A = some true) {a q s : R} {n : Cl A R} (hv : val A x = a • 1 + n) (h0 : gradePart A R 0 n = 0)
    (hq : n * n = q • 1) (s0 : 0 < s) (s1 : s * s = a * a - q) (hpos : 0 < a + s) :
    ∃ y, x.inverseSquareRoot A rt fuel = .ok y ∧ WfMV A y ∧ val A y * val A y * val A x = 1 := by
  have h2 : (2 : R) ≠ 0 := two_ne_zero
  suffices h : ∃ y, x.inverseSquareRoot A rt fuel = .ok y by
    obtain ⟨y, hy⟩ := h
    obtain ⟨y1, y2, -⟩ := C81_root hA h2 hr.law hf hx (Or.inr hs) hy
    exact ⟨y, hy, y1, y2⟩
  have hN : a * a - q ≠ 0 := by rw [← s1]; exact (mul_pos s0 s0).ne'
  rw [MV.inverseSquareRoot, (scalar_eq hA).1]
  simp only [lift_some, bind, Except.bind]
  split_ifs with hsc
  · obtain ⟨c, c2, c3⟩ := val_scalar hx hsc
    have : c = a := scalar_part_eq hA hv h0 (by rw [c3, gradePart_zero_scalar hA])
    subst this
    have hn : n = 0 := by rw [c3] at hv; simpa using hv
    have q0 : q = 0 := smul_one_inj (A := A) (by rw [← hq, hn, zero_smul, mul_zero])
    have ha : 0 < c := by
      rw [q0, sub_zero] at s1
      rcases mul_self_eq_mul_self_iff.1 s1 with h | h <;> linarith
    obtain ⟨r, r1, _⟩ := hr.nonneg c ha.le
    rw [c2]
    simp only [List.mapM_cons, List.mapM_nil, bind, Except.bind, pure, Except.pure, MV.invSqrtVal, r1]
    rw [if_neg ha.ne']
    have e : x.copy [1 / r] = some ⟨⟨[0]⟩, [1 / r]⟩ := by rw [MV.copy, MV.construct, hsc, if_pos (by simp)]
    simp only [e, lift_some]
    exact ⟨_, rfl⟩
  · obtain ⟨fuel, rfl⟩ : ∃ f, fuel = f + 2 := ⟨fuel - 2, by omega⟩
    obtain ⟨w, w1, w2, w3⟩ := C50_square_root hA hr (fuel := fuel + 2) (by omega) hx hs hv h0 hq s0.le s1 hpos
    rw [w1]
    simp only
    obtain ⟨_, hsub, _⟩ := squareRoot_spec hA h2 hr.law (fuel + 1) hx w1
    have hst := study_mono hA hx.sub w2.sub hs hsub
    have hu : IsUnit (val A w) := by
      have e : val A w * (val A w * (((a * a - q)⁻¹) • (a • 1 - n))) = 1 := by
        rw [← mul_assoc, w3, hv, mul_smul_comm, add_mul, mul_sub, mul_sub, hq]
        simp only [mul_smul_comm, smul_mul_assoc, mul_one, one_mul, smul_smul]
        rw [show (a * a) • (1 : Cl A R) - a • n + (a • n - q • 1) = (a * a - q) • 1 by module, smul_smul, inv_mul_cancel₀ hN, one_smul]
      exact ⟨⟨_, _, e, mul_eq_one_comm.1 e⟩, rfl⟩
    exact inverse_ok1 hA (fuel + 1) w2 (nsimple_study hA w2.sub hst) hu

end

/-- A backend with the roots needed below. -/
def rootsI : Roots ℚ := ⟨fun a => [0, 1, 2, 3, 4, 5].find? fun r => r * r = a, fun a => |a|, 1000⟩
theorem rootsI_law : RootLaw rootsI := fun a r h => by simpa using List.find?_some h

/-- A scalar, and the complex number `3 + 4 xy = (2 + xy)²`. -/
example : (⟨⟨[0]⟩, [4]⟩ : MV ℚ).inverseSquareRoot euc2 rootsI 4 = .ok ⟨⟨[0]⟩, [1/2]⟩ := by decide +kernel
example : (⟨⟨[0, 3]⟩, [3, 4]⟩ : MV ℚ).inverseSquareRoot euc2 rootsI 4 = .ok ⟨⟨[0, 3]⟩, [2/5, -1/5]⟩ ∧
    (⟨[0, 3]⟩ : SubSpace).isStudy euc2 = some true := by decide +kernel
example : val euc2 (⟨⟨[0, 3]⟩, [2/5, -1/5]⟩ : MV ℚ) * val euc2 ⟨⟨[0, 3]⟩, [2/5, -1/5]⟩ * val euc2 ⟨⟨[0, 3]⟩, [3, 4]⟩ = 1 :=
  (C81_root wf_euc2 two_ne_zero rootsI_law (le_refl 4) ⟨wfSub_of_B (by decide +kernel), rfl⟩ (Or.inl (by decide))
    (by decide +kernel : (⟨⟨[0, 3]⟩, [3, 4]⟩ : MV ℚ).inverseSquareRoot euc2 rootsI 4 = .ok ⟨⟨[0, 3]⟩, [2/5, -1/5]⟩)).2.1

end Verif.Props
