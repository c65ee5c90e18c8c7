import Verif.Proofs.Decompose
/-! # C74: the decomposition of a bivector into commuting simple parts -/
namespace Verif.Props
open Model Spec Model.Factory

variable {A : Alg} {R : Type} [Field R] [DecidableEq R]

/-- The selection of the implementation of `decompose_invariant`. -/
theorem invariant_match (hA : WfAlg A) (hn : 2 ≤ A.n) {b : MV R} (hb : WfMV A b) :
    (¬ Homogeneous 2 b → Dispatch.matchLoop b.sub (invariantOptions A) = none) ∧
    (Homogeneous 2 b → ∃ T, b.sub.squared A = some T ∧ WfSub A T ∧
      (SubOf T ⟨[0]⟩ → Dispatch.matchLoop b.sub (invariantOptions A) = some true) ∧
      (¬ SubOf T ⟨[0]⟩ → (T.isStudy A = some true → Dispatch.matchLoop b.sub (invariantOptions A) = some false) ∧
        (T.isStudy A ≠ some true → Dispatch.matchLoop b.sub (invariantOptions A) = none))) := by
  have hi := insideBivector_iff (R := R) hA hn (x := b) hb.sub
  obtain ⟨E, E1, _⟩ := (C14_named hA).2.2.1 hn
  have hB : ∃ v, insideBivector A b.sub = some v := ⟨_, by rw [insideBivector, E1]; rfl⟩
  obtain ⟨v, hv⟩ := hB
  rw [hv, Option.some_inj] at hi
  rw [invariantOptions]
  simp only [Dispatch.matchLoop, hv, Option.bind_eq_bind, Option.bind_some]
  constructor
  · intro h
    have : v = false := by cases v <;> simp_all
    subst this
    rfl
  · intro h
    rw [hi.2 h]
    have he : EvenSub b.sub := fun e h' => by rw [h e h']
    obtain ⟨_, T, t1, t2, _⟩ := selfProduct_even hA hb.sub he
    refine ⟨T, t1, t2, ?_⟩
    obtain ⟨r, r1, r2⟩ := insideScalar_eq hA T
    obtain ⟨w, w1, _⟩ := C39_study hA t2
    simp only [t1, if_true, Option.bind_some, r1, w1]
    refine ⟨fun h => by rw [r2.2 h], fun h => ?_⟩
    have : r = false := by cases r <;> simp_all
    subst this
    constructor
    · intro h; rw [Option.some_inj.1 h]
    · intro h
      have : w = false := by cases w <;> simp_all
      subst this
      rfl

theorem gradePart_hom (hA : WfAlg A) {x : MV R} (hx : WfMV A x) {k : Nat} (h : Homogeneous k x) (i : Nat) :
    gradePart A R i (val A x) = if i = k then val A x else 0 := by
  apply ext_coef
  intro b hb
  rw [gradePart_eq_proj, coef_proj]
  by_cases h0 : coef A R b (val A x) = 0
  · rw [h0]; split_ifs <;> simp [h0]
  · rw [h b (mv_coef hx hb h0)]
    by_cases hi : i = k
    · rw [if_pos hi, if_pos hi.symm]
    · rw [if_neg hi, if_neg fun h => hi h.symm, map_zero]

/-- For two bivectors the inner product is the scalar part of the product. -/
theorem inner_bivectors (hA : WfAlg A) (hn : 2 ≤ A.n) {x y : MV R} (hx : WfMV A x) (hy : WfMV A y) (h1 : Homogeneous 2 x) (h2 : Homogeneous 2 y) :
    Gives A (x.inner A y) (gradePart A R 0 (val A x * val A y)) := by
  refine (C30_graded hA hx hy).1.congr ?_
  rw [gradedProduct]
  rw [Finset.sum_eq_single 2, Finset.sum_eq_single 2, Finset.sum_eq_single 0]
  · rw [gradePart_hom hA hx h1, gradePart_hom hA hy h2]; simp
  · intro k _ hk
    rw [if_neg]
    simpa using hk
  · simp
  · intro j _ hj
    apply Finset.sum_eq_zero
    intro k _
    rw [gradePart_hom hA hy h2 j, if_neg hj, mul_zero, map_zero, ite_self]
  · intro h; exact absurd (Finset.mem_range.2 (by omega)) h
  · intro i _ hi
    apply Finset.sum_eq_zero
    intro j _
    apply Finset.sum_eq_zero
    intro k _
    rw [gradePart_hom hA hx h1 i, if_neg hi, zero_mul, map_zero, ite_self]
  · intro h; exact absurd (Finset.mem_range.2 (by omega)) h

/-- C74: whatever `decompose_invariant` returns are two bivectors with sum `b`.  As soon as the cube of `b` is a bivector, they commute,
each of them squares to a number, and their product is half of the part of `b * b` above the scalars, so that `l.inner(r)` is zero. -/
theorem C74_cube (hA : WfAlg A) (hn : 2 ≤ A.n) (h2 : (2 : R) ≠ 0) {rt : Roots R} (hr : RootLaw rt) (fuel : Nat) {b l r : MV R}
    (hb : WfMV A b) (h : b.decomposeInvariant A rt (fuel + 1) = .ok (l, r)) :
    WfMV A l ∧ WfMV A r ∧ Homogeneous 2 l ∧ Homogeneous 2 r ∧ val A l + val A r = val A b ∧
    (gradePart A R 2 (val A b * val A b * val A b) = val A b * val A b * val A b →
      (∃ u : R, val A l * val A l = u • 1) ∧ (∃ v : R, val A r * val A r = v • 1) ∧ val A l * val A r = val A r * val A l ∧
      val A l * val A r = (1 / 2 : R) • (val A b * val A b - gradePart A R 0 (val A b * val A b)) ∧ Gives A (l.inner A r) 0) := by
  obtain ⟨m1, m2⟩ := invariant_match hA hn hb
  by_cases hh : Homogeneous 2 b
  swap
  · rw [MV.decomposeInvariant, m1 hh] at h; cases h
  obtain ⟨T, t1, t2, t3, t4⟩ := m2 hh
  by_cases hsc : SubOf T ⟨[0]⟩
  · rw [MV.decomposeInvariant, t3 hsc, empty_eq hA] at h
    simp only [lift_some, bind, Except.bind, Except.ok.injEq, Prod.mk.injEq] at h
    obtain ⟨rfl, rfl⟩ := h
    have wr : WfMV A (MV.default ⟨[]⟩ : MV R) := ⟨⟨by simp [MV.default], by simp [MV.default]⟩, rfl⟩
    have vr : val A (MV.default ⟨[]⟩ : MV R) = 0 := by simp [Spec.val, denote, MV.default]
    have hr2 : Homogeneous 2 (MV.default ⟨[]⟩ : MV R) := fun e he => by simp [MV.default] at he
    obtain ⟨b2, q1, q2, q3, q4⟩ := self_givesIn (C38_values hA hb).1 t1
    subst q2
    obtain ⟨c, _, c2⟩ := Sc.of' q3 hsc
    refine ⟨hb, wr, hh, hr2, by rw [vr, add_zero], fun _ => ⟨⟨c, by rw [← q4, c2]⟩, ⟨0, by rw [vr, zero_smul, mul_zero]⟩, ?_, ?_, ?_⟩⟩
    · rw [vr, mul_zero, zero_mul]
    · rw [vr, mul_zero, ← q4, c2, gradePart_zero_scalar hA, sub_self, smul_zero]
    · exact (inner_bivectors hA hn hb wr hh hr2).congr (by rw [vr, mul_zero, map_zero])
  · obtain ⟨t5, t6⟩ := t4 hsc
    by_cases hst : T.isStudy A = some true
    swap
    · rw [MV.decomposeInvariant, t6 hst] at h; cases h
    rw [MV.decomposeInvariant, t5 hst] at h
    obtain ⟨a, N, n1, n2, n3⟩ := bisimple_spec hA hn h2 hr fuel hb t1 hst
    have hTn : T.blades ≠ [] := fun h0 => hsc fun e he => by rw [h0] at he; cases he
    rcases n3 with ⟨s, l', r', s0, s1, _, s2, wl, wr, hl, hr', vl, vr⟩ | ⟨_, n3⟩ | ⟨_, n3⟩
    rotate_left
    · rw [show b.decomposeBisimple A rt (fuel + 1) = _ from n3 hTn] at h; cases h
    · rw [show b.decomposeBisimple A rt (fuel + 1) = _ from n3] at h; cases h
    rw [show b.decomposeBisimple A rt (fuel + 1) = _ from s2] at h
    cases h
    have gb : gradePart A R 2 (val A b) = val A b := by rw [gradePart_hom hA hb hh, if_pos rfl]
    have hh1 : (1 / 2 : R) + 1 / 2 = 1 := by field_simp; norm_num
    refine ⟨wl, wr, hl, hr', ?_, fun h3 => ?_⟩
    · rw [vl, vr, ← map_add, ← add_mul]
      rw [show (2 * s)⁻¹ • ((2 * a) • 1 - val A b * val A b) + (1 / 2 : R) • (1 : Cl A R) +
        ((1 / 2 : R) • (1 : Cl A R) - (2 * s)⁻¹ • ((2 * a) • 1 - val A b * val A b)) = ((1 / 2 : R) + 1 / 2) • 1 by module, hh1, one_smul, one_mul, gb]
    · have gs : ∀ c : R, gradePart A R 2 ((c • ((2 * a) • 1 - val A b * val A b)) * val A b) = (c • ((2 * a) • 1 - val A b * val A b)) * val A b := by
        intro c
        simp only [smul_mul_assoc, sub_mul, one_mul, map_smul, map_sub, h3, gb]
      have gh : ∀ c : R, gradePart A R 2 ((c • (1 : Cl A R)) * val A b) = (c • (1 : Cl A R)) * val A b := by
        intro c
        rw [smul_mul_assoc, one_mul, map_smul, gb]
      rw [add_mul, map_add, gs, gh, ← add_mul] at vl
      rw [sub_mul, map_sub, gs, gh, ← sub_mul] at vr
      obtain ⟨i1, i2, i3, i4⟩ := split_identities h2 s0 s1 n2
      rw [← vl] at i1 i3 i4
      rw [← vr] at i2 i3 i4
      refine ⟨⟨_, i1⟩, ⟨_, i2⟩, i3.trans i4.symm, by rw [i3, n1], ?_⟩
      refine (inner_bivectors hA hn wl wr hl hr').congr ?_
      rw [i3, map_smul, map_sub, n1, gradePart_zero_scalar hA, sub_self, smul_zero]

/-- C74: in fewer than six dimensions every result of `decompose_invariant` is a pair of commuting bivectors with sum `b`, each of which
squares to a number, with zero inner product. -/
theorem C74_decompose (hA : WfAlg A) (h5 : A.n < 6) (hn : 2 ≤ A.n) (h2 : (2 : R) ≠ 0) {rt : Roots R} (hr : RootLaw rt) (fuel : Nat)
    {b l r : MV R} (hb : WfMV A b) (h : b.decomposeInvariant A rt (fuel + 1) = .ok (l, r)) :
    WfMV A l ∧ WfMV A r ∧ Homogeneous 2 l ∧ Homogeneous 2 r ∧ val A l + val A r = val A b ∧
    (∃ u : R, val A l * val A l = u • 1) ∧ (∃ v : R, val A r * val A r = v • 1) ∧ val A l * val A r = val A r * val A l ∧
    val A l * val A r = (1 / 2 : R) • (val A b * val A b - gradePart A R 0 (val A b * val A b)) ∧ Gives A (l.inner A r) 0 := by
  obtain ⟨g1, g2, g3, g4, g5, g6⟩ := C74_cube hA hn h2 hr fuel hb h
  have hh : Homogeneous 2 b := by
    by_contra hh
    rw [MV.decomposeInvariant, (invariant_match hA hn hb).1 hh] at h; cases h
  refine ⟨g1, g2, g3, g4, g5, g6 (anti_bivector hA h5 h2 ?_ ?_)⟩
  · simp only [CliffordAlgebra.reverse.map_mul, bivector_rev hA hb hh]
    simp [mul_assoc]
  · have he : EvenSub b.sub := fun e h' => by rw [hh e h']
    rw [map_mul, map_mul, val_even hA hb he]

/-- C74: when `decompose_invariant` returns.  Let `b` be a bivector whose square is stored in a study subspace, `a` the scalar part of
`b * b` and `q` the number its remaining part squares to.  If `b * b` is stored in the scalars the result is `b` and the empty
multivector.  Otherwise there is a result when the backend has a root of `a² - q` that is not zero, and only then: `b` with
`a² = q`, the isoclinic bivectors, always fails. -/
theorem C74_returns (hA : WfAlg A) (hn : 2 ≤ A.n) (h2 : (2 : R) ≠ 0) {rt : Roots R} (hr : RootLaw rt) (fuel : Nat) {b : MV R}
    (hb : WfMV A b) (hh : Homogeneous 2 b) {T : SubSpace} (hT : b.sub.squared A = some T) (hs : T.isStudy A = some true) {a q : R}
    (ha : gradePart A R 0 (val A b * val A b) = a • (1 : Cl A R))
    (hq : (val A b * val A b - a • 1) * (val A b * val A b - a • 1) = q • (1 : Cl A R)) :
    (SubOf T ⟨[0]⟩ → b.decomposeInvariant A rt (fuel + 1) = .ok (b, ⟨⟨[]⟩, []⟩)) ∧
    (¬ SubOf T ⟨[0]⟩ → ((∃ l r, b.decomposeInvariant A rt (fuel + 1) = .ok (l, r)) ↔ ∃ s, rt.sqrt (a * a - q) = some s ∧ s ≠ 0) ∧
      (a * a = q → rt.sqrt 0 = some 0 → b.decomposeInvariant A rt (fuel + 1) = .error .divZero) ∧
      (rt.sqrt (a * a - q) = none → a * a ≠ q → b.decomposeInvariant A rt (fuel + 1) = .error .nan)) := by
  obtain ⟨T', t1, t2, t3, t4⟩ := (invariant_match hA hn hb).2 hh
  cases t1.symm.trans hT
  refine ⟨fun h => ?_, fun h => ?_⟩
  · rw [MV.decomposeInvariant, t3 h, empty_eq hA]; rfl
  · have e : b.decomposeInvariant A rt (fuel + 1) = b.decomposeBisimple A rt (fuel + 1) := by
      rw [MV.decomposeInvariant, (t4 h).1 hs]
    have hTn : T.blades ≠ [] := fun h0 => h fun e he => by rw [h0] at he; cases he
    obtain ⟨a', N, n1, n2, n3⟩ := bisimple_spec hA hn h2 hr fuel hb hT hs
    obtain rfl := smul_one_inj (n1.symm.trans ha)
    have hN : a' * a' - q = N := by linear_combination smul_one_inj (n2.symm.trans hq)
    rw [e, hN]
    rcases n3 with ⟨s, l', r', s0, s1, s2, s3, _⟩ | ⟨n3, n4⟩ | ⟨n3, n4⟩
    · refine ⟨⟨fun _ => ⟨s, s2, s0⟩, fun _ => ⟨l', r', s3⟩⟩, fun h' => ?_, fun h' => ?_⟩
      · rw [h', sub_self] at hN
        rw [← hN] at s1
        exact absurd (mul_self_eq_zero.1 s1) s0
      · rw [h'] at s2; cases s2
    · refine ⟨⟨fun ⟨l, r, h'⟩ => (by rw [n4 hTn] at h'; cases h'), fun ⟨s, h', h0⟩ => ?_⟩, fun _ _ => n4 hTn, fun _ h' => ?_⟩
      · rw [n3] at h'; exact absurd (mul_self_eq_zero.1 (hr _ _ h')) h0
      · exact absurd (by linear_combination hN + n3) h'
    · refine ⟨⟨fun ⟨l, r, h'⟩ => (by rw [n4] at h'; cases h'), fun ⟨s, h', _⟩ => (by rw [n3] at h'; cases h')⟩, fun h' hz => ?_, fun _ _ => n4⟩
      rw [h', sub_self] at hN
      rw [← hN, hz] at n3; cases n3

/-- C74: there is no implementation for anything else than a bivector whose square is stored in a study subspace. -/
theorem C74_noMatch (hA : WfAlg A) (hn : 2 ≤ A.n) (rt : Roots R) (fuel : Nat) {b : MV R} (hb : WfMV A b)
    (h : ¬ Homogeneous 2 b ∨ ∃ T, b.sub.squared A = some T ∧ ¬ SubOf T ⟨[0]⟩ ∧ T.isStudy A ≠ some true) :
    b.decomposeInvariant A rt fuel = .error .noMatch := by
  obtain ⟨m1, m2⟩ := invariant_match hA hn hb
  rw [MV.decomposeInvariant]
  by_cases hh : Homogeneous 2 b
  · obtain ⟨T, t1, t2, t3⟩ := h.resolve_left fun h => h hh
    obtain ⟨T', t1', _, _, t4⟩ := m2 hh
    cases t1.symm.trans t1'
    rw [(t4 t2).2 t3]
  · rw [m1 hh]

/-! ### examples -/

example : WfAlg euc4 ∧ euc4.n < 6 ∧ WfMV euc4 (⟨⟨[3, 12]⟩, [2, 1]⟩ : MV ℚ) ∧ Homogeneous 2 (⟨⟨[3, 12]⟩, [2, 1]⟩ : MV ℚ) ∧ RootLaw someRoots :=
  ⟨by constructor <;> decide, by decide, ⟨wfSub_of_B (by decide +kernel), rfl⟩, by unfold Homogeneous; decide +kernel, someRoots_law⟩
/-- Two orthogonal planes. -/
example : (⟨⟨[3, 12]⟩, [2, 1]⟩ : MV ℚ).decomposeInvariant euc4 someRoots 2 = .ok (⟨⟨[3, 12]⟩, [0, 1]⟩, ⟨⟨[3, 12]⟩, [2, 0]⟩) := by decide +kernel
/-- C74 (disagreement): an isoclinic bivector has many decompositions, but the code divides by zero. -/
theorem C74_isoclinic : (⟨⟨[3, 12]⟩, [1, 1]⟩ : MV ℚ).decomposeInvariant euc4 someRoots 2 = .error .divZero := by decide +kernel
example : WfMV euc4 (⟨⟨[1]⟩, [2]⟩ : MV ℚ) ∧ (⟨⟨[1]⟩, [2]⟩ : MV ℚ).decomposeInvariant euc4 someRoots 2 = .error .noMatch :=
  ⟨⟨wfSub_of_B (by decide +kernel), rfl⟩, by decide +kernel⟩

end Verif.Props
