import Verif.Proofs.Inverse3
import Verif.Spec.Roots
import Verif.Props.Inverse
/-! # Square roots of study numbers -/
namespace Verif
open Model Spec Model.Factory Props

variable {A : Alg} {R : Type} [Field R] [DecidableEq R]

/-- A multivector stored in the scalars, or empty, that stands for the number `c`. -/
def Sc {R : Type} [Zero R] (x : MV R) (c : R) : Prop := x = ⟨⟨[]⟩, []⟩ ∧ c = 0 ∨ x = ⟨⟨[0]⟩, [c]⟩

omit [DecidableEq R] in
theorem Sc.wf {x : MV R} {c : R} (h : Sc x c) : WfMV A x := by
  rcases h with ⟨rfl, _⟩ | rfl
  · exact ⟨⟨by simp, by simp⟩, rfl⟩
  · exact ⟨wf_scalar, rfl⟩

omit [DecidableEq R] in
theorem Sc.val {x : MV R} {c : R} (h : Sc x c) : val A x = c • (1 : Cl A R) := by
  rcases h with ⟨rfl, rfl⟩ | rfl
  · simp [Spec.val, denote]
  · simp [Spec.val, denote, blade_zero]

omit [DecidableEq R] in
theorem Sc.sub {x : MV R} {c : R} (h : Sc x c) : SubOf x.sub ⟨[0]⟩ := by
  rcases h with ⟨rfl, rfl⟩ | rfl <;> simp [SubOf]

omit [DecidableEq R] in
theorem smul_one_inj {c d : R} (h : c • (1 : Cl A R) = d • 1) : c = d := by
  have := congrArg (coef A R 0) h
  rw [← blade_zero] at this
  simp only [map_smul, smul_eq_mul] at this
  rw [coef_blade _ _ (by simp)] at this
  simpa using this

theorem Sc.of {x : MV R} (hx : WfMV A x) (hs : SubOf x.sub ⟨[0]⟩) {c : R} (hv : Spec.val A x = c • (1 : Cl A R)) : Sc x c := by
  have hl := hx.len
  rcases sub_of_scalar hx.sub hs with h | h
  · left
    obtain ⟨S, v⟩ := x
    simp only at h
    subst h
    simp only [List.length_nil, List.length_eq_zero_iff] at hl
    subst hl
    refine ⟨rfl, ?_⟩
    have : (0 : R) • (1 : Cl A R) = c • 1 := by rw [← hv, zero_smul]; simp [Spec.val, denote]
    exact (smul_one_inj this).symm
  · right
    obtain ⟨d, hd, hv'⟩ := val_scalar hx h
    rw [hv] at hv'
    rw [smul_one_inj hv', ← hd, ← h]

theorem Sc.of' {x : MV R} (hx : WfMV A x) (hs : SubOf x.sub ⟨[0]⟩) : ∃ c, Sc x c ∧ Spec.val A x = c • (1 : Cl A R) := by
  rcases sub_of_scalar hx.sub hs with h | h
  · exact ⟨0, Sc.of hx hs (by rw [zero_smul]; simp [Spec.val, denote, h]), by rw [zero_smul]; simp [Spec.val, denote, h]⟩
  · obtain ⟨d, hd, hv'⟩ := val_scalar hx h
    exact ⟨d, Sc.of hx hs hv', hv'⟩

omit [DecidableEq R] in
theorem Sc.sqrt {rt : Roots R} (hr : RootLaw rt) {x : MV R} {c : R} (h : Sc x c) :
    (∃ y d, x.sqrt rt = .ok y ∧ Sc y d ∧ d * d = c ∧ (d = 0 ∨ rt.sqrt c = some d)) ∨ x.sqrt rt = .error .nan ∧ rt.sqrt c = none := by
  rcases h with ⟨rfl, rfl⟩ | rfl
  · exact Or.inl ⟨⟨⟨[]⟩, []⟩, 0, rfl, Or.inl ⟨rfl, rfl⟩, by simp, Or.inl rfl⟩
  · cases hc : rt.sqrt c with
    | none =>
      right
      simp [MV.sqrt, MV.sqrtVal, hc, bind, Except.bind]
    | some d =>
      left
      refine ⟨⟨⟨[0]⟩, [d]⟩, d, ?_, Or.inr rfl, hr _ _ hc, Or.inr rfl⟩
      simp [MV.sqrt, MV.sqrtVal, hc, bind, Except.bind, pure, Except.pure, MV.copy, MV.construct, lift_some]

theorem Sc.add (hA : WfAlg A) {x y : MV R} {c d : R} (hx : Sc x c) (hy : Sc y d) :
    ∃ z, x.add A (.mv y) = some z ∧ Sc z (c + d) := by
  obtain ⟨U, u1, z, z1, z2, z3, z4⟩ := combine_gives hA (hx.wf (A := A)) (hy.wf (A := A)) (1 : R)
  refine ⟨z, by rw [MV.add, MV.upcast]; simpa using z1, Sc.of z3 ?_ ?_⟩
  · obtain ⟨V, v1, v2, v3⟩ := union_spec hA (hx.wf (A := A)).sub (hy.wf (A := A)).sub
    cases u1.symm.trans v1
    intro b hb
    rw [z2, v3] at hb
    rcases hb.2 with h | h
    · exact hx.sub b h
    · exact hy.sub b h
  · rw [z4, hx.val, hy.val, one_smul, add_smul]

theorem Sc.product (hA : WfAlg A) {x y : MV R} {c d : R} (hx : Sc x c) (hy : Sc y d) :
    ∃ z, x.product A y = some z ∧ Sc z (c * d) := by
  obtain ⟨z, z1, z3, z4⟩ := product_gives hA (hx.wf (A := A)) (hy.wf (A := A))
  refine ⟨z, z1, Sc.of z3 ?_ ?_⟩
  · have wx := (hx.wf (A := A)).sub
    have wy := (hy.wf (A := A)).sub
    rw [MV.product] at z1
    obtain ⟨op, o1, _⟩ := product_bin hA (argSem_sub wx) (argSem_sub wy)
    rw [o1] at z1
    have hb := bin_output hA (product_bin hA) wx wy o1 (product_squeezed hA wx wy o1)
    rw [call_sub z1]
    intro b hm
    obtain ⟨a, ha, e, he, hnz⟩ := (hb b).1 hm
    rw [List.mem_singleton.1 (hx.sub a ha), List.mem_singleton.1 (hy.sub e he), blade_zero, one_mul, ← blade_zero, coef_blade _ _ (by simp)] at hnz
    by_contra h0
    rw [List.mem_singleton] at h0
    exact hnz (by rw [if_neg h0])
  · rw [z4, hx.val, hy.val, smul_mul_smul_comm, one_mul]

theorem Sc.inverse (hA : WfAlg A) (fuel : Nat) {x : MV R} {c : R} (hx : Sc x c) :
    c ≠ 0 ∧ (∃ y, x.inverse A (fuel + 1) = .ok y ∧ Sc y c⁻¹) ∨ c = 0 ∧ x.inverse A (fuel + 1) = .error .divZero := by
  rcases hx with ⟨rfl, rfl⟩ | rfl
  · exact Or.inr ⟨rfl, inverse_empty hA fuel rfl⟩
  · have hm : Dispatch.matchLoop (⟨[0]⟩ : SubSpace) (inverseOptions A) = some .scalar := by
      rw [inverseOptions]
      simp only [Dispatch.matchLoop, empty_eq hA, (scalar_eq hA).1, List.cons_append, Option.bind_eq_bind, Option.bind_some]
      rfl
    simp only [MV.inverse, hm, MV.runInverse]
    by_cases h : c = 0
    · exact Or.inr ⟨h, by rw [if_pos h]⟩
    · refine Or.inl ⟨h, ⟨⟨[0]⟩, [c⁻¹]⟩, ?_, Or.inr rfl⟩
      rw [if_neg h, MV.copy, MV.construct, if_pos (by simp), one_div]
      rfl

theorem Sc.inverseNan (hA : WfAlg A) (rt : Roots R) (fuel : Nat) {x : MV R} {c : R} (hx : Sc x c) :
    ∃ y, MV.inverseNan A rt (fuel + 1) x = .ok y ∧ Sc y (if c = 0 then rt.big else c⁻¹) := by
  rw [MV.inverseNan]
  rcases hx.inverse hA fuel with ⟨h0, y, y1, y2⟩ | ⟨h0, h⟩
  · exact ⟨y, by rw [y1], by rw [if_neg h0]; exact y2⟩
  · refine ⟨⟨⟨[0]⟩, [rt.big]⟩, ?_, by rw [if_pos h0]; exact Or.inr rfl⟩
    rw [h, (scalar_eq hA).1]
    rfl

/-! ### the study norm -/

theorem scalar_part (hA : WfAlg A) {x : MV R} (hx : WfMV A x) :
    ∃ y c, x.restrictSubspace A ⟨[0]⟩ = some y ∧ Sc y c ∧ gradePart A R 0 (val A x) = c • (1 : Cl A R) := by
  obtain ⟨T, t1, z, z1, z2, z3, z4⟩ := restrictSubspace_gives hA hx (wf_scalar (A := A))
  have hs : SubOf z.sub ⟨[0]⟩ := by
    obtain ⟨V, v1, v2, v3⟩ := intersection_spec hA (wf_scalar (A := A)) (T := x.sub)
    cases t1.symm.trans v1
    intro b hb
    rw [z2, v3] at hb
    simpa using hb.2.1
  obtain ⟨c, c1, c2⟩ := Sc.of' z3 hs
  refine ⟨z, c, z1, c1, ?_⟩
  rw [← c2, z4, gradePart_eq_proj]
  apply proj_congr
  intro b hb
  rw [List.mem_singleton]
  exact popcount_eq_zero hA.le32 hb

theorem studyConjugate_eq (S : SubSpace) : studyConjugate A S = scalarNegation A (.sub S) := rfl

/-- The study norm squared is stored in the scalars. -/
theorem studyNormSquared_sc (hA : WfAlg A) {x : MV R} (hx : WfMV A x) :
    ∃ y c, MV.call (Factory.studyNormSquared A x.sub) [x, x] = some y ∧ Sc y c ∧
      gradePart A R 0 (val A x * (2 • gradePart A R 0 (val A x) - val A x)) = c • (1 : Cl A R) := by
  obtain ⟨sc, s1, s2⟩ : ∃ op, studyConjugate A x.sub = some op ∧
      ArgSem A (.op op) [x.sub] (Cond.triv A) (fun R _ ds => 2 • gradePart A R 0 (ds.headD 0) - ds.headD 0) := by
    have h := scalarNegation_un hA (argSem_sub hx.sub)
    rw [← studyConjugate_eq] at h
    obtain ⟨op, h1, _⟩ := id h
    rw [h1] at h
    exact ⟨op, h1, h.arg⟩
  have e : Factory.studyNormSquared A x.sub = scalarProduct A (.sub x.sub) (.op sc) := by rw [studyNormSquared, s1]; rfl
  have hs := scalarProduct_bin hA (argSem_sub hx.sub) s2
  have hg := call_gives2 (r := scalarProduct A (.sub x.sub) (.op sc)) hs hx hx ⟨trivial, trivial⟩
  rw [e]
  obtain ⟨y, y1, y2, y3⟩ := hg
  have hsub : SubOf y.sub ⟨[0]⟩ := by
    obtain ⟨op, o1, o2, o3, o4⟩ := hs
    rw [o1] at y1
    have hsq : Squeezed A op := by
      obtain ⟨raw, g, O, h1, h2, h3, h4, h5⟩ := gradeSelected_sem hA hx.sub (args_ins_subspace s2.1) fun _ _ o => decide (0 = o)
      obtain ⟨q, q1, q2, _⟩ := Sem.build2 (a := .sub x.sub) (b := .op sc) h3 h4 h5 (argSem_sub hx.sub) s2
      rw [scalarProduct, makeProduct] at o1
      rw [show (Arg.sub x.sub : Arg Int).subspace = x.sub from rfl, h1] at o1
      simp only [h2, Option.bind_eq_bind, Option.bind_some, q1] at o1
      exact ⟨q, q2, o1⟩
    rw [call_sub y1]
    intro b hb
    have hlt := (squeezed_wf hA hsq).wf_output.lt b hb
    have o5 : Computes A op (Cond.triv A) (fun R _ ds => gradedProduct A R (fun _ _ k => k = 0) ((ds.take 1).headD 0)
        (2 • gradePart A R 0 ((ds.drop 1).headD 0) - (ds.drop 1).headD 0)) := fun R _ xs hx _ => o4 R xs hx ⟨trivial, trivial⟩
    rw [squeezed_out hA hsq o5] at hb
    obtain ⟨idx, _, hnz⟩ := hb
    rw [scalarProduct_eq hA, gradePart_eq_proj, coef_proj] at hnz
    rw [List.mem_singleton]
    by_contra h0
    apply hnz
    rw [if_neg]
    exact fun hp => h0 ((popcount_eq_zero hA.le32 hlt).1 hp)
  obtain ⟨c, c1, c2⟩ := Sc.of' y2 hsub
  refine ⟨y, c, y1, c1, ?_⟩
  rw [← c2, y3]
  exact (scalarProduct_eq hA _ _).symm

/-- On a study subspace, the part without the scalar squares to a number. -/
theorem study_norm (hA : WfAlg A) {x : MV R} (hx : WfMV A x) (hs : x.sub.isStudy A = some true) {a N : R}
    (ha : gradePart A R 0 (val A x) = a • (1 : Cl A R))
    (hN : gradePart A R 0 (val A x * (2 • gradePart A R 0 (val A x) - val A x)) = N • (1 : Cl A R)) :
    (val A x - a • 1) * (val A x - a • 1) = (a * a - N) • (1 : Cl A R) := by
  obtain ⟨r, r1, r2, _⟩ := C39_study hA hx.sub
  rw [hs, Option.some_inj] at r1
  obtain ⟨c, hc⟩ := r2 r1.symm R x hx rfl
  rw [hc, gradePart_zero_scalar hA] at hN
  obtain rfl := smul_one_inj hN
  rw [ha] at hc
  have e : (val A x - a • 1) * (val A x - a • 1) = (a * a) • (1 : Cl A R) - val A x * (2 • a • 1 - val A x) := by
    simp only [mul_sub, sub_mul, mul_smul_comm, smul_mul_assoc, mul_one, one_mul, smul_smul]
    module
  rw [e, hc, sub_smul]

theorem nonscalar_part (hA : WfAlg A) {x : MV R} (hx : WfMV A x) {a : R} (ha : gradePart A R 0 (val A x) = a • (1 : Cl A R)) :
    ∃ S y, A.nonscalar = some S ∧ x.restrictSubspace A S = some y ∧ WfMV A y ∧ val A y = val A x - a • 1 ∧
      SubOf y.sub x.sub := by
  obtain ⟨S, s1, s2, s3⟩ := (C14_named hA).2.2.2.2.2.2.2.2.2.1
  obtain ⟨T, t1, z, z1, z2, z3, z4⟩ := restrictSubspace_gives hA hx s2
  refine ⟨S, z, s1, z1, z3, ?_, ?_⟩
  swap
  · obtain ⟨U, u1, u2, u3⟩ := intersection_spec hA s2 (T := x.sub)
    cases t1.symm.trans u1
    intro b hb
    rw [z2, u3] at hb
    exact hb.2.2
  rw [z4, ← ha, gradePart_eq_proj]
  apply ext_coef
  intro b hb
  rw [map_sub, coef_proj, coef_proj]
  have := popcount_eq_zero hA.le32 hb
  have h := s3 b
  by_cases h0 : b = 0
  · subst h0; rw [if_neg (by simp [h]), if_pos (this.2 rfl), sub_self]
  · rw [if_pos (h.2 ⟨hb, h0⟩), if_neg (fun h => h0 (this.1 h)), sub_zero]

theorem product_sub_scalar (hA : WfAlg A) {x y z : MV R} {d : R} (hx : WfMV A x) (hy : Sc y d) (h : x.product A y = some z) :
    SubOf z.sub x.sub := by
  have wy := (hy.wf (A := A)).sub
  rw [MV.product] at h
  obtain ⟨op, o1, _⟩ := product_bin hA (argSem_sub hx.sub) (argSem_sub wy)
  rw [o1] at h
  have hb := bin_output hA (product_bin hA) hx.sub wy o1 (product_squeezed hA hx.sub wy o1)
  rw [call_sub h]
  intro b hm
  obtain ⟨a, ha, e, he, hnz⟩ := (hb b).1 hm
  rw [List.mem_singleton.1 (hy.sub e he), blade_zero, mul_one, coef_blade _ _ (hx.sub.lt a ha)] at hnz
  by_contra h0
  exact hnz (if_neg (by rintro rfl; exact h0 ha))

/-- The last step of the implementations: a number plus a multiple of the rest. -/
theorem finish_root (hA : WfAlg A) {ns c ci : MV R} {u k : R} (hn : WfMV A ns) (hc : Sc c u) (hi : Sc ci k) :
    ∃ y, (do lift (c.add A (.mv (← lift (ns.mul A (.mv ci))))) : Except Fail (MV R)) = .ok y ∧ WfMV A y ∧
      val A y = u • 1 + k • val A ns ∧ ∀ b ∈ y.sub.blades, b = 0 ∨ b ∈ ns.sub.blades := by
  obtain ⟨z, z1, z2, z3⟩ := product_gives hA hn (hi.wf (A := A))
  obtain ⟨U, u1, y, y1, y2, y3, y4⟩ := combine_gives hA (hc.wf (A := A)) z2 (1 : R)
  refine ⟨y, ?_, y3, ?_, ?_⟩
  rotate_left 2
  · obtain ⟨V, v1, v2, v3⟩ := union_spec hA (hc.wf (A := A)).sub z2.sub
    cases u1.symm.trans v1
    intro b hb
    rw [y2, v3] at hb
    rcases hb.2 with h | h
    · exact Or.inl (by simpa using hc.sub b h)
    · exact Or.inr (product_sub_scalar hA hn hi z1 b h)
  · have e1 : ns.mul A (.mv ci) = some z := by rw [MV.mul, MV.upcast]; simpa using z1
    have e2 : c.add A (.mv z) = some y := by rw [MV.add, MV.upcast]; simpa using y1
    rw [e1]
    simp only [lift_some, bind, Except.bind, e2]
  · rw [y4, z3, hc.val, hi.val, one_smul, mul_smul_comm, mul_one]

theorem upcast_num (hA : WfAlg A) (c : R) : MV.upcast A (.num c) = some ⟨⟨[0]⟩, [c]⟩ := by
  rw [MV.upcast, (scalar_eq hA).1]
  rfl

theorem Sc.half (hA : WfAlg A) (h2 : (2 : R) ≠ 0) (fuel : Nat) {x : MV R} {c : R} (h : Sc x c) :
    ∃ y, x.truediv A fuel (.num 2) = .ok y ∧ Sc y (c / 2) := by
  refine ⟨_, (C49_scalar hA fuel (h.wf (A := A)) h2).2, ?_⟩
  rcases h with ⟨rfl, rfl⟩ | rfl
  · exact Or.inl ⟨rfl, by simp⟩
  · exact Or.inr rfl

/-- What the implementation for study numbers returns. -/
theorem run_study (hA : WfAlg A) (h2 : (2 : R) ≠ 0) {rt : Roots R} (hr : RootLaw rt) (fuel : Nat) {x : MV R} (hx : WfMV A x)
    (hs : x.sub.isStudy A = some true) :
    ∃ a N, gradePart A R 0 (val A x) = a • (1 : Cl A R) ∧ (val A x - a • 1) * (val A x - a • 1) = (a * a - N) • (1 : Cl A R) ∧
      ((∃ y c s, x.runSqrt A rt (fuel + 1) .study = .ok y ∧ WfMV A y ∧ s * s = N ∧ c * c = (a + s) / 2 ∧
        (s = 0 ∨ rt.sqrt N = some s) ∧ (c = 0 ∨ rt.sqrt ((a + s) / 2) = some c) ∧
        val A y = c • 1 + (if c = 0 then rt.big else (2 * c)⁻¹) • (val A x - a • 1) ∧
        ∀ b ∈ y.sub.blades, b = 0 ∨ b ∈ x.sub.blades) ∨
      x.runSqrt A rt (fuel + 1) .study = .error .nan ∧
        (rt.sqrt N = none ∨ ∃ s, s * s = N ∧ (s = 0 ∨ rt.sqrt N = some s) ∧ rt.sqrt ((a + s) / 2) = none)) := by
  obtain ⟨s0, a, a1, a2, a3⟩ := scalar_part hA hx
  obtain ⟨nq, N, n1, n2, n3⟩ := studyNormSquared_sc hA hx
  obtain ⟨S, ns, S1, m1, m2, m3, m4⟩ := nonscalar_part hA hx a3
  refine ⟨a, N, a3, study_norm hA hx hs a3 n3, ?_⟩
  have e0 : x.runSqrt A rt (fuel + 1) .study = (do
      let c ← (← (← lift (s0.add A (.mv (← nq.sqrt rt)))).truediv A (fuel + 1) (.num 2)).sqrt rt
      let ci ← MV.inverseNan A rt (fuel + 1) (← lift (c.mul A (.num 2)))
      lift (c.add A (.mv (← lift (ns.mul A (.mv ci)))))) := by
    rw [MV.runSqrt]
    simp only [MV.studyNorm, MV.studyNormSquared, require, hs, S1, (scalar_eq hA).1, lift_some, bind, Except.bind, a1, m1, n1]
  rw [e0]
  rcases n2.sqrt hr with ⟨n, s, s1, s2, s3, s4⟩ | ⟨s1, s2⟩
  swap
  · right
    refine ⟨?_, Or.inl s2⟩
    rw [s1]
    rfl
  obtain ⟨t, t1, t2⟩ := a2.add hA s2
  obtain ⟨h, h1, h2'⟩ := t2.half hA h2 (fuel + 1)
  have e1 : (do (← (← lift (s0.add A (.mv (← nq.sqrt rt)))).truediv A (fuel + 1) (.num 2)).sqrt rt : Except Fail (MV R)) = h.sqrt rt := by
    rw [s1]
    simp only [bind, Except.bind, t1, lift_some, h1]
  rcases h2'.sqrt hr with ⟨c, u, u1, u2, u3, u4⟩ | ⟨u1, u2⟩
  swap
  · right
    refine ⟨?_, Or.inr ⟨s, s3, s4, u2⟩⟩
    rw [s1]
    simp only [bind, Except.bind, t1, lift_some, h1, u1]
  left
  obtain ⟨d, d1, d2⟩ := u2.product hA (y := ⟨⟨[0]⟩, [2]⟩) (d := 2) (Or.inr rfl)
  obtain ⟨ci, i1, i2⟩ := d2.inverseNan hA rt fuel
  obtain ⟨y, y1, y2, y3, y4⟩ := finish_root hA m2 u2 i2
  refine ⟨y, u, s, ?_, y2, s3, u3, s4, u4, ?_, fun b hb => (y4 b hb).imp id (m4 b)⟩
  · rw [← y1, s1]
    have e2 : c.mul A (.num 2) = some d := by rw [MV.mul, upcast_num hA]; simpa using d1
    simp only [bind, Except.bind, t1, lift_some, h1, u1, e2, i1]
  · rw [y3, m3]
    simp [h2, mul_comm]

/-- What the implementation for degenerate study numbers returns. -/
theorem run_degenerate (hA : WfAlg A) (h2 : (2 : R) ≠ 0) {rt : Roots R} (hr : RootLaw rt) (fuel : Nat) {x : MV R} (hx : WfMV A x) :
    ∃ a, gradePart A R 0 (val A x) = a • (1 : Cl A R) ∧
      ((∃ y c, x.runSqrt A rt (fuel + 1) .degenerate = .ok y ∧ WfMV A y ∧ c * c = a ∧ (c = 0 ∨ rt.sqrt a = some c) ∧
        val A y = c • 1 + (if c = 0 then rt.big else (2 * c)⁻¹) • (val A x - a • 1) ∧
        ∀ b ∈ y.sub.blades, b = 0 ∨ b ∈ x.sub.blades) ∨
      x.runSqrt A rt (fuel + 1) .degenerate = .error .nan ∧ rt.sqrt a = none) := by
  obtain ⟨s0, a, a1, a2, a3⟩ := scalar_part hA hx
  obtain ⟨S, ns, S1, m1, m2, m3, m4⟩ := nonscalar_part hA hx a3
  refine ⟨a, a3, ?_⟩
  have e0 : x.runSqrt A rt (fuel + 1) .degenerate = (do
      let r ← s0.sqrt rt
      let ci ← MV.inverseNan A rt (fuel + 1) (← lift (r.rmul A (.num 2)))
      lift (r.add A (.mv (← lift (ns.mul A (.mv ci)))))) := by
    rw [MV.runSqrt]
    simp only [S1, (scalar_eq hA).1, lift_some, bind, Except.bind, a1, m1]
  rw [e0]
  rcases a2.sqrt hr with ⟨c, u, u1, u2, u3, u4⟩ | ⟨u1, u2⟩
  swap
  · right
    refine ⟨?_, u2⟩
    rw [u1]; rfl
  left
  obtain ⟨d, d1, d2⟩ := Sc.product hA (x := ⟨⟨[0]⟩, [2]⟩) (c := 2) (Or.inr rfl) u2
  obtain ⟨ci, i1, i2⟩ := d2.inverseNan hA rt fuel
  obtain ⟨y, y1, y2, y3, y4⟩ := finish_root hA m2 u2 i2
  refine ⟨y, u, ?_, y2, u3, u4, ?_, fun b hb => (y4 b hb).imp id (m4 b)⟩
  · rw [← y1, u1]
    have e2 : c.rmul A (.num 2) = some d := by rw [MV.rmul, upcast_num hA]; simpa using d1
    simp only [bind, Except.bind, lift_some, e2, i1]
  · rw [y3, m3]
    simp [h2]

/-! ### which implementation runs -/

theorem insideScalar_eq (hA : WfAlg A) (S : SubSpace) : ∃ r, insideScalar A S = some r ∧ (r = true ↔ SubOf S ⟨[0]⟩) := by
  refine ⟨_, by rw [insideScalar, (scalar_eq hA).1]; rfl, ?_⟩
  rw [contains_iff]

theorem isDegenerateStudy_eq (hA : WfAlg A) {S : SubSpace} (hS : WfSub A S) :
    ∃ r, isDegenerateStudy A S = some r ∧ (r = true ↔ S.isStudy A = some true ∧ ∀ b ∈ S.blades, b ≠ 0 → NullBlade A b) := by
  obtain ⟨r, r1, _⟩ := C39_study hA hS
  rw [isDegenerateStudy, r1]
  cases r with
  | false => exact ⟨false, rfl, by simp⟩
  | true =>
    obtain ⟨T, s1, s2, s3⟩ := (C14_named hA).2.2.2.2.2.2.2.2.2.1
    obtain ⟨U, u1, u2, u3⟩ := intersection_spec hA hS (T := T)
    obtain ⟨d, d1, d2⟩ := (C61_predicates hA u2).1
    refine ⟨d, ?_, ?_⟩
    · simp only [Option.bind_eq_bind, Option.bind_some, if_true, s1, SubSpace.restrictSubspace, u1, d1]
    · rw [d2]
      constructor
      · exact fun h => ⟨rfl, fun b hb h0 => h b ((u3 b).2 ⟨hS.lt b hb, hb, (s3 b).2 ⟨hS.lt b hb, h0⟩⟩)⟩
      · rintro ⟨_, h⟩ b hb
        obtain ⟨_, hb', hb''⟩ := (u3 b).1 hb
        exact h b hb' ((s3 b).1 hb'').2

/-- Which implementation of `square_root` runs. -/
theorem sqrt_dispatch (hA : WfAlg A) {S : SubSpace} (hS : WfSub A S) :
    SubOf S ⟨[0]⟩ ∧ Dispatch.matchLoop S (sqrtOptions A) = some .scalar ∨
    ¬ SubOf S ⟨[0]⟩ ∧ S.isStudy A = some true ∧ (∀ b ∈ S.blades, b ≠ 0 → NullBlade A b) ∧
      Dispatch.matchLoop S (sqrtOptions A) = some .degenerate ∨
    ¬ SubOf S ⟨[0]⟩ ∧ S.isStudy A = some true ∧ ¬ (∀ b ∈ S.blades, b ≠ 0 → NullBlade A b) ∧
      Dispatch.matchLoop S (sqrtOptions A) = some .study ∨
    ¬ SubOf S ⟨[0]⟩ ∧ S.isStudy A = some false ∧ Dispatch.matchLoop S (sqrtOptions A) = none := by
  obtain ⟨r, r1, r2⟩ := insideScalar_eq hA S
  obtain ⟨d, d1, d2⟩ := isDegenerateStudy_eq hA hS
  obtain ⟨s, s1, _⟩ := C39_study hA hS
  simp only [sqrtOptions, Dispatch.matchLoop, r1, d1, s1]
  cases r with
  | true => exact Or.inl ⟨r2.1 rfl, rfl⟩
  | false =>
    right
    have h0 : ¬ SubOf S ⟨[0]⟩ := fun h => absurd (r2.2 h) (by simp)
    cases d with
    | true => exact Or.inl ⟨h0, by rw [← s1]; exact (d2.1 rfl).1, (d2.1 rfl).2, rfl⟩
    | false =>
      right
      cases s with
      | true => exact Or.inl ⟨h0, rfl, fun h => absurd (d2.2 ⟨s1, h⟩) (by simp), rfl⟩
      | false => exact Or.inr ⟨h0, rfl, rfl⟩

theorem study_of_scalar (hA : WfAlg A) {S : SubSpace} (hS : WfSub A S) (h : SubOf S ⟨[0]⟩) : S.isStudy A = some true := by
  obtain ⟨r, r1, _, r3⟩ := C39_study hA hS
  rw [r1, r3]
  intro x hx hs
  have : IsScalar (val A x) := (within_scalar hA).1 (hx.within.mono hx.sub wf_scalar (by rw [hs]; exact h))
  obtain ⟨c, hc⟩ := this
  rw [hc, gradePart_zero_scalar hA]
  exact ⟨c * c, by rw [two_smul, add_sub_cancel_right, smul_mul_smul_comm, one_mul]⟩

/-- A blade with a null vector squares to zero; so does a number that is made of such blades alone. -/
theorem null_square (hA : WfAlg A) {x : Cl A R} {q : R} (h : x * x = q • (1 : Cl A R)) (hx : ∀ b < 2 ^ A.n, coef A R b x ≠ 0 → NullBlade A b) : q = 0 := by
  classical
  have hp : proj A R (NullBlade A) x = x := by
    apply ext_coef
    intro b hb
    rw [coef_proj]
    split_ifs with h
    · rfl
    · by_contra h'
      exact h (hx b hb (Ne.symm h'))
  have key : ((LinearMap.mul R (Cl A R)).compl₁₂ (proj A R (NullBlade A)) (proj A R (NullBlade A))).compr₂ (coef A R 0) = 0 := by
    apply lin_ext₂
    intro a ha b hb
    simp only [LinearMap.compr₂_apply, LinearMap.compl₁₂_apply, LinearMap.mul_apply', LinearMap.zero_apply]
    rw [proj_blade _ ha, proj_blade _ hb]
    split_ifs with h1 h2
    · rw [blade_mul hA, map_smul, coef_blade _ _ (xor_lt ha hb)]
      split_ifs with h3
      · obtain rfl : a = b := by simpa [← Nat.xor_assoc] using congrArg (a ^^^ ·) h3
        have : sgn A a a = 0 := by
          by_contra h4
          rw [← ne_eq, sgn_ne_zero hA ha] at h4
          obtain ⟨i, i1, i2, i3⟩ := h1
          exact h4 ⟨i, i1, i2, i2, i3⟩
        simp [this]
      · simp
    all_goals simp
  have := congrArg (fun f => f x x) key
  simp only [LinearMap.compr₂_apply, LinearMap.compl₁₂_apply, LinearMap.mul_apply', LinearMap.zero_apply, hp, h] at this
  rw [← blade_zero, map_smul, coef_blade _ _ (by simp)] at this
  simpa using this

theorem mv_coef {x : MV R} (hx : WfMV A x) {b : Nat} (hb : b < 2 ^ A.n) (h : coef A R b (val A x) ≠ 0) : b ∈ x.sub.blades := by
  by_contra h'
  exact h ((within_iff hx.sub).1 hx.within b hb h')

theorem null_rest (hA : WfAlg A) {x : MV R} (hx : WfMV A x) (hs : x.sub.isStudy A = some true)
    (hd : ∀ b ∈ x.sub.blades, b ≠ 0 → NullBlade A b) {a : R} (ha : gradePart A R 0 (val A x) = a • (1 : Cl A R)) :
    (val A x - a • 1) * (val A x - a • 1) = (0 : Cl A R) := by
  obtain ⟨_, N, _, _, n3⟩ := studyNormSquared_sc hA hx
  have e := study_norm hA hx hs ha n3
  rw [e, null_square hA e, zero_smul]
  intro b hb h
  have hb0 : b ≠ 0 := by
    rintro rfl
    apply h
    rw [← ha, gradePart_eq_proj, map_sub, coef_proj, if_pos ((popcount_eq_zero hA.le32 hb).2 rfl), sub_self]
  refine hd b (mv_coef hx hb ?_) hb0
  rw [map_sub, ← ha, gradePart_eq_proj, coef_proj, if_neg (fun h => hb0 ((popcount_eq_zero hA.le32 hb).1 h)), sub_zero] at h
  exact h

/-- The square of `c + n / (2 c)`. -/
theorem root_square (h2 : (2 : R) ≠ 0) {x n : Cl A R} {a s c q : R} (hx : x = a • 1 + n) (hn : n * n = q • (1 : Cl A R)) (hq : q = a * a - s * s)
    (hc : c * c = (a + s) / 2) (h0 : c ≠ 0) : (c • 1 + (2 * c)⁻¹ • n) * (c • 1 + (2 * c)⁻¹ • n) = x := by
  have e : (c • 1 + (2 * c)⁻¹ • n) * (c • 1 + (2 * c)⁻¹ • n) =
      (c * c + (2 * c)⁻¹ * (2 * c)⁻¹ * q) • (1 : Cl A R) + (c * (2 * c)⁻¹ + c * (2 * c)⁻¹) • n := by
    simp only [mul_add, add_mul, mul_smul_comm, smul_mul_assoc, mul_one, one_mul, smul_smul, hn]
    module
  rw [e, hx, hq]
  congr 2
  · have h1 : (2 * c)⁻¹ * (2 * c)⁻¹ = (2 * (a + s))⁻¹ := by
      rw [← mul_inv]
      congr 1
      rw [show 2 * c * (2 * c) = 4 * (c * c) by ring, hc]
      field_simp
      ring
    have h3 : a + s ≠ 0 := by
      intro h
      rw [h, zero_div, mul_self_eq_zero] at hc
      exact h0 hc
    rw [h1, hc]
    field_simp
    ring
  · rw [show c * (2 * c)⁻¹ + c * (2 * c)⁻¹ = 1 by field_simp; norm_num, one_smul]

/-- Every result of `square_root`: it squares to the argument, or it squares to zero in the degenerate case. -/
theorem squareRoot_spec' (hA : WfAlg A) (h2 : (2 : R) ≠ 0) {rt : Roots R} (hr : RootLaw rt) (fuel : Nat) {x y : MV R} (hx : WfMV A x)
    (h : x.squareRoot A rt (fuel + 1) = .ok y) :
    WfMV A y ∧ (∀ b ∈ y.sub.blades, b = 0 ∨ b ∈ x.sub.blades) ∧ ∃ a c k : R, gradePart A R 0 (val A x) = a • (1 : Cl A R) ∧ val A y = c • 1 + k • (val A x - a • 1) ∧
      (c ≠ 0 → val A y * val A y = val A x) ∧ (c = 0 → val A y * val A y = 0) ∧ (c = 0 ∨ ∃ t, rt.sqrt t = some c) := by
  rw [MV.squareRoot] at h
  rcases sqrt_dispatch hA hx.sub with ⟨hs, hm⟩ | ⟨_, hs, hd, hm⟩ | ⟨_, hs, hd, hm⟩ | ⟨_, _, hm⟩ <;> rw [hm] at h <;> simp only at h
  · obtain ⟨a, a1, a2⟩ := Sc.of' hx hs
    rcases a1.sqrt hr with ⟨z, d, d1, d2, d3, d4⟩ | ⟨d1, _⟩
    · rw [MV.runSqrt, d1] at h
      cases h
      refine ⟨d2.wf, fun b hb => Or.inl (by simpa using d2.sub b hb), a, d, 0, by rw [a2, gradePart_zero_scalar hA], by rw [d2.val, zero_smul, add_zero], fun _ => ?_, fun h0 => ?_, d4.imp id fun h => ⟨_, h⟩⟩
      · rw [d2.val, a2, smul_mul_smul_comm, one_mul, d3]
      · rw [d2.val, h0, zero_smul, zero_mul]
    · rw [MV.runSqrt, d1] at h
      cases h
  · obtain ⟨a, a1, ⟨z, c, z1, z2, z3, z6, z4, z5⟩ | ⟨e, _⟩⟩ := run_degenerate hA h2 hr fuel hx
    swap
    · rw [e] at h; cases h
    rw [z1] at h
    cases h
    have hn := null_rest hA hx hs hd a1
    refine ⟨z2, z5, a, c, _, a1, z4, fun h0 => ?_, fun h0 => ?_, z6.imp id fun h => ⟨_, h⟩⟩
    · rw [z4, if_neg h0]
      refine root_square h2 (a := a) (s := a) (q := 0) (by abel) (by rw [hn, zero_smul]) (by ring) (by rw [z3]; field_simp; ring) h0
    · rw [z4, if_pos h0, h0, zero_smul, zero_add, smul_mul_smul_comm, hn, smul_zero]
  · obtain ⟨a, N, a1, hn, ⟨z, c, s, z1, z2, s1, c1, _, z6, z4, z5⟩ | ⟨e, _⟩⟩ := run_study hA h2 hr fuel hx hs
    swap
    · rw [e] at h; cases h
    rw [z1] at h
    cases h
    refine ⟨z2, z5, a, c, _, a1, z4, fun h0 => ?_, fun h0 => ?_, z6.imp id fun h => ⟨_, h⟩⟩
    · rw [z4, if_neg h0]
      exact root_square h2 (a := a) (s := s) (by abel) hn (by rw [s1]) c1 h0
    · rw [z4, if_pos h0, h0, zero_smul, zero_add, smul_mul_smul_comm, hn]
      have : a * a - N = 0 := by
        rw [h0, mul_zero, eq_comm, div_eq_zero_iff] at c1
        have : a = - s := eq_neg_of_add_eq_zero_left (c1.resolve_right h2)
        rw [← s1, this]; ring
      rw [this, zero_smul, smul_zero]
  · cases h

theorem squareRoot_spec (hA : WfAlg A) (h2 : (2 : R) ≠ 0) {rt : Roots R} (hr : RootLaw rt) (fuel : Nat) {x y : MV R} (hx : WfMV A x)
    (h : x.squareRoot A rt (fuel + 1) = .ok y) :
    WfMV A y ∧ (∀ b ∈ y.sub.blades, b = 0 ∨ b ∈ x.sub.blades) ∧ ∃ a c k : R, gradePart A R 0 (val A x) = a • (1 : Cl A R) ∧ val A y = c • 1 + k • (val A x - a • 1) ∧
      (c ≠ 0 → val A y * val A y = val A x) ∧ (c = 0 → val A y * val A y = 0) := by
  obtain ⟨h1, h2, a, c, k, h3, h4, h5, h6, -⟩ := squareRoot_spec' hA h2 hr fuel hx h
  exact ⟨h1, h2, a, c, k, h3, h4, h5, h6⟩

/-! ### inverses of study numbers -/

theorem nsimple_study (hA : WfAlg A) {S : SubSpace} (hS : WfSub A S) (h : S.isStudy A = some true) : SubSpace.isNSimple A 1 S = some true := by
  obtain ⟨T, t1, t2⟩ := bind_true h
  exact nsimple_of hA (f := SubSpace.symmetricScalarNegation A) (by simp [SubSpace.selfProducts]) hS t1 t2

theorem inverse_works1 (hA : WfAlg A) (fuel : Nat) {x : MV R} (hx : WfMV A x) (hs : SubSpace.isNSimple A 1 x.sub = some true) :
    Works A (val A x) (MV.inverse A (fuel + 2) x) := by
  by_cases he : x.sub = ⟨[]⟩
  · exact Or.inr (inverse_empty hA _ he)
  by_cases h0 : x.sub = ⟨[0]⟩
  · exact inverse_scalar hA _ hx h0
  have hne : x.vals ≠ [] := by
    intro h
    have := hx.len
    rw [h] at this
    apply he
    obtain ⟨⟨bs⟩, v⟩ := x
    rw [List.length_nil, eq_comm, List.length_eq_zero_iff] at this
    simpa using this
  obtain ⟨⟨c, r⟩, o1, o2, o3⟩ := dispatch_cases hA hx.sub (j := 0) (by omega) (Or.inr rfl) hs
  have hred : MV.inverse A (fuel + 2) x = MV.runInverse A (MV.inverse A (fuel + 1)) x r := by rw [MV.inverse, o2]
  rw [hred]
  rcases o3 with o3 | ⟨i, i1, o3⟩ | ⟨i1, _⟩
  · exact absurd o3 (not_options0 hA he h0 o1)
  · obtain rfl : i = 0 := by omega
    refine simplify_works hA o3 hx hne o1 fun p hp hps hn => ?_
    rcases nsimple_zero hA hp.sub hps with h | h
    · exact Or.inr (inverse_empty hA _ h)
    · exact absurd h hn
  · omega

/-- Adding the scalar, or leaving out blades, keeps a subspace of study numbers. -/
theorem study_mono (hA : WfAlg A) {S T : SubSpace} (hS : WfSub A S) (hT : WfSub A T) (h : S.isStudy A = some true)
    (hs : ∀ b ∈ T.blades, b = 0 ∨ b ∈ S.blades) : T.isStudy A = some true := by
  obtain ⟨r, r1, r2, _⟩ := C39_study hA hS
  rw [h, Option.some_inj] at r1
  obtain ⟨t, t1, _, t3⟩ := C39_study hA hT
  rw [t1, t3]
  intro x hx hxs
  have hw := (within_iff hT).1 (hxs ▸ hx.within)
  have hg : ∀ b < 2 ^ A.n, coef A ℤ b (gradePart A ℤ 0 (val A x)) = if b = 0 then coef A ℤ b (val A x) else 0 := by
    intro b hb
    rw [gradePart_eq_proj, coef_proj]
    simp only [popcount_eq_zero hA.le32 hb]
  obtain ⟨a, ha⟩ : IsScalar (gradePart A ℤ 0 (val A x)) := by
    rw [← within_scalar hA, within_iff wf_scalar]
    intro b hb hb0
    rw [hg b hb, if_neg (by simpa using hb0)]
  obtain ⟨z, z1, z2, z3⟩ : Within A S (val A x - gradePart A ℤ 0 (val A x)) := by
    rw [within_iff hS]
    intro b hb hbS
    rw [map_sub, hg b hb]
    split_ifs with h0
    · exact sub_self _
    · rw [sub_zero, hw b hb fun hbT => (hs b hbT).elim h0 hbS]
  obtain ⟨c, hc⟩ := r2 r1.symm ℤ z z1 z2
  have hz : gradePart A ℤ 0 (val A z) = 0 := by
    apply ext_coef
    intro b hb
    rw [gradePart_eq_proj, coef_proj, z3, map_sub, hg b hb, map_zero]
    simp only [popcount_eq_zero hA.le32 hb]
    split_ifs with h0
    · rw [sub_self]
    · rfl
  rw [hz, smul_zero, zero_sub, z3, ha] at hc
  refine ⟨a * a + c, ?_⟩
  rw [ha, add_smul, ← hc]
  simp only [mul_sub, sub_mul, mul_smul_comm, smul_mul_assoc, mul_one, one_mul, smul_smul, mul_neg]
  module

/-! ### normalisation -/

theorem symmetricReverse_in (hA : WfAlg A) {x : MV R} (hx : WfMV A x) {T : SubSpace} (h : x.sub.symmetricReverse A = some T) :
    GivesIn A (x.symmetricReverse A) T (val A x * CliffordAlgebra.reverse (val A x)) := self_givesIn (C38_values hA hx).2.1 h

theorem not_unit_of_square (A : Alg) {q i : Cl A R} (h1 : q * i = 1) (h : q * q = 0) : False := by
  have : q * (q * i) * i = 0 := by rw [← mul_assoc, h, zero_mul, zero_mul]
  rw [h1, mul_one, h1] at this
  exact one_ne_zero' A R this

/-- Every result of `normalized` is the argument divided by a root of its norm squared. -/
theorem normalized_spec' (hA : WfAlg A) (h2 : (2 : R) ≠ 0) {rt : Roots R} (hr : RootLaw rt) (fuel : Nat) {x y : MV R} (hx : WfMV A x)
    (h : x.normalized A rt (fuel + 2) = .ok y) :
    WfMV A y ∧ ∃ (q i : Cl A R) (u v : R), q * i = 1 ∧ i * q = 1 ∧ q = u • 1 + v • (val A x * CliffordAlgebra.reverse (val A x)) ∧
      q * q = val A x * CliffordAlgebra.reverse (val A x) ∧ val A y = i * val A x ∧
      ∃ c t, rt.sqrt t = some c ∧ gradePart A R 0 q = c • (1 : Cl A R) := by
  obtain ⟨T, t1, t2, _⟩ := symmetricReverse_self hA x.sub hx.sub
  obtain ⟨z, z1, z2, z3, z4⟩ := symmetricReverse_in hA hx t1
  have e0 : equalsEmpty A T = some (T == ⟨[]⟩) := by rw [equalsEmpty, empty_eq hA]; rfl
  have e1 : equalsScalar A T = some (T == ⟨[0]⟩) := by rw [equalsScalar, (scalar_eq hA).1]; rfl
  have fin : ∀ {s : MV R}, WfMV A s → lift (s.mul A (.mv x)) = .ok y → WfMV A y ∧ val A y = val A s * val A x := by
    intro s hs h
    obtain ⟨w, w1, w2, w3⟩ := product_gives hA hs hx
    have : s.mul A (.mv x) = some w := by rw [MV.mul, MV.upcast]; simpa using w1
    rw [this] at h
    cases h
    exact ⟨w2, w3⟩
  rw [MV.normalized] at h
  simp only [normOptions, Dispatch.matchLoop, t1, Option.bind_eq_bind, Option.bind_some, e0, e1] at h
  cases c0 : T == ⟨[]⟩ with
  | true => rw [c0] at h; cases h
  | false =>
  cases c1 : T == ⟨[0]⟩ with
  | true =>
    rw [c0, c1] at h
    simp only [z1, lift_some, bind, Except.bind] at h
    obtain ⟨c, c2, c3⟩ := val_scalar z3 (z2.trans (beq_iff_eq.1 c1))
    rw [MV.inverseSquareRoot, (scalar_eq hA).1] at h
    simp only [lift_some, bind, Except.bind] at h
    rw [if_pos (z2.trans (beq_iff_eq.1 c1)), c2] at h
    simp only [List.mapM_cons, List.mapM_nil, bind, Except.bind, pure, Except.pure, MV.invSqrtVal] at h
    by_cases hc : c = 0
    · rw [if_pos hc] at h; cases h
    rw [if_neg hc] at h
    cases hq : rt.sqrt c with
    | none => rw [hq] at h; cases h
    | some r =>
      rw [hq] at h
      have hr2 := hr _ _ hq
      have hr0 : r ≠ 0 := by rintro rfl; exact hc (by rw [← hr2, mul_zero])
      have e : z.copy [1 / r] = some ⟨⟨[0]⟩, [1 / r]⟩ := by
        rw [MV.copy, MV.construct, z2, beq_iff_eq.1 c1, if_pos (by simp)]
      simp only [e, lift_some] at h
      obtain ⟨f1, f2⟩ := fin (s := ⟨⟨[0]⟩, [1 / r]⟩) ⟨wf_scalar, rfl⟩ h
      refine ⟨f1, r • 1, r⁻¹ • 1, r, 0, ?_, ?_, by rw [zero_smul, add_zero], ?_, ?_, ?_⟩
      · rw [smul_mul_smul_comm, one_mul, mul_inv_cancel₀ hr0, one_smul]
      · rw [smul_mul_smul_comm, one_mul, inv_mul_cancel₀ hr0, one_smul]
      · rw [smul_mul_smul_comm, one_mul, hr2, ← c3, z4]
      · rw [f2]; simp [val, denote, blade_zero]
      · exact ⟨r, c, hq, gradePart_zero_scalar hA r⟩
  | false =>
    rw [c0, c1] at h
    simp only at h
    obtain ⟨st, st1, _⟩ := C39_study hA t2
    rw [st1] at h
    cases st with
    | false => cases h
    | true =>
      simp only [z1, lift_some, bind, Except.bind] at h
      cases hq : z.squareRoot A rt (fuel + 2) with
      | error e => rw [hq] at h; cases h
      | ok q =>
        rw [hq] at h
        simp only at h
        obtain ⟨q1, q2, a, c, k, q3, q4, q5, q6, q7⟩ := squareRoot_spec' hA h2 hr (fuel + 1) z3 hq
        have hst := study_mono hA t2 q1.sub st1 (z2 ▸ q2)
        rcases inverse_works1 hA fuel q1 (nsimple_study hA q1.sub hst) with ⟨i, i1, i2, i3⟩ | hd
        swap
        · rw [hd] at h; cases h
        rw [i1] at h
        simp only at h
        obtain ⟨f1, f2⟩ := fin i2 h
        refine ⟨f1, val A q, val A i, c - k * a, k, i3, mul_eq_one_comm.1 i3, ?_, ?_, f2, ?_⟩
        · rw [q4, ← z4, smul_sub, smul_smul, sub_smul]; abel
        · rw [← z4]
          apply q5
          intro hc
          exact not_unit_of_square A i3 (q6 hc)
        · rcases q7 with h0 | ⟨t, ht⟩
          · exact absurd (q6 h0) fun h => not_unit_of_square A i3 h
          · exact ⟨c, t, ht, by rw [q4, map_add, gradePart_zero_scalar hA, map_smul, map_sub, q3, gradePart_zero_scalar hA, sub_self, smul_zero, add_zero]⟩

theorem normalized_spec (hA : WfAlg A) (h2 : (2 : R) ≠ 0) {rt : Roots R} (hr : RootLaw rt) (fuel : Nat) {x y : MV R} (hx : WfMV A x)
    (h : x.normalized A rt (fuel + 2) = .ok y) :
    WfMV A y ∧ ∃ (q i : Cl A R) (u v : R), q * i = 1 ∧ i * q = 1 ∧ q = u • 1 + v • (val A x * CliffordAlgebra.reverse (val A x)) ∧
      q * q = val A x * CliffordAlgebra.reverse (val A x) ∧ val A y = i * val A x := by
  obtain ⟨h1, q, i, u, v, q1, q2, q3, q4, q5, -⟩ := normalized_spec' hA h2 hr fuel hx h
  exact ⟨h1, q, i, u, v, q1, q2, q3, q4, q5⟩

end Verif
