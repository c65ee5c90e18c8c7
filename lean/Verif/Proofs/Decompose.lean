import Verif.Model.Decompose
import Verif.Props.LogExp
import Verif.Props.Products2
import Verif.Proofs.Slice
/-! # Lemmas about the invariant decomposition -/
namespace Verif
open Model Spec Model.Factory Props

variable {A : Alg} {R : Type} [Field R] [DecidableEq R]

/-- Division by a number that is stored as a multivector. -/
theorem Sc.div (hA : WfAlg A) (fuel : Nat) {x y : MV R} {c : R} (hx : WfMV A x) (hy : Sc y c) :
    (c ≠ 0 → ∃ z, x.truediv A fuel (.mv y) = .ok z ∧ WfMV A z ∧ z.sub = x.sub ∧ Spec.val A z = c⁻¹ • Spec.val A x) ∧
    (c = 0 → x.sub.blades ≠ [] → x.truediv A (fuel + 1) (.mv y) = .error .divZero) := by
  constructor
  · intro h0
    rcases hy with ⟨_, h⟩ | rfl
    · exact absurd h h0
    · exact ⟨_, (C49_scalar hA fuel hx h0).1, ⟨hx.sub, by simp [hx.len]⟩, rfl, denote_div _ _⟩
  · rintro rfl hne
    rcases hy with ⟨rfl, _⟩ | rfl
    · simp only [MV.truediv, MV.upcast, lift_some, bind, Except.bind, MV.divideWith, (scalar_eq hA).1]
      rw [if_neg (by simp)]
      rw [inverse_empty hA fuel rfl]
    · have hv : x.vals ≠ [] := fun h => hne (List.eq_nil_of_length_eq_zero (by rw [← hx.len, h]; rfl))
      simp only [MV.truediv, MV.upcast, lift_some, bind, Except.bind, MV.divideWith, (scalar_eq hA).1, if_true, MV.divValues]
      rw [if_pos ⟨trivial, hv⟩]

/-- What the second implementation of `decompose_invariant` returns. -/
theorem bisimple_spec (hA : WfAlg A) (hn : 2 ≤ A.n) (h2 : (2 : R) ≠ 0) {rt : Roots R} (hr : RootLaw rt) (fuel : Nat) {b : MV R} (hb : WfMV A b)
    {T : SubSpace} (hT : b.sub.squared A = some T) (hs : T.isStudy A = some true) :
    ∃ a N, gradePart A R 0 (val A b * val A b) = a • (1 : Cl A R) ∧
      (val A b * val A b - a • 1) * (val A b * val A b - a • 1) = (a * a - N) • (1 : Cl A R) ∧
      ((∃ s l r, s ≠ 0 ∧ s * s = N ∧ rt.sqrt N = some s ∧ b.decomposeBisimple A rt (fuel + 1) = .ok (l, r) ∧ WfMV A l ∧ WfMV A r ∧
          Homogeneous 2 l ∧ Homogeneous 2 r ∧
          val A l = gradePart A R 2 (((2 * s)⁻¹ • ((2 * a) • 1 - val A b * val A b) + (1 / 2 : R) • 1) * val A b) ∧
          val A r = gradePart A R 2 (((1 / 2 : R) • 1 - (2 * s)⁻¹ • ((2 * a) • 1 - val A b * val A b)) * val A b)) ∨
        N = 0 ∧ (T.blades ≠ [] → b.decomposeBisimple A rt (fuel + 1) = .error .divZero) ∨
        rt.sqrt N = none ∧ b.decomposeBisimple A rt (fuel + 1) = .error .nan) := by
  obtain ⟨b2, q1, q2, q3, q4⟩ := self_givesIn (C38_values hA hb).1 hT
  subst q2
  obtain ⟨s0, a, a1, a2, a3⟩ := scalar_part hA q3
  obtain ⟨nq, N, n1, n2, n3⟩ := studyNormSquared_sc hA q3
  obtain ⟨cj, c1, c2, c3⟩ := un_gives (scalarNegation_un hA) q3
  have hcs : cj.sub.blades = [] → b2.sub.blades = [] := by
    intro h
    have hv : val A cj = 0 := by
      obtain ⟨⟨S⟩, v⟩ := cj
      simp only at h
      subst h
      simp [Spec.val, denote]
    obtain ⟨_, ⟨z, z1, z2, z3⟩, _⟩ := C64_negations hA (x := (⟨b2.sub, b2.sub.blades.map fun _ => (1 : R)⟩ : MV R)) ⟨q3.sub, by simp⟩
    have hz : z.sub = cj.sub := by
      have e1 : Factory.studyConjugate A b2.sub = scalarNegation A (.sub b2.sub) := studyConjugate_eq _
      rw [MV.studyConjugate, e1] at z1
      rcases ho : scalarNegation A (.sub b2.sub) with _ | op
      · rw [ho] at z1; cases z1
      · rw [ho] at z1 c1
        rw [call_sub z1, call_sub c1]
    by_contra hne
    obtain ⟨e, he⟩ := List.exists_mem_of_ne_nil _ hne
    have := z3 e
    rw [coeff_notMem (by rw [hz, h]; simp)] at this
    have h1 : coeff (⟨b2.sub, b2.sub.blades.map fun _ => (1 : R)⟩ : MV R) e = 1 := by
      rw [coeff_idxOf (A := A) (x := ⟨b2.sub, b2.sub.blades.map fun _ => (1 : R)⟩) ⟨q3.sub, by simp⟩ he]
      simp [List.getD_eq_getElem?_getD, List.getElem?_map, List.idxOf_lt_length_iff.2 he]
    rw [h1] at this
    split_ifs at this <;> simp at this
  refine ⟨a, N, by rw [← q4]; exact a3, by rw [← q4]; exact study_norm hA q3 hs a3 n3, ?_⟩
  have e0 : b.decomposeBisimple A rt (fuel + 1) = (do
      let s ← cj.truediv A (fuel + 1) (.mv (← lift ((← nq.sqrt rt).mul A (.num 2))))
      let l ← lift ((← lift (s.add A (.num (1 / 2)))).bivectorProduct A b)
      let r ← lift ((← lift (s.rsub A (.num (1 / 2)))).bivectorProduct A b)
      .ok (l, r)) := by
    rw [MV.decomposeBisimple]
    have e1 : b2.studyConjugate A = some cj := c1
    have e2 : b.squared A = some b2 := q1
    simp only [MV.studyNorm, MV.studyNormSquared, require, hs, lift_some, bind, Except.bind, e1, e2, n1]
  rw [e0]
  rcases n2.sqrt hr with ⟨n, s, s1, s2, s3, s4⟩ | ⟨s1, s2⟩
  swap
  · right; right
    exact ⟨s2, by rw [s1]; rfl⟩
  obtain ⟨d, d1, d2⟩ := s2.product hA (y := ⟨⟨[0]⟩, [2]⟩) (d := 2) (Or.inr rfl)
  have e2 : n.mul A (.num 2) = some d := by rw [MV.mul, upcast_num hA]; simpa using d1
  rw [s1]
  simp only [bind, Except.bind, e2, lift_some]
  by_cases h0 : s = 0
  · right; left
    refine ⟨by rw [← s3, h0, zero_mul], fun hne => ?_⟩
    rw [(d2.div hA fuel c2).2 (by rw [h0, zero_mul]) fun h => hne (hcs h)]
  · left
    obtain ⟨q, t1, t2, t3, t4⟩ := (d2.div hA (fuel + 1) c2).1 (mul_ne_zero h0 h2)
    obtain ⟨u, u1, u2, u3⟩ := (C44_numbers hA t2 (1 / 2)).1
    obtain ⟨w, w1, w2, w3⟩ := (C44_numbers hA t2 (1 / 2)).2.2.1
    obtain ⟨l, l1, l2, l3⟩ := (C30_graded hA u2 hb).2.2.2.2.2 hn
    obtain ⟨r, r1, r2, r3⟩ := (C30_graded hA w2 hb).2.2.2.2.2 hn
    have ev : val A q = (2 * s)⁻¹ • ((2 * a) • (1 : Cl A R) - val A b * val A b) := by
      rw [t4, c3, a3, q4, mul_comm s, two_nsmul, ← add_smul, two_mul a]
    refine ⟨s, l, r, h0, s3, s4.resolve_left h0, ?_, l2, r2, bivectorProduct_sub hA hn u2 hb l1, bivectorProduct_sub hA hn w2 hb r1, ?_, ?_⟩
    · simp only [t1, u1, w1, l1, r1, lift_some]
    · rw [l3, u3, ev, Algebra.algebraMap_eq_smul_one]
    · rw [r3, w3, ev, Algebra.algebraMap_eq_smul_one]

omit [DecidableEq R] in
/-- The algebra behind the invariant decomposition. -/
theorem split_identities {M : Type} [Ring M] [Algebra R M] (h2 : (2 : R) ≠ 0) {b : M} {a N s : R} (h0 : s ≠ 0) (hs : s * s = N)
    (hQ : (b * b - a • 1) * (b * b - a • 1) = (a * a - N) • (1 : M)) :
    let S := (2 * s)⁻¹ • ((2 * a) • (1 : M) - b * b)
    let l := (S + (1 / 2 : R) • 1) * b
    let r := ((1 / 2 : R) • 1 - S) * b
    l * l = ((a + s) / 2) • (1 : M) ∧ r * r = ((a - s) / 2) • (1 : M) ∧
      l * r = (1 / 2 : R) • (b * b - a • 1) ∧ r * l = (1 / 2 : R) • (b * b - a • 1) := by
  intro S l r
  have el : l = S * b + (1 / 2 : R) • b := by simp only [l, add_mul, smul_mul_assoc, one_mul]
  have er : r = (1 / 2 : R) • b - S * b := by simp only [r, sub_mul, smul_mul_assoc, one_mul]
  clear_value l r
  have hq : (b * b) * (b * b) = (2 * a) • (b * b) - N • (1 : M) := by
    have : (b * b) * (b * b) = (b * b - a • 1) * (b * b - a • 1) + (2 * a) • (b * b) - (a * a) • (1 : M) := by
      simp only [mul_sub, sub_mul, mul_smul_comm, smul_mul_assoc, mul_one, one_mul]
      module
    rw [this, hQ]
    module
  have hc : Commute S b := by
    refine Commute.smul_left ?_ _
    refine Commute.sub_left (Commute.smul_left (Commute.one_left _) _) ?_
    exact (Commute.refl b).mul_left (Commute.refl b)
  have h2s : (2 * s) ≠ 0 := mul_ne_zero h2 h0
  have hSP : S * (b * b) = (s / 2) • (1 : M) := by
    have e : S * (b * b) = (2 * s)⁻¹ • (N • (1 : M)) := by
      rw [smul_mul_assoc, sub_mul, hq, smul_mul_assoc, one_mul]
      module
    rw [e, smul_smul, ← hs]
    congr 1
    field_simp
  have hSS : (S * b) * (S * b) = (1 / 4 : R) • ((2 * a) • (1 : M) - b * b) := by
    have e : (S * b) * (S * b) = S * (S * (b * b)) := by
      rw [mul_assoc S b, ← mul_assoc b S b, ← hc.eq, mul_assoc S b b, ]
    rw [e, hSP, mul_smul_comm, mul_one, smul_smul]
    congr 1
    have : (4 : R) ≠ 0 := by rw [show (4 : R) = 2 * 2 by norm_num]; exact mul_ne_zero h2 h2
    field_simp
    norm_num
  have hbS : b * (S * b) = (s / 2) • (1 : M) := by rw [← hSP, ← mul_assoc, ← hc.eq, mul_assoc]
  have hSb : (S * b) * b = (s / 2) • (1 : M) := by rw [mul_assoc, hSP]
  clear_value S
  have h4 : (1 / 4 : R) = (1 / 2) * (1 / 2) := by
    have : (4 : R) = 2 * 2 := by norm_num
    rw [this]; field_simp
  have hh : (1 / 2 : R) + 1 / 2 = 1 := by field_simp; norm_num
  refine ⟨?_, ?_, ?_, ?_⟩
  · rw [el, add_mul, mul_add, mul_add, hSS, smul_mul_smul_comm, mul_smul_comm, smul_mul_assoc, hSb, hbS, h4]
    match_scalars
    · field_simp; ring
    · ring
  · rw [er, sub_mul, mul_sub, mul_sub, hSS, smul_mul_smul_comm, mul_smul_comm, smul_mul_assoc, hSb, hbS, h4]
    match_scalars
    · ring
    · field_simp; ring
  · rw [el, er, add_mul, mul_sub, mul_sub, hSS, smul_mul_smul_comm, mul_smul_comm, smul_mul_assoc, hSb, hbS, h4]
    match_scalars
    · field_simp; ring
    · field_simp; ring
  · rw [el, er, sub_mul, mul_add, mul_add, hSS, smul_mul_smul_comm, mul_smul_comm, smul_mul_assoc, hSb, hbS, h4]
    match_scalars
    · field_simp; ring
    · field_simp; ring

end Verif
