import Verif.Proofs.LeastSquares4
import Verif.Props.Spaces
import Verif.Props.InverseLimits
import Verif.Proofs.Shirokov2
import Mathlib.Tactic.Linarith
/-! # C80: the least-squares inverse -/
namespace Verif.Props
open Model Spec Model.Factory Finset

variable {A : Alg} {R : Type} [Field R] [DecidableEq R] [LinearOrder R] [IsStrictOrderedRing R]

/-- Sum of the squares of the coefficients of a multivector. -/
noncomputable def sqSum (A : Alg) (z : Cl A R) : R := ∑ b ∈ range (2 ^ A.n), coef A R b z ^ 2

theorem sqSum_nonneg (z : Cl A R) : 0 ≤ sqSum A z := sum_nonneg fun _ _ => sq_nonneg _
theorem sqSum_eq_zero {z : Cl A R} : sqSum A z = 0 ↔ z = 0 := by
  constructor
  · intro h
    rw [sqSum, sum_eq_zero_iff_of_nonneg fun _ _ => sq_nonneg _] at h
    apply ext_coef
    intro b hb
    have := h b (mem_range.2 hb)
    rw [map_zero]
    exact pow_eq_zero_iff (two_ne_zero) |>.1 this
  · rintro rfl
    simp [sqSum]

/-- The matrix equations of `inverse_la`, in terms of the algebra. -/
theorem inverseLa_core (hA : WfAlg A) {x : MV R} (hx : WfMV A x) {o : Operator Int} (ho : inverseFactor A (.sub x.sub) = some o)
    (hS : WfSub A o.output) :
    (x.inverseLa A = none ↔ (∀ a ∈ x.sub.blades, a ∈ o.output.blades → blade A R a * blade A R a = 0) ∨
      ∃ z, Within A o.output z ∧ z ≠ 0 ∧ val A x * z = 0) ∧
    ∀ y, x.inverseLa A = some y → WfMV A y ∧ y.sub = o.output ∧ ∀ z, Within A o.output z →
      sqSum A (val A x * z - 1) = sqSum A (val A x * val A y - 1) + sqSum A (val A x * (z - val A y)) := by
  obtain ⟨op, q, p1, p2, p3, p4, p5⟩ := left_matrix hA hx hS
  obtain ⟨S, hSe⟩ : ∃ S, S = o.output := ⟨_, rfl⟩
  rw [← hSe] at hS p1 p4 p5 ⊢
  have hsc : 0 ∈ op.output.blades ↔ ¬ ∀ a ∈ x.sub.blades, a ∈ S.blades → blade A R a * blade A R a = 0 := by
    rw [p4]
    push Not
    constructor
    · rintro ⟨a, ha, c, hc, h1, h2⟩
      obtain rfl := xor_zero_eq h1
      refine ⟨a, ha, hc, ?_⟩
      rw [blade_mul hA, Nat.xor_self, blade_zero]
      intro h
      have := congrArg (coef A R 0) h
      rw [map_smul, ← blade_zero A R, coef_blade A R (by positivity), map_zero] at this
      simp at this
      exact h2 this
    · rintro ⟨a, ha, hc, h⟩
      refine ⟨a, ha, a, hc, Nat.xor_self a, fun h0 => h ?_⟩
      rw [blade_mul hA, h0]; simp
  obtain ⟨N, hN⟩ : ∃ N, N = op.output.blades.length := ⟨_, rfl⟩
  obtain ⟨K, hK⟩ : ∃ K : Nat → Nat → R, K = fun j i => q.kernel.get [j, i] := ⟨_, rfl⟩
  have hK' : ∀ j i, q.kernel.get [j, i] = K j i := fun j i => by rw [hK]
  simp only [hK', ← hN] at p5
  have unfold : x.inverseLa A = match (List.range N).filter fun i => op.output.blades.getD i 0 == 0 with
      | [idx] => (linalgSolve S.blades.length (fun j l => ∑ i ∈ range N, K j i * K l i) fun j => K j idx).bind fun r => MV.construct r S
      | _ => none := by
    rw [MV.inverseLa, ho]
    simp only [Option.bind_eq_bind, Option.bind_some, ← hSe, p1, p2, lsum_range, hK', ← hN]
    rfl
  by_cases h0 : 0 ∈ op.output.blades
  swap
  · have hf : ((List.range N).filter fun i => op.output.blades.getD i 0 == 0) = [] := by
      rw [List.filter_eq_nil_iff]
      intro i hi
      rw [List.mem_range, hN] at hi
      rw [List.getD_eq_getElem _ _ hi, beq_iff_eq]
      intro h
      exact h0 (h ▸ List.getElem_mem hi)
    rw [hf] at unfold
    rw [unfold]
    refine ⟨⟨fun _ => .inl ?_, fun _ => rfl⟩, fun y hy => by cases hy⟩
    by_contra hc
    exact h0 (hsc.2 hc)
  obtain ⟨idx, hidx, hz⟩ := List.getElem_of_mem h0
  rw [← hN] at hidx
  have hiff : ∀ i < N, (op.output.blades.getD i 0 = 0 ↔ i = idx) := by
    intro i hi
    rw [List.getD_eq_getElem _ _ (hN ▸ hi)]
    constructor
    · intro h
      exact (p3.nodup.getElem_inj_iff).1 (h.trans hz.symm)
    · rintro rfl; exact hz
  have hf : ((List.range N).filter fun i => op.output.blades.getD i 0 == 0) = [idx] := by
    have : ((List.range N).filter fun i => op.output.blades.getD i 0 == 0) = (List.range N).filter (· == idx) := by
      apply List.filter_congr
      intro i hi
      have := hiff i (List.mem_range.1 hi)
      rw [Bool.eq_iff_iff]
      simpa using this
    rw [this, List.filter_beq, List.count_eq_one_of_mem List.nodup_range (List.mem_range.2 hidx)]
    rfl
  rw [hf] at unfold
  simp only at unfold
  -- coefficients of a product
  have hcoef : ∀ (v : List R), v.length = S.blades.length → ∀ t : R, sqSum A (val A x * denote A R S v - t • 1) =
      ∑ i ∈ range N, (∑ j ∈ range S.blades.length, K j i * v.getD j 0 - if i = idx then t else 0) ^ 2 := by
    intro v hv t
    obtain ⟨w1, w2⟩ := p5 v hv
    have hw := (within_iff p3).1 w1
    rw [sqSum, sum_space p3, ← hN]
    · refine sum_congr rfl fun i hi => ?_
      have hi := mem_range.1 hi
      rw [map_sub, w2 i hi, map_smul, ← blade_zero A R, coef_blade A R (by positivity)]
      by_cases he : i = idx
      · rw [if_pos he, if_pos ((hiff i hi).2 he), smul_eq_mul, mul_one]
      · rw [if_neg he, if_neg fun h => he ((hiff i hi).1 h), smul_eq_mul, mul_zero]
    · intro b hb hn
      rw [map_sub, hw b hb hn, map_smul, ← blade_zero A R, coef_blade A R (by positivity), if_neg (by rintro rfl; exact hn h0)]
      simp
  have hker : ∀ (v : List R), v.length = S.blades.length → (val A x * denote A R S v = 0 ↔
      ∀ i < N, ∑ j ∈ range S.blades.length, K j i * v.getD j 0 = 0) := by
    intro v hv
    have := hcoef v hv 0
    simp only [zero_smul, sub_zero, ite_self] at this
    rw [← sqSum_eq_zero, this, sum_eq_zero_iff_of_nonneg fun _ _ => sq_nonneg _]
    simp
  have hne : ∀ (v : List R), v.length = S.blades.length → (denote A R S v ≠ 0 ↔ ∃ j < S.blades.length, v.getD j 0 ≠ 0) := by
    intro v hv
    constructor
    · intro h
      by_contra hc
      push Not at hc
      apply h
      apply ext_coef
      intro b hb
      rw [map_zero]
      by_cases hm : b ∈ S.blades
      · obtain ⟨j, hj, rfl⟩ := List.getElem_of_mem hm
        have := coef_denote_getD hS hv hj
        rwa [hc j hj, List.getD_eq_getElem _ _ hj] at this
      · exact (within_iff hS).1 ⟨⟨S, v⟩, ⟨hS, hv⟩, rfl, rfl⟩ b hb hm
    · rintro ⟨j, hj, h⟩ h'
      rw [← coef_denote_getD hS hv hj, h', map_zero] at h
      exact h rfl
  have hwi : ∀ z, Within A S z ↔ ∃ v : List R, v.length = S.blades.length ∧ denote A R S v = z := by
    intro z
    constructor
    · rintro ⟨m, m1, rfl, m3⟩
      exact ⟨m.vals, m1.len, m3⟩
    · rintro ⟨v, v1, rfl⟩
      exact ⟨⟨S, v⟩, ⟨hS, v1⟩, rfl, rfl⟩
  rw [unfold]
  cases hr : linalgSolve S.blades.length (fun j l => ∑ i ∈ range N, K j i * K l i) fun j => K j idx with
  | none =>
    obtain ⟨v, v1, v2, v3⟩ := linalgSolve_none.1 hr
    refine ⟨⟨fun _ => .inr ?_, fun _ => rfl⟩, fun y hy => by cases hy⟩
    exact ⟨_, (hwi _).2 ⟨v, v1, rfl⟩, (hne v v1).2 v2, (hker v v1).2 fun i hi => gram_kernel v3 hi⟩
  | some r =>
    obtain ⟨r1, r2⟩ := linalgSolve_some hr
    rw [Option.bind_some, MV.construct, if_pos r1]
    refine ⟨⟨fun h => (by cases h), ?_⟩, ?_⟩
    · rintro (h | ⟨z, z1, z2, z3⟩)
      · exact absurd h (hsc.1 h0)
      · obtain ⟨v, v1, rfl⟩ := (hwi z).1 z1
        have hn : linalgSolve S.blades.length (fun j l => ∑ i ∈ range N, K j i * K l i) (fun j => K j idx) = none := by
          refine linalgSolve_none.2 ⟨v, v1, (hne v v1).1 z2, fun j hj => ?_⟩
          have hz := (hker v v1).1 z3
          simp only [sum_mul]
          rw [sum_comm]
          refine sum_eq_zero fun i hi => ?_
          simp only [mul_assoc]
          rw [← mul_sum, hz i (mem_range.1 hi), mul_zero]
        rw [hr] at hn
        cases hn
    · intro y hy
      cases hy
      refine ⟨⟨hS, r1⟩, rfl, fun z hz => ?_⟩
      obtain ⟨v, v1, rfl⟩ := (hwi z).1 hz
      have e1 := hcoef v v1 1
      have e2 := hcoef r r1 1
      rw [one_smul] at e1 e2
      have hd : denote A R S v - denote A R S r = denote A R S (List.zipWith (· - ·) v r) := by
        have hl : (List.zipWith (· - ·) v r).length = S.blades.length := by simp [v1, r1]
        apply ext_coef
        intro b hb
        rw [map_sub]
        by_cases hm : b ∈ S.blades
        · obtain ⟨j, hj, rfl⟩ := List.getElem_of_mem hm
          have c1 := coef_denote_getD hS v1 hj
          have c2 := coef_denote_getD hS r1 hj
          have c3 := coef_denote_getD hS hl hj
          rw [List.getD_eq_getElem _ _ hj] at c1 c2 c3
          rw [c1, c2, c3, List.getD_eq_getElem (List.zipWith (· - ·) v r) _ (by rw [hl]; exact hj), List.getElem_zipWith,
            List.getD_eq_getElem _ _ (v1.symm ▸ hj), List.getD_eq_getElem _ _ (r1.symm ▸ hj)]
        · rw [(within_iff hS).1 ((hwi _).2 ⟨v, v1, rfl⟩) b hb hm, (within_iff hS).1 ((hwi _).2 ⟨r, r1, rfl⟩) b hb hm,
            (within_iff hS).1 ((hwi _).2 ⟨_, hl, rfl⟩) b hb hm, sub_zero]
      have hl : (List.zipWith (· - ·) v r).length = S.blades.length := by simp [v1, r1]
      have e3 := hcoef _ hl 0
      simp only [zero_smul, sub_zero, ite_self] at e3
      change sqSum A (val A x * denote A R S v - 1) = sqSum A (val A x * denote A R S r - 1) + sqSum A (val A x * (denote A R S v - denote A R S r))
      rw [hd, e1, e2, e3, gram_least (y := fun j => r.getD j 0) (e := fun i => if i = idx then 1 else 0)]
      · congr 1
        refine sum_congr rfl fun i _ => ?_
        congr 1
        refine sum_congr rfl fun j hj => ?_
        have hj := mem_range.1 hj
        rw [List.getD_eq_getElem (List.zipWith (· - ·) v r) _ (by rw [hl]; exact hj), List.getElem_zipWith, List.getD_eq_getElem _ _ (v1.symm ▸ hj),
          List.getD_eq_getElem _ _ (r1.symm ▸ hj)]
      · intro j hj
        rw [r2 j hj, sum_eq_single idx]
        · simp
        · intro i _ hi
          simp [hi]
        · intro h
          exact absurd (mem_range.2 hidx) h

/-- The value that `inverse_factor` computes. -/
noncomputable def hitzerFactor (A : Alg) (R : Type) [CommRing R] (x : Cl A R) : Cl A R :=
  CliffordAlgebra.reverse x * CliffordAlgebra.involute (CliffordAlgebra.reverse (x * CliffordAlgebra.reverse x))

/-- C80: what `inverse_la` returns is the unique element closest to an inverse, in the sum of the squared coefficients of
`x * y - 1`, among those of the least subspace that holds `~x conj(x ~x)` for every `x` of the subspace. -/
theorem C80_least (hA : WfAlg A) {x y : MV R} (hx : WfMV A x) (h : x.inverseLa A = some y) :
    WfMV A y ∧ LeastSpace A x.sub y.sub (hitzerFactor A) ∧ ∀ z : MV R, WfMV A z → z.sub = y.sub → val A z ≠ val A y →
      sqSum A (val A x * val A y - 1) < sqSum A (val A x * val A z - 1) := by
  obtain ⟨o, o1, o2, o3, o4, o5⟩ := (C72_inverse_factors hA hx.sub).1
  obtain ⟨c1, c2⟩ := inverseLa_core hA hx o1 o2.wf_output
  obtain ⟨y1, y2, y3⟩ := c2 y h
  refine ⟨y1, y2 ▸ o4, fun z hz hs hne => ?_⟩
  have hn : ¬ (x.inverseLa A = none) := by rw [h]; simp
  rw [c1] at hn
  push Not at hn
  have hw : Within A o.output (val A z - val A y) := by
    have w1 : Within A o.output (val A z) := ⟨z, hz, hs.trans y2, rfl⟩
    have w2 : Within A o.output (val A y) := ⟨y, y1, y2, rfl⟩
    rw [within_iff o2.wf_output] at w1 w2 ⊢
    intro b hb hn
    rw [map_sub, w1 b hb hn, w2 b hb hn, sub_zero]
  have h0 : sqSum A (val A x * (val A z - val A y)) ≠ 0 := by
    rw [Ne, sqSum_eq_zero]
    exact hn.2 _ hw (sub_ne_zero.2 hne)
  rw [y3 _ ⟨z, hz, hs.trans y2, rfl⟩]
  have := lt_of_le_of_ne (sqSum_nonneg _) h0.symm
  linarith

/-- C80: `inverse_la` returns, rather than raises, exactly when some blade with a nonzero square is shared by the subspace and the
candidate subspace, and no nonzero candidate is annihilated by `x`. -/
theorem C80_returns (hA : WfAlg A) {x : MV R} (hx : WfMV A x) {T : SubSpace} (hT : LeastSpace A x.sub T (hitzerFactor A)) :
    (∃ y, x.inverseLa A = some y) ↔ (∃ a ∈ x.sub.blades, a ∈ T.blades ∧ blade A R a * blade A R a ≠ 0) ∧
      ∀ z : Cl A R, Within A T z → val A x * z = 0 → z = 0 := by
  obtain ⟨o, o1, o2, o3, o4, o5⟩ := (C72_inverse_factors hA hx.sub).1
  have hm : ∀ b, b ∈ T.blades ↔ b ∈ o.output.blades :=
    fun b => ⟨fun h => hT.2.2 _ o4.1 (fun z hz => o4.2.1 ℤ z hz) b h, fun h => o4.2.2 _ hT.1 (fun z hz => hT.2.1 ℤ z hz) b h⟩
  have hw : ∀ z : Cl A R, Within A T z ↔ Within A o.output z := by
    intro z
    rw [within_iff hT.1, within_iff o4.1]
    exact forall₂_congr fun b _ => by rw [hm]
  obtain ⟨c1, -⟩ := inverseLa_core hA hx o1 o2.wf_output
  rw [← Option.ne_none_iff_exists', Ne, c1]
  simp only [hw, hm]
  push Not
  refine and_congr Iff.rfl (forall_congr' fun z => imp_congr_right fun _ => ⟨fun h h1 => ?_, fun h h1 h2 => h1 (h h2)⟩)
  by_contra h2
  exact h h2 h1

/-- C80: what `inverse_la` returns is an inverse exactly when the candidate subspace holds one. -/
theorem C80_exact (hA : WfAlg A) {x y : MV R} (hx : WfMV A x) (h : x.inverseLa A = some y) :
    (val A x * val A y = 1 ∧ val A y * val A x = 1) ↔ ∃ z, Within A y.sub z ∧ val A x * z = 1 := by
  obtain ⟨y1, y2, y3⟩ := C80_least hA hx h
  refine ⟨fun h => ⟨_, ⟨y, y1, rfl, rfl⟩, h.1⟩, ?_⟩
  rintro ⟨_, ⟨z, z1, z2, rfl⟩, z3⟩
  have e : val A x * val A y = 1 := by
    by_cases hn : val A z = val A y
    · rw [← hn, z3]
    · have := y3 z z1 z2 hn
      rw [z3, sub_self, sqSum_eq_zero.2 rfl] at this
      exact absurd this (not_lt.2 (sqSum_nonneg _))
  exact ⟨e, mul_eq_one_comm.1 e⟩

/-- C80: in dimension at most four `inverse_la` inverts every invertible multivector. -/
theorem C80_inverse (hA : WfAlg A) (h4 : A.n ≤ 4) {x : MV R} (hx : WfMV A x) (hu : IsUnit (val A x)) :
    ∃ y, x.inverseLa A = some y ∧ WfMV A y ∧ val A x * val A y = 1 ∧ val A y * val A x = 1 := by
  obtain ⟨o, o1, o2, o3, o4, o5⟩ := (C72_inverse_factors hA hx.sub).1
  have hxw : Within A x.sub (val A x) := ⟨x, hx, rfl, rfl⟩
  have hf := factor_space4 hA h4 hx.sub o4.1 (fun z hz => o4.2.1 ℤ z hz) hxw (by
    intro r hr
    rcases mul_eq_zero.1 hr with h | h
    · norm_num at h
    · exact h)
  obtain ⟨p, hp⟩ : ∃ p, p = val A x * CliffordAlgebra.reverse (val A x) := ⟨_, rfl⟩
  rw [← hp] at hf
  obtain ⟨c, hc⟩ : ∃ c : R, p * (2 • gradePart A R 0 p - p) = c • 1 := by
    obtain ⟨T, t1, t2, t3⟩ := symmetricReverse_sub hA hx.sub
    obtain ⟨T', t1', t2', t3', -⟩ := symmetricReverse_self hA x.sub hx.sub
    rw [t1] at t1'
    cases t1'
    obtain ⟨U, u1, u2, u3⟩ := sn_sub hA t2 (wf_scalar (A := A)) (by
      intro a ha c hc hs
      rw [List.mem_singleton]
      exact pair_sn4 A.n h4 a (t2.lt a ha) c (t2.lt c hc) ⟨t3 a ha, t3 c hc, hs⟩)
    obtain ⟨U', u1', u2', u3', -⟩ := symmetricScalarNegation_self hA T t2
    rw [u1] at u1'
    cases u1'
    have h1 := u3' R p (hp ▸ t3' R _ hxw)
    have h2 := h1.mono u2 wf_scalar u3
    refine ⟨coef A R 0 (p * (2 • gradePart A R 0 p - p)), ?_⟩
    apply ext_coef
    intro b hb
    rw [map_smul, ← blade_zero A R, coef_blade A R (by positivity)]
    by_cases h0 : b = 0
    · rw [h0]; simp
    · rw [if_neg h0, smul_zero]
      have := (within_iff wf_scalar).1 h2 b hb (by simpa using h0)
      simpa [two_smul] using this
  have hpu : IsUnit p := by
    rw [hp]
    obtain ⟨v, hv⟩ := hu
    refine hv ▸ (v.isUnit.mul ?_)
    refine ⟨⟨CliffordAlgebra.reverse (v : Cl A R), CliffordAlgebra.reverse ((v⁻¹ : (Cl A R)ˣ) : Cl A R), ?_, ?_⟩, rfl⟩
    · rw [← CliffordAlgebra.reverse.map_mul, Units.inv_mul, CliffordAlgebra.reverse.map_one]
    · rw [← CliffordAlgebra.reverse.map_mul, Units.mul_inv, CliffordAlgebra.reverse.map_one]
  have hnt : (1 : Cl A R) ≠ 0 := by
    intro h
    have := congrArg (coef A R 0) h
    rw [← blade_zero A R, coef_blade A R (by positivity), map_zero] at this
    simp at this
  have hc0 : c ≠ 0 := by
    rintro rfl
    rw [zero_smul] at hc
    have h1 : 2 • gradePart A R 0 p - p = 0 := by
      obtain ⟨v, rfl⟩ := hpu
      have := congrArg (((v⁻¹ : (Cl A R)ˣ) : Cl A R) * ·) hc
      simpa [← mul_assoc] using this
    have h2 : gradePart A R 0 p = 0 := by
      have := congrArg (coef A R 0) h1
      rw [gradePart_zero_eq hA, map_sub, map_nsmul, map_smul, ← blade_zero A R, coef_blade A R (by positivity)] at this
      have : coef A R 0 p = 0 := by simpa [two_smul] using this
      rw [gradePart_zero_eq hA, this, zero_smul]
    rw [h2, smul_zero, zero_sub, neg_eq_zero] at h1
    rw [h1] at hpu
    exact hnt (isUnit_zero_iff.1 hpu).symm
  obtain ⟨z, hz⟩ : ∃ z, z = c⁻¹ • (CliffordAlgebra.reverse (val A x) * (2 • gradePart A R 0 p - p)) := ⟨_, rfl⟩
  have hzw : Within A o.output z := hz ▸ hf.smul o4.1 c⁻¹
  have hz1 : val A x * z = 1 := by
    rw [hz, mul_smul_comm, ← mul_assoc, ← hp, hc, smul_smul, inv_mul_cancel₀ hc0, one_smul]
  have hret : ∃ y, x.inverseLa A = some y := by
    refine (C80_returns hA hx o4).2 ⟨?_, fun w _ hw => ?_⟩
    · by_contra hcon
      push Not at hcon
      obtain ⟨op, q, p1, p2, p3, p4, p5⟩ := left_matrix hA hx o4.1
      obtain ⟨zm, z1, z2, z3⟩ := hzw
      have hw := (p5 zm.vals (by rw [z1.len, z2])).1
      have : denote A R o.output zm.vals = z := by rw [← z3, Spec.val, z2]
      rw [this, hz1, within_iff p3] at hw
      have h0 := hw 0 (by positivity) (by
        rw [p4]
        rintro ⟨a, ha, d, hd, h1, h2⟩
        obtain rfl := xor_zero_eq h1
        have := hcon a ha hd
        rw [blade_mul hA, Nat.xor_self, blade_zero] at this
        have := congrArg (coef A R 0) this
        rw [map_smul, ← blade_zero A R, coef_blade A R (by positivity), map_zero] at this
        simp at this
        exact h2 this)
      rw [← blade_zero A R, coef_blade A R (by positivity)] at h0
      simp at h0
    · have := congrArg (z * ·) hw
      simpa [← mul_assoc, mul_eq_one_comm.1 hz1] using this
  obtain ⟨y, hy⟩ := hret
  obtain ⟨-, c2⟩ := inverseLa_core hA hx o1 o2.wf_output
  obtain ⟨y1, y2, -⟩ := c2 y hy
  exact ⟨y, hy, y1, (C80_exact hA hx hy).2 ⟨z, y2 ▸ hzw, hz1⟩⟩

/-- A blade that no three blades of the subspace contribute is not in the candidate subspace. -/
theorem factor_notMem (hA : WfAlg A) {S T : SubSpace} (hS : WfSub A S) (hT : LeastSpace A S T (hitzerFactor A)) {b : Nat}
    (h : ∀ a ∈ S.blades, ∀ c ∈ S.blades, ∀ d ∈ S.blades, a ^^^ (c ^^^ d) = b → sym3 (triSign A.n sgnConj) a c d = 0) : b ∉ T.blades := by
  intro hb
  obtain ⟨U, hU⟩ : ∃ U : SubSpace, U = ⟨T.blades.filter (· ≠ b)⟩ := ⟨_, rfl⟩
  have hUw : WfSub A U := by
    subst hU
    exact ⟨fun c hc => hT.1.lt c (List.mem_of_mem_filter hc), hT.1.sorted.filter _⟩
  have hbU : b ∉ U.blades := by subst hU; simp
  refine hbU (hT.2.2 U hUw (fun x hx => ?_) b hb)
  rw [within_iff hUw]
  intro c hc hn
  by_cases hcb : c = b
  · subst hcb
    have hconj : ∀ b < 2 ^ A.n, (CliffordAlgebra.involute.toLinearMap.comp CliffordAlgebra.reverse : Cl A ℤ →ₗ[ℤ] Cl A ℤ) (blade A ℤ b) =
        ((sgnConj (pc A.n b) : ℤ) : ℤ) • blade A ℤ b := fun b _ => by
      simp only [LinearMap.comp_apply, AlgHom.toLinearMap_apply, reverse_blade, map_smul, involute_blade, sgnConj, smul_smul]
      rw [mul_comm]
    have h1 := cubic hconj c x
    simp only [LinearMap.comp_apply, AlgHom.toLinearMap_apply, Int.cast_id] at h1
    have h2 := cubic_sym (2 ^ A.n) (fun a => coef A ℤ a x) (tri A sgnConj c)
    rw [← h1] at h2
    have h0 := (within_iff hS).1 hx
    have h3 : (6 : ℤ) * coef A ℤ c (hitzerFactor A ℤ x) = 0 := by
      refine h2.trans (sum_eq_zero fun a ha => sum_eq_zero fun c' hc' => sum_eq_zero fun d hd => ?_)
      by_cases ha' : a ∈ S.blades
      · by_cases hc'' : c' ∈ S.blades
        · by_cases hd' : d ∈ S.blades
          · have e := sym3_tri A sgnConj c a c' d
            rw [e]
            split
            · rename_i hx
              rw [h a ha' c' hc'' d hd' hx]; ring
            · ring
          · rw [h0 d (mem_range.1 hd) hd']; ring
        · rw [h0 c' (mem_range.1 hc') hc'']; ring
      · rw [h0 a (mem_range.1 ha) ha']; ring
    omega
  · refine (within_iff hT.1).1 (hT.2.1 ℤ x hx) c hc fun hm => hn ?_
    subst hU
    simp [hm, hcb]

/-- Euclidean space of five dimensions. -/
def euc5p : Alg := ⟨⟨["v".toList, "w".toList, "x".toList, "y".toList, "z".toList], [1, 1, 1, 1, 1]⟩, 1, 1⟩
theorem wf_euc5p : WfAlg euc5p := by constructor <;> decide
/-- The sum of five blades. -/
def exLa : MV ℚ := ⟨⟨[2, 8, 18, 20, 7]⟩, [1, 1, 1, 1, 1]⟩
/-- Its inverse. -/
def exLaInv : MV ℚ := ⟨⟨[2, 4, 8, 18, 20, 24, 7, 11, 13, 23, 27, 29]⟩,
  [7 / 45, -10 / 45, 7 / 45, -7 / 45, -17 / 45, 2 / 45, -7 / 45, 8 / 45, 2 / 45, -2 / 45, 10 / 45, -2 / 45]⟩
theorem wf_exLa : WfMV euc5p exLa := ⟨wfSub_of_B (by decide +kernel), rfl⟩
theorem wf_exLaInv : WfMV euc5p exLaInv := ⟨wfSub_of_B (by decide +kernel), rfl⟩

/-- Checking a product from the coefficients of its factors. -/
theorem mul_check {x y : MV ℚ} (hx : WfMV A x) (hy : WfMV A y)
    (h : ∀ c < 2 ^ A.n, Shirokov.mulc A.n (metric A ℚ) (coeff x) (coeff y) c = if c = 0 then 1 else 0) : val A x * val A y = 1 := by
  apply ext_coef
  intro c hc
  rw [coef_mul (A := A) (R := ℚ) _ _ hc, ← blade_zero, coef_blade _ _ (by positivity), ← h c hc]
  have e1 : (fun b => coef A ℚ b (val A x)) = coeff x := funext fun b => (coeff_eq hx b).symm
  have e2 : (fun b => coef A ℚ b (val A y)) = coeff y := funext fun b => (coeff_eq hy b).symm
  rw [e1, e2]

theorem exLa_mul : val euc5p exLa * val euc5p exLaInv = 1 := mul_check wf_exLa wf_exLaInv (by decide +kernel)

/-- C80: in five dimensions `inverse_la` of an invertible multivector can return something that is no inverse, without raising. -/
theorem C80_dim5 : val euc5p exLa * val euc5p exLaInv = 1 ∧ ∃ y, exLa.inverseLa euc5p = some y ∧ val euc5p exLa * val euc5p y ≠ 1 := by
  refine ⟨exLa_mul, ?_⟩
  obtain ⟨o, o1, o2, o3, o4, o5⟩ := (C72_inverse_factors wf_euc5p wf_exLa.sub).1
  have hT : LeastSpace euc5p exLa.sub o.output (hitzerFactor euc5p) := o4
  have h11 : 11 ∉ o.output.blades := factor_notMem wf_euc5p wf_exLa.sub hT (by decide +kernel)
  have hone : ∀ a, a < 32 → blade euc5p ℚ a * blade euc5p ℚ a = (sgn euc5p a a : ℚ) • 1 := fun a _ => by
    rw [blade_mul wf_euc5p, Nat.xor_self, blade_zero]
  have h2 : 2 ∈ o.output.blades := by
    by_contra hn
    have hw : Within euc5p exLa.sub (blade euc5p ℤ 2) := within_blade wf_exLa.sub (by decide)
    have := (within_iff o4.1).1 (hT.2.1 ℤ _ hw) 2 (by decide +kernel) hn
    rw [hitzerFactor, reverse_blade, show pc euc5p.n 2 = 1 by decide +kernel] at this
    simp only [Nat.reduceDiv, pow_zero, one_smul] at this
    rw [blade_mul wf_euc5p, show sgn euc5p 2 2 = 1 by decide +kernel, Nat.xor_self, blade_zero] at this
    simp only [Int.cast_one, one_smul, CliffordAlgebra.reverse.map_one, map_one, mul_one] at this
    rw [coef_blade _ _ (by decide +kernel)] at this
    simp at this
  have hinv := exLa_mul
  have hinv' := mul_eq_one_comm.1 hinv
  obtain ⟨y, hy⟩ := (C80_returns (R := ℚ) wf_euc5p wf_exLa hT).2 ⟨⟨2, by decide, h2, by
      rw [hone 2 (by norm_num), show sgn euc5p 2 2 = 1 by decide +kernel]
      intro h
      have := congrArg (coef euc5p ℚ 0) h
      rw [map_smul, ← blade_zero, coef_blade _ _ (by decide +kernel), map_zero] at this
      simp at this⟩, fun z _ hz => by
    have := congrArg (val euc5p exLaInv * ·) hz
    simpa [← mul_assoc, hinv'] using this⟩
  refine ⟨y, hy, fun h => ?_⟩
  obtain ⟨-, c2⟩ := inverseLa_core wf_euc5p wf_exLa o1 o4.1
  obtain ⟨y1, y2, -⟩ := c2 y hy
  have e : val euc5p y = val euc5p exLaInv := by
    have := congrArg (val euc5p exLaInv * ·) h
    simpa [← mul_assoc, hinv'] using this
  have h1 := (within_iff o4.1).1 ⟨y, y1, y2, rfl⟩ 11 (by decide +kernel) h11
  rw [e, ← coeff_eq wf_exLaInv] at h1
  revert h1
  decide +kernel

/-! ## The hypotheses are met -/

/-- `1 + 2 x + 3 xy` in the Euclidean plane. -/
def exLa2 : MV ℚ := ⟨⟨[0, 1, 3]⟩, [1, 2, 3]⟩
theorem wf_exLa2 : WfMV euc2 exLa2 := ⟨wfSub_of_B (by decide +kernel), rfl⟩

/-- It has an inverse, and `inverse_la` returns it. -/
example : ∃ y, exLa2.inverseLa euc2 = some y ∧ WfMV euc2 y ∧ val euc2 exLa2 * val euc2 y = 1 ∧ val euc2 y * val euc2 exLa2 = 1 := by
  refine C80_inverse wf_euc2 (by decide) wf_exLa2 ?_
  have e : val euc2 exLa2 * val euc2 (⟨⟨[0, 1, 3]⟩, [1 / 6, -2 / 6, -3 / 6]⟩ : MV ℚ) = 1 :=
    mul_check wf_exLa2 ⟨wfSub_of_B (by decide +kernel), rfl⟩ (by decide +kernel)
  exact IsUnit.of_mul_eq_one _ e

/-- `inverse_la` of a null vector raises: the square of each of its candidates vanishes. -/
example : ¬ ∃ y, (⟨⟨[4]⟩, [1]⟩ : MV ℚ).inverseLa pga2s = some y := by
  have hw : WfMV pga2s (⟨⟨[4]⟩, [1]⟩ : MV ℚ) := ⟨wfSub_of_B (by decide +kernel), rfl⟩
  obtain ⟨o, o1, o2, o3, o4, o5⟩ := (C72_inverse_factors wf_pga2s hw.sub).1
  rw [C80_returns wf_pga2s hw (T := o.output) o4]
  rintro ⟨⟨a, ha, -, h⟩, -⟩
  rw [List.mem_singleton] at ha
  rw [ha, blade_mul wf_pga2s, show sgn pga2s 4 4 = 0 by decide +kernel] at h
  simp at h

end Verif.Props
