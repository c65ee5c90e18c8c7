import Verif.Props.LogExp
/-! # Which root the square roots of motors are -/
namespace Verif
open Model Spec Model.Factory Props

variable {A : Alg}

section
variable {R : Type} [Field R]

/-- An even element that is its own reverse: a scalar plus an element whose square is a scalar, in dimension below six. -/
theorem study_split (hA : WfAlg A) (h5 : A.n < 6) (h2 : (2 : R) ≠ 0) {w : Cl A R} (hr : CliffordAlgebra.reverse w = w)
    (he : CliffordAlgebra.involute w = w) :
    ∃ (κ : R) (ν : Cl A R), w = coef A R 0 w • 1 + ν ∧ gradePart A R 0 ν = 0 ∧ ν * ν = κ • 1 := by
  obtain ⟨U, _, u2, u3⟩ := (C14_named hA).2.2.2.2.2.2.2.2.2.2.2.2.1
  let S : SubSpace := ⟨U.blades.filter fun b => pc A.n b % 4 = 0⟩
  have hS : WfSub A S := ⟨fun b hb => u2.lt b (List.mem_filter.1 hb).1, u2.sorted.filter _⟩
  have hS4 : ∀ b ∈ S.blades, pc A.n b % 4 = 0 := fun b hb => by simpa using (List.mem_filter.1 hb).2
  have hg : gradePart A R 0 w = coef A R 0 w • (1 : Cl A R) := by
    apply ext_coef
    intro b hb
    rw [gradePart_eq_proj, coef_proj, map_smul, ← blade_zero, coef_blade A R (Nat.two_pow_pos _)]
    simp only [popcount_eq_zero hA.le32 hb]
    split_ifs with h
    · rw [h]; simp
    · simp
  obtain ⟨x, x1, x2, x3⟩ : Within A S w := by
    rw [within_iff hS]
    intro b hb hbS
    by_contra h0
    have e1 := congrArg (coef A R b) hr
    have e2 := congrArg (coef A R b) he
    rw [coef_reverse hA R hb, neg_one_pow_mod] at e1
    rw [coef_involute hA R hb, neg_one_pow_mod] at e2
    have k : ∀ c : R, (2 : R) * c = 0 → c = 0 := fun c hc => (mul_eq_zero.1 hc).resolve_left h2
    have hp := popcount_of_lt hA.le32 hb
    split_ifs at e2 with g2
    swap
    · exact h0 (k _ (by linear_combination -e2))
    split_ifs at e1 with g1
    swap
    · exact h0 (k _ (by linear_combination -e1))
    apply hbS
    refine List.mem_filter.2 ⟨(u3 b).2 ⟨hb, g2⟩, ?_⟩
    simp only [decide_eq_true_eq]
    have hl : pc A.n b ≤ A.n := pc_le A.n b
    rw [hp] at g1 g2
    obtain h | h | h | h | h | h : pc A.n b = 0 ∨ pc A.n b = 1 ∨ pc A.n b = 2 ∨ pc A.n b = 3 ∨ pc A.n b = 4 ∨ pc A.n b = 5 := by omega
    all_goals rw [h] at g1 g2 ⊢
    all_goals first | rfl | exact absurd g1 (by decide) | exact absurd g2 (by decide)
  have hst : S.isStudy A = some true := by
    obtain ⟨V, v1, v2, v3⟩ := sn_sub hA hS (wf_scalar (A := A)) (fun a ha c hc hs => by
      rw [List.mem_singleton]
      exact pair_sn5 A.n (by omega) a (hS.lt a ha) c (hS.lt c hc) ⟨hS4 a ha, hS4 c hc, hs⟩)
    rw [SubSpace.isStudy, SubSpace.isScalarNegationSimple, v1]
    exact nsimple_scalar hA 0 v2 v3
  obtain ⟨r, r1, r2, _⟩ := C39_study hA hS
  rw [hst, Option.some_inj] at r1
  obtain ⟨c, hc⟩ := r2 r1.symm R x x1 x2
  rw [x3, hg] at hc
  obtain ⟨α, hα⟩ : ∃ α, α = coef A R 0 w := ⟨_, rfl⟩
  rw [← hα] at hc hg ⊢
  refine ⟨α * α - c, w - α • 1, by abel, by rw [map_sub, hg, ← blade_zero, map_smul, gradePart_blade _ (Nat.two_pow_pos _), if_pos (by decide), sub_self], ?_⟩
  rw [sub_smul, ← hc, two_nsmul]
  simp only [mul_sub, sub_mul, mul_add, mul_smul_comm, smul_mul_assoc, mul_one, one_mul]
  module

end

section
variable {R : Type} [Field R] [LinearOrder R] [IsStrictOrderedRing R]

/-- Squaring `α + ν`. -/
theorem square_split {α κ : R} {ν : Cl A R} (hq : ν * ν = κ • 1) :
    (α • 1 + ν) * (α • 1 + ν) = (α * α + κ) • 1 + (2 * α) • ν := by
  rw [add_mul, mul_add, mul_add, hq]
  simp only [mul_smul_comm, smul_mul_assoc, mul_one, one_mul, smul_smul]
  module

/-- `square_root` takes `(α + ν)²` to `α + ν` if `α > 0` and `ν² < α²`. -/
theorem squareRoot_principal (hA : WfAlg A) {rt : Roots R} (hr : RealRoots rt) {fuel : Nat} (hf : 1 ≤ fuel) {x : MV R} (hx : WfMV A x)
    (hs : x.sub.isStudy A = some true) {α κ : R} {ν : Cl A R} (hv : val A x = (α • 1 + ν) * (α • 1 + ν)) (h0 : gradePart A R 0 ν = 0)
    (hq : ν * ν = κ • 1) (hα : 0 < α) (hκ : κ < α * α) :
    ∃ y, x.squareRoot A rt fuel = .ok y ∧ WfMV A y ∧ val A y = α • 1 + ν := by
  obtain ⟨fuel, rfl⟩ : ∃ f, fuel = f + 1 := ⟨fuel - 1, by omega⟩
  have h2 : (2 : R) ≠ 0 := two_ne_zero
  rw [square_split hq] at hv
  have h0' : gradePart A R 0 ((2 * α) • ν) = 0 := by rw [map_smul, h0, smul_zero]
  have hqq : ((2 * α) • ν) * ((2 * α) • ν) = (4 * (α * α) * κ) • (1 : Cl A R) := by
    rw [smul_mul_smul_comm, hq, smul_smul]; congr 1; ring
  have hfin : ∀ {c : R}, 0 ≤ c → c * c = α * α → c = α := fun hc h => nonneg_root_unique hc hα.le h
  have hc2 : (if α = 0 then rt.big else (2 * α)⁻¹) • ((2 * α) • ν) = ν := by
    rw [if_neg hα.ne', smul_smul, inv_mul_cancel₀ (mul_ne_zero h2 hα.ne'), one_smul]
  by_cases hd : ∀ b ∈ x.sub.blades, b ≠ 0 → NullBlade A b
  · obtain ⟨hn, hh⟩ := squareRoot_null hA hr fuel hx hs hd hv h0'
    have k0 : 4 * (α * α) * κ = 0 := smul_one_inj (A := A) (by rw [← hqq, hn, zero_smul])
    have k1 : κ = 0 := by
      rcases mul_eq_zero.1 k0 with h | h
      · exact absurd h (by positivity)
      · exact h
    rcases hh with ⟨y, c, y1, y2, c0, c1, y3⟩ | ⟨_, ha⟩
    · obtain rfl := hfin c0 (by rw [c1, k1, add_zero])
      exact ⟨y, y1, y2, by rw [y3, hc2]⟩
    · exact absurd ha (not_lt.2 (by rw [k1, add_zero]; positivity))
  · obtain ⟨q', q1, hh⟩ := squareRoot_study hA hr fuel hx hs hd hv h0'
    have hqq' : q' = 4 * (α * α) * κ := smul_one_inj (A := A) (by rw [← q1, hqq])
    subst hqq'
    have hN : (α * α + κ) * (α * α + κ) - 4 * (α * α) * κ = (α * α - κ) * (α * α - κ) := by ring
    rw [hN] at hh
    have hpos : 0 ≤ α * α - κ := by linarith
    rcases hh with ⟨y, c, s, y1, y2, c0, s0, s1, c1, y3⟩ | ⟨_, ha | ⟨t, t0, t1, t2⟩⟩
    · obtain rfl := nonneg_root_unique s0 hpos s1
      obtain rfl := hfin c0 (by rw [c1]; ring)
      exact ⟨y, y1, y2, by rw [y3, hc2]⟩
    · exact absurd ha (not_lt.2 (mul_self_nonneg _))
    · obtain rfl := nonneg_root_unique t0 hpos t1
      nlinarith

theorem unit_split {α κ : R} {ν : Cl A R} (hq : ν * ν = κ • 1) (hκ : κ < α * α) : IsUnit (α • 1 + ν) := by
  have hN : α * α - κ ≠ 0 := by linarith
  have e : (α • 1 + ν) * ((α * α - κ)⁻¹ • (α • 1 - ν)) = 1 := by
    rw [mul_smul_comm, add_mul, mul_sub, mul_sub, hq]
    simp only [mul_smul_comm, smul_mul_assoc, mul_one, one_mul, smul_smul]
    rw [show (α * α) • (1 : Cl A R) - α • ν + (α • ν - κ • 1) = (α * α - κ) • 1 by module, smul_smul, inv_mul_cancel₀ hN, one_smul]
  exact ⟨⟨_, _, e, mul_eq_one_comm.1 e⟩, rfl⟩

/-- `normalized` divides by `α + ν` if the norm squared is `(α + ν)²`. -/
theorem normalized_principal (hA : WfAlg A) {rt : Roots R} (hr : RealRoots rt) {fuel : Nat} (hf : 2 ≤ fuel) {x : MV R} (hx : WfMV A x) {T : SubSpace}
    (hT : x.sub.symmetricReverse A = some T) (hs : T.isStudy A = some true) {α κ : R} {ν : Cl A R}
    (hv : val A x * CliffordAlgebra.reverse (val A x) = (α • 1 + ν) * (α • 1 + ν)) (h0 : gradePart A R 0 ν = 0)
    (hq : ν * ν = κ • 1) (hα : 0 < α) (hκ : κ < α * α) :
    ∃ y, x.normalized A rt fuel = .ok y ∧ WfMV A y ∧ (α • 1 + ν) * val A y = val A x := by
  obtain ⟨fuel, rfl⟩ : ∃ f, fuel = f + 2 := ⟨fuel - 2, by omega⟩
  have h2 : (2 : R) ≠ 0 := two_ne_zero
  obtain ⟨z, z1, z2, z3, z4⟩ := symmetricReverse_in hA hx hT
  have e0 : equalsEmpty A T = some (T == ⟨[]⟩) := by rw [equalsEmpty, empty_eq hA]; rfl
  have e1 : equalsScalar A T = some (T == ⟨[0]⟩) := by rw [equalsScalar, (scalar_eq hA).1]; rfl
  have hzv : val A z = (α • 1 + ν) * (α • 1 + ν) := z4.trans hv
  have hu := unit_split (A := A) hq hκ
  have fin : ∀ {s : MV R}, WfMV A s → (α • 1 + ν) * val A s = 1 → ∃ y, lift (s.mul A (.mv x)) = .ok y ∧ WfMV A y ∧ (α • 1 + ν) * val A y = val A x := by
    intro s hs h
    obtain ⟨w, w1, w2, w3⟩ := product_gives hA hs hx
    exact ⟨w, by rw [MV.mul, MV.upcast]; simp [w1, lift_some], w2, by rw [w3, ← mul_assoc, h, one_mul]⟩
  rw [MV.normalized]
  simp only [normOptions, Dispatch.matchLoop, hT, Option.bind_eq_bind, Option.bind_some, e0, e1]
  cases c0 : T == ⟨[]⟩ with
  | true =>
    exfalso
    rw [val_empty (z2.trans (beq_iff_eq.1 c0))] at hzv
    obtain ⟨⟨p, i, i1, i2⟩, rfl : p = _⟩ := hu
    exact not_unit_of_square A i1 hzv.symm
  | false =>
  cases c1 : T == ⟨[0]⟩ with
  | true =>
    simp only [z1, lift_some, bind, Except.bind]
    obtain ⟨c, c2, c3⟩ := val_scalar z3 (z2.trans (beq_iff_eq.1 c1))
    rw [hzv, square_split hq] at c3
    have hc : c = α * α + κ := scalar_part_eq hA c3.symm (by rw [map_smul, h0, smul_zero]) (gradePart_zero_scalar hA c)
    rw [← hc] at c3
    have hν : ν = 0 := by
      have : (2 * α) • ν = 0 := by simpa using c3
      exact (smul_eq_zero.1 this).resolve_left (mul_ne_zero h2 hα.ne')
    have k0 : κ = 0 := smul_one_inj (A := A) (by rw [← hq, hν, zero_smul, mul_zero])
    rw [k0, add_zero] at hc
    obtain ⟨r, r1, r2, r3⟩ := hr.nonneg c (by rw [hc]; positivity)
    have hrα : r = α := nonneg_root_unique r2 hα.le (by rw [r3, hc])
    subst hrα
    rw [MV.inverseSquareRoot, (scalar_eq hA).1]
    simp only [lift_some, bind, Except.bind]
    rw [if_pos (z2.trans (beq_iff_eq.1 c1)), c2]
    simp only [List.mapM_cons, List.mapM_nil, bind, Except.bind, pure, Except.pure, MV.invSqrtVal, r1]
    rw [if_neg (by rw [hc]; exact (mul_pos hα hα).ne')]
    have e : z.copy [1 / r] = some ⟨⟨[0]⟩, [1 / r]⟩ := by
      rw [MV.copy, MV.construct, z2, beq_iff_eq.1 c1, if_pos (by simp)]
    simp only [e, lift_some]
    refine fin (s := ⟨⟨[0]⟩, [1 / r]⟩) ⟨wf_scalar, rfl⟩ ?_
    rw [hν, add_zero]
    simp only [val, denote, List.zipWith_cons_cons, List.zipWith_nil_left, List.sum_cons, List.sum_nil, blade_zero, add_zero]
    rw [smul_mul_smul_comm, one_mul, mul_one_div_cancel hα.ne', one_smul]
  | false =>
    rw [hs]
    simp only [z1, lift_some, bind, Except.bind]
    obtain ⟨w, w1, w2, w3⟩ := squareRoot_principal hA hr (fuel := fuel + 2) (by omega) z3 (z2 ▸ hs) hzv h0 hq hα hκ
    rw [w1]
    simp only
    obtain ⟨_, hsub, _⟩ := squareRoot_spec hA h2 hr.law (fuel + 1) z3 w1
    have hst := study_mono hA z3.sub w2.sub (z2 ▸ hs) hsub
    obtain ⟨i, i1⟩ := inverse_ok1 hA (fuel + 1) w2 (nsimple_study hA w2.sub hst) (w3 ▸ hu)
    rcases inverse_works1 hA fuel w2 (nsimple_study hA w2.sub hst) with ⟨i', i1', i2, i3⟩ | hd
    · rw [i1']
      exact fin i2 (w3 ▸ i3)
    · rw [hd] at i1; cases i1

/-- `motor_square_root` takes `u²` to `u` for a unit even `u` whose self-reverse part `(u + ~u) / 2` is `α + ν` with `α > 0`, `ν² < α²`. -/
theorem motorRoot_principal (hA : WfAlg A) (h5 : A.n < 6) {rt : Roots R} (hr : RealRoots rt) {fuel : Nat} (hf : 2 ≤ fuel) {m : MV R} (hm : WfMV A m)
    (he : EvenSub m.sub) {u : Cl A R} (hu : u * CliffordAlgebra.reverse u = 1) (hv : val A m = u * u) {α κ : R} {ν : Cl A R}
    (hw : u + CliffordAlgebra.reverse u = α • 1 + ν) (h0 : gradePart A R 0 ν = 0) (hq : ν * ν = κ • 1) (hα : 0 < α) (hκ : κ < α * α) :
    ∃ y, m.motorSquareRoot A rt fuel = .ok y ∧ WfMV A y ∧ EvenSub y.sub ∧ val A y = u := by
  have h2 : (2 : R) ≠ 0 := two_ne_zero
  obtain ⟨x, x1, x2, x3, x4⟩ := add_num_even hA hm he (1 : R)
  rw [one_smul] at x3
  have hu' := mul_eq_one_comm.1 hu
  set r := CliffordAlgebra.reverse u with hrd
  have hrr : CliffordAlgebra.reverse r = u := CliffordAlgebra.reverse_reverse u
  have hxv : val A x = (u + r) * u := by rw [x3, hv, add_mul, hu']
  have hxr : CliffordAlgebra.reverse (val A x) = r * (u + r) := by
    rw [hxv, CliffordAlgebra.reverse.map_mul, map_add, hrr, ← hrd, add_comm]
  have hN : val A x * CliffordAlgebra.reverse (val A x) = (α • 1 + ν) * (α • 1 + ν) := by
    rw [hxr, hxv, mul_assoc, ← mul_assoc u r, hu, one_mul, hw]
  obtain ⟨T, t1, _, t3⟩ := norm_study hA x2.sub (Or.inr ⟨by omega, 0, x4⟩)
  obtain ⟨y, y1, y2, y3⟩ := normalized_principal hA hr hf x2 t1 t3 hN h0 hq hα hκ
  refine ⟨y, ?_, y2, normalized_even hA h2 hr.law hf x2 x4 y1, ?_⟩
  · rw [MV.motorSquareRoot, (insideEven_iff hA hm.sub).2 he, x1]
    exact y1
  · rw [hxv, hw] at y3
    exact (unit_split (A := A) hq hκ).mul_left_cancel y3

end
end Verif
