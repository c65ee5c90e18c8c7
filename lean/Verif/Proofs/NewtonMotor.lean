import Verif.Proofs.NewtonLocal
import Verif.Props.InverseRoot
/-! # The motors `normalize_motor` of `numerical_normalize.py` applies to -/
namespace Verif.NewtonLocal
open Model Spec Model.Factory Props ExpMatrix
open scoped Matrix.Norms.Operator

variable {A : Alg}

/-- Even, and either below six dimensions or all of the even subspace. -/
def Fine (A : Alg) (S : SubSpace) : Prop := EvenSub S ∧ (A.n < 6 ∨ ∀ b < 2 ^ A.n, popcount b % 2 = 0 → b ∈ S.blades)

theorem triple5 : ∀ a v c : Fin 32, popcount a % 4 = 0 → popcount v % 4 = 0 → popcount c % 4 = 0 →
    popcount ((a : Nat) ^^^ v ^^^ c) % 4 = 0 → (a : Nat) ^^^ v ^^^ c = a ∨ (a : Nat) ^^^ v ^^^ c = v ∨ (a : Nat) ^^^ v ^^^ c = c := by decide +kernel

/-- The blades in the output of the sandwich are products of three blades. -/
theorem sandwich_xor (hA : WfAlg A) {S V : SubSpace} (hS : WfSub A S) (hV : WfSub A V) {s : Operator Int}
    (hs : fullSandwich A (.sub S) (.sub V) = some s) {b : Nat} (hb : b ∈ s.output.blades) :
    ∃ a ∈ S.blades, ∃ v ∈ V.blades, ∃ c ∈ S.blades, b = a ^^^ v ^^^ c := by
  obtain ⟨hlt, a, ha, v, hv, c, hc, hnz⟩ := fullSandwich_output hA hS hV hs hb
  refine ⟨a, ha, v, hv, c, hc, ?_⟩
  by_contra hne
  apply hnz
  have hx : a ^^^ v ^^^ c < 2 ^ A.n := Nat.xor_lt_two_pow (Nat.xor_lt_two_pow (hS.lt a ha) (hV.lt v hv)) (hS.lt c hc)
  have e : c ^^^ v ^^^ a = a ^^^ v ^^^ c := by rw [Nat.xor_comm c v, Nat.xor_assoc, Nat.xor_comm c a, ← Nat.xor_assoc, Nat.xor_comm v a]
  rw [map_add, reverse_blade, reverse_blade, mul_smul_comm, mul_smul_comm, blade_mul hA, smul_mul_assoc, blade_mul hA, blade_mul hA ℤ c, smul_mul_assoc,
    blade_mul hA, e]
  simp only [map_smul, coef_blade A ℤ hx, if_neg hne, smul_zero, add_zero]

theorem sandwich_mod4 (hA : WfAlg A) {S : SubSpace} (hS : WfSub A S) (hz : ∀ b ∈ S.blades, popcount b % 4 = 0) {s : Operator Int}
    (hs : fullSandwich A (.sub S) (.sub S) = some s) {b : Nat} (hb : b ∈ s.output.blades) : popcount b % 4 = 0 := by
  have h2 : popcount b % 2 = 0 := by
    obtain ⟨a, ha, v, hv, c, hc, rfl⟩ := sandwich_xor hA hS hS hs hb
    have := hz a ha
    have := hz v hv
    have := hz c hc
    exact even_xor (even_xor (by omega) (by omega)) (by omega)
  obtain ⟨hlt, a, ha, v, hv, c, hc, hnz⟩ := fullSandwich_output hA hS hS hs hb
  have hr : ∀ {d}, d ∈ S.blades → CliffordAlgebra.reverse (blade A ℤ d) = blade A ℤ d := by
    intro d hd
    have := hz d hd
    rw [reverse_blade, ← popcount_of_lt hA.le32 (hS.lt d hd), neg_one_pow_mod, if_pos (by omega), one_smul]
  rw [hr ha, hr hc] at hnz
  by_contra h4
  apply hnz
  have e := coef_reverse hA ℤ hlt (blade A ℤ a * blade A ℤ v * blade A ℤ c + blade A ℤ c * blade A ℤ v * blade A ℤ a)
  rw [map_add (CliffordAlgebra.reverse), CliffordAlgebra.reverse.map_mul, CliffordAlgebra.reverse.map_mul, CliffordAlgebra.reverse.map_mul, CliffordAlgebra.reverse.map_mul,
    hr ha, hr hv, hr hc, ← mul_assoc, ← mul_assoc, add_comm, neg_one_pow_mod, if_neg (by omega), neg_one_mul] at e
  omega

theorem fine_solvable (hA : WfAlg A) {m : MV ℝ} (hm : WfMV A m) (hf : Fine A m.sub) :
    ∃ z, m.symmetricReverse A = some z ∧ WfMV A z ∧ val A z = val A m * CliffordAlgebra.reverse (val A m) ∧
      (∀ b ∈ z.sub.blades, popcount b % 4 = 0) ∧ (0 ∈ z.sub.blades → ∃ op, Solvable A z.sub op) := by
  obtain ⟨⟨T, t1, t2, t3, t4⟩, _⟩ := selfProduct_even hA hm.sub hf.1
  obtain ⟨z, z1, zT, z2, z3⟩ := symmetricReverse_in hA hm t1
  have z5 : ∀ b ∈ z.sub.blades, pc A.n b % 4 = 0 := zT ▸ t4
  have hz : ∀ b ∈ z.sub.blades, popcount b % 4 = 0 := fun b hb => by rw [popcount_of_lt hA.le32 (z2.sub.lt b hb)]; exact z5 b hb
  refine ⟨z, z1, z2, z3, hz, fun h0 => ?_⟩
  obtain ⟨op, o1, o2, -, -⟩ := fullSandwich_polar hA z2.sub z2.sub
  refine ⟨op, z2.sub, h0, o1, (fullSandwich_same hA z2.sub h0 o1).2 fun b hb => ?_, fun b hb => by rw [hz b hb]; omega⟩
  have hlt := o2.wf_output.lt b hb
  have h4 : popcount b % 4 = 0 := sandwich_mod4 hA z2.sub hz o1 hb
  rcases hf.2 with h6 | hall
  · obtain ⟨a, ha, v, hv, c, hc, rfl⟩ := sandwich_xor hA z2.sub z2.sub o1 hb
    have hle : 2 ^ A.n ≤ 2 ^ 5 := Nat.pow_le_pow_right (by norm_num) (by omega)
    rcases triple5 ⟨a, (z2.sub.lt a ha).trans_le hle⟩ ⟨v, (z2.sub.lt v hv).trans_le hle⟩ ⟨c, (z2.sub.lt c hc).trans_le hle⟩ (hz a ha) (hz v hv) (hz c hc) h4
      with e | e | e
    · exact e ▸ ha
    · exact e ▸ hv
    · exact e ▸ hc
  · by_cases hb0 : b = 0
    · rwa [hb0]
    have hbm := hall b hlt (by omega)
    have h0m := hall 0 (Nat.two_pow_pos _) (by decide)
    obtain ⟨u, u1, u2, u3⟩ : Within A m.sub (1 + blade A ℝ b) := by
      have := within_blade (R := ℝ) hm.sub h0m
      rw [blade_zero] at this
      exact this.add hm.sub (within_blade hm.sub hbm)
    obtain ⟨w, w1, wT, w2, w3⟩ := symmetricReverse_in hA u1 (u2 ▸ t1)
    have hw : w.sub = z.sub := wT.trans zT.symm
    by_contra hn
    have := (within_iff w2.sub).1 w2.within b hlt (hw ▸ hn)
    rw [w3, u3, map_add, CliffordAlgebra.reverse.map_one, reverse_blade, ← popcount_of_lt hA.le32 hlt, neg_one_pow_mod, if_pos (by omega), one_smul, mul_add, mul_one, add_mul,
      one_mul, map_add, map_add, map_add, blade_mul hA, Nat.xor_self, map_smul, coef_blade A ℝ hlt, if_pos rfl, ← blade_zero, coef_blade A ℝ (Nat.two_pow_pos _), if_neg hb0] at this
    norm_num at this

theorem mul_fine (hA : WfAlg A) {x m : MV ℝ} (hx : WfMV A x) (h0 : 0 ∈ x.sub.blades) (he : EvenSub x.sub) (hm : WfMV A m) (hf : Fine A m.sub) :
    ∃ w, x.mul A (.mv m) = some w ∧ WfMV A w ∧ val A w = val A x * val A m ∧ Fine A w.sub := by
  obtain ⟨w, w1, w2, w3⟩ := product_gives hA hx hm
  refine ⟨w, by rw [MV.mul, MV.upcast]; simpa using w1, w2, w3, product_even hA hx hm he hf.1 w1, hf.2.imp id fun h b hb h2 => ?_⟩
  rw [MV.product] at w1
  obtain ⟨op, o1, _⟩ := product_bin hA (argSem_sub hx.sub) (argSem_sub hm.sub)
  rw [o1] at w1
  obtain ⟨U, u1, _, u3⟩ := product_space hA hx.sub hm.sub
  rw [SubSpace.product, o1] at u1
  rw [call_sub w1, show op.output = U by simpa using u1]
  refine (u3 b).2 ⟨0, h0, b, h b hb h2, Nat.zero_xor b, fun e => ?_⟩
  have := blade_mul hA ℤ 0 b
  rw [e, blade_zero, one_mul, Int.cast_zero, zero_smul] at this
  have := congrArg (coef A ℤ b) this
  rw [coef_blade A ℤ hb, if_pos rfl, map_zero] at this
  exact one_ne_zero this

/-- The scalar normalisation in `normalize_motor`. -/
theorem scalar_norm (hA : WfAlg A) {rt : Roots ℝ} (hr : RealRoots rt) {m : MV ℝ} (hm : WfMV A m) (hf : Fine A m.sub)
    (h0 : 0 < coef A ℝ 0 (val A m * CliffordAlgebra.reverse (val A m))) (fuel inner outer : Nat) :
    ∃ m', WfMV A m' ∧ Fine A m'.sub ∧ val A m' = (Real.sqrt (coef A ℝ 0 (val A m * CliffordAlgebra.reverse (val A m))))⁻¹ • val A m ∧
      m.normalizeNumerical A rt fuel inner outer true = lift (m'.sandwichLoop A inner outer) := by
  obtain ⟨z, z1, z2, z3, -, -⟩ := fine_solvable hA hm hf
  obtain ⟨⟨y, y1, y2, y3, y4⟩, -⟩ := C25_grades hA z2 (gs := [0]) (ks := [0]) (.cons ⟨by omega, .inl rfl⟩ .nil) (by simp) (by simp)
  have hys : y.sub = ⟨[0]⟩ := by
    refine y3.sub.ext wf_scalar fun b => ?_
    rw [y2.2 b, List.mem_singleton]
    simp only [List.mem_singleton]
    constructor
    · rintro ⟨hb, h⟩
      exact (popcount_eq_zero hA.le32 hb).1 h
    · rintro rfl
      exact ⟨Nat.two_pow_pos _, by decide⟩
  obtain ⟨c, c2, c3⟩ := val_scalar y3 hys
  have hc : c = coef A ℝ 0 (val A m * CliffordAlgebra.reverse (val A m)) := by
    have := y4 0
    rw [if_pos (by decide), coeff_eq z2, coeff_eq y3, c3, z3, map_smul, ← blade_zero, coef_blade A ℝ (Nat.two_pow_pos _), if_pos rfl] at this
    simpa using this
  rw [← hc] at h0 ⊢
  obtain ⟨r, r1, r2, r3⟩ := hr.nonneg c h0.le
  have hrc : r = Real.sqrt c := by rw [← r3, Real.sqrt_mul_self r2]
  have e1 : y.inverseSquareRoot A rt fuel = .ok ⟨⟨[0]⟩, [1 / r]⟩ := by
    rw [MV.inverseSquareRoot, (scalar_eq hA).1]
    simp only [lift_some, bind, Except.bind]
    rw [if_pos hys, c2]
    simp only [List.mapM_cons, List.mapM_nil, bind, Except.bind, pure, Except.pure, MV.invSqrtVal, r1]
    rw [if_neg h0.ne']
    have e : y.copy [1 / r] = some ⟨⟨[0]⟩, [1 / r]⟩ := by rw [MV.copy, MV.construct, hys, if_pos (by simp)]
    simp only [e, lift_some]
  have wi : WfMV A (⟨⟨[0]⟩, [1 / r]⟩ : MV ℝ) := ⟨wf_scalar, rfl⟩
  obtain ⟨w, w1, w2, w3⟩ := product_gives hA hm wi
  refine ⟨w, w2, ⟨product_even hA hm wi hf.1 evenSub_scalar w1, hf.2.imp id fun h b hb h2 => ?_⟩, ?_, ?_⟩
  · rw [MV.product] at w1
    obtain ⟨op, o1, _⟩ := product_bin hA (argSem_sub hm.sub) (argSem_sub wi.sub)
    rw [o1] at w1
    obtain ⟨U, u1, _, u3⟩ := product_space hA hm.sub wi.sub
    rw [SubSpace.product, o1] at u1
    rw [call_sub w1, show op.output = U by simpa using u1]
    refine (u3 b).2 ⟨b, h b hb h2, 0, by simp, Nat.xor_zero b, fun e => ?_⟩
    have := blade_mul hA ℤ b 0
    rw [e, blade_zero, mul_one, Int.cast_zero, zero_smul] at this
    have := congrArg (coef A ℤ b) this
    rw [coef_blade A ℤ hb, if_pos rfl, map_zero] at this
    exact one_ne_zero this
  · rw [w3, ← hrc]
    simp only [val, denote, List.zipWith_cons_cons, List.zipWith_nil_left, List.sum_cons, List.sum_nil, blade_zero, add_zero]
    rw [mul_smul_comm, mul_one, one_div]
  · have e2 : m.mul A (.mv ⟨⟨[0]⟩, [1 / r]⟩) = some w := by rw [MV.mul, MV.upcast]; simpa using w1
    simp only [MV.normalizeNumerical, if_true, z1, lift_some, bind, Except.bind, y1, e1, e2]

theorem sandwichLoop_succ (inner n : Nat) (m : MV ℝ) : m.sandwichLoop A inner (n + 1) =
    (m.symmetricReverse A).bind fun z => (z.inverseSandwich A inner).bind fun s => (s.mul A (.mv m)).bind (MV.sandwichLoop A inner n) := by
  rw [MV.sandwichLoop]
  cases m.symmetricReverse A <;> rfl

/-- One pass of the outer loop, given what `inverse_sandwich` returns. -/
theorem outer_step (hA : WfAlg A) {m : MV ℝ} (hm : WfMV A m) (hf : Fine A m.sub) {z : MV ℝ} (hz : WfMV A z)
    (hv : val A z = val A m * CliffordAlgebra.reverse (val A m)) (h4 : ∀ b ∈ z.sub.blades, popcount b % 4 = 0)
    (h0 : 0 ∈ z.sub.blades) {x : MV ℝ} (hx : WfMV A x) (hxs : x.sub = z.sub) :
    ∃ w, x.mul A (.mv m) = some w ∧ WfMV A w ∧ Fine A w.sub ∧ val A w = val A x * val A m ∧
      (CliffordAlgebra.reverse (val A x) = val A x → val A w * CliffordAlgebra.reverse (val A w) = val A x * val A z * val A x) := by
  obtain ⟨w, w1, w2, w3, w4⟩ := mul_fine hA hx (hxs ▸ h0) (fun b hb => by have := h4 b (hxs ▸ hb); omega) hm hf
  refine ⟨w, w1, w2, w4, w3, fun h => ?_⟩
  rw [w3, CliffordAlgebra.reverse.map_mul, h, hv]
  simp only [mul_assoc]

theorem coef_le (Y : Cl A ℝ) {b : Nat} (hb : b < 2 ^ A.n) : |coef A ℝ b Y| ≤ ‖mat A Y‖ := by
  have := entry_le (mat A Y) ⟨b, hb⟩ (zero A)
  rwa [mat_zero] at this

theorem mat_le (hA : WfAlg A) (Y : Cl A ℝ) : ‖mat A Y‖ ≤ ∑ b ∈ Finset.range (2 ^ A.n), |coef A ℝ b Y| := by
  conv_lhs => rw [sum_coef A ℝ Y, map_sum]
  refine (norm_sum_le _ _).trans (Finset.sum_le_sum fun b hb => ?_)
  rw [map_smul, norm_smul, Real.norm_eq_abs]
  exact mul_le_of_le_one_right (abs_nonneg _) (mat_blade hA (Finset.mem_range.1 hb))

theorem zero_mem_of_near {z : MV ℝ} (hz : WfMV A z) {ρ : ℝ} (h : ‖mat A (val A z) - 1‖ ≤ ρ) (h1 : ρ < 1) : 0 ∈ z.sub.blades := by
  by_contra hn
  have h2 := coef_le (val A z - 1) (b := 0) (Nat.two_pow_pos _)
  have h3 := (within_iff hz.sub).1 hz.within 0 (Nat.two_pow_pos _) hn
  rw [map_sub, h3, ← blade_zero, coef_blade A ℝ (Nat.two_pow_pos _), if_pos rfl, blade_zero, map_sub, map_one] at h2
  norm_num at h2
  linarith

/-- The outer loop near the solution. -/
theorem outer_local (hA : WfAlg A) (inner n : Nat) {m : MV ℝ} (hm : WfMV A m) (hf : Fine A m.sub) {ρ : ℝ} (hρ : ρ ≤ 1 / 4)
    (hr : ‖mat A (val A m * CliffordAlgebra.reverse (val A m)) - 1‖ ≤ ρ) :
    ∃ w, m.sandwichLoop A inner n = some w ∧ WfMV A w ∧
      ‖mat A (val A w * CliffordAlgebra.reverse (val A w)) - 1‖ ≤ 3 * (ρ / 3) ^ 2 ^ (inner * n) := by
  have h0 : 0 ≤ ρ := (norm_nonneg _).trans hr
  induction n generalizing m ρ with
  | zero => exact ⟨m, rfl, hm, by rw [mul_zero, pow_zero, pow_one, mul_div_cancel₀ _ (by norm_num)]; exact hr⟩
  | succ n ih =>
    obtain ⟨z, z1, z2, z3, z4, z5⟩ := fine_solvable hA hm hf
    rw [← z3] at hr
    have z0 := zero_mem_of_near z2 hr (by linarith)
    obtain ⟨op, G⟩ := z5 z0
    obtain ⟨q, hq, -⟩ := newton_eq hA z2 G
    obtain ⟨d1, d2⟩ := C45_default (A := A) (R := ℝ) z2.sub
    rw [if_pos G.zero] at d2
    obtain ⟨x, x1, x2, x3, x4, x5⟩ := loop_local hA z2 G hq inner d1 rfl (by rw [d2]; exact one_mem _) hρ (by rwa [d2, one_mul, mul_one])
      (by rw [d2, one_mul]; linarith)
    have e : z.inverseSandwich A inner = some x := by
      rw [← x1]
      simp only [MV.inverseSandwich, G.built, Option.bind_eq_bind, Option.bind_some, G.out, ne_eq, not_true, if_false, hq]
      rfl
    obtain ⟨w, w1, w2, w3, w4, w5⟩ := outer_step hA hm hf z2 z3 z4 z0 x2 x3
    rw [← w5 (G.reverse hA (x3 ▸ x2.within))] at x5
    have hb : 3 * (ρ / 3) ^ 2 ^ inner ≤ ρ := by
      have : (ρ / 3) ^ 2 ^ inner ≤ (ρ / 3) ^ 1 := pow_le_pow_of_le_one (by positivity) (by linarith) Nat.one_le_two_pow
      linarith
    obtain ⟨y, y1, y2, y3⟩ := ih w2 w3 (hb.trans hρ) x5 (by positivity)
    refine ⟨y, by rw [sandwichLoop_succ, z1, Option.bind_some, e, Option.bind_some, w1, Option.bind_some, y1], y2, y3.trans (le_of_eq ?_)⟩
    rw [mul_div_cancel_left₀ _ (by norm_num : (3 : ℝ) ≠ 0), ← pow_mul, ← pow_add]
    ring_nf

/-- The outer loop from a motor whose norm squared is not far from one. -/
theorem outer_far (hA : WfAlg A) {inner outer : Nat} (hi : 0 < inner) (ho : 0 < outer) {m : MV ℝ} (hm : WfMV A m) (hf : Fine A m.sub)
    (hr : ‖mat A (val A m * CliffordAlgebra.reverse (val A m)) - 1‖ ≤ 3 / 5) :
    ∃ w, m.sandwichLoop A inner outer = some w ∧ WfMV A w ∧
      ‖mat A (val A w * CliffordAlgebra.reverse (val A w)) - 1‖ ≤ 3 * (3 / 40) ^ 2 ^ (inner * outer - 1) := by
  obtain ⟨outer, rfl⟩ : ∃ n, outer = n + 1 := ⟨outer - 1, by omega⟩
  obtain ⟨z, z1, z2, z3, z4, z5⟩ := fine_solvable hA hm hf
  rw [← z3] at hr
  have z0 := zero_mem_of_near z2 hr (by norm_num)
  obtain ⟨op, G⟩ := z5 z0
  obtain ⟨x, x1, x2, x3, x4, x5, -⟩ := inverse_local hA z2 G hr inner
  replace x5 := x5 hi
  obtain ⟨w, w1, w2, w3, w4, w5⟩ := outer_step hA hm hf z2 z3 z4 z0 x2 x3
  rw [← w5 (G.reverse hA (x3 ▸ x2.within))] at x5
  have hb : 3 * ((3 : ℝ) / 40) ^ 2 ^ (inner - 1) ≤ 1 / 4 := by
    have : ((3 : ℝ) / 40) ^ 2 ^ (inner - 1) ≤ (3 / 40) ^ 1 := pow_le_pow_of_le_one (by norm_num) (by norm_num) Nat.one_le_two_pow
    linarith
  obtain ⟨y, y1, y2, y3⟩ := outer_local hA inner outer w2 w3 hb x5
  refine ⟨y, by rw [sandwichLoop_succ, z1, Option.bind_some, x1, Option.bind_some, w1, Option.bind_some, y1], y2, y3.trans (le_of_eq ?_)⟩
  rw [mul_div_cancel_left₀ _ (by norm_num : (3 : ℝ) ≠ 0), ← pow_mul, ← pow_add]
  congr 3
  rw [mul_add]
  omega

end Verif.NewtonLocal
