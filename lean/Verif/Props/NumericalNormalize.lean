import Verif.Proofs.NewtonGlobal
import Verif.Props.InverseLimits
/-! # C84, C85: normalisation by Newton's iteration (`numerical_normalize.py`) -/
namespace Verif.Props
open Model Spec ExpMatrix NewtonLocal NewtonGlobal StudyNewton
open scoped Matrix.Norms.Operator

variable {A : Alg}

section
variable {F : Type} [Field F] [LinearOrder F] [IsStrictOrderedRing F]

/-- C84: a step of `inverse_sandwich` is the Newton step of `x s ~x = rhs`: it raises exactly if the linearised equation has a kernel, and
otherwise returns the solution of the linearised equation in the subspace of `s`. -/
theorem C84_step (hA : WfAlg A) {s : MV F} (hs : WfMV A s) {op : Operator Int} (hop : Factory.fullSandwich A (.sub s.sub) (.sub s.sub) = some op)
    (hout : op.output = s.sub) :
    ∃ q, (op.cast F).partialApply [(1, s)] = some q ∧ ∀ x rhs : MV F, WfMV A x → x.sub = s.sub → WfMV A rhs → rhs.sub = s.sub →
      (newtonStep A q s.sub rhs x = none ↔ ∃ y : MV F, WfMV A y ∧ y.sub = s.sub ∧ val A y ≠ 0 ∧
        val A x * val A s * CliffordAlgebra.reverse (val A y) + val A y * val A s * CliffordAlgebra.reverse (val A x) = 0) ∧
      ∀ x', newtonStep A q s.sub rhs x = some x' → WfMV A x' ∧ x'.sub = s.sub ∧
        val A x * val A s * CliffordAlgebra.reverse (val A x') + val A x' * val A s * CliffordAlgebra.reverse (val A x) =
          val A x * val A s * CliffordAlgebra.reverse (val A x) + val A rhs :=
  newton_step hA hs hop hout

/-- C84: a solution of `x s ~x = rhs` stays where it is. -/
theorem C84_fixed (hA : WfAlg A) {s : MV F} (hs : WfMV A s) {op : Operator Int} (hop : Factory.fullSandwich A (.sub s.sub) (.sub s.sub) = some op)
    (hout : op.output = s.sub) {q : Operator F} (hq : (op.cast F).partialApply [(1, s)] = some q) {x x' rhs : MV F} (hx : WfMV A x)
    (hxs : x.sub = s.sub) (hr : WfMV A rhs) (hrs : rhs.sub = s.sub)
    (h : val A x * val A s * CliffordAlgebra.reverse (val A x) = val A rhs) (h' : newtonStep A q s.sub rhs x = some x') :
    val A x' = val A x := by
  obtain ⟨q', q1, q2⟩ := newton_step hA hs hop hout
  cases hq.symm.trans q1
  obtain ⟨n1, n2⟩ := q2 x rhs hx hxs hr hrs
  obtain ⟨y1, y2, y3⟩ := n2 x' h'
  by_contra hne
  obtain ⟨d, d1, d2, d3⟩ : Within A s.sub (val A x' - val A x) := by
    have := (y2 ▸ y1.within).add hs.sub ((hxs ▸ hx.within).smul hs.sub (-1 : F))
    rwa [neg_smul, one_smul, ← sub_eq_add_neg] at this
  have := n1.2 ⟨d, d1, d2, by rw [d3]; exact sub_ne_zero.2 hne, by
    rw [d3, map_sub, mul_sub, sub_mul, sub_mul]
    rw [← h] at y3
    rw [← sub_eq_zero] at y3
    rw [← y3]
    abel⟩
  rw [h'] at this
  cases this

end

/-- C84: near one `inverse_sandwich` returns a self-reverse element `x` commuting with `s`, and `x s x` tends to one quadratically; in every
dimension, for subspaces that pass its assertion. -/
theorem C84_converges (hA : WfAlg A) {s : MV ℝ} (hs : WfMV A s) (h0 : 0 ∈ s.sub.blades) (hr : ∀ b ∈ s.sub.blades, popcount b % 4 ≤ 1)
    {op : Operator Int} (hop : Factory.fullSandwich A (.sub s.sub) (.sub s.sub) = some op) (hout : op.output = s.sub)
    (h : ∑ b ∈ Finset.range (2 ^ A.n), |coef A ℝ b (val A s - 1)| ≤ 3 / 5) (n : Nat) :
    ∃ x, s.inverseSandwich A n = some x ∧ WfMV A x ∧ x.sub = s.sub ∧ CliffordAlgebra.reverse (val A x) = val A x ∧
      val A x * val A s = val A s * val A x ∧
      (0 < n → ∀ b < 2 ^ A.n, |coef A ℝ b (val A x * val A s * val A x - 1)| ≤ 3 * (3 / 40) ^ 2 ^ (n - 1)) := by
  have G : Solvable A s.sub op := ⟨hs.sub, h0, hop, hout, hr⟩
  obtain ⟨x, x1, x2, x3, x4, x5, -⟩ := inverse_local hA hs G (by
    have := mat_le hA (val A s - 1)
    rw [map_sub, map_one] at this
    exact this.trans h) n
  refine ⟨x, x1, x2, x3, G.reverse hA (x3 ▸ x2.within), Pol.comm x4 (Pol.self _), fun hn b hb => (coef_le _ hb).trans ?_⟩
  rw [map_sub, map_one]
  exact x5 hn

/-- C84: the assertion of `inverse_sandwich` holds for `m ~m` if `m` is even and either below six dimensions or over the whole even
subspace. -/
theorem C84_domain (hA : WfAlg A) {m : MV ℝ} (hm : WfMV A m) (he : ∀ b ∈ m.sub.blades, popcount b % 2 = 0)
    (hd : A.n < 6 ∨ ∀ b < 2 ^ A.n, popcount b % 2 = 0 → b ∈ m.sub.blades) :
    ∃ z, m.symmetricReverse A = some z ∧ WfMV A z ∧ val A z = val A m * CliffordAlgebra.reverse (val A m) ∧
      (∀ b ∈ z.sub.blades, popcount b % 4 = 0) ∧
      (0 ∈ z.sub.blades → ∃ op, Factory.fullSandwich A (.sub z.sub) (.sub z.sub) = some op ∧ op.output = z.sub) := by
  obtain ⟨z, z1, z2, z3, z4, z5⟩ := fine_solvable hA hm ⟨he, hd⟩
  exact ⟨z, z1, z2, z3, z4, fun h => (z5 h).imp fun op G => ⟨G.built, G.out⟩⟩

/-- C84: on such motors `normalize_motor` converges if the part of `m ~m` other than the scalar `a` is small: at most three fifths of `a`. -/
theorem C84_normalize (hA : WfAlg A) {rt : Roots ℝ} (hr : RealRoots rt) (fuel : Nat) {inner outer : Nat} (hi : 0 < inner) (ho : 0 < outer)
    {m : MV ℝ} (hm : WfMV A m) (he : ∀ b ∈ m.sub.blades, popcount b % 2 = 0)
    (hd : A.n < 6 ∨ ∀ b < 2 ^ A.n, popcount b % 2 = 0 → b ∈ m.sub.blades) {a : ℝ} (ha : 0 < a)
    (h0 : coef A ℝ 0 (val A m * CliffordAlgebra.reverse (val A m)) = a)
    (h : ∑ b ∈ Finset.range (2 ^ A.n), |coef A ℝ b (val A m * CliffordAlgebra.reverse (val A m) - a • 1)| ≤ 3 / 5 * a) :
    ∃ w, m.normalizeNumerical A rt fuel inner outer true = .ok w ∧ WfMV A w ∧
      ∀ b < 2 ^ A.n, |coef A ℝ b (val A w * CliffordAlgebra.reverse (val A w) - 1)| ≤ 3 * (3 / 40) ^ 2 ^ (inner * outer - 1) := by
  obtain ⟨m', m1, m2, m3, m4⟩ := scalar_norm hA hr hm ⟨he, hd⟩ (h0 ▸ ha) fuel inner outer
  rw [h0] at m3
  have e : val A m' * CliffordAlgebra.reverse (val A m') = a⁻¹ • (val A m * CliffordAlgebra.reverse (val A m)) := by
    rw [m3, map_smul, smul_mul_smul_comm, ← _root_.mul_inv, Real.mul_self_sqrt ha.le]
  obtain ⟨w, w1, w2, w3⟩ := outer_far hA hi ho m1 m2 (by
    have := mat_le hA (val A m * CliffordAlgebra.reverse (val A m) - a • 1)
    have e' : mat A (val A m' * CliffordAlgebra.reverse (val A m')) - 1 = a⁻¹ • mat A (val A m * CliffordAlgebra.reverse (val A m) - a • 1) := by
      rw [e, ← map_one (mat A), ← map_sub, ← map_smul, smul_sub, smul_smul, inv_mul_cancel₀ ha.ne', one_smul]
    rw [e', norm_smul, norm_inv, Real.norm_eq_abs, abs_of_pos ha, inv_mul_le_iff₀ ha, mul_comm a]
    exact this.trans h)
  refine ⟨w, by rw [m4, w1]; rfl, w2, fun b hb => (coef_le _ hb).trans ?_⟩
  rw [map_sub, map_one]
  exact w3

/-- C84: the same without taking out the scalar norm first. -/
theorem C84_normalize_raw (hA : WfAlg A) (rt : Roots ℝ) (fuel : Nat) {inner outer : Nat} (hi : 0 < inner) (ho : 0 < outer)
    {m : MV ℝ} (hm : WfMV A m) (he : ∀ b ∈ m.sub.blades, popcount b % 2 = 0)
    (hd : A.n < 6 ∨ ∀ b < 2 ^ A.n, popcount b % 2 = 0 → b ∈ m.sub.blades)
    (h : ∑ b ∈ Finset.range (2 ^ A.n), |coef A ℝ b (val A m * CliffordAlgebra.reverse (val A m) - 1)| ≤ 3 / 5) :
    ∃ w, m.normalizeNumerical A rt fuel inner outer false = .ok w ∧ WfMV A w ∧
      ∀ b < 2 ^ A.n, |coef A ℝ b (val A w * CliffordAlgebra.reverse (val A w) - 1)| ≤ 3 * (3 / 40) ^ 2 ^ (inner * outer - 1) := by
  obtain ⟨w, w1, w2, w3⟩ := outer_far hA hi ho hm ⟨he, hd⟩ (by
    have := mat_le hA (val A m * CliffordAlgebra.reverse (val A m) - 1)
    rw [map_sub, map_one] at this
    exact this.trans h)
  refine ⟨w, by rw [MV.normalizeNumerical]; simp only [Bool.false_eq_true, if_false, bind, Except.bind, w1]; rfl, w2,
    fun b hb => (coef_le _ hb).trans ?_⟩
  rw [map_sub, map_one]
  exact w3

/-- Six dimensional Euclidean algebra. -/
def euc6 : Alg := ⟨⟨["a".toList, "b".toList, "c".toList, "d".toList, "e".toList, "f".toList], [1, 1, 1, 1, 1, 1]⟩, 1, 1⟩

theorem euc6_loop {R : Type} [Field R] [DecidableEq R] {m : MV R} (hs : m.sub = ⟨[0, 3, 48, 15]⟩) (inner outer : Nat) :
    m.sandwichLoop euc6 inner (outer + 1) = none := by
  rw [MV.sandwichLoop]
  cases hz : m.symmetricReverse euc6 with
  | none => rfl
  | some z =>
    have h1 : (Factory.symmetricReverse euc6 (.sub ⟨[0, 3, 48, 15]⟩)).map (·.output) = some ⟨[0, 15, 51]⟩ := by decide +kernel
    have h2 : (Factory.fullSandwich euc6 (.sub ⟨[0, 15, 51]⟩) (.sub ⟨[0, 15, 51]⟩)).map (·.output) = some ⟨[0, 15, 51, 60]⟩ := by decide +kernel
    rw [MV.symmetricReverse, hs] at hz
    obtain ⟨op, o1, o2⟩ := Option.map_eq_some_iff.1 h1
    rw [o1] at hz
    have hzs : z.sub = ⟨[0, 15, 51]⟩ := (call_sub hz).trans o2
    obtain ⟨op', o3, o4⟩ := Option.map_eq_some_iff.1 h2
    have : z.inverseSandwich euc6 inner = none := by
      rw [MV.inverseSandwich]
      simp only [hzs, o3, Option.bind_eq_bind, Option.bind_some, o4]
      rw [if_pos (by decide)]
    simp [this]

/-- C84: outside this domain the assertion can fail: on the even subspace `1, ab, ef, abcd` of six dimensional Euclidean space `m ~m` has the
blades `1, abcd, abef`, of which the product is not one, and `normalize_motor` raises for every motor. -/
theorem C84_raises {R : Type} [Field R] [DecidableEq R] (rt : Roots R) (fuel : Nat) {m : MV R} (hs : m.sub = ⟨[0, 3, 48, 15]⟩) (inner : Nat) {outer : Nat}
    (ho : 0 < outer) (w : MV R) : m.normalizeNumerical euc6 rt fuel inner outer false ≠ .ok w := by
  obtain ⟨outer, rfl⟩ : ∃ n, outer = n + 1 := ⟨outer - 1, by omega⟩
  rw [MV.normalizeNumerical]
  simp only [Bool.false_eq_true, if_false, bind, Except.bind, euc6_loop hs]
  intro h
  cases h

example : (∀ b ∈ [0, 3, 48, 15], popcount b % 2 = 0) ∧ WfSub euc6 ⟨[0, 3, 48, 15]⟩ := ⟨by decide, wfSub_of_B (by decide +kernel)⟩

/-! ### below six dimensions -/

/-- C85: below six dimensions `m ~m` is a scalar `a` and a part `q` whose square is a scalar. -/
theorem C85_split (hA : WfAlg A) (h5 : A.n < 6) {m : MV ℝ} (hm : WfMV A m) (he : ∀ b ∈ m.sub.blades, popcount b % 2 = 0) :
    ∃ (a μ : ℝ) (q : Cl A ℝ), val A m * CliffordAlgebra.reverse (val A m) = a • 1 + q ∧ coef A ℝ 0 q = 0 ∧ q * q = μ • 1 := by
  have ie : CliffordAlgebra.involute (val A m) = val A m := even_within hA hm.sub he hm.within
  obtain ⟨κ, ν, e1, e2, e3⟩ := study_split hA h5 two_ne_zero (w := val A m * CliffordAlgebra.reverse (val A m))
    (by rw [CliffordAlgebra.reverse.map_mul, CliffordAlgebra.reverse_reverse])
    (by rw [map_mul, ← CliffordAlgebra.reverse_involute_commute (val A m), ie])
  refine ⟨_, κ, ν, e1, ?_, e3⟩
  have := congrArg (coef A ℝ 0) e1
  rw [map_add, map_smul, coef_zero_one, smul_eq_mul, mul_one] at this
  linarith

theorem quad_of (hA : WfAlg A) {m : MV ℝ} (hm : WfMV A m) (he : ∀ b ∈ m.sub.blades, popcount b % 2 = 0) {a μ : ℝ} {q : Cl A ℝ}
    (hv : val A m * CliffordAlgebra.reverse (val A m) = a • 1 + q) (h0 : coef A ℝ 0 q = 0) (hq : q * q = μ • 1) : Quad A μ q := by
  have ie : CliffordAlgebra.involute (val A m) = val A m := even_within hA hm.sub he hm.within
  refine ⟨?_, ?_, h0, hq⟩
  · have := congrArg CliffordAlgebra.reverse hv
    rw [CliffordAlgebra.reverse.map_mul, CliffordAlgebra.reverse_reverse, hv, map_add, map_smul, CliffordAlgebra.reverse.map_one] at this
    exact (add_left_cancel this).symm
  · have := congrArg CliffordAlgebra.involute hv
    rw [map_mul, ← CliffordAlgebra.reverse_involute_commute (val A m), ie, hv, map_add, map_smul, map_one] at this
    exact (add_left_cancel this).symm

/-- C85: there `normalize_motor` converges whenever `a > 0` and `q² < a²`: it never raises, and the result tends to a unit motor, with an
error squared in each iteration from some point on. -/
theorem C85_converges (hA : WfAlg A) (h5 : A.n < 6) {rt : Roots ℝ} (hr : RealRoots rt) (fuel : Nat) {m : MV ℝ} (hm : WfMV A m)
    (he : ∀ b ∈ m.sub.blades, popcount b % 2 = 0) {a μ : ℝ} {q : Cl A ℝ} (hv : val A m * CliffordAlgebra.reverse (val A m) = a • 1 + q)
    (h0 : coef A ℝ 0 q = 0) (hq : q * q = μ • 1) (ha : 0 < a) (hμ : μ < a * a) (scalarNorm : Bool) :
    ∃ (C : ℝ) (n0 : Nat), ∀ inner outer, ∃ w, m.normalizeNumerical A rt fuel inner outer scalarNorm = .ok w ∧ WfMV A w ∧
      ∀ n, inner * outer = n0 + n → ∀ b < 2 ^ A.n, |coef A ℝ b (val A w * CliffordAlgebra.reverse (val A w) - 1)| ≤ C * (1 / 2) ^ 2 ^ n := by
  have Q := quad_of hA hm he hv h0 hq
  cases scalarNorm
  · have hp : Pos (⟨a, 1⟩ : K μ) := ⟨ha, by rw [nm_eq]; simpa using hμ⟩
    obtain ⟨C, n0, hC⟩ := coef_rate Q hp
    refine ⟨C, n0, fun inner outer => ?_⟩
    obtain ⟨w, w1, w2, w3⟩ := outer_global hA h5 Q inner outer hm ⟨he, .inl h5⟩ (τ := ⟨a, 1⟩) (by rw [emb_eq, hv, one_smul]) hp
    exact ⟨w, by rw [MV.normalizeNumerical]; simp only [Bool.false_eq_true, if_false, bind, Except.bind, w1]; rfl, w2,
      fun n e b hb => by rw [w3, e]; exact hC n b hb⟩
  · have hp : Pos (⟨1, a⁻¹⟩ : K μ) := ⟨one_pos, by
      rw [nm_eq]
      have : μ * a⁻¹ * a⁻¹ < 1 := by
        rw [mul_assoc, ← _root_.mul_inv, ← div_eq_mul_inv, div_lt_one (by positivity)]
        exact hμ
      simpa using this⟩
    obtain ⟨C, n0, hC⟩ := coef_rate Q hp
    refine ⟨C, n0, fun inner outer => ?_⟩
    have c0 : coef A ℝ 0 (val A m * CliffordAlgebra.reverse (val A m)) = a := by
      rw [hv, map_add, map_smul, coef_zero_one, h0, add_zero, smul_eq_mul, mul_one]
    obtain ⟨m', m1, m2, m3, m4⟩ := scalar_norm hA hr hm ⟨he, .inl h5⟩ (c0 ▸ ha) fuel inner outer
    rw [c0] at m3
    obtain ⟨w, w1, w2, w3⟩ := outer_global hA h5 Q inner outer m1 m2 (τ := ⟨1, a⁻¹⟩) (by
      rw [m3, map_smul, smul_mul_smul_comm, ← _root_.mul_inv, Real.mul_self_sqrt ha.le, hv, emb_eq, smul_add, smul_smul, inv_mul_cancel₀ ha.ne']) hp
    exact ⟨w, by rw [m4, w1]; rfl, w2, fun n e b hb => by rw [w3, e]; exact hC n b hb⟩

/-- C85: if `q² ≥ a²` (and `a > 0`) it does not converge: no result of `normalize_motor`, after however many iterations, comes near a unit
motor. -/
theorem C85_stuck (hA : WfAlg A) (h5 : A.n < 6) {rt : Roots ℝ} (hr : RealRoots rt) {m : MV ℝ} (hm : WfMV A m)
    (he : ∀ b ∈ m.sub.blades, popcount b % 2 = 0) {a μ : ℝ} {q : Cl A ℝ} (hv : val A m * CliffordAlgebra.reverse (val A m) = a • 1 + q)
    (h0 : coef A ℝ 0 q = 0) (hq : q * q = μ • 1) (ha : 0 < a) (hμ : a * a ≤ μ) :
    ∃ ε > 0, ∀ (fuel inner outer : Nat) (scalarNorm : Bool) (w : MV ℝ), m.normalizeNumerical A rt fuel inner outer scalarNorm = .ok w →
      ∃ b < 2 ^ A.n, ε ≤ |coef A ℝ b (val A w * CliffordAlgebra.reverse (val A w) - 1)| := by
  have Q := quad_of hA hm he hv h0 hq
  have μ0 : 0 < μ := (mul_pos ha ha).trans_le hμ
  have q0 : q ≠ 0 := by
    rintro rfl
    rw [zero_mul] at hq
    exact μ0.ne' (smul_one_inj (A := A) (by rw [← hq, zero_smul]))
  obtain ⟨b, hb, hbq⟩ : ∃ b < 2 ^ A.n, coef A ℝ b q ≠ 0 := by
    by_contra hn
    push Not at hn
    exact q0 (ext_coef A ℝ fun b hb => by rw [hn b hb, map_zero])
  have b0 : b ≠ 0 := by rintro rfl; exact hbq h0
  have hs : 0 < Real.sqrt μ := Real.sqrt_pos.2 μ0
  refine ⟨min (1 / 2) (|coef A ℝ b q| / (2 * Real.sqrt μ)), lt_min (by norm_num) (by positivity), fun fuel inner outer sn w hw => ?_⟩
  obtain ⟨τ, t1, t2⟩ : ∃ τ : K μ, val A w * CliffordAlgebra.reverse (val A w) = emb Q τ ∧ nm τ ≤ 0 := by
    cases sn
    · rw [MV.normalizeNumerical] at hw
      simp only [Bool.false_eq_true, if_false, bind, Except.bind] at hw
      cases hl : m.sandwichLoop A inner outer with
      | none => rw [hl] at hw; cases hw
      | some w' =>
        rw [hl] at hw
        cases hw
        exact outer_stuck hA h5 Q q0 inner outer hm ⟨he, .inl h5⟩ (τ := ⟨a, 1⟩) (by rw [emb_eq, hv, one_smul])
          (by rw [nm_eq]; simpa using hμ) hl
    · have c0 : coef A ℝ 0 (val A m * CliffordAlgebra.reverse (val A m)) = a := by
        rw [hv, map_add, map_smul, coef_zero_one, h0, add_zero, smul_eq_mul, mul_one]
      obtain ⟨m', m1, m2, m3, m4⟩ := scalar_norm hA hr hm ⟨he, .inl h5⟩ (c0 ▸ ha) fuel inner outer
      rw [c0] at m3
      rw [m4] at hw
      cases hl : m'.sandwichLoop A inner outer with
      | none => rw [hl] at hw; cases hw
      | some w' =>
        rw [hl] at hw
        cases hw
        refine outer_stuck hA h5 Q q0 inner outer m1 m2 (τ := ⟨1, a⁻¹⟩) (by
          rw [m3, map_smul, smul_mul_smul_comm, ← _root_.mul_inv, Real.mul_self_sqrt ha.le, hv, emb_eq, smul_add, smul_smul,
            inv_mul_cancel₀ ha.ne']) ?_ hl
        rw [nm_eq]
        have : 1 ≤ μ * a⁻¹ * a⁻¹ := by
          rw [mul_assoc, ← _root_.mul_inv, ← div_eq_mul_inv, le_div_iff₀ (by positivity), one_mul]
          exact hμ
        simpa using this
  rw [nm_eq] at t2
  have ez : coef A ℝ 0 (val A w * CliffordAlgebra.reverse (val A w) - 1) = τ.re - 1 := by
    rw [t1, map_sub, coef_zero_emb, coef_zero_one]
  have eb : coef A ℝ b (val A w * CliffordAlgebra.reverse (val A w) - 1) = τ.im * coef A ℝ b q := by
    have : coef A ℝ b (1 : Cl A ℝ) = 0 := by rw [← blade_zero, coef_blade A ℝ (Nat.two_pow_pos _), if_neg (by omega)]
    rw [t1, emb_eq, map_sub, map_add, map_smul, map_smul, this, smul_zero, zero_add, sub_zero, smul_eq_mul]
  by_cases hu : 1 / 2 ≤ |τ.re - 1|
  · exact ⟨0, Nat.two_pow_pos _, by rw [ez]; exact (min_le_left _ _).trans hu⟩
  · refine ⟨b, hb, (min_le_right _ _).trans ?_⟩
    rw [eb, abs_mul, div_le_iff₀ (by positivity)]
    have hu1 : 1 / 2 ≤ τ.re := by
      have := (abs_lt.1 (not_le.1 hu)).1
      linarith
    have hu2 : 1 / 2 ≤ |τ.im| * Real.sqrt μ := by
      refine le_of_sq_le_sq ?_ (by positivity)
      rw [mul_pow, sq_abs, Real.sq_sqrt μ0.le]
      nlinarith
    have := mul_le_mul_of_nonneg_left hu2 (abs_nonneg (coef A ℝ b q))
    linarith

/-! ### Examples -/

/-- Two positive and two negative directions. -/
def neutral4 : Alg := ⟨⟨["a".toList, "b".toList, "c".toList, "d".toList], [1, 1, -1, -1]⟩, 1, 1⟩
theorem wf_neutral4 : WfAlg neutral4 := by constructor <;> decide

theorem two_planes (hA : WfAlg A) {a b c : Nat} {x y : ℝ} {p r t : ℤ} (h1 : sgn A a a = p) (h2 : sgn A b b = r) (h3 : sgn A a b = t)
    (h4 : sgn A b a = t) (hc : a ^^^ b = c) (h5 : pc A.n a = 2) (h6 : pc A.n b = 2) :
    val A (⟨⟨[0, a, b]⟩, [1, x, y]⟩ : MV ℝ) * CliffordAlgebra.reverse (val A ⟨⟨[0, a, b]⟩, [1, x, y]⟩) =
      (1 - p * x ^ 2 - r * y ^ 2) • 1 + (-2 * t * x * y) • blade A ℝ c := by
  have v : val A (⟨⟨[0, a, b]⟩, [1, x, y]⟩ : MV ℝ) = 1 + x • blade A ℝ a + y • blade A ℝ b := by
    simp [val, denote, blade_zero, add_assoc]
  have hr : ∀ d, pc A.n d = 2 → CliffordAlgebra.reverse (blade A ℝ d) = -blade A ℝ d := fun d h => by
    rw [reverse_blade, h]; simp
  have e1 := blade_mul hA ℝ a a
  have e2 := blade_mul hA ℝ b b
  have e3 := blade_mul hA ℝ a b
  have e4 := blade_mul hA ℝ b a
  rw [h1, Nat.xor_self, blade_zero] at e1
  rw [h2, Nat.xor_self, blade_zero] at e2
  rw [h3, hc] at e3
  rw [h4, Nat.xor_comm, hc] at e4
  rw [v, map_add, map_add, map_smul, map_smul, hr a h5, hr b h6, CliffordAlgebra.reverse.map_one]
  simp only [mul_add, add_mul, one_mul, mul_one, smul_mul_smul_comm, mul_neg, smul_neg, e1, e2, e3, e4]
  module

/-- `1 + (wx + yz) / 2`, a motor far from a unit motor. -/
noncomputable def exNm : MV ℝ := ⟨⟨[0, 3, 12]⟩, [1, 1 / 2, 1 / 2]⟩
theorem wf_exNm : WfMV euc4 exNm := ⟨wfSub_of_B (by decide +kernel), rfl⟩

theorem exNm_sq : val euc4 exNm * CliffordAlgebra.reverse (val euc4 exNm) = (3 / 2 : ℝ) • 1 + (-1 / 2 : ℝ) • blade euc4 ℝ 15 := by
  rw [exNm, two_planes wf_euc4 (p := -1) (r := -1) (t := 1) (c := 15) (by decide) (by decide) (by decide) (by decide) (by decide) (by decide)
    (by decide)]
  norm_num

theorem coef_pss : coef euc4 ℝ 0 ((-1 / 2 : ℝ) • blade euc4 ℝ 15) = 0 := by
  rw [map_smul, coef_blade euc4 ℝ (by decide), if_neg (by decide), smul_zero]

example : ∃ w, exNm.normalizeNumerical euc4 (realRoots 1000) 4 6 2 true = .ok w ∧ WfMV euc4 w ∧
    ∀ b < 2 ^ euc4.n, |coef euc4 ℝ b (val euc4 w * CliffordAlgebra.reverse (val euc4 w) - 1)| ≤ 3 * (3 / 40) ^ 2 ^ (6 * 2 - 1) :=
  C84_normalize wf_euc4 (realRoots_law 1000) 4 (by decide) (by decide) wf_exNm (by decide) (.inl (by decide)) (a := 3 / 2) (by norm_num)
    (by rw [exNm_sq, map_add, coef_pss, map_smul, coef_zero_one]; norm_num)
    (by
      rw [exNm_sq, add_sub_cancel_left, Finset.sum_eq_single 15 (fun b hb hne => by
          rw [map_smul, coef_blade euc4 ℝ (by decide), if_neg hne, smul_zero, abs_zero]) (fun h => absurd (Finset.mem_range.2 (by decide)) h),
        map_smul, coef_blade euc4 ℝ (by decide), if_pos rfl]
      norm_num [abs_le])

theorem pss_sq : ((-1 / 2 : ℝ) • blade euc4 ℝ 15) * ((-1 / 2 : ℝ) • blade euc4 ℝ 15) = (1 / 4 : ℝ) • 1 := by
  rw [smul_mul_smul_comm, blade_mul wf_euc4, show sgn euc4 15 15 = 1 by decide, Nat.xor_self, blade_zero]
  norm_num

example : ∃ (C : ℝ) (n0 : Nat), ∀ inner outer, ∃ w, exNm.normalizeNumerical euc4 (realRoots 1000) 4 inner outer true = .ok w ∧ WfMV euc4 w ∧
    ∀ n, inner * outer = n0 + n → ∀ b < 2 ^ euc4.n,
      |coef euc4 ℝ b (val euc4 w * CliffordAlgebra.reverse (val euc4 w) - 1)| ≤ C * (1 / 2) ^ 2 ^ n :=
  C85_converges wf_euc4 (by decide) (realRoots_law 1000) 4 wf_exNm (by decide) exNm_sq coef_pss pss_sq (by norm_num) (by norm_num) true

/-- `1 + 3/5 (ac + bd)` with two positive and two negative directions: `m ~m` is `7/25 + q` with `q² = (18/25)²`. -/
noncomputable def exStuck : MV ℝ := ⟨⟨[0, 5, 10]⟩, [1, 3 / 5, 3 / 5]⟩

/-- Here `normalize_motor` does not converge, although the dimension is below six. -/
theorem C85_stuck_witness : WfMV neutral4 exStuck ∧ ∃ ε > 0, ∀ (fuel inner outer : Nat) (scalarNorm : Bool) (w : MV ℝ),
    exStuck.normalizeNumerical neutral4 (realRoots 1000) fuel inner outer scalarNorm = .ok w →
      ∃ b < 2 ^ neutral4.n, ε ≤ |coef neutral4 ℝ b (val neutral4 w * CliffordAlgebra.reverse (val neutral4 w) - 1)| := by
  have hw : WfMV neutral4 exStuck := ⟨wfSub_of_B (by decide +kernel), rfl⟩
  have hv : val neutral4 exStuck * CliffordAlgebra.reverse (val neutral4 exStuck) = (7 / 25 : ℝ) • 1 + (18 / 25 : ℝ) • blade neutral4 ℝ 15 := by
    rw [exStuck, two_planes wf_neutral4 (p := 1) (r := 1) (t := -1) (c := 15) (by decide) (by decide) (by decide) (by decide) (by decide)
      (by decide) (by decide)]
    norm_num
  refine ⟨hw, C85_stuck wf_neutral4 (by decide) (realRoots_law 1000) hw (by decide) hv
    (by rw [map_smul, coef_blade neutral4 ℝ (by decide), if_neg (by decide), smul_zero]) (μ := 324 / 625) ?_ (by norm_num) (by norm_num)⟩
  rw [smul_mul_smul_comm, blade_mul wf_neutral4, show sgn neutral4 15 15 = 1 by decide, Nat.xor_self, blade_zero]
  norm_num

/-- `1 + wxyz / 2`. -/
noncomputable def exNs : MV ℝ := ⟨⟨[0, 15]⟩, [1, 1 / 2]⟩
theorem wf_exNs : WfMV euc4 exNs := ⟨wfSub_of_B (by decide +kernel), rfl⟩

theorem exNs_op : ∃ op, Factory.fullSandwich euc4 (.sub exNs.sub) (.sub exNs.sub) = some op ∧ op.output = exNs.sub := by
  have : (Factory.fullSandwich euc4 (.sub ⟨[0, 15]⟩) (.sub ⟨[0, 15]⟩)).map (·.output) = some ⟨[0, 15]⟩ := by decide +kernel
  exact Option.map_eq_some_iff.1 this

example : ∃ x, exNs.inverseSandwich euc4 6 = some x ∧ WfMV euc4 x ∧ x.sub = exNs.sub ∧ CliffordAlgebra.reverse (val euc4 x) = val euc4 x ∧
    val euc4 x * val euc4 exNs = val euc4 exNs * val euc4 x ∧
    (0 < 6 → ∀ b < 2 ^ euc4.n, |coef euc4 ℝ b (val euc4 x * val euc4 exNs * val euc4 x - 1)| ≤ 3 * (3 / 40) ^ 2 ^ (6 - 1)) := by
  obtain ⟨op, o1, o2⟩ := exNs_op
  refine C84_converges wf_euc4 wf_exNs (by decide) (by decide) o1 o2 ?_ 6
  have v : val euc4 exNs - 1 = (1 / 2 : ℝ) • blade euc4 ℝ 15 := by simp [val, denote, exNs, blade_zero]
  rw [v, Finset.sum_eq_single 15 (fun b hb hne => by
      rw [map_smul, coef_blade euc4 ℝ (by decide), if_neg hne, smul_zero, abs_zero]) (fun h => absurd (Finset.mem_range.2 (by decide)) h),
    map_smul, coef_blade euc4 ℝ (by decide), if_pos rfl]
  norm_num [abs_le]

/-- The unit, on the same subspace: the step from one stays there. -/
example : ∃ op q x', Factory.fullSandwich euc4 (.sub ⟨[0, 15]⟩) (.sub ⟨[0, 15]⟩) = some op ∧
    (op.cast ℝ).partialApply [(1, (⟨⟨[0, 15]⟩, [1, 0]⟩ : MV ℝ))] = some q ∧
    newtonStep euc4 q ⟨[0, 15]⟩ (MV.default ⟨[0, 15]⟩) (MV.default ⟨[0, 15]⟩) = some x' ∧ val euc4 x' = 1 := by
  obtain ⟨op, o1, o2⟩ := exNs_op
  have hw : WfMV euc4 (⟨⟨[0, 15]⟩, [1, 0]⟩ : MV ℝ) := ⟨wfSub_of_B (by decide +kernel), rfl⟩
  have v : val euc4 (⟨⟨[0, 15]⟩, [1, 0]⟩ : MV ℝ) = 1 := by simp [val, denote, blade_zero]
  obtain ⟨q, q1, q2⟩ := C84_step wf_euc4 hw o1 o2
  obtain ⟨d1, d2⟩ := C45_default (A := euc4) (R := ℝ) hw.sub
  rw [if_pos (by decide)] at d2
  cases hn : newtonStep euc4 q ⟨[0, 15]⟩ (MV.default ⟨[0, 15]⟩) (MV.default ⟨[0, 15]⟩) with
  | none =>
    obtain ⟨y, y1, y2, y3, y4⟩ := (q2 _ _ d1 rfl d1 rfl).1.1 hn
    have G : Solvable euc4 ⟨[0, 15]⟩ op := ⟨hw.sub, by decide, o1, o2, by decide⟩
    rw [d2, v, mul_one, one_mul, mul_one, CliffordAlgebra.reverse.map_one, mul_one, G.reverse wf_euc4 ⟨y, y1, y2, rfl⟩, ← two_smul ℝ] at y4
    exact absurd y4 (smul_ne_zero two_ne_zero y3)
  | some x' =>
    exact ⟨op, q, x', o1, q1, hn, (C84_fixed wf_euc4 hw o1 o2 q1 d1 rfl d1 rfl
      (by rw [d2, v, mul_one, one_mul, CliffordAlgebra.reverse.map_one]) hn).trans d2⟩

end Verif.Props
