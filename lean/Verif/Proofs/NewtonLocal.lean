import Verif.Proofs.Newton
import Verif.Proofs.ExpMatrix
import Verif.Proofs.LogExp
import Verif.Props.Unary
import Mathlib.Algebra.Polynomial.AlgebraMap
import Mathlib.Algebra.Algebra.Subalgebra.Basic
import Mathlib.LinearAlgebra.FiniteDimensional.Basic
import Mathlib.Tactic.Module
/-! # Convergence of the iteration of `numerical_normalize.py` near one -/
namespace Verif.NewtonLocal
open Model Spec Model.Factory Props ExpMatrix
open scoped Matrix.Norms.Operator

variable {A : Alg}

/-- A subspace on which `inverse_sandwich` gets past its assertion, and all of whose elements are self-reverse. -/
structure Solvable (A : Alg) (S : SubSpace) (op : Operator Int) : Prop where
  wf : WfSub A S
  zero : 0 ∈ S.blades
  built : fullSandwich A (.sub S) (.sub S) = some op
  out : op.output = S
  rev : ∀ b ∈ S.blades, popcount b % 4 ≤ 1

variable {S : SubSpace} {op : Operator Int}

theorem Solvable.reverse (hA : WfAlg A) (G : Solvable A S op) {Y : Cl A ℝ} (h : Within A S Y) : CliffordAlgebra.reverse Y = Y := by
  refine ext_coef A ℝ fun b hb => ?_
  rw [coef_reverse hA ℝ hb]
  by_cases hm : b ∈ S.blades
  · rw [neg_one_pow_mod, if_pos (by have := G.rev b hm; omega), one_mul]
  · rw [(within_iff G.wf).1 h b hb hm, mul_zero]

theorem Solvable.one (G : Solvable A S op) : Within A S (1 : Cl A ℝ) := by
  have := within_blade (R := ℝ) G.wf G.zero
  rwa [blade_zero] at this

theorem sub_within (hS : WfSub A S) {x y : Cl A ℝ} (hx : Within A S x) (hy : Within A S y) : Within A S (x - y) := by
  have := hx.add hS (hy.smul hS (-1))
  rwa [neg_one_smul, ← sub_eq_add_neg] at this

theorem Solvable.jordan (hA : WfAlg A) (G : Solvable A S op) {X Y : Cl A ℝ} (hX : Within A S X) (hY : Within A S Y) :
    Within A S (X * Y + Y * X) := by
  obtain ⟨q, q1, q2, -, q4⟩ := fullSandwich_polar hA G.wf G.wf
  rw [G.built] at q1
  cases q1
  have r1 := G.reverse hA hX
  have r2 := G.reverse hA hY
  obtain ⟨x, hx, rfl, rfl⟩ := hX
  obtain ⟨y, hy, y1, rfl⟩ := hY
  obtain ⟨e, he, e1, e2⟩ := G.one
  have := q4 ℝ x.vals e.vals y.vals hx.len (by rw [he.len, e1]) (by rw [hy.len, y1])
  have v1 : denote A ℝ x.sub x.vals = val A x := rfl
  have v2 : denote A ℝ x.sub y.vals = val A y := by rw [val, y1]
  have v3 : denote A ℝ x.sub e.vals = 1 := by rw [← e2, val, e1]
  rw [v1, v2, v3, r1, r2, mul_one, mul_one] at this
  rw [← this]
  have hw : Within A x.sub (denote A ℝ op.output (op.apply ℝ [x.vals, e.vals, y.vals])) := by
    have : Within A op.output (denote A ℝ op.output (op.apply ℝ [x.vals, e.vals, y.vals])) :=
      ⟨⟨op.output, _⟩, ⟨q2.wf_output, apply_length ℝ q2 _⟩, rfl, rfl⟩
    rw [G.out] at this ⊢
    exact this
  rw [two_smul]
  exact hw.add G.wf hw

/-- The polynomials in `s`. -/
noncomputable abbrev Pol (A : Alg) (s : Cl A ℝ) : Subalgebra ℝ (Cl A ℝ) := (Polynomial.aeval (R := ℝ) s).range

theorem Pol.self (s : Cl A ℝ) : s ∈ Pol A s := ⟨Polynomial.X, Polynomial.aeval_X _⟩

theorem Pol.comm {s x y : Cl A ℝ} (hx : x ∈ Pol A s) (hy : y ∈ Pol A s) : x * y = y * x := by
  obtain ⟨p, rfl⟩ := hx
  obtain ⟨q, rfl⟩ := hy
  show Polynomial.aeval s p * Polynomial.aeval s q = Polynomial.aeval s q * Polynomial.aeval s p
  rw [← map_mul, ← map_mul, mul_comm]

theorem Pol.within (hA : WfAlg A) (G : Solvable A S op) {s x : Cl A ℝ} (hs : Within A S s) (hx : x ∈ Pol A s) : Within A S x := by
  obtain ⟨p, rfl⟩ := hx
  show Within A S (Polynomial.aeval s p)
  rw [Polynomial.aeval_eq_sum_range]
  refine within_sum G.wf _ fun i hi => Within.smul G.wf _ ?_
  clear hi
  induction i with
  | zero => rw [pow_zero]; exact G.one
  | succ n ih =>
    have := (G.jordan hA hs ih).smul G.wf (2⁻¹ : ℝ)
    rwa [← pow_succ', ← pow_succ, ← two_smul ℝ, smul_smul, inv_mul_cancel₀ two_ne_zero, one_smul] at this

theorem Pol.inv {s c : Cl A ℝ} (hc : c ∈ Pol A s) (hu : IsUnit c) : ∃ w ∈ Pol A s, c * w = 1 := by
  have : Module.Finite ℝ (Cl A ℝ) := Module.Finite.of_basis (bladeBasis A ℝ)
  have hinj : Function.Injective (LinearMap.mulLeft ℝ (⟨c, hc⟩ : Pol A s)) := by
    rw [← LinearMap.ker_eq_bot, LinearMap.ker_eq_bot']
    intro y hy
    rw [LinearMap.mulLeft_apply] at hy
    have := congrArg Subtype.val hy
    exact Subtype.ext ((hu.mul_right_eq_zero).1 this)
  obtain ⟨w, hw⟩ := LinearMap.surjective_of_injective hinj 1
  exact ⟨w, w.2, congrArg Subtype.val hw⟩

/-- A Newton step whose linear equation has a unique solution. -/
theorem newton_eq (hA : WfAlg A) {s : MV ℝ} (hs : WfMV A s) (G : Solvable A s.sub op) :
    ∃ q, (op.cast ℝ).partialApply [(1, s)] = some q ∧ ∀ x : MV ℝ, WfMV A x → x.sub = s.sub → val A x * val A s = val A s * val A x →
      (∀ Y, Within A s.sub Y → val A x * val A s * Y + Y * (val A x * val A s) = 0 → Y = 0) →
      ∀ w, Within A s.sub w → val A x * val A s * w = 1 → w * (val A x * val A s) = 1 →
      ∃ x', newtonStep A q s.sub (MV.default s.sub) x = some x' ∧ WfMV A x' ∧ x'.sub = s.sub ∧ val A x' = (2⁻¹ : ℝ) • (val A x + w) := by
  obtain ⟨q, q1, q2⟩ := newton_step (F := ℝ) hA hs G.built G.out
  refine ⟨q, q1, fun x hx hxs hc hinj w hw h1 h2 => ?_⟩
  obtain ⟨d1, d2⟩ := C45_default (A := A) (R := ℝ) hs.sub
  rw [if_pos G.zero] at d2
  obtain ⟨n1, n2⟩ := q2 x (MV.default s.sub) hx hxs d1 rfl
  have hxw : Within A s.sub (val A x) := hxs ▸ hx.within
  have rx := G.reverse hA hxw
  have lin : ∀ {Y}, Within A s.sub Y → val A x * val A s * CliffordAlgebra.reverse Y + Y * val A s * CliffordAlgebra.reverse (val A x) =
      val A x * val A s * Y + Y * (val A x * val A s) := by
    intro Y hY
    rw [G.reverse hA hY, rx, mul_assoc Y, ← hc]
  cases hstep : newtonStep A q s.sub (MV.default s.sub) x with
  | none =>
    exfalso
    obtain ⟨y, wy, ys, y0, y1⟩ := n1.1 hstep
    have hyw : Within A s.sub (val A y) := ys ▸ wy.within
    rw [lin hyw] at y1
    exact y0 (hinj _ hyw y1)
  | some x' =>
    obtain ⟨m1, m2, m3⟩ := n2 x' hstep
    have hyw : Within A s.sub (val A x') := m2 ▸ m1.within
    refine ⟨x', rfl, m1, m2, ?_⟩
    rw [lin hyw, rx, d2] at m3
    have hp : Within A s.sub ((2⁻¹ : ℝ) • (val A x + w)) := (hxw.add hs.sub hw).smul hs.sub _
    refine sub_eq_zero.1 (hinj _ (sub_within hs.sub hyw hp) ?_)
    have hp2 : val A x * val A s * ((2⁻¹ : ℝ) • (val A x + w)) + (2⁻¹ : ℝ) • (val A x + w) * (val A x * val A s) =
        val A x * val A s * val A x + 1 := by
      rw [mul_smul_comm, smul_mul_assoc, ← smul_add, mul_add, add_mul, h1, h2]
      have : val A x * (val A x * val A s) = val A x * val A s * val A x := by rw [mul_assoc, ← hc]
      rw [this, show ∀ a : Cl A ℝ, a + 1 + (a + 1) = (2 : ℝ) • (a + 1) from fun a => by rw [two_smul], smul_smul, inv_mul_cancel₀ two_ne_zero, one_smul]
    rw [mul_sub, sub_mul, show ∀ a b c d : Cl A ℝ, a - b + (c - d) = a + c - (b + d) from fun a b c d => by abel, hp2, m3, sub_self]

/-- The step at an argument which is a polynomial in `s` with `x s` near one. -/
theorem step_local (hA : WfAlg A) {s : MV ℝ} (hs : WfMV A s) (G : Solvable A s.sub op) {q : Operator ℝ}
    (hq : (op.cast ℝ).partialApply [(1, s)] = some q) {x : MV ℝ} (hx : WfMV A x) (hxs : x.sub = s.sub) (hp : val A x ∈ Pol A (val A s))
    (hc : ‖mat A (val A x * val A s) - 1‖ < 1) :
    ∃ x', newtonStep A q s.sub (MV.default s.sub) x = some x' ∧ WfMV A x' ∧ x'.sub = s.sub ∧ val A x' ∈ Pol A (val A s) ∧
      (2 : ℝ) • (val A x * val A s * val A x') = val A x * val A s * val A x + 1 := by
  obtain ⟨q', q1, q2⟩ := newton_eq hA hs G
  rw [hq] at q1
  cases q1
  have cs := Pol.self (val A s)
  have cc : val A x * val A s ∈ Pol A (val A s) := mul_mem hp cs
  have hu : IsUnit (val A x * val A s) := by
    apply isUnit_of_mat
    have := isUnit_one_sub_of_norm_lt_one (x := 1 - mat A (val A x * val A s)) (by rwa [norm_sub_rev])
    rwa [sub_sub_cancel] at this
  obtain ⟨w, w1, w2⟩ := Pol.inv cc hu
  have hinj : ∀ Y, Within A s.sub Y → val A x * val A s * Y + Y * (val A x * val A s) = 0 → Y = 0 := by
    intro Y _ hY
    apply Algebra.leftMulMatrix_injective (bladeBasis A ℝ)
    rw [map_zero]
    show mat A Y = 0
    have h := congrArg (mat A) hY
    rw [map_add, map_mul _ _ Y, map_mul _ Y, map_zero] at h
    obtain ⟨c, hc'⟩ : ∃ c, c = mat A (val A x * val A s) := ⟨_, rfl⟩
    obtain ⟨y, hy⟩ : ∃ y, y = mat A Y := ⟨_, rfl⟩
    rw [← hc'] at h hc
    rw [← hy] at h ⊢
    have e : (2 : ℝ) • y = -((c - 1) * y) - y * (c - 1) := by
      rw [two_smul, sub_mul, mul_sub, one_mul, mul_one]
      linear_combination (norm := abel) h
    have n1 : 2 * ‖y‖ ≤ ‖c - 1‖ * ‖y‖ + ‖y‖ * ‖c - 1‖ := by
      calc 2 * ‖y‖ = ‖(2 : ℝ) • y‖ := by rw [norm_smul]; norm_num
        _ ≤ ‖(c - 1) * y‖ + ‖y * (c - 1)‖ := by rw [e]; refine (norm_sub_le _ _).trans ?_; rw [norm_neg]
        _ ≤ _ := add_le_add (norm_mul_le _ _) (norm_mul_le _ _)
    by_contra h0
    have := norm_pos_iff.2 h0
    nlinarith
  obtain ⟨x', x1, x2, x3, x4⟩ := q2 x hx hxs (Pol.comm hp cs) hinj w (Pol.within hA G hs.within w1) w2 ((Pol.comm w1 cc).trans w2)
  refine ⟨x', x1, x2, x3, ?_, ?_⟩
  · rw [x4]
    exact Subalgebra.smul_mem _ (add_mem hp w1) _
  · rw [x4, mul_smul_comm, smul_smul, mul_inv_cancel₀ two_ne_zero, one_smul, mul_add, w2]

theorem residual_comm {E : Type*} [CommRing E] {s x x' : E} (h : 2 * (x * s * x') = x * s * x + 1) :
    4 * ((x * s * x) * (x' * s * x' - 1)) = (x * s * x - 1) * (x * s * x - 1) ∧
    2 * ((x * s * x) * (x' * s - x * s)) = -((x * s * x - 1) * (x * s)) :=
  ⟨by linear_combination (2 * (x * s * x') + x * s * x + 1) * h, by linear_combination (x * s) * h⟩

/-- The recursion of the residual and of the deviation of `x s` from one. -/
theorem residual {s x x' : Cl A ℝ} (hx : x ∈ Pol A s) (hx' : x' ∈ Pol A s) (h : (2 : ℝ) • (x * s * x') = x * s * x + 1) :
    4 * ((x * s * x) * (x' * s * x' - 1)) = (x * s * x - 1) * (x * s * x - 1) ∧
    2 * ((x * s * x) * (x' * s - x * s)) = -((x * s * x - 1) * (x * s)) := by
  letI : CommRing (Pol A s) := { (inferInstance : Ring (Pol A s)) with mul_comm := fun a b => Subtype.ext (Pol.comm a.2 b.2) }
  have := residual_comm (E := Pol A s) (s := ⟨s, Pol.self s⟩) (x := ⟨x, hx⟩) (x' := ⟨x', hx'⟩) (Subtype.ext (by
    rw [two_smul] at h
    rw [two_mul]
    exact h))
  exact ⟨congrArg Subtype.val this.1, congrArg Subtype.val this.2⟩

theorem norm_nat (k : ℕ) (m : Mat A) : ‖(k : Mat A) * m‖ = k * ‖m‖ := by
  rw [← nsmul_eq_mul, ← Nat.cast_smul_eq_nsmul ℝ, norm_smul, Real.norm_natCast]

/-- The residual is squared in every step. -/
theorem shrink {s x x' : Cl A ℝ} (hx : x ∈ Pol A s) (hx' : x' ∈ Pol A s) (h : (2 : ℝ) • (x * s * x') = x * s * x + 1) {ρ : ℝ}
    (hr : ‖mat A (x * s * x) - 1‖ ≤ ρ) (h1 : ρ < 1) :
    4 * (1 - ρ) * ‖mat A (x' * s * x') - 1‖ ≤ ‖mat A (x * s * x) - 1‖ * ‖mat A (x * s * x) - 1‖ ∧
    2 * (1 - ρ) * ‖mat A (x' * s) - mat A (x * s)‖ ≤ ‖mat A (x * s * x) - 1‖ * (1 + ‖mat A (x * s) - 1‖) := by
  obtain ⟨e1, e2⟩ := residual hx hx' h
  replace e1 := congrArg (mat A) e1
  replace e2 := congrArg (mat A) e2
  simp only [map_mul (mat A) 4, map_mul (mat A) 2, map_mul (mat A) (x * s * x), map_mul (mat A) (x * s * x - 1), map_sub, map_neg, map_one, map_ofNat] at e1 e2
  obtain ⟨r, hr'⟩ : ∃ r, r = mat A (x * s * x) - 1 := ⟨_, rfl⟩
  have ht : mat A (x * s * x) = 1 + r := by rw [hr']; abel
  obtain ⟨r', hr''⟩ : ∃ r', r' = mat A (x' * s * x') - 1 := ⟨_, rfl⟩
  obtain ⟨d, hd⟩ : ∃ d, d = mat A (x' * s) - mat A (x * s) := ⟨_, rfl⟩
  obtain ⟨c, hc⟩ : ∃ c, c = mat A (x * s) := ⟨_, rfl⟩
  rw [← hr'] at e1 e2 hr ⊢
  rw [ht, ← hr''] at e1
  rw [ht, ← hd, ← hc] at e2
  rw [← hr'', ← hd, ← hc]
  have n0 := norm_nonneg r
  constructor
  · have e : ((4 : ℕ) : Mat A) * r' = r * r - ((4 : ℕ) : Mat A) * (r * r') := by
      push_cast
      rw [← e1, add_mul, one_mul, mul_add]
      abel
    have n1 := norm_nat 4 r'
    rw [e] at n1
    have n2 := norm_sub_le (r * r) (((4 : ℕ) : Mat A) * (r * r'))
    rw [n1, norm_nat] at n2
    have n3 := norm_mul_le r r
    have n4 := norm_mul_le r r'
    push_cast at n2
    have n5 := mul_le_mul_of_nonneg_right hr (norm_nonneg r')
    nlinarith
  · have e : ((2 : ℕ) : Mat A) * d = -(r * c) - ((2 : ℕ) : Mat A) * (r * d) := by
      push_cast
      rw [← e2, add_mul, one_mul, mul_add]
      abel
    have n1 := norm_nat 2 d
    rw [e] at n1
    have n2 := norm_sub_le (-(r * c)) (((2 : ℕ) : Mat A) * (r * d))
    rw [n1, norm_nat, norm_neg] at n2
    have n3 := norm_mul_le r c
    have n4 := norm_mul_le r d
    have n6 : ‖c‖ ≤ 1 + ‖c - 1‖ := by
      calc ‖c‖ = ‖1 + (c - 1)‖ := by rw [add_sub_cancel]
        _ ≤ ‖(1 : Mat A)‖ + ‖c - 1‖ := norm_add_le _ _
        _ = _ := by rw [norm_one]
    push_cast at n2
    have n5 := mul_le_mul_of_nonneg_right hr (norm_nonneg d)
    have n7 := mul_le_mul_of_nonneg_left n6 n0
    nlinarith

theorem newtonLoop_succ (q : Operator ℝ) (rhs : MV ℝ) (n : Nat) (x : MV ℝ) :
    newtonLoop A q S rhs (n + 1) x = (newtonStep A q S rhs x).bind (newtonLoop A q S rhs n) := rfl

/-- The loop from a point near the solution. -/
theorem loop_local (hA : WfAlg A) {s : MV ℝ} (hs : WfMV A s) (G : Solvable A s.sub op) {q : Operator ℝ}
    (hq : (op.cast ℝ).partialApply [(1, s)] = some q) (n : Nat) {x : MV ℝ} (hx : WfMV A x) (hxs : x.sub = s.sub) (hp : val A x ∈ Pol A (val A s))
    {ρ : ℝ} (hρ : ρ ≤ 1 / 4) (hr : ‖mat A (val A x * val A s * val A x) - 1‖ ≤ ρ) (hc : ‖mat A (val A x * val A s) - 1‖ + 2 * ρ ≤ 3 / 4) :
    ∃ x', newtonLoop A q s.sub (MV.default s.sub) n x = some x' ∧ WfMV A x' ∧ x'.sub = s.sub ∧ val A x' ∈ Pol A (val A s) ∧
      ‖mat A (val A x' * val A s * val A x') - 1‖ ≤ 3 * (ρ / 3) ^ 2 ^ n := by
  have h0 : 0 ≤ ρ := (norm_nonneg _).trans hr
  induction n generalizing x ρ with
  | zero => exact ⟨x, rfl, hx, hxs, hp, by rw [pow_zero, pow_one, mul_div_cancel₀ _ (by norm_num)]; exact hr⟩
  | succ n ih =>
    obtain ⟨x', x1, x2, x3, x4, x5⟩ := step_local hA hs G hq hx hxs hp (by linarith)
    obtain ⟨s1, s2⟩ := shrink hp x4 x5 hr (by linarith)
    have t1 : ‖mat A (val A x' * val A s) - 1‖ ≤ ‖mat A (val A x' * val A s) - mat A (val A x * val A s)‖ + ‖mat A (val A x * val A s) - 1‖ :=
      norm_sub_le_norm_sub_add_norm_sub _ _ _
    obtain ⟨a, ha⟩ : ∃ a, a = ‖mat A (val A x * val A s * val A x) - 1‖ := ⟨_, rfl⟩
    obtain ⟨a', ha'⟩ : ∃ a, a = ‖mat A (val A x' * val A s * val A x') - 1‖ := ⟨_, rfl⟩
    obtain ⟨d, hd⟩ : ∃ a, a = ‖mat A (val A x' * val A s) - mat A (val A x * val A s)‖ := ⟨_, rfl⟩
    obtain ⟨c, hcc⟩ : ∃ a, a = ‖mat A (val A x * val A s) - 1‖ := ⟨_, rfl⟩
    have a0 : 0 ≤ a := ha ▸ norm_nonneg _
    have a0' : 0 ≤ a' := ha' ▸ norm_nonneg _
    have d0 : 0 ≤ d := hd ▸ norm_nonneg _
    have c0 : 0 ≤ c := hcc ▸ norm_nonneg _
    rw [← ha, ← ha'] at s1
    rw [← ha, ← hd, ← hcc] at s2
    rw [← hd, ← hcc] at t1
    rw [← ha] at hr
    rw [← hcc] at hc
    have b1 : a' ≤ ρ ^ 2 / 3 := by nlinarith
    have b2 : d ≤ 7 / 6 * ρ := by nlinarith
    obtain ⟨y, y1, y2, y3, y4, y5⟩ := ih x2 x3 x4 (ρ := ρ ^ 2 / 3) (by nlinarith) (ha' ▸ b1) (by nlinarith) (by positivity)
    refine ⟨y, by rw [newtonLoop_succ, x1, Option.bind_some, y1], y2, y3, y4, y5.trans (le_of_eq ?_)⟩
    rw [pow_succ' 2 n, pow_mul]
    congr 2
    ring

/-- The loop of `inverse_sandwich` starting at one. -/
theorem inverse_local (hA : WfAlg A) {s : MV ℝ} (hs : WfMV A s) (G : Solvable A s.sub op) (hr : ‖mat A (val A s) - 1‖ ≤ 3 / 5) (n : Nat) :
    ∃ x, s.inverseSandwich A n = some x ∧ WfMV A x ∧ x.sub = s.sub ∧ val A x ∈ Pol A (val A s) ∧
      (0 < n → ‖mat A (val A x * val A s * val A x) - 1‖ ≤ 3 * (3 / 40) ^ 2 ^ (n - 1)) ∧
      ‖mat A (val A x * val A s * val A x) - 1‖ ≤ 3 / 5 := by
  obtain ⟨q, hq, -⟩ := newton_eq hA hs G
  obtain ⟨d1, d2⟩ := C45_default (A := A) (R := ℝ) hs.sub
  rw [if_pos G.zero] at d2
  have e : s.inverseSandwich A n = newtonLoop A q s.sub (MV.default s.sub) n (MV.default s.sub) := by
    simp only [MV.inverseSandwich, G.built, Option.bind_eq_bind, Option.bind_some, G.out, ne_eq, not_true, if_false, hq]
    rfl
  rw [e]
  have dp : val A (MV.default s.sub : MV ℝ) ∈ Pol A (val A s) := by rw [d2]; exact one_mem _
  cases n with
  | zero => exact ⟨_, rfl, d1, rfl, dp, fun h => absurd h (lt_irrefl _), by rwa [d2, one_mul, mul_one]⟩
  | succ n =>
    obtain ⟨x', x1, x2, x3, x4, x5⟩ := step_local hA hs G hq d1 rfl dp (by rw [d2, one_mul]; linarith)
    have x6 := x5
    obtain ⟨s1, -⟩ := shrink dp x4 x5 (ρ := 3 / 5) (by rwa [d2, one_mul, mul_one]) (by norm_num)
    rw [d2, one_mul, mul_one] at s1
    rw [d2, one_mul, mul_one] at x6
    have n0 := norm_nonneg (mat A (val A s) - 1)
    have t : ‖mat A (val A x' * val A s) - 1‖ ≤ 3 / 10 := by
      rw [Pol.comm x4 (Pol.self _)]
      have e : mat A (val A s * val A x') - 1 = (2⁻¹ : ℝ) • (mat A (val A s) - 1) := by
        have := congrArg (fun z => (2⁻¹ : ℝ) • mat A z) x6
        simp only [map_smul, smul_smul, map_add, map_one] at this
        rw [inv_mul_cancel₀ two_ne_zero, one_smul] at this
        rw [this]
        module
      rw [e, norm_smul]
      norm_num
      linarith
    obtain ⟨y, y1, y2, y3, y4, y5⟩ := loop_local hA hs G hq n x2 x3 x4 (ρ := 9 / 40) (by norm_num) (by nlinarith) (by linarith)
    have e3 : ((9 : ℝ) / 40 / 3) = 3 / 40 := by norm_num
    rw [e3] at y5
    refine ⟨y, by rw [newtonLoop_succ, x1, Option.bind_some, y1], y2, y3, y4, fun _ => ?_, y5.trans ?_⟩
    · rwa [Nat.add_sub_cancel]
    · have : ((3 : ℝ) / 40) ^ 2 ^ n ≤ (3 / 40) ^ 1 := pow_le_pow_of_le_one (by norm_num) (by norm_num) Nat.one_le_two_pow
      linarith

end Verif.NewtonLocal
