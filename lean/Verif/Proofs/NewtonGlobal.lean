import Verif.Proofs.NewtonMotor
import Verif.Proofs.StudyNewton
import Verif.Proofs.Principal
/-! # Convergence of the iteration of `numerical_normalize.py` below six dimensions -/
namespace Verif.NewtonGlobal
open Model Spec Model.Factory Props NewtonLocal StudyNewton

variable {A : Alg}

/-- An even self-reverse element without scalar part whose square is `l`. -/
structure Quad (A : Alg) (l : ℝ) (q : Cl A ℝ) : Prop where
  rev : CliffordAlgebra.reverse q = q
  even : CliffordAlgebra.involute q = q
  zero : coef A ℝ 0 q = 0
  sq : q * q = l • 1

variable {l : ℝ} {q : Cl A ℝ}

/-- The elements `u + v q`. -/
noncomputable def emb (Q : Quad A l q) : K l →ₐ[ℝ] Cl A ℝ := QuadraticAlgebra.lift ⟨q, by rw [Q.sq, zero_smul, add_zero]⟩

theorem emb_eq (Q : Quad A l q) (z : K l) : emb Q z = z.re • 1 + z.im • q := by
  rw [emb]
  simp [QuadraticAlgebra.lift, Algebra.algebraMap_eq_smul_one]

theorem coef_zero_one : coef A ℝ 0 (1 : Cl A ℝ) = 1 := by
  rw [← blade_zero, coef_blade A ℝ (Nat.two_pow_pos _), if_pos rfl]

theorem pair_scalar (hA : WfAlg A) (h5 : A.n < 6) {a b : Cl A ℝ} (ha : CliffordAlgebra.reverse a = a) (ha' : CliffordAlgebra.involute a = a)
    (ha0 : coef A ℝ 0 a = 0) (hb : CliffordAlgebra.reverse b = b) (hb' : CliffordAlgebra.involute b = b) (hb0 : coef A ℝ 0 b = 0) :
    ∃ κ : ℝ, a * b + b * a = κ • 1 := by
  have sq : ∀ {w : Cl A ℝ}, CliffordAlgebra.reverse w = w → CliffordAlgebra.involute w = w → coef A ℝ 0 w = 0 → ∃ κ : ℝ, w * w = κ • 1 := by
    intro w h1 h2 h3
    obtain ⟨κ, ν, e1, -, e3⟩ := study_split hA h5 two_ne_zero h1 h2
    rw [h3, zero_smul, zero_add] at e1
    exact ⟨κ, by rw [e1, e3]⟩
  obtain ⟨k1, e1⟩ := sq ha ha' ha0
  obtain ⟨k2, e2⟩ := sq hb hb' hb0
  obtain ⟨k3, e3⟩ := sq (w := a + b) (by rw [map_add, ha, hb]) (by rw [map_add, ha', hb']) (by rw [map_add, ha0, hb0, add_zero])
  refine ⟨k3 - k1 - k2, ?_⟩
  rw [mul_add, add_mul, add_mul, e1, e2] at e3
  rw [sub_smul, sub_smul, ← e3]
  abel

theorem inj (hA : WfAlg A) (h5 : A.n < 6) (Q : Quad A l q) {c : K l} (h1 : c.re ≠ 0) (h2 : nm c ≠ 0) {Y : Cl A ℝ}
    (hr : CliffordAlgebra.reverse Y = Y) (he : CliffordAlgebra.involute Y = Y) (h : emb Q c * Y + Y * emb Q c = 0) : Y = 0 := by
  obtain ⟨y0, hy0⟩ : ∃ y0, y0 = coef A ℝ 0 Y := ⟨_, rfl⟩
  obtain ⟨ν, hν⟩ : ∃ ν, Y = y0 • 1 + ν := ⟨Y - y0 • 1, by abel⟩
  have rs : ∀ a : ℝ, CliffordAlgebra.reverse (a • (1 : Cl A ℝ)) = a • 1 := fun a => by rw [map_smul, CliffordAlgebra.reverse.map_one]
  have is : ∀ a : ℝ, CliffordAlgebra.involute (a • (1 : Cl A ℝ)) = a • 1 := fun a => by rw [map_smul, map_one]
  have n0 : coef A ℝ 0 ν = 0 := by
    have := congrArg (coef A ℝ 0) hν
    rw [map_add, map_smul, coef_zero_one, ← hy0] at this
    simpa using this
  have nr : CliffordAlgebra.reverse ν = ν := by
    rw [hν, map_add, rs] at hr
    exact add_left_cancel hr
  have ne : CliffordAlgebra.involute ν = ν := by
    rw [hν, map_add, is] at he
    exact add_left_cancel he
  obtain ⟨κ, hκ⟩ := pair_scalar hA h5 Q.rev Q.even Q.zero nr ne n0
  have e : (2 * c.re * y0 + c.im * κ) • (1 : Cl A ℝ) + (2 * c.re) • ν + (2 * c.im * y0) • q = 0 := by
    rw [← h, emb_eq, hν]
    simp only [add_mul, mul_add, smul_mul_assoc, mul_smul_comm, one_mul, mul_one, smul_add, smul_smul, ← smul_eq_mul c.im κ, add_smul]
    rw [smul_assoc c.im κ, ← hκ]
    module
  have e0 := congrArg (coef A ℝ 0) e
  simp only [map_add, map_smul, coef_zero_one, n0, Q.zero, smul_eq_mul, map_zero, mul_zero, add_zero, mul_one] at e0
  rw [e0, zero_smul, zero_add] at e
  have e1 : (2 * c.re * κ + 2 * (2 * c.im * y0) * l) • (1 : Cl A ℝ) = 0 := by
    have k1 := congrArg (q * ·) e
    have k2 := congrArg (· * q) e
    simp only [mul_add, add_mul, mul_smul_comm, smul_mul_assoc, Q.sq, mul_zero, zero_mul] at k1 k2
    have k3 := congrArg₂ (· + ·) k1 k2
    simp only [add_zero] at k3
    rw [← k3, add_smul, mul_smul (2 * c.re), ← hκ]
    module
  have e2 := congrArg (coef A ℝ 0) e1
  rw [map_smul, coef_zero_one, map_zero, smul_eq_mul, mul_one] at e2
  have y00 : y0 = 0 := by
    rw [nm_eq] at h2
    have : y0 * (c.re * c.re - l * c.im * c.im) = 0 := by linear_combination (c.re / 2) * e0 - (c.im / 4) * e2
    exact (mul_eq_zero.1 this).resolve_right h2
  rw [y00, mul_zero, zero_smul, add_zero, smul_eq_zero] at e
  rw [hν, y00, zero_smul, zero_add]
  exact e.resolve_left (by positivity)

theorem even_within (hA : WfAlg A) {S : SubSpace} (hS : WfSub A S) (h4 : ∀ b ∈ S.blades, popcount b % 2 = 0) {Y : Cl A ℝ} (h : Within A S Y) :
    CliffordAlgebra.involute Y = Y := by
  refine ext_coef A ℝ fun b hb => ?_
  rw [coef_involute hA ℝ hb]
  by_cases hm : b ∈ S.blades
  · rw [neg_one_pow_mod, if_pos (by have := h4 b hm; omega), one_mul]
  · rw [(within_iff hS).1 h b hb hm, mul_zero]

theorem within_inv {S : SubSpace} {op : Operator Int} (G : Solvable A S op) (Q : Quad A l q) {c : K l} (h : Within A S (emb Q c)) :
    Within A S (emb Q (StudyNewton.inv c)) := by
  have e : StudyNewton.inv c = (nm c)⁻¹ • ((2 * c.re) • 1 + (-1 : ℝ) • c) := by
    rw [StudyNewton.inv]
    congr 1
    ext <;> simp [QuadraticAlgebra.re_one, QuadraticAlgebra.im_one] <;> ring
  rw [e, map_smul, map_add, map_smul, map_smul, map_one]
  exact ((G.one.smul G.wf _).add G.wf (h.smul G.wf _)).smul G.wf _

theorem within_mul (hA : WfAlg A) {S : SubSpace} {op : Operator Int} (G : Solvable A S op) (Q : Quad A l q) {c d : K l} (h : Within A S (emb Q c))
    (h' : Within A S (emb Q d)) : Within A S (emb Q (c * d)) := by
  have := (G.jordan hA h h').smul G.wf (2⁻¹ : ℝ)
  rwa [← map_mul, ← map_mul, mul_comm d c, ← two_smul ℝ, smul_smul, inv_mul_cancel₀ two_ne_zero, one_smul] at this

theorem step_global (hA : WfAlg A) (h5 : A.n < 6) (Q : Quad A l q) {s : MV ℝ} (hs : WfMV A s) {op : Operator Int} (G : Solvable A s.sub op)
    (h4 : ∀ b ∈ s.sub.blades, popcount b % 4 = 0) {σ : K l} (hσ : val A s = emb Q σ) {o : Operator ℝ}
    (ho : (op.cast ℝ).partialApply [(1, s)] = some o) {x : MV ℝ} (hx : WfMV A x) (hxs : x.sub = s.sub) {ξ : K l} (hξ : val A x = emb Q ξ)
    (hre : (ξ * σ).re ≠ 0) (hnm : nm (ξ * σ) ≠ 0) :
    ∃ x', newtonStep A o s.sub (MV.default s.sub) x = some x' ∧ WfMV A x' ∧ x'.sub = s.sub ∧ val A x' = emb Q (step σ ξ) := by
  obtain ⟨o', q1, q2⟩ := newton_eq hA hs G
  rw [ho] at q1
  cases q1
  have hxw : Within A s.sub (emb Q ξ) := hξ ▸ hxs ▸ hx.within
  have hsw : Within A s.sub (emb Q σ) := hσ ▸ hs.within
  have hc : val A x * val A s = emb Q (ξ * σ) := by rw [hξ, hσ, map_mul]
  obtain ⟨x', x1, x2, x3, x4⟩ := q2 x hx hxs (by rw [hξ, hσ, ← map_mul, ← map_mul, mul_comm])
    (fun Y hY h => inj hA h5 Q hre hnm (G.reverse hA hY) (even_within hA G.wf (fun b hb => by have := h4 b hb; omega) hY) (by rwa [hc] at h))
    (emb Q (StudyNewton.inv (ξ * σ))) (within_inv G Q (within_mul hA G Q hxw hsw)) (by rw [hc, ← map_mul, StudyNewton.mul_inv hnm, map_one])
    (by rw [hc, ← map_mul, mul_comm, StudyNewton.mul_inv hnm, map_one])
  refine ⟨x', x1, x2, x3, ?_⟩
  rw [x4, hξ, ← map_add, ← map_smul, step, one_div]

theorem loop_global (hA : WfAlg A) (h5 : A.n < 6) (Q : Quad A l q) {s : MV ℝ} (hs : WfMV A s) {op : Operator Int} (G : Solvable A s.sub op)
    (h4 : ∀ b ∈ s.sub.blades, popcount b % 4 = 0) {σ : K l} (hσ : val A s = emb Q σ) {o : Operator ℝ}
    (ho : (op.cast ℝ).partialApply [(1, s)] = some o) (n : Nat) {x : MV ℝ} (hx : WfMV A x) (hxs : x.sub = s.sub) {ξ : K l} (hξ : val A x = emb Q ξ)
    (ok : Ok σ ξ) :
    ∃ x' ξ', newtonLoop A o s.sub (MV.default s.sub) n x = some x' ∧ WfMV A x' ∧ x'.sub = s.sub ∧ val A x' = emb Q ξ' ∧
      ξ' * σ * ξ' = next^[n] (ξ * σ * ξ) := by
  induction n generalizing x ξ with
  | zero => exact ⟨x, ξ, rfl, hx, hxs, hξ, rfl⟩
  | succ n ih =>
    obtain ⟨x', x1, x2, x3, x4⟩ := step_global hA h5 Q hs G h4 hσ ho hx hxs hξ ok.re_c ok.nm_c
    obtain ⟨y, η, y1, y2, y3, y4, y5⟩ := ih x2 x3 x4 ok.step
    exact ⟨y, η, by rw [newtonLoop_succ, x1, Option.bind_some, y1], y2, y3, y4, by rw [y5, ok.t_next, Function.iterate_succ_apply]⟩

theorem emb_reverse (Q : Quad A l q) (z : K l) : CliffordAlgebra.reverse (emb Q z) = emb Q z := by
  rw [emb_eq, map_add, map_smul, map_smul, CliffordAlgebra.reverse.map_one, Q.rev]

theorem coef_zero_emb (Q : Quad A l q) (z : K l) : coef A ℝ 0 (emb Q z) = z.re := by
  rw [emb_eq, map_add, map_smul, map_smul, coef_zero_one, Q.zero]
  simp

theorem iterate_pos {t : K l} (h : Pos t) (n : Nat) : Pos (next^[n] t) := by
  induction n generalizing t with
  | zero => exact h
  | succ n ih => rw [Function.iterate_succ_apply]; exact ih h.next

theorem outer_global (hA : WfAlg A) (h5 : A.n < 6) (Q : Quad A l q) (inner n : Nat) {m : MV ℝ} (hm : WfMV A m) (hf : Fine A m.sub) {τ : K l}
    (hτ : val A m * CliffordAlgebra.reverse (val A m) = emb Q τ) (hp : Pos τ) :
    ∃ w, m.sandwichLoop A inner n = some w ∧ WfMV A w ∧ val A w * CliffordAlgebra.reverse (val A w) = emb Q (next^[inner * n] τ) := by
  induction n generalizing m τ with
  | zero => exact ⟨m, rfl, hm, hτ⟩
  | succ n ih =>
    obtain ⟨z, z1, z2, z3, z4, z5⟩ := fine_solvable hA hm hf
    have z0 : 0 ∈ z.sub.blades := by
      by_contra hn
      have h3 := (within_iff z2.sub).1 z2.within 0 (Nat.two_pow_pos _) hn
      rw [z3, hτ, coef_zero_emb] at h3
      exact hp.1.ne' h3
    obtain ⟨op, G⟩ := z5 z0
    obtain ⟨o, ho, -⟩ := newton_eq hA z2 G
    obtain ⟨d1, d2⟩ := C45_default (A := A) (R := ℝ) z2.sub
    rw [if_pos G.zero] at d2
    obtain ⟨x, ξ, x1, x2, x3, x4, x5⟩ := loop_global hA h5 Q z2 G z4 (z3.trans hτ) ho inner d1 rfl (ξ := 1) (by rw [d2, map_one]) (Ok.one hp)
    have e : z.inverseSandwich A inner = some x := by
      rw [← x1]
      simp only [MV.inverseSandwich, G.built, Option.bind_eq_bind, Option.bind_some, G.out, ne_eq, not_true, if_false, ho]
      rfl
    obtain ⟨w, w1, w2, w3, w4, w5⟩ := outer_step hA hm hf z2 z3 z4 z0 x2 x3
    have w6 := w5 (G.reverse hA (x3 ▸ x2.within))
    rw [x4, z3, hτ, ← map_mul, ← map_mul, x5, one_mul, mul_one] at w6
    obtain ⟨y, y1, y2, y3⟩ := ih w2 w3 w6 (iterate_pos hp _)
    refine ⟨y, by rw [sandwichLoop_succ, z1, Option.bind_some, e, Option.bind_some, w1, Option.bind_some, y1], y2, ?_⟩
    rw [y3, ← Function.iterate_add_apply, mul_add, mul_one]

/-- The residual of the iterates, in coefficients. -/
theorem coef_rate (Q : Quad A l q) {τ : K l} (hp : Pos τ) :
    ∃ C n0, ∀ n, ∀ b < 2 ^ A.n, |coef A ℝ b (emb Q (next^[n0 + n] τ) - 1)| ≤ C * (1 / 2) ^ 2 ^ n := by
  obtain ⟨C, n0, c0, h⟩ := rate (t := fun n => next^[n] τ) hp fun n => Function.iterate_succ_apply' _ _ _
  obtain ⟨B, hB⟩ : ∃ B : ℝ, ∀ b < 2 ^ A.n, |coef A ℝ b (1 : Cl A ℝ)| + |coef A ℝ b q| ≤ B := by
    refine ⟨∑ b ∈ Finset.range (2 ^ A.n), (|coef A ℝ b (1 : Cl A ℝ)| + |coef A ℝ b q|), fun b hb => ?_⟩
    exact Finset.single_le_sum (f := fun b => |coef A ℝ b (1 : Cl A ℝ)| + |coef A ℝ b q|) (fun _ _ => by positivity) (Finset.mem_range.2 hb)
  refine ⟨C * B, n0, fun n b hb => ?_⟩
  obtain ⟨h1, h2⟩ := h n
  have e : emb Q (next^[n0 + n] τ) - 1 = emb Q (next^[n0 + n] τ - 1) := by rw [map_sub, map_one]
  rw [e, emb_eq, map_add, map_smul, map_smul, smul_eq_mul, smul_eq_mul]
  refine (abs_add_le _ _).trans ?_
  rw [abs_mul, abs_mul]
  have k1 := mul_le_mul_of_nonneg_right h1 (abs_nonneg (coef A ℝ b (1 : Cl A ℝ)))
  have k2 := mul_le_mul_of_nonneg_right h2 (abs_nonneg (coef A ℝ b q))
  have k3 : 0 ≤ C * (1 / 2) ^ 2 ^ n := by positivity
  have k4 := mul_le_mul_of_nonneg_left (hB b hb) k3
  linarith

/-! ### where the iteration cannot converge -/

theorem emb_injective (Q : Quad A l q) (hq : q ≠ 0) {z : K l} (h : emb Q z = 0) : z = 0 := by
  have h1 := congrArg (coef A ℝ 0) h
  rw [coef_zero_emb, map_zero] at h1
  rw [emb_eq, h1, zero_smul, zero_add, smul_eq_zero] at h
  ext
  · exact h1
  · exact h.resolve_right hq

theorem step_some (hA : WfAlg A) (Q : Quad A l q) (hq : q ≠ 0) {s : MV ℝ} (hs : WfMV A s) {op : Operator Int} (G : Solvable A s.sub op)
    {σ : K l} (hσ : val A s = emb Q σ) {o : Operator ℝ} (ho : (op.cast ℝ).partialApply [(1, s)] = some o) {x x' : MV ℝ} (hx : WfMV A x)
    (hxs : x.sub = s.sub) {ξ : K l} (hξ : val A x = emb Q ξ) (h : newtonStep A o s.sub (MV.default s.sub) x = some x') :
    WfMV A x' ∧ x'.sub = s.sub ∧ ∃ ξ', val A x' = emb Q ξ' := by
  obtain ⟨o', q1, q2⟩ := newton_eq hA hs G
  rw [ho] at q1
  cases q1
  obtain ⟨o', p1, p2⟩ := newton_step (F := ℝ) hA hs G.built G.out
  rw [ho] at p1
  cases p1
  have n1 := (p2 x (MV.default s.sub) hx hxs (C45_default (A := A) (R := ℝ) hs.sub).1 rfl).1
  have hxw : Within A s.sub (emb Q ξ) := hξ ▸ hxs ▸ hx.within
  have hsw : Within A s.sub (emb Q σ) := hσ ▸ hs.within
  have hc : val A x * val A s = emb Q (ξ * σ) := by rw [hξ, hσ, map_mul]
  have hcm : val A x * val A s = val A s * val A x := by rw [hξ, hσ, ← map_mul, ← map_mul, mul_comm]
  have hinj : ∀ Y, Within A s.sub Y → val A x * val A s * Y + Y * (val A x * val A s) = 0 → Y = 0 := by
    intro Y hY h0
    by_contra hne
    have rY := G.reverse hA hY
    obtain ⟨y, hy, ys, rfl⟩ := hY
    have : newtonStep A o s.sub (MV.default s.sub) x = none := n1.2 ⟨y, hy, ys, hne, by
      rw [rY, hξ, emb_reverse, ← hξ, mul_assoc (val A y), ← hcm]
      exact h0⟩
    rw [h] at this
    cases this
  have hcw := within_mul hA G Q hxw hsw
  have hnm : nm (ξ * σ) ≠ 0 := by
    intro h0
    obtain ⟨c, hc'⟩ : ∃ c, c = ξ * σ := ⟨_, rfl⟩
    rw [← hc'] at h0 hcw hc
    have e : star c = (2 * c.re) • 1 + (-1 : ℝ) • c := by
      ext <;> simp [QuadraticAlgebra.re_one, QuadraticAlgebra.im_one]
      ring
    have hw : Within A s.sub (emb Q (star c)) := by
      rw [e, map_add, map_smul, map_smul, map_one]
      exact (G.one.smul G.wf _).add G.wf (hcw.smul G.wf _)
    have k : c * star c = 0 := by
      rw [← QuadraticAlgebra.algebraMap_norm_eq_mul_star]
      show algebraMap ℝ _ (nm c) = 0
      rw [h0, map_zero]
    have z1 := hinj _ hw (by rw [hc, ← map_mul, ← map_mul, mul_comm (star c), k, map_zero, add_zero])
    have z2 := emb_injective Q hq z1
    have z3 : c = 0 := by rw [← star_star c, z2, star_zero]
    have z4 := hinj 1 G.one (by rw [hc, z3, map_zero, zero_mul, mul_zero, add_zero])
    exact one_ne_zero' A ℝ z4
  obtain ⟨x'', x1, x2, x3, x4⟩ := q2 x hx hxs hcm hinj (emb Q (StudyNewton.inv (ξ * σ))) (within_inv G Q hcw)
    (by rw [hc, ← map_mul, StudyNewton.mul_inv hnm, map_one]) (by rw [hc, ← map_mul, mul_comm, StudyNewton.mul_inv hnm, map_one])
  rw [h] at x1
  cases x1
  exact ⟨x2, x3, (2⁻¹ : ℝ) • (ξ + StudyNewton.inv (ξ * σ)), by rw [x4, hξ, map_smul, map_add]⟩

theorem loop_some (hA : WfAlg A) (Q : Quad A l q) (hq : q ≠ 0) {s : MV ℝ} (hs : WfMV A s) {op : Operator Int} (G : Solvable A s.sub op)
    {σ : K l} (hσ : val A s = emb Q σ) {o : Operator ℝ} (ho : (op.cast ℝ).partialApply [(1, s)] = some o) (n : Nat) {x x' : MV ℝ} (hx : WfMV A x)
    (hxs : x.sub = s.sub) {ξ : K l} (hξ : val A x = emb Q ξ) (h : newtonLoop A o s.sub (MV.default s.sub) n x = some x') :
    WfMV A x' ∧ x'.sub = s.sub ∧ ∃ ξ', val A x' = emb Q ξ' := by
  induction n generalizing x ξ with
  | zero => cases h; exact ⟨hx, hxs, ξ, hξ⟩
  | succ n ih =>
    rw [newtonLoop_succ] at h
    obtain ⟨y, y1, y2⟩ := Option.bind_eq_some_iff.1 h
    obtain ⟨z1, z2, ξ', z3⟩ := step_some hA Q hq hs G hσ ho hx hxs hξ y1
    exact ih z1 z2 z3 y2

/-- Without a scalar in the subspace everything is zero. -/
theorem loop_zero (hA : WfAlg A) {s : MV ℝ} (hs : WfMV A s) {op : Operator Int} (hb : fullSandwich A (.sub s.sub) (.sub s.sub) = some op)
    (hout : op.output = s.sub) {o : Operator ℝ} (ho : (op.cast ℝ).partialApply [(1, s)] = some o) (n : Nat) {x x' : MV ℝ} (hx : WfMV A x)
    (hxs : x.sub = s.sub) (hξ : val A x = 0) (h : newtonLoop A o s.sub (MV.default s.sub) n x = some x') :
    WfMV A x' ∧ x'.sub = s.sub ∧ val A x' = 0 := by
  induction n generalizing x with
  | zero => cases h; exact ⟨hx, hxs, hξ⟩
  | succ n ih =>
    rw [newtonLoop_succ] at h
    obtain ⟨y, y1, y2⟩ := Option.bind_eq_some_iff.1 h
    obtain ⟨o', p1, p2⟩ := newton_step (F := ℝ) hA hs hb hout
    rw [ho] at p1
    cases p1
    obtain ⟨n1, n2⟩ := p2 x (MV.default s.sub) hx hxs (C45_default (A := A) (R := ℝ) hs.sub).1 rfl
    obtain ⟨z1, z2, -⟩ := n2 y y1
    refine ih z1 z2 ?_ y2
    by_contra hne
    have := n1.2 ⟨y, z1, z2, hne, by rw [hξ, map_zero, zero_mul, zero_mul, mul_zero, add_zero]⟩
    rw [y1] at this
    cases this

theorem outer_stuck (hA : WfAlg A) (h5 : A.n < 6) (Q : Quad A l q) (hq : q ≠ 0) (inner n : Nat) {m w : MV ℝ} (hm : WfMV A m) (hf : Fine A m.sub) {τ : K l}
    (hτ : val A m * CliffordAlgebra.reverse (val A m) = emb Q τ) (hp : nm τ ≤ 0) (h : m.sandwichLoop A inner n = some w) :
    ∃ τ' : K l, val A w * CliffordAlgebra.reverse (val A w) = emb Q τ' ∧ nm τ' ≤ 0 := by
  induction n generalizing m τ with
  | zero => cases h; exact ⟨τ, hτ, hp⟩
  | succ n ih =>
    obtain ⟨z, z1, z2, z3, z4, z5⟩ := fine_solvable hA hm hf
    rw [sandwichLoop_succ, z1, Option.bind_some] at h
    obtain ⟨x, x1, h⟩ := Option.bind_eq_some_iff.1 h
    obtain ⟨u, u1, h⟩ := Option.bind_eq_some_iff.1 h
    obtain ⟨op, o1, -, -, -⟩ := fullSandwich_polar hA z2.sub z2.sub
    rw [MV.inverseSandwich] at x1
    simp only [o1, Option.bind_eq_bind, Option.bind_some] at x1
    split_ifs at x1 with hout
    push Not at hout
    obtain ⟨o, ho, -⟩ := newton_step (F := ℝ) hA z2 o1 hout
    rw [ho, Option.bind_some] at x1
    replace x1 : newtonLoop A o z.sub (MV.default z.sub) inner (MV.default z.sub) = some x := x1
    obtain ⟨d1, d2⟩ := C45_default (A := A) (R := ℝ) z2.sub
    by_cases z0 : 0 ∈ z.sub.blades
    · obtain ⟨op', G⟩ := z5 z0
      cases o1.symm.trans G.built
      rw [if_pos z0] at d2
      obtain ⟨x2, x3, ξ, x4⟩ := loop_some hA Q hq z2 G (z3.trans hτ) ho inner d1 rfl (ξ := 1) (by rw [d2, map_one]) x1
      obtain ⟨u', w1, w2, w3, w4, w5⟩ := outer_step hA hm hf z2 z3 z4 z0 x2 x3
      cases u1.symm.trans w1
      have w6 := w5 (G.reverse hA (x3 ▸ x2.within))
      rw [x4, z3, hτ, ← map_mul, ← map_mul] at w6
      refine ih w2 w3 w6 ?_ h
      rw [nm_mul, nm_mul, mul_right_comm]
      exact mul_nonpos_of_nonneg_of_nonpos (mul_self_nonneg _) hp
    · rw [if_neg z0] at d2
      obtain ⟨x2, x3, x4⟩ := loop_zero hA z2 o1 hout ho inner d1 rfl d2 x1
      obtain ⟨u', w1, w2, w3⟩ := product_gives hA x2 hm
      have : x.mul A (.mv m) = some u' := by rw [MV.mul, MV.upcast]; simpa using w1
      cases u1.symm.trans this
      have he : EvenSub u.sub := product_even hA x2 hm (fun b hb => by have := z4 b (x3 ▸ hb); omega) hf.1 w1
      exact ih w2 ⟨he, .inl h5⟩ (τ := 0) (by rw [w3, x4, zero_mul, zero_mul, map_zero]) (by simp [nm]) h

end Verif.NewtonGlobal
