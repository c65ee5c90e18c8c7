import Verif.Props.Optimized
import Verif.Spec.Exp
import Mathlib.Analysis.ODE.ExistUnique
import Mathlib.Analysis.SpecialFunctions.Trigonometric.Deriv
import Mathlib.Analysis.SpecialFunctions.Trigonometric.Bounds
import Mathlib.Analysis.Normed.Module.FiniteDimension
/-! # Property C79: the optimised exponentials -/
namespace Verif.Props
open Model Spec Pga3d

/-- There is only one exponential. -/
theorem isExp_unique {A : Alg} {B X Y : Cl A ℝ} (hX : IsExp A B X) (hY : IsExp A B Y) : X = Y := by
  obtain ⟨E, hE, rfl⟩ := hX
  obtain ⟨F, hF, rfl⟩ := hY
  let T : Cl A ℝ →ₗ[ℝ] (Fin (2 ^ A.n) → ℝ) := LinearMap.pi fun b => coef A ℝ (b : Nat)
  let U : (Fin (2 ^ A.n) → ℝ) →ₗ[ℝ] Cl A ℝ := Fintype.linearCombination ℝ fun b : Fin (2 ^ A.n) => blade A ℝ (b : Nat)
  have hUT : ∀ x, U (T x) = x := by
    intro x
    conv_rhs => rw [sum_coef A ℝ x, Finset.sum_range]
    simp [U, T, Fintype.linearCombination_apply]
  let L : (Fin (2 ^ A.n) → ℝ) →ₗ[ℝ] (Fin (2 ^ A.n) → ℝ) := T ∘ₗ (LinearMap.mulLeft ℝ B) ∘ₗ U
  have key : ∀ {G : ℝ → Cl A ℝ}, IsExpCurve A B G → ∀ t, HasDerivAt (fun t => T (G t)) (L (T (G t))) t := by
    intro G hG t
    rw [hasDerivAt_pi]
    intro b
    have := hG.deriv (coef A ℝ (b : Nat)) t
    simp only [L, LinearMap.comp_apply, hUT, LinearMap.mulLeft_apply]
    exact this
  have h := ODE_solution_unique_univ (v := fun _ x => L x) (s := fun _ => Set.univ) (K := ‖L.toContinuousLinearMap‖₊) (t₀ := 0)
    (fun _ => L.toContinuousLinearMap.lipschitz.lipschitzOnWith) (fun t => ⟨key hE t, trivial⟩) (fun t => ⟨key hF t, trivial⟩)
    (by rw [hE.zero, hF.zero])
  have := congrFun h 1
  rw [← hUT (E 1), ← hUT (F 1)]
  exact congrArg U this

theorem mot_curve {B : Cl pga3d ℝ} {f0 f1 f2 f3 f4 f5 f6 f7 g0 g1 g2 g3 g4 g5 g6 g7 : ℝ → ℝ} (h0 : ∀ t, HasDerivAt f0 (g0 t) t)
    (h1 : ∀ t, HasDerivAt f1 (g1 t) t) (h2 : ∀ t, HasDerivAt f2 (g2 t) t) (h3 : ∀ t, HasDerivAt f3 (g3 t) t) (h4 : ∀ t, HasDerivAt f4 (g4 t) t)
    (h5 : ∀ t, HasDerivAt f5 (g5 t) t) (h6 : ∀ t, HasDerivAt f6 (g6 t) t) (h7 : ∀ t, HasDerivAt f7 (g7 t) t)
    (hB : ∀ t, B * mot (f0 t) (f1 t) (f2 t) (f3 t) (f4 t) (f5 t) (f6 t) (f7 t) = mot (g0 t) (g1 t) (g2 t) (g3 t) (g4 t) (g5 t) (g6 t) (g7 t))
    (hz : mot (f0 0) (f1 0) (f2 0) (f3 0) (f4 0) (f5 0) (f6 0) (f7 0) = (1 : Cl pga3d ℝ)) :
    IsExpCurve pga3d B fun t => mot (f0 t) (f1 t) (f2 t) (f3 t) (f4 t) (f5 t) (f6 t) (f7 t) where
  zero := hz
  deriv φ t := by
    rw [hB]
    simp only [mot, map_add, map_smul, smul_eq_mul]
    exact ((((((((h0 t).mul_const _).add ((h1 t).mul_const _)).add ((h2 t).mul_const _)).add ((h3 t).mul_const _)).add ((h4 t).mul_const _)).add
      ((h5 t).mul_const _)).add ((h6 t).mul_const _)).add ((h7 t).mul_const _)

theorem mot_one : mot 1 0 0 0 0 0 0 0 = (1 : Cl pga3d ℝ) := by simp [mot]

/-- The exponential of a translation. -/
theorem isExp_translation (x y z : ℝ) : IsExp pga3d (mot 0 0 0 0 x y z 0) (mot 1 0 0 0 x y z 0) := by
  refine ⟨fun t => mot 1 0 0 0 (t * x) (t * y) (t * z) 0, mot_curve (f0 := fun _ => 1) (f1 := fun _ => 0) (f2 := fun _ => 0) (f3 := fun _ => 0)
    (f7 := fun _ => 0) (g0 := fun _ => 0) (g1 := fun _ => 0) (g2 := fun _ => 0) (g3 := fun _ => 0) (g4 := fun _ => x) (g5 := fun _ => y) (g6 := fun _ => z)
    (g7 := fun _ => 0) (fun t => hasDerivAt_const _ _) (fun t => hasDerivAt_const _ _) (fun t => hasDerivAt_const _ _) (fun t => hasDerivAt_const _ _)
    ?_ ?_ ?_ (fun t => hasDerivAt_const _ _) ?_ ?_, by simp only [one_mul]⟩
  · intro t; simpa using (hasDerivAt_id t).mul_const x
  · intro t; simpa using (hasDerivAt_id t).mul_const y
  · intro t; simpa using (hasDerivAt_id t).mul_const z
  · intro t; rw [mot_mul]; congr 1 <;> ring
  · simp only [zero_mul]; exact mot_one

section
variable {a : ℝ}

theorem deriv_cos (ha : a ≠ 0) (t : ℝ) : HasDerivAt (fun t => Real.cos (a * t)) (-(a * a) * (Real.sin (a * t) / a)) t := by
  have := ((hasDerivAt_id t).const_mul a).cos
  simp only [id, mul_one] at this
  convert this using 1
  field_simp

theorem deriv_sin (ha : a ≠ 0) (t : ℝ) : HasDerivAt (fun t => Real.sin (a * t) / a) (Real.cos (a * t)) t := by
  have := (((hasDerivAt_id t).const_mul a).sin).div_const a
  simp only [id, mul_one, mul_div_assoc, div_self ha] at this
  simpa only [mul_div_assoc] using this

/-- The exponential of a bivector with a rotation part. -/
theorem isExp_bivector {xy xz yz xw yw zw m c s t : ℝ} (ha : a ≠ 0) (hl : a * a = xy * xy + xz * xz + yz * yz)
    (hm : m = xy * zw - xz * yw + yz * xw) (hc : c = Real.cos a) (hs : s = Real.sin a / a) (ht : t = m * (c - s) / (a * a)) :
    IsExp pga3d (mot 0 xy xz yz xw yw zw 0)
      (mot c (s * xy) (s * xz) (s * yz) (s * xw + t * yz) (s * yw - t * xz) (s * zw + t * xy) (m * s)) := by
  obtain ⟨S, C, hS, hC, hS0, hC0, hS1, hC1⟩ : ∃ S C : ℝ → ℝ, (∀ t, HasDerivAt S (C t) t) ∧ (∀ t, HasDerivAt C (-(a * a) * S t) t) ∧
      S 0 = 0 ∧ C 0 = 1 ∧ S 1 = s ∧ C 1 = c :=
    ⟨fun t => Real.sin (a * t) / a, fun t => Real.cos (a * t), deriv_sin ha, deriv_cos ha, by simp, by simp, by simp [hs], by simp [hc]⟩
  obtain ⟨k, hk⟩ : ∃ k, k * (a * a) = m := ⟨m / (a * a), div_mul_cancel₀ m (mul_ne_zero ha ha)⟩
  have hT : ∀ t, HasDerivAt (fun t => k * (t * C t - S t)) (-(m * (t * S t))) t := by
    intro t
    refine ((((hasDerivAt_id t).mul (hC t)).sub (hS t)).const_mul k).congr_deriv ?_
    simp only [id, ← hk]
    ring
  have hM : ∀ t, HasDerivAt (fun t => m * (t * S t)) (m * (S t + t * C t)) t := by
    intro t
    refine (((hasDerivAt_id t).mul (hS t)).const_mul m).congr_deriv ?_
    simp only [id]
    ring
  refine ⟨_, mot_curve hC (fun t => (hS t).mul_const xy) (fun t => (hS t).mul_const xz) (fun t => (hS t).mul_const yz)
    (fun t => ((hS t).mul_const xw).add ((hT t).mul_const yz)) (fun t => ((hS t).mul_const yw).sub ((hT t).mul_const xz))
    (fun t => ((hS t).mul_const zw).add ((hT t).mul_const xy)) hM ?_ ?_, ?_⟩
  · intro t
    rw [mot_mul]
    simp only [Pi.add_apply, Pi.sub_apply]
    congr 1
    · linear_combination (S t) * hl
    · ring
    · ring
    · ring
    · ring
    · ring
    · ring
    · linear_combination (-(t * k * C t - S t * k)) * hl + (t * C t - S t) * hk - 2 * S t * hm
  · simp [hS0, hC0, mot_one]
  · have : t = k * (1 * c - s) := by rw [ht, ← hk]; field_simp
    simp only [Pi.add_apply, Pi.sub_apply, hS1, hC1, this]
    congr 1 <;> ring
end

theorem three {α : Type} {l : List α} (h : l.length = 3) : ∃ a b c, l = [a, b, c] := by
  match l, h with
  | [a, b, c], _ => exact ⟨a, b, c, rfl⟩

theorem six {α : Type} {l : List α} (h : l.length = 6) : ∃ a b c d e f, l = [a, b, c, d, e, f] := by
  match l, h with
  | [a, b, c, d, e, f], _ => exact ⟨a, b, c, d, e, f, rfl⟩

theorem wf_translatorSub : WfSub pga3d ⟨[0, 9, 10, 12]⟩ := wfSub_of_B (by decide +kernel)

theorem wf_bivectorSub : WfSub pga3d ⟨[3, 5, 6, 9, 10, 12]⟩ := wfSub_of_B (by decide +kernel)

/-- C79: `exp` of a translation is its exponential. -/
theorem C79_translation {rt : Roots ℝ} {fuel n : Nat} {e : ℝ → ℝ} {b : MV ℝ} (hb : WfMV pga3d b) (hs : b.sub = ⟨[9, 10, 12]⟩) :
    ∃ y, b.expOptimized pga3d rt Real.cos Real.sin fuel e n = .ok y ∧ WfMV pga3d y ∧ y.sub = ⟨[0, 9, 10, 12]⟩ ∧
      IsExp pga3d (val pga3d b) (val pga3d y) := by
  obtain ⟨S, v⟩ := b
  simp only at hs
  subst hs
  obtain ⟨x, y, z, rfl⟩ := three (l := v) hb.len
  have o1 : optimizedFor pga3d "xy,xz,yz,xw,yw,zw" ⟨[9, 10, 12]⟩ = false := by decide +kernel
  have o2 : optimizedFor pga3d "xy,xz,yz" ⟨[9, 10, 12]⟩ = false := by decide +kernel
  have o3 : optimizedFor pga3d "xw,yw,zw" ⟨[9, 10, 12]⟩ = true := by decide +kernel
  have ht : pga3d.translator = some ⟨[0, 9, 10, 12]⟩ := by decide +kernel
  refine ⟨⟨⟨[0, 9, 10, 12]⟩, [1, x, y, z]⟩, ?_, ⟨wf_translatorSub, rfl⟩, rfl, ?_⟩
  · rw [MV.expOptimized]
    simp only [o1, o2, o3, MV.expDegenerate, ht]
    rfl
  · rw [val_translation, val_translator]
    exact isExp_translation x y z

theorem sinc_error {a : ℝ} (ha : 0 < a) : 0 ≤ 1 - Real.sin a / a ∧ 1 - Real.sin a / a ≤ a * a / 6 := by
  have h1 := (Real.sin_lt ha).le
  have h2 := (Real.sin_gt_sub_cube ha).le
  constructor
  · rw [sub_nonneg, div_le_one ha]; exact h1
  · rw [sub_le_comm, le_div_iff₀ ha]
    linarith

theorem abs_le_root {a x l : ℝ} (ha : 0 ≤ a) (hl : a * a = x * x + l) (h0 : 0 ≤ l) : |x| ≤ a := by
  apply abs_le_of_sq_le_sq _ ha
  nlinarith

theorem small {a : ℝ} (ha : 0 ≤ a) : 1 / 10 ^ 20 < a ↔ 1 / 10 ^ 40 < a * a := by
  rw [show (1 : ℝ) / 10 ^ 40 = 1 / 10 ^ 20 * (1 / 10 ^ 20) by norm_num]
  exact ⟨fun h => mul_self_lt_mul_self (by positivity) h, fun h => lt_of_mul_self_lt_mul_self₀ ha h⟩

/-- The errors of the coefficients. -/
theorem bivector_error {a xy xz yz xw yw zw m δ κ : ℝ} (ha : 0 < a) (hl : a * a = xy * xy + xz * xz + yz * yz)
    (hm : m = xy * zw - xz * yw + yz * xw) (hδ : 0 ≤ δ) (hδ' : δ ≤ a * a / 6) (hκ : κ = m * δ / (a * a)) (hsm : a * a ≤ 1 / 10 ^ 40) :
    ∀ v ∈ [0, δ * xy, δ * xz, δ * yz, δ * xw - κ * yz, δ * yw + κ * xz, δ * zw - κ * xy, m * δ],
      |v| ≤ 1 / 10 ^ 40 * (|xy| + (|xz| + (|yz| + (|xw| + (|yw| + |zw|))))) := by
  have h1 : |xy| ≤ a := abs_le_root (l := xz * xz + yz * yz) ha.le (by rw [hl]; ring) (add_nonneg (mul_self_nonneg _) (mul_self_nonneg _))
  have h2 : |xz| ≤ a := abs_le_root (l := xy * xy + yz * yz) ha.le (by rw [hl]; ring) (add_nonneg (mul_self_nonneg _) (mul_self_nonneg _))
  have h3 : |yz| ≤ a := abs_le_root (l := xy * xy + xz * xz) ha.le (by rw [hl]; ring) (add_nonneg (mul_self_nonneg _) (mul_self_nonneg _))
  obtain ⟨p1, p2, p3, p4, p5, p6⟩ := (⟨abs_nonneg xy, abs_nonneg xz, abs_nonneg yz, abs_nonneg xw, abs_nonneg yw, abs_nonneg zw⟩ :
    0 ≤ |xy| ∧ 0 ≤ |xz| ∧ 0 ≤ |yz| ∧ 0 ≤ |xw| ∧ 0 ≤ |yw| ∧ 0 ≤ |zw|)
  set W := |xw| + (|yw| + |zw|) with hW
  have hmW : |m| ≤ a * W := by
    have e1 : |xy * zw| ≤ a * |zw| := by rw [abs_mul]; exact mul_le_mul_of_nonneg_right h1 p6
    have e2 : |xz * yw| ≤ a * |yw| := by rw [abs_mul]; exact mul_le_mul_of_nonneg_right h2 p5
    have e3 : |yz * xw| ≤ a * |xw| := by rw [abs_mul]; exact mul_le_mul_of_nonneg_right h3 p4
    have t1 := abs_add_le (xy * zw - xz * yw) (yz * xw)
    have t2 := abs_sub (xy * zw) (xz * yw)
    rw [hm, hW]
    linarith
  have hW0 : 0 ≤ W := by positivity
  have hδε : δ ≤ 1 / 10 ^ 40 / 6 := by linarith
  have hκa : |κ| * a ≤ 1 / 10 ^ 40 / 6 * W := by
    have : |κ| * a = |m| / a * δ := by
      rw [hκ, abs_div, abs_mul, abs_of_nonneg hδ, abs_of_pos (mul_pos ha ha)]
      field_simp
    rw [this]
    have h5 : |m| / a ≤ W := by rw [div_le_iff₀ ha]; linarith
    calc |m| / a * δ ≤ W * (1 / 10 ^ 40 / 6) := mul_le_mul h5 hδε hδ hW0
      _ = _ := mul_comm _ _
  have ha1 : a ≤ 1 := by
    by_contra h
    have : 1 < a * a := by nlinarith
    have : (1 : ℝ) / 10 ^ 40 ≤ 1 := by norm_num
    linarith
  have hd : ∀ x : ℝ, |δ * x| ≤ 1 / 10 ^ 40 / 6 * |x| := by
    intro x
    rw [abs_mul, abs_of_nonneg hδ]
    exact mul_le_mul_of_nonneg_right hδε (abs_nonneg x)
  have hk : ∀ x : ℝ, |x| ≤ a → |κ * x| ≤ 1 / 10 ^ 40 / 6 * W := by
    intro x hx
    rw [abs_mul]
    exact (mul_le_mul_of_nonneg_left hx (abs_nonneg κ)).trans hκa
  have hmd : |m * δ| ≤ 1 / 10 ^ 40 / 6 * W := by
    have := hd m
    rw [mul_comm m]
    refine this.trans (mul_le_mul_of_nonneg_left (hmW.trans ?_) (by positivity))
    nlinarith
  generalize hε : (1 : ℝ) / 10 ^ 40 = ε at *
  have hε0 : 0 ≤ ε := by rw [← hε]; positivity
  obtain ⟨q1, q2, q3, q4, q5, q6⟩ := (⟨mul_nonneg hε0 p1, mul_nonneg hε0 p2, mul_nonneg hε0 p3, mul_nonneg hε0 p4, mul_nonneg hε0 p5, mul_nonneg hε0 p6⟩ :
    0 ≤ ε * |xy| ∧ 0 ≤ ε * |xz| ∧ 0 ≤ ε * |yz| ∧ 0 ≤ ε * |xw| ∧ 0 ≤ ε * |yw| ∧ 0 ≤ ε * |zw|)
  have hsum : ε * (|xy| + (|xz| + (|yz| + W))) = ε * |xy| + ε * |xz| + ε * |yz| + (ε * |xw| + ε * |yw| + ε * |zw|) := by rw [hW]; ring
  have hWs : ε / 6 * W = (ε * |xw| + ε * |yw| + ε * |zw|) / 6 := by rw [hW]; ring
  have hds : ∀ x : ℝ, |δ * x| ≤ ε * |x| / 6 := fun x => (hd x).trans (le_of_eq (by ring))
  rw [hWs] at hk hmd
  rw [hsum]
  intro v hv
  simp only [List.mem_cons, List.not_mem_nil, or_false] at hv
  rcases hv with rfl | rfl | rfl | rfl | rfl | rfl | rfl | rfl
  · rw [abs_zero]; linarith
  · linarith [hds xy]
  · linarith [hds xz]
  · linarith [hds yz]
  · linarith [hds xw, hk yz h3, abs_sub (δ * xw) (κ * yz)]
  · linarith [hds yw, hk xz h2, abs_add_le (δ * yw) (κ * xz)]
  · linarith [hds zw, hk xy h1, abs_sub (δ * zw) (κ * xy)]
  · linarith

/-- C79: `exp` of a bivector with a rotation part is its exponential if the norm of that part exceeds the threshold `1e-20` of the
code; below it, no coefficient is off by more than `1e-40` times the sum of the coefficients of the bivector.  If the rotation
part is zero, the result is not finite, although the exponential exists. -/
theorem C79_bivector {rt : Roots ℝ} (hr : RealRoots rt) {fuel n : Nat} {e : ℝ → ℝ} {b : MV ℝ} (hb : WfMV pga3d b)
    (hs : b.sub = ⟨[3, 5, 6, 9, 10, 12]⟩) :
    ((∃ k ∈ [3, 5, 6], coeff b k ≠ 0) → ∃ y d, b.expOptimized pga3d rt Real.cos Real.sin fuel e n = .ok y ∧ WfMV pga3d y ∧
      y.sub = ⟨[0, 3, 5, 6, 9, 10, 12, 15]⟩ ∧ WfMV pga3d d ∧ IsExp pga3d (val pga3d b) (val pga3d y - val pga3d d) ∧
      (∀ v ∈ d.vals, |v| ≤ 1 / 10 ^ 40 * (b.vals.map abs).sum) ∧
      (1 / 10 ^ 40 < coeff b 3 * coeff b 3 + coeff b 5 * coeff b 5 + coeff b 6 * coeff b 6 → val pga3d d = 0)) ∧
    ((∀ k ∈ [3, 5, 6], coeff b k = 0) → b.expOptimized pga3d rt Real.cos Real.sin fuel e n = .error .divZero ∧
      IsExp pga3d (val pga3d b) (1 + val pga3d b)) := by
  have hopt : b.expOptimized pga3d rt Real.cos Real.sin fuel e n = b.expBivector pga3d rt Real.cos Real.sin := by
    rw [MV.expOptimized, if_pos]
    rw [hs]; decide +kernel
  rw [hopt]
  obtain ⟨S, v⟩ := b
  simp only at hs
  subst hs
  obtain ⟨xy, xz, yz, xw, yw, zw, rfl⟩ := six (l := v) hb.len
  have c1 : coeff (⟨⟨[3, 5, 6, 9, 10, 12]⟩, [xy, xz, yz, xw, yw, zw]⟩ : MV ℝ) 3 = xy := rfl
  have c2 : coeff (⟨⟨[3, 5, 6, 9, 10, 12]⟩, [xy, xz, yz, xw, yw, zw]⟩ : MV ℝ) 5 = xz := rfl
  have c3 : coeff (⟨⟨[3, 5, 6, 9, 10, 12]⟩, [xy, xz, yz, xw, yw, zw]⟩ : MV ℝ) 6 = yz := rfl
  have hev : pga3d.evenGrade = some ⟨[0, 3, 5, 6, 9, 10, 12, 15]⟩ := by decide +kernel
  obtain ⟨a, a1, a2, a3⟩ := hr.nonneg (xy * xy + xz * xz + yz * yz)
    (add_nonneg (add_nonneg (mul_self_nonneg _) (mul_self_nonneg _)) (mul_self_nonneg _))
  constructor
  · intro h
    have hpos : 0 < xy * xy + xz * xz + yz * yz := by
      have := mul_self_nonneg xy
      have := mul_self_nonneg xz
      have := mul_self_nonneg yz
      obtain ⟨b, hb, hne⟩ := h
      simp only [List.mem_cons, List.not_mem_nil, or_false] at hb
      rcases hb with rfl | rfl | rfl
      · rw [c1] at hne; have := mul_self_pos.2 hne; linarith
      · rw [c2] at hne; have := mul_self_pos.2 hne; linarith
      · rw [c3] at hne; have := mul_self_pos.2 hne; linarith
    have ha : 0 < a := by
      rcases a2.lt_or_eq with h | h
      · exact h
      · rw [← h] at a3; linarith
    obtain ⟨m, hm⟩ : ∃ m, m = xy * zw - xz * yw + yz * xw := ⟨_, rfl⟩
    obtain ⟨c, hc⟩ : ∃ c, c = Real.cos a := ⟨_, rfl⟩
    obtain ⟨s, hsd⟩ : ∃ s, s = MV.sinc Real.sin a := ⟨_, rfl⟩
    obtain ⟨t, ht⟩ : ∃ t, t = m * (c - s) / (a * a) := ⟨_, rfl⟩
    obtain ⟨δ, hδ⟩ : ∃ δ, δ = s - Real.sin a / a := ⟨_, rfl⟩
    obtain ⟨κ, hκ⟩ : ∃ κ, κ = m * δ / (a * a) := ⟨_, rfl⟩
    have hE := isExp_bivector (xw := xw) (yw := yw) (zw := zw) ha.ne' a3 hm hc rfl rfl
    refine ⟨⟨⟨[0, 3, 5, 6, 9, 10, 12, 15]⟩, [c, s * xy, s * xz, s * yz, s * xw + t * yz, s * yw - t * xz, s * zw + t * xy, m * s]⟩,
      ⟨⟨[0, 3, 5, 6, 9, 10, 12, 15]⟩, [0, δ * xy, δ * xz, δ * yz, δ * xw - κ * yz, δ * yw + κ * xz, δ * zw - κ * xy, m * δ]⟩,
      ?_, ⟨wf_motorSub, rfl⟩, rfl, ⟨wf_motorSub, rfl⟩, ?_, ?_, ?_⟩
    · rw [MV.expBivector]
      simp only [MV.sqrtVal, a1, hev, ht, hsd, hc, hm, a3]
      show (if _ then _ else _) = _
      rw [if_neg hpos.ne']
      rfl
    · rw [val_bivector, val_motor, val_motor]
      have e : Real.sin a / a = s - δ := by rw [hδ]; ring
      rw [e] at hE
      have e2 : m * (c - (s - δ)) / (a * a) = t + κ := by rw [ht, hκ]; ring
      rw [e2] at hE
      refine cast ?_ hE
      congr 1
      simp only [mot]
      module
    · by_cases hb : 1 / 10 ^ 20 < a
      · have : δ = 0 := by rw [hδ, hsd, MV.sinc, if_pos hb, sub_self]
        have hk0 : κ = 0 := by rw [hκ, this]; simp
        intro v hv
        rw [this, hk0] at hv
        simp only [zero_mul, mul_zero, sub_zero, add_zero, List.mem_cons, List.not_mem_nil, or_false, or_self] at hv
        rw [hv, abs_zero]
        apply mul_nonneg (by positivity)
        apply List.sum_nonneg
        intro x hx
        obtain ⟨z, -, rfl⟩ := List.mem_map.1 hx
        exact abs_nonneg z
      · have h1 : s = 1 := by rw [hsd, MV.sinc, if_neg hb]
        have h2 := sinc_error ha
        rw [h1] at hδ
        rw [← hδ] at h2
        rw [small ha.le, not_lt] at hb
        simpa using bivector_error ha a3 hm h2.1 h2.2 hκ hb
    · rw [c1, c2, c3, ← a3, ← small ha.le]
      intro hb
      have : δ = 0 := by rw [hδ, hsd, MV.sinc, if_pos hb, sub_self]
      have hk0 : κ = 0 := by rw [hκ, this]; simp
      rw [val_motor, this, hk0]
      simp [mot]
  · intro h
    have e1 : xy = 0 := (h 3 (by simp))
    have e2 : xz = 0 := (h 5 (by simp))
    have e3 : yz = 0 := (h 6 (by simp))
    subst e1 e2 e3
    constructor
    · rw [MV.expBivector]
      simp only [MV.sqrtVal, a1]
      show (if _ then _ else _) = _
      rw [if_pos (by ring)]
    · rw [val_bivector]
      refine cast ?_ (isExp_translation xw yw zw)
      congr 1
      simp only [mot]
      module

/-- C79: `exp` of a rotation, with the same accuracy; the zero bivector is mapped to `1`. -/
theorem C79_rotation {rt : Roots ℝ} (hr : RealRoots rt) {fuel n : Nat} {e : ℝ → ℝ} {b : MV ℝ} (hb : WfMV pga3d b)
    (hs : b.sub = ⟨[3, 5, 6]⟩) :
    ∃ y d, b.expOptimized pga3d rt Real.cos Real.sin fuel e n = .ok y ∧ WfMV pga3d y ∧
      y.sub = ⟨[0, 3, 5, 6]⟩ ∧ WfMV pga3d d ∧ IsExp pga3d (val pga3d b) (val pga3d y - val pga3d d) ∧
      (∀ v ∈ d.vals, |v| ≤ 1 / 10 ^ 40 * (b.vals.map abs).sum) ∧
      (1 / 10 ^ 40 < coeff b 3 * coeff b 3 + coeff b 5 * coeff b 5 + coeff b 6 * coeff b 6 ∨ val pga3d b = 0 → val pga3d d = 0) := by
  obtain ⟨S, v⟩ := b
  simp only at hs
  subst hs
  obtain ⟨xy, xz, yz, rfl⟩ := three (l := v) hb.len
  have o1 : optimizedFor pga3d "xy,xz,yz,xw,yw,zw" ⟨[3, 5, 6]⟩ = false := by decide +kernel
  have o2 : optimizedFor pga3d "xy,xz,yz" ⟨[3, 5, 6]⟩ = true := by decide +kernel
  have hro : pga3d.rotor = some ⟨[0, 3, 5, 6]⟩ := by decide +kernel
  have wro : WfSub pga3d ⟨[0, 3, 5, 6]⟩ := wfSub_of_B (by decide +kernel)
  have c1 : coeff (⟨⟨[3, 5, 6]⟩, [xy, xz, yz]⟩ : MV ℝ) 3 = xy := rfl
  have c2 : coeff (⟨⟨[3, 5, 6]⟩, [xy, xz, yz]⟩ : MV ℝ) 5 = xz := rfl
  have c3 : coeff (⟨⟨[3, 5, 6]⟩, [xy, xz, yz]⟩ : MV ℝ) 6 = yz := rfl
  obtain ⟨a, a1, a2, a3⟩ := hr.nonneg (xy * xy + xz * xz + yz * yz)
    (add_nonneg (add_nonneg (mul_self_nonneg _) (mul_self_nonneg _)) (mul_self_nonneg _))
  obtain ⟨s, hsd⟩ : ∃ s, s = MV.sinc Real.sin a := ⟨_, rfl⟩
  have hrun : (⟨⟨[3, 5, 6]⟩, [xy, xz, yz]⟩ : MV ℝ).expOptimized pga3d rt Real.cos Real.sin fuel e n =
      .ok ⟨⟨[0, 3, 5, 6]⟩, [Real.cos a, s * xy, s * xz, s * yz]⟩ := by
    rw [MV.expOptimized]
    simp only [o1, o2, MV.expNondegenerate, hro, MV.sqrtVal, a1, hsd]
    rfl
  rcases a2.lt_or_eq with ha | ha
  · obtain ⟨δ, hδ⟩ : ∃ δ, δ = s - Real.sin a / a := ⟨_, rfl⟩
    have hE := isExp_bivector (xw := 0) (yw := 0) (zw := 0) ha.ne' a3 rfl rfl rfl rfl
    refine ⟨_, ⟨⟨[0, 3, 5, 6]⟩, [0, δ * xy, δ * xz, δ * yz]⟩, hrun, ⟨wro, rfl⟩, rfl, ⟨wro, rfl⟩, ?_, ?_, ?_⟩
    · rw [val_rotation, val_rotor, val_rotor]
      have e : Real.sin a / a = s - δ := by rw [hδ]; ring
      rw [e] at hE
      refine cast ?_ hE
      congr 1
      simp only [mot]
      module
    · by_cases hb : 1 / 10 ^ 20 < a
      · have : δ = 0 := by rw [hδ, hsd, MV.sinc, if_pos hb, sub_self]
        intro v hv
        rw [this] at hv
        simp only [zero_mul, List.mem_cons, List.not_mem_nil, or_false, or_self] at hv
        rw [hv, abs_zero]
        apply mul_nonneg (by positivity)
        apply List.sum_nonneg
        intro x hx
        obtain ⟨z, -, rfl⟩ := List.mem_map.1 hx
        exact abs_nonneg z
      · have h1 : s = 1 := by rw [hsd, MV.sinc, if_neg hb]
        have h2 := sinc_error ha
        rw [h1] at hδ
        rw [← hδ] at h2
        rw [small ha.le, not_lt] at hb
        have := bivector_error (xw := 0) (yw := 0) (zw := 0) ha a3 rfl h2.1 h2.2 rfl hb
        intro v hv
        have := this v (by
          simp only [List.mem_cons, List.not_mem_nil, or_false] at hv ⊢
          tauto)
        simpa using this
    · rw [c1, c2, c3, ← a3, ← small ha.le]
      intro hb
      rcases hb with hb | hz0
      · have : δ = 0 := by rw [hδ, hsd, MV.sinc, if_pos hb, sub_self]
        rw [val_rotor, this]
        simp [mot]
      · have z1 : xy = 0 := by rw [← c1, coeff_eq hb, hz0, map_zero]
        have z2 : xz = 0 := by rw [← c2, coeff_eq hb, hz0, map_zero]
        have z3 : yz = 0 := by rw [← c3, coeff_eq hb, hz0, map_zero]
        rw [val_rotor, z1, z2, z3]
        simp [mot]
  · subst ha
    have e1 : xy = 0 := mul_self_eq_zero.1 (by nlinarith [mul_self_nonneg xy, mul_self_nonneg xz, mul_self_nonneg yz])
    have e2 : xz = 0 := mul_self_eq_zero.1 (by nlinarith [mul_self_nonneg xy, mul_self_nonneg xz, mul_self_nonneg yz])
    have e3 : yz = 0 := mul_self_eq_zero.1 (by nlinarith [mul_self_nonneg xy, mul_self_nonneg xz, mul_self_nonneg yz])
    subst e1 e2 e3
    refine ⟨_, ⟨⟨[0, 3, 5, 6]⟩, [0, 0, 0, 0]⟩, hrun, ⟨wro, rfl⟩, rfl, ⟨wro, rfl⟩, ?_, ?_, ?_⟩
    · rw [val_rotation, val_rotor, val_rotor]
      refine cast ?_ (isExp_translation 0 0 0)
      congr 1
      simp only [mot, Real.cos_zero]
      module
    · simp
    · intro _
      rw [val_rotor]
      simp [mot]

/-- C79: the exponential is unique. -/
theorem C79_unique {A : Alg} {B X Y : Cl A ℝ} (hX : IsExp A B X) (hY : IsExp A B Y) : X = Y := isExp_unique hX hY

/-- The exponential of `x y` times an angle, and of a screw. -/
example (a w : ℝ) (ha : 1 / 10 ^ 40 < a * a) : ∃ y, (⟨⟨[3, 5, 6, 9, 10, 12]⟩, [a, 0, 0, 0, 0, w]⟩ : MV ℝ).expOptimized pga3d (realRoots 1000) Real.cos Real.sin 2 id 0 =
    .ok y ∧ IsExp pga3d (val pga3d (⟨⟨[3, 5, 6, 9, 10, 12]⟩, [a, 0, 0, 0, 0, w]⟩ : MV ℝ)) (val pga3d y) := by
  have h := (C79_bivector (realRoots_law 1000) (fuel := 2) (n := 0) (e := id) (b := ⟨⟨[3, 5, 6, 9, 10, 12]⟩, [a, 0, 0, 0, 0, w]⟩)
    ⟨wf_bivectorSub, rfl⟩ rfl).1 ⟨3, by simp, by
      show a ≠ 0
      rintro rfl
      norm_num at ha⟩
  obtain ⟨y, d, h1, -, -, -, h2, -, h3⟩ := h
  refine ⟨y, h1, ?_⟩
  rwa [h3 (by show _ < a * a + 0 * 0 + 0 * 0; simpa using ha), sub_zero] at h2

end Verif.Props
