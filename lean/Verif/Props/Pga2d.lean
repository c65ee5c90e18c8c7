import Verif.Proofs.Pga2d
import Verif.Proofs.Pga2dLayouts
import Verif.Props.OptimizedExp
import Verif.Props.Simplex
import Verif.Props.Named
import Verif.Props.LogExp
/-! # Property C103: motions of the plane -/
namespace Verif.Props
open Model Spec Model.Pga2d Verif.Pga2d

namespace Plane
variable {R : Type} [Field R]

/-- The point with coordinates `x` and `y`. -/
def pointAt (x y : R) : MV R := ⟨⟨[3, 5, 6]⟩, [-y, x, -1]⟩
/-- The translation by `x` and `y`. -/
def shift (x y : R) : MV R := ⟨⟨[0, 3, 5]⟩, [1, x / -2, y / -2]⟩
/-- The line of the points with `n · p = d`. -/
def line (nx ny d : R) : MV R := ⟨⟨[1, 2, 4]⟩, [-d, nx, ny]⟩
/-- The rotation by the angle `t`. -/
noncomputable def turn (t : ℝ) : MV ℝ := ⟨⟨[0, 6]⟩, [Real.cos (t / 2), -Real.sin (t / 2)]⟩

end Plane
open Plane

section
variable {R : Type} [Field R]

theorem wf_pointAt (x y : R) : WfMV pga (pointAt x y) := wf_point _ rfl
theorem wf_shift (x y : R) : WfMV pga (shift x y) := wf_translator _ rfl
theorem wf_turn (t : ℝ) : WfMV pga (turn t) := wf_rotor _ rfl
theorem wf_lineOf (x y d : R) : WfMV pga (line x y d) := wf_line _ rfl
theorem val_pointAt (x y : R) : val pga (pointAt x y) = ev 0 (-y) x (-1) := val_point _ _ _
theorem val_shift (x y : R) : val pga (shift x y) = ev 1 (x / -2) (y / -2) 0 := val_translator _ _ _
theorem val_turn (t : ℝ) : val pga (turn t) = ev (Real.cos (t / 2)) 0 0 (-Real.sin (t / 2)) := val_rotor _ _

theorem val_one_blade (k : Nat) (a : R) : val pga (⟨⟨[k]⟩, [a]⟩ : MV R) = a • blade pga R k := by simp [val, denote]

theorem named_xy : (named "xy" : Except Fail (MV R)) = .ok ⟨⟨[6]⟩, [1]⟩ := by
  rw [named_two (t := 1) (u := 2) (by decide +kernel) rfl rfl, MV.wedge, call_eq (wedge_gives wf_pga (wf_blade 2 (by decide) 1) (wf_blade 4 (by decide) 1)) (wf_blade 6 (by decide) 1) w24
    (by simp [val_one_blade, wedge24])]
  rfl
theorem named_yx : (named "yx" : Except Fail (MV R)) = .ok ⟨⟨[6]⟩, [-1]⟩ := by
  rw [named_two (t := 2) (u := 1) (by decide +kernel) rfl rfl, MV.wedge, call_eq (wedge_gives wf_pga (wf_blade 4 (by decide) 1) (wf_blade 2 (by decide) 1)) (wf_blade 6 (by decide) (-1)) w42
    (by simp [val_one_blade, wedge42])]
  rfl
theorem named_wx : (named "wx" : Except Fail (MV R)) = .ok ⟨⟨[3]⟩, [1]⟩ := by
  rw [named_two (t := 0) (u := 1) (by decide +kernel) rfl rfl, MV.wedge, call_eq (wedge_gives wf_pga (wf_blade 1 (by decide) 1) (wf_blade 2 (by decide) 1)) (wf_blade 3 (by decide) 1) w12
    (by simp [val_one_blade, wedge12])]
  rfl
theorem named_wy : (named "wy" : Except Fail (MV R)) = .ok ⟨⟨[5]⟩, [1]⟩ := by
  rw [named_two (t := 0) (u := 2) (by decide +kernel) rfl rfl, MV.wedge, call_eq (wedge_gives wf_pga (wf_blade 1 (by decide) 1) (wf_blade 4 (by decide) 1)) (wf_blade 5 (by decide) 1) w14
    (by simp [val_one_blade, wedge14])]
  rfl

end

section
variable {R : Type} [Field R] [DecidableEq R]

theorem line_eq (nx ny d : R) : plane nx ny d = .ok (line nx ny d) := by
  have h24 : WfMV pga (⟨⟨[2, 4]⟩, [nx, ny]⟩ : MV R) := ⟨show WfSub pga ⟨[2, 4]⟩ from wfSub_of_B (by decide +kernel), rfl⟩
  have e1 : (⟨⟨[2]⟩, [nx]⟩ : MV R).add pga (.mv ⟨⟨[4]⟩, [ny]⟩) = some ⟨⟨[2, 4]⟩, [nx, ny]⟩ :=
    add_eq (wf_blade 2 (by decide) _) (wf_blade 4 (by decide) _) h24 l24 (by simp [val, denote])
  have e2 : (⟨⟨[2, 4]⟩, [nx, ny]⟩ : MV R).sub' pga (.mv ⟨⟨[1]⟩, [d]⟩) = some (line nx ny d) :=
    sub_eq h24 (wf_blade 1 (by decide) _) (wf_lineOf _ _ _) l124 (by rw [line, val_line]; simp only [val, denote, List.sum_cons, List.sum_nil, List.zipWith_cons_cons, List.zipWith_nil_right]; module)
  simp only [plane, named_w, named_x, named_y, mul_eq (wf_blade 2 (by decide) (1 : R)), mul_eq (wf_blade 4 (by decide) (1 : R)),
    mul_eq (wf_blade 1 (by decide) (1 : R)), lift_some, bind, Except.bind, List.map_cons, List.map_nil, mul_one, e1, e2]

theorem shift_eq (h2 : (2 : R) ≠ 0) (fuel : Nat) (tx ty : R) : translator fuel tx ty = .ok (shift tx ty) := by
  have h2' : (-2 : R) ≠ 0 := neg_ne_zero.2 h2
  have h03 : WfMV pga (⟨⟨[0, 3]⟩, [1, tx / -2]⟩ : MV R) := ⟨show WfSub pga ⟨[0, 3]⟩ from wfSub_of_B (by decide +kernel), rfl⟩
  have e1 : (⟨⟨[3]⟩, [tx / -2]⟩ : MV R).add pga (.num 1) = some ⟨⟨[0, 3]⟩, [1, tx / -2]⟩ :=
    add_num (wf_blade 3 (by decide) _) h03 l03 (by simp [val, denote, blade_zero, add_comm])
  have e2 : (⟨⟨[0, 3]⟩, [1, tx / -2]⟩ : MV R).add pga (.mv ⟨⟨[5]⟩, [ty / -2]⟩) = some (shift tx ty) :=
    add_eq h03 (wf_blade 5 (by decide) _) (wf_shift _ _) l035 (by simp [shift, val, denote, add_assoc])
  simp only [translator, named_wx, named_wy, mul_eq (wf_blade 3 (by decide) (1 : R)), mul_eq (wf_blade 5 (by decide) (1 : R)), List.map_cons, List.map_nil, mul_one,
    lift_some, bind, Except.bind, (C49_scalar wf_pga fuel (wf_blade 3 (by decide) tx) h2').2, (C49_scalar wf_pga fuel (wf_blade 5 (by decide) ty) h2').2, e1, e2]

/-- The sandwich of a point or a multiple of one, for motors with a given layout. -/
theorem sandwich_exact {m : MV R} (hm : WfMV pga m) {a b c d : R} (hv : val pga m = ev a b c d)
    (ho : (Factory.sandwich pga (.sub m.sub) ⟨[3, 5, 6]⟩).map (·.output) = some ⟨[3, 5, 6]⟩) (y x w : R) :
    m.sandwich pga ⟨⟨[3, 5, 6]⟩, [y, x, w]⟩ = some ⟨⟨[3, 5, 6]⟩, [(a * a - d * d) * y + 2 * a * d * x + 2 * (b * d - a * c) * w,
      (a * a - d * d) * x - 2 * a * d * y + 2 * (c * d + a * b) * w, (a * a + d * d) * w]⟩ :=
  call_eq (sandwich_gives wf_pga hm (wf_point _ rfl)) (wf_point _ rfl) ho (by rw [hv, val_point, sandwich_ev, grades_point, val_point])

theorem origin_eq (h2 : (2 : R) ≠ 0) (x y : R) : (shift x y).sandwich pga ⟨⟨[6]⟩, [-1]⟩ = some (pointAt x y) := by
  refine call_eq (sandwich_gives wf_pga (wf_shift x y) (wf_blade 6 (by decide) (-1))) (wf_pointAt x y) oOrigin ?_
  have hg : ∀ v : Cl pga R, gradesOf pga R ⟨[6]⟩ v = gradesOf pga R ⟨[3, 5, 6]⟩ v := by
    intro v
    have : gradesOf pga R ⟨[6]⟩ = gradesOf pga R ⟨[3, 5, 6]⟩ := by
      apply lin_ext
      intro b hb
      rw [gradesOf, gradesOf, proj_blade _ hb, proj_blade _ hb]
      refine if_congr ?_ rfl rfl
      simp [show popcount 3 = 2 from by decide, show popcount 5 = 2 from by decide, show popcount 6 = 2 from by decide]
    rw [this]
  rw [hg, val_shift, val_pointAt, show val pga (⟨⟨[6]⟩, [-1]⟩ : MV R) = ev 0 0 0 (-1) by simp [val, denote, ev], sandwich_ev, grades_point]
  congr 1 <;> field_simp <;> ring

/-- C103: the layouts and values of `plane`, `translator` and `point`. -/
theorem C103_values (h2 : (2 : R) ≠ 0) (fuel : Nat) (x y d : R) :
    plane x y d = .ok (line x y d) ∧ translator fuel x y = .ok (shift x y) ∧ point fuel x y = .ok (pointAt x y) := by
  refine ⟨line_eq x y d, shift_eq h2 fuel x y, ?_⟩
  simp only [point, shift_eq h2, named_yx, lift_some, bind, Except.bind, origin_eq h2]

/-- C103: translations compose by adding, and a translation moves every point by its vector. -/
theorem C103_translations (h2 : (2 : R) ≠ 0) (a b c d : R) :
    (shift a b).product pga (shift c d) = some (shift (a + c) (b + d)) ∧ (shift a b).sandwich pga (pointAt c d) = some (pointAt (c + a) (d + b)) := by
  constructor
  · refine call_eq (product_gives wf_pga (wf_shift a b) (wf_shift c d)) (wf_shift _ _) oShifts ?_
    rw [val_shift, val_shift, val_shift, ev_mul]
    congr 1 <;> ring
  · rw [pointAt, sandwich_exact (wf_shift a b) (val_shift a b) (sandwich_layout (wf_shift a b).sub (by simp [shift])), pointAt]
    congr 3
    · field_simp; ring
    · congr 1
      · field_simp; ring
      · congr 1; ring

/-- C103: a line and a point meet where the equation of the line says. -/
theorem C103_incidence (nx ny d x y : R) :
    (line nx ny d).wedge pga (pointAt x y) = some ⟨⟨[7]⟩, [d - (nx * x + ny * y)]⟩ := by
  refine call_eq (wedge_gives wf_pga (wf_lineOf nx ny d) (wf_pointAt x y)) (wf_blade 7 (by decide) _) oIncident ?_
  rw [val_pointAt, line, val_line, val_one_blade, wedge_lin, ev]
  simp only [zero_smul, zero_add, map_add, map_smul, LinearMap.add_apply, LinearMap.smul_apply, ← wedge_lin, wedge13, wedge15, wedge16, wedge23, wedge25, wedge26,
    wedge43, wedge45, wedge46]
  module

/-- C103: the wedge of two lines is a multiple of the point they share: `-det` times it. -/
theorem C103_crossing {nx ny mx my d e x y : R} (h1 : nx * x + ny * y = d) (h2 : mx * x + my * y = e) :
    (line nx ny d).wedge pga (line mx my e) =
      some ⟨⟨[3, 5, 6]⟩, (pointAt x y).vals.map (-(nx * my - ny * mx) * ·)⟩ := by
  refine call_eq (wedge_gives wf_pga (wf_lineOf nx ny d) (wf_lineOf mx my e)) (wf_point _ rfl) oLines ?_
  subst h1 h2
  simp only [pointAt, List.map_cons, List.map_nil]
  rw [line, line, val_line, val_line, val_point, wedge_lin, ev]
  simp only [zero_smul, zero_add, map_add, map_smul, LinearMap.add_apply, LinearMap.smul_apply, ← wedge_lin, wedge11, wedge12, wedge14, wedge21, wedge22, wedge24,
    wedge41, wedge42, wedge44]
  module

end

/-! ### rotations -/

/-- C103: `rotor(t)`. -/
theorem C103_rotor (t : ℝ) : rotor Real.sin Real.cos t = .ok (turn t) := by
  have e1 : (⟨⟨[6]⟩, [Real.sin (t / -2)]⟩ : MV ℝ).add pga (.num (Real.cos (t / -2))) = some (turn t) :=
    add_num (wf_blade 6 (by decide) _) (wf_turn t) l06 (by
      rw [turn, val_rotor, div_neg, Real.sin_neg, Real.cos_neg]; simp [val, denote, ev, add_comm])
  simp only [rotor, named_xy, lift_some, bind, Except.bind, mul_eq (wf_blade 6 (by decide) (1 : ℝ)), List.map_cons, List.map_nil, mul_one, e1]

/-- C103: rotations compose by adding the angles, and a rotation turns every point about the origin, from `x` to `y`. -/
theorem C103_rotations (s t x y : ℝ) :
    (turn s).product pga (turn t) = some (turn (s + t)) ∧
    (turn t).sandwich pga (pointAt x y) = some (pointAt (Real.cos t * x - Real.sin t * y) (Real.sin t * x + Real.cos t * y)) := by
  constructor
  · refine call_eq (product_gives wf_pga (wf_turn s) (wf_turn t)) (wf_turn _) oTurns ?_
    rw [val_turn, val_turn, val_turn, ev_mul, add_div, Real.cos_add, Real.sin_add]
    congr 1 <;> ring
  · have hc : Real.cos t = Real.cos (t / 2) * Real.cos (t / 2) - Real.sin (t / 2) * Real.sin (t / 2) := by rw [← Real.cos_add]; congr 1; ring
    have hs : Real.sin t = 2 * Real.sin (t / 2) * Real.cos (t / 2) := by rw [← Real.sin_two_mul]; congr 1; ring
    have h1 := Real.sin_sq_add_cos_sq (t / 2)
    rw [pointAt, sandwich_exact (wf_turn t) (val_turn t) (sandwich_layout (wf_turn t).sub (by simp [turn])), pointAt, hc, hs]
    congr 3
    · ring
    · congr 1
      · ring
      · congr 1; linear_combination -h1

/-! ### the matrix -/
section
variable {R : Type} [Field R] [DecidableEq R]

theorem even_layout : pga.evenGrade = some ⟨[0, 3, 5, 6]⟩ := by decide +kernel
theorem antivector_layout : pga.antivector = some ⟨[3, 5, 6]⟩ := by decide +kernel

/-- The matrix of a motor. -/
theorem matrix_eq {m : MV R} (hm : WfMV pga m) (he : ∀ b ∈ m.sub.blades, b ∈ [0, 3, 5, 6]) :
    ∃ k, asMatrix m = .ok k ∧ ∀ i < 3, ∀ j < 3, k.get [i, j] =
      coef pga R ([3, 5, 6].getD j 0) (val pga m * blade pga R ([3, 5, 6].getD i 0) * CliffordAlgebra.reverse (val pga m)) := by
  obtain ⟨M, m1, m2, m3, m4⟩ := C25_select hm (wf_even (R := R) [0, 0, 0, 0] rfl).sub
  have hmv : val pga M = val pga m := by
    have hM : ∀ b ∈ M.sub.blades, b ∈ [0, 3, 5, 6] := by rw [m2]; exact fun b hb => hb
    rw [even_ev m3 hM, even_ev hm he, m4, m4, m4, m4]
    simp
  have hv : WfMV pga (⟨⟨[3, 5, 6]⟩, [0, 0, 0]⟩ : MV R) := wf_point _ rfl
  obtain ⟨op, o1, o2, o3, -⟩ := sandwich_sem wf_pga m3.sub hv.sub
  have hout : op.output = ⟨[3, 5, 6]⟩ := by
    have := sandwich_layout m3.sub (by rw [m2]; simp)
    rw [o1] at this
    exact Option.some_inj.1 this
  have ha : (op.cast R).arity = 3 := by
    change op.inputs.length = 3
    rw [o3]; rfl
  have hi : (op.cast R).inputs = [M.sub, ⟨[3, 5, 6]⟩, M.sub] := o3
  have key : ∀ v : MV R, WfMV pga v → v.sub = ⟨[3, 5, 6]⟩ → ∃ q, (op.cast R).partialApply [(0, M), (2, M)] = some q ∧ WfOp pga q ∧ q.output = ⟨[3, 5, 6]⟩ ∧
      q.inputs = [⟨[3, 5, 6]⟩] ∧ einsumCallMV q [v] = M.sandwich pga v := by
    intro v hv hs
    have hfit : [M, v, M].map (·.vals.length) = (op.cast R).inputs.map (·.blades.length) := by
      rw [hi]; simp [m3.len, hv.len, hs]
    obtain ⟨q, q1, qw, qo, q2, q3, -⟩ := C42_partial (wf_cast R o2) (keys := [0, 2]) (args := [M, v, M]) (by omega) (by simp) (by simp [ha]) (by simp) hfit
    have hf : (List.range 3).filter (· ∉ [0, 2]) = [1] := by decide
    rw [ha, hf] at q2 q3
    refine ⟨q, q1, qw, qo.trans hout, ?_, ?_⟩
    · rw [q2, hi]; rfl
    · rw [MV.sandwich, hs, o1, ← call_eq_einsum o2 (by change 1 ≤ (op.cast R).arity; omega) (by change (op.cast R).arity ≤ 25; omega) hfit, ← q3 (by simp)]
      rfl
  obtain ⟨q, q1, qw, qo, qi, -⟩ := key _ hv rfl
  have hax : q.axes = [⟨[3, 5, 6]⟩, ⟨[3, 5, 6]⟩] := by rw [qw.axes_eq, qi, qo]; rfl
  have hq : Unary pga q ⟨[3, 5, 6]⟩ ⟨[3, 5, 6]⟩ := ⟨hax, by rw [qw.shape, hax]; rfl, hv.sub, hv.sub⟩
  have hcall : ((op.cast R).callMixed [.inr M, .inl ⟨[3, 5, 6]⟩, .inr M]) = some (.inl q) := by
    change ((op.cast R).partialApply [(0, M), (2, M)]).map Sum.inl = _
    rw [q1]; rfl
  refine ⟨q.kernel, ?_, fun i hi j hj => ?_⟩
  · simp only [asMatrix, even_layout, antivector_layout, m1, o1, lift_some, bind, Except.bind, Option.bind_some, hcall, Option.bind]
  · have hw : WfMV pga (⟨⟨[3, 5, 6]⟩, [if i = 0 then 1 else 0, if i = 1 then 1 else 0, if i = 2 then 1 else 0]⟩ : MV R) := wf_point _ rfl
    obtain ⟨q', q1', -, -, -, qc⟩ := key _ hw rfl
    cases q1.symm.trans q1'
    obtain ⟨z, z1, z2, z3, z4⟩ := hq.call hw rfl
    obtain ⟨z', z1', z3', z4'⟩ := sandwich_gives wf_pga m3 hw
    rw [qc] at z1
    cases z1.symm.trans z1'
    have hb : val pga (⟨⟨[3, 5, 6]⟩, [if i = 0 then 1 else 0, if i = 1 then 1 else 0, if i = 2 then 1 else 0]⟩ : MV R) = blade pga R ([3, 5, 6].getD i 0) := by
      interval_cases i <;> simp [val, denote]
    have he := congrArg (coef pga R ([3, 5, 6].getD j 0)) (z4.symm.trans z4')
    rw [hb] at he
    have hl := coef_opMap (o := q) (S := ⟨[3, 5, 6]⟩) hv.sub (blade pga R ([3, 5, 6].getD i 0)) (j := j) hj
    rw [he] at hl
    have hg : gradesOf pga R ⟨[3, 5, 6]⟩ (val pga M * blade pga R ([3, 5, 6].getD i 0) * CliffordAlgebra.reverse (val pga M)) =
        val pga M * blade pga R ([3, 5, 6].getD i 0) * CliffordAlgebra.reverse (val pga M) := by
      rw [← hb, val_point, even_ev m3 (by rw [m2]; exact fun b hb => hb), sandwich_ev, grades_point]
    rw [hg, hmv] at hl
    rw [hl]
    have hc : ∀ k, coef pga R k (blade pga R ([3, 5, 6].getD i 0)) = if k = [3, 5, 6].getD i 0 then 1 else 0 := fun k =>
      coef_blade pga R (a := [3, 5, 6].getD i 0) (by interval_cases i <;> decide) k
    simp only [hc, List.length_cons, List.length_nil, Finset.sum_range_succ, Finset.sum_range_zero, zero_add]
    interval_cases i <;> simp

/-- C103: `transform_points` agrees with the sandwich, for every even element: the coordinates it returns are those of the moved point, times
the number `N = m ~m`, which is one for motors. -/
theorem C103_transform {m : MV R} (hm : WfMV pga m) (he : ∀ b ∈ m.sub.blades, b ∈ [0, 3, 5, 6]) {N : R}
    (hN : val pga m * CliffordAlgebra.reverse (val pga m) = N • 1) (x y : R) :
    ∃ x' y', transformPoint m x y = .ok (x', y') ∧ Gives pga (m.sandwich pga (pointAt x y)) (val pga (⟨⟨[3, 5, 6]⟩, [-y', x', -N]⟩ : MV R)) := by
  obtain ⟨k, k1, k2⟩ := matrix_eq hm he
  have hev := even_ev hm he
  generalize coeff m 0 = a, coeff m 3 = b, coeff m 5 = c, coeff m 6 = d at hev
  have e3 : blade pga R 3 = ev 0 1 0 0 := by simp [ev]
  have e5 : blade pga R 5 = ev 0 0 1 0 := by simp [ev]
  have e6 : blade pga R 6 = ev 0 0 0 1 := by simp [ev]
  have hk : ∀ i < 3, ∀ j < 3, k.get [i, j] = ([[a * a - d * d, -(2 * a * d), 0], [2 * a * d, a * a - d * d, 0],
      [2 * (b * d - a * c), 2 * (c * d + a * b), a * a + d * d]].getD i []).getD j 0 := by
    intro i hi j hj
    rw [k2 i hi j hj, hev]
    interval_cases i <;> interval_cases j <;>
      simp only [List.getD_cons_zero, List.getD_cons_succ, e3, e5, e6, sandwich_ev, (ev_coef _ _ _ _).2.1, (ev_coef _ _ _ _).2.2.1, (ev_coef _ _ _ _).2.2.2] <;> ring
  have hNv : N = a * a + d * d := by
    rw [hev, ev_norm] at hN
    have := congrArg (coef pga R 0) hN
    rw [map_smul, map_smul, ← blade_zero, coef_blade pga R (a := 0) (by decide)] at this
    simpa using this.symm
  refine ⟨(a * a - d * d) * x + 2 * a * d * y - 2 * (c * d + a * b), (a * a - d * d) * y - 2 * a * d * x + 2 * (b * d - a * c), ?_, ?_⟩
  · rw [transformPoint, k1]
    simp only [bind, Except.bind, Except.ok.injEq, Prod.mk.injEq, hk, Nat.lt_irrefl]
    constructor
    · simp [hk, sign]; ring
    · simp [hk, sign]; ring
  · refine (sandwich_gives wf_pga hm (wf_pointAt x y)).congr ?_
    rw [hev, val_pointAt, sandwich_ev, hNv, val_point]
    change gradesOf pga R ⟨[3, 5, 6]⟩ _ = _
    rw [grades_point]
    congr 1 <;> ring

end

/-! ### the exponential -/

theorem ev_curve {B : Cl pga ℝ} {f0 f1 f2 f3 g0 g1 g2 g3 : ℝ → ℝ} (h0 : ∀ t, HasDerivAt f0 (g0 t) t)
    (h1 : ∀ t, HasDerivAt f1 (g1 t) t) (h2 : ∀ t, HasDerivAt f2 (g2 t) t) (h3 : ∀ t, HasDerivAt f3 (g3 t) t)
    (hB : ∀ t, B * ev (f0 t) (f1 t) (f2 t) (f3 t) = ev (g0 t) (g1 t) (g2 t) (g3 t)) (hz : ev (f0 0) (f1 0) (f2 0) (f3 0) = (1 : Cl pga ℝ)) :
    IsExpCurve pga B fun t => ev (f0 t) (f1 t) (f2 t) (f3 t) where
  zero := hz
  deriv φ t := by
    rw [hB]
    simp only [ev, map_add, map_smul, smul_eq_mul]
    exact ((((h0 t).mul_const _).add ((h1 t).mul_const _)).add ((h2 t).mul_const _)).add ((h3 t).mul_const _)

theorem ev_one : ev 1 0 0 0 = (1 : Cl pga ℝ) := by simp [ev]

/-- The exponential of a bivector with a rotation part. -/
theorem isExp_turning (b c : ℝ) {d : ℝ} (hd : d ≠ 0) :
    IsExp pga (ev 0 b c d) (ev (Real.cos d) (Real.sin d / d * b) (Real.sin d / d * c) (Real.sin d / d * d)) := by
  refine ⟨_, ev_curve (fun t => deriv_cos hd t) (fun t => (deriv_sin hd t).mul_const b) (fun t => (deriv_sin hd t).mul_const c)
    (fun t => (deriv_sin hd t).mul_const d) ?_ ?_, by simp only [mul_one]⟩
  · intro t
    rw [ev_mul]
    congr 1 <;> ring
  · simp [ev_one]

/-- The exponential of a translation. -/
theorem isExp_shifting (b c : ℝ) : IsExp pga (ev 0 b c 0) (ev 1 b c 0) := by
  refine ⟨fun t => ev 1 (t * b) (t * c) 0, ev_curve (f0 := fun _ => 1) (f3 := fun _ => 0) (g0 := fun _ => 0) (g1 := fun _ => b) (g2 := fun _ => c) (g3 := fun _ => 0)
    (fun t => hasDerivAt_const _ _) ?_ ?_ (fun t => hasDerivAt_const _ _) ?_ ?_, by simp only [one_mul]⟩
  · intro t; simpa using (hasDerivAt_id t).mul_const b
  · intro t; simpa using (hasDerivAt_id t).mul_const c
  · intro t; rw [ev_mul]; congr 1 <;> ring
  · simp [ev_one]

/-- What the new `exp` returns. -/
theorem exp_value {rt : Roots ℝ} (hr : RealRoots rt) (fuel n : Nat) (e : ℝ → ℝ) (small : ℝ → Prop) [DecidablePred small] {b : MV ℝ} (hb : WfMV pga b)
    (hs : b.sub ∈ turning) : ∃ y, Pga2d.exp pga rt fuel Real.sin Real.cos small e n b = .ok y ∧ WfMV pga y ∧ y.sub = ⟨0 :: b.sub.blades⟩ ∧
      val pga y = Real.cos (coeff b 6) • 1 + (if small |coeff b 6| then 1 else Real.sin (coeff b 6) / coeff b 6) • val pga b := by
  have he : ∀ k ∈ b.sub.blades, k ∈ [0, 3, 5, 6] := by
    revert hs; generalize b.sub = S; revert S; decide
  have h0 : coeff b 0 = 0 := coeff_notMem (by revert hs; generalize b.sub = S; revert S; decide)
  have hnorm : b.norm pga rt fuel = .ok ⟨⟨[0]⟩, [|coeff b 6|]⟩ := by
    refine norm_scalar wf_pga hr fuel hb ?_ (turning_symmetric _ hs) (abs_nonneg _) ?_
    · intro h
      have : (6 : Nat) ∈ b.sub.blades := by revert hs; generalize b.sub = S; revert S; decide
      exact absurd (h 6 this) (by decide)
    · rw [even_ev hb he, ev_norm, h0, abs_mul_abs_self]; simp
  have hsv : (if small |coeff b 6| then 1 else Real.sin |coeff b 6| / |coeff b 6|) = if small |coeff b 6| then 1 else Real.sin (coeff b 6) / coeff b 6 := by
    refine if_congr Iff.rfl rfl ?_
    rcases abs_choice (coeff b 6) with h | h <;> rw [h]
    rw [Real.sin_neg, neg_div_neg_eq]
  obtain ⟨z, z1, z2, z3, z4⟩ := num_in wf_pga hb (if small |coeff b 6| then 1 else Real.sin (coeff b 6) / coeff b 6)
  have ea : z.add pga (.num (Real.cos |coeff b 6|)) = z.add pga (.mv ⟨⟨[0]⟩, [Real.cos (coeff b 6)]⟩) := by
    rw [MV.add, upcast_num wf_pga, Real.cos_abs]; rfl
  obtain ⟨U, u1, ⟨y, y1, y2, y3, y4⟩, -⟩ := C44_sum wf_pga z3 (wf_blade 0 (by decide) (Real.cos (coeff b 6)))
  rw [z2, turning_union _ hs] at u1
  cases u1
  refine ⟨y, ?_, y3, y2, ?_⟩
  · rw [Pga2d.exp, turning_option _ hs]
    simp only [expPlane, hnorm, bind, Except.bind, hsv, z1, lift_some, ea, y1]
  · rw [y4, z4, val_one_blade, blade_zero, add_comm]

/-- C103: the optimised `exp` of a bivector with an `xy` part is its exponential if that part is zero or exceeds the threshold of the code in
size; below it, the coefficients of the bivector part are off by at most `d² / 6` of themselves. -/
theorem C103_exp {rt : Roots ℝ} (hr : RealRoots rt) (fuel n : Nat) (e : ℝ → ℝ) {b : MV ℝ} (hb : WfMV pga b) (hs : b.sub ∈ turning) :
    ∃ y δ, Pga2d.exp pga rt fuel Real.sin Real.cos (· ≤ 1 / 10 ^ 20) e n b = .ok y ∧ WfMV pga y ∧ y.sub = ⟨0 :: b.sub.blades⟩ ∧
      IsExp pga (val pga b) (val pga y - (δ : ℝ) • val pga b) ∧ 0 ≤ δ ∧ δ ≤ coeff b 6 * coeff b 6 / 6 ∧ (1 / 10 ^ 20 < |coeff b 6| → δ = 0) := by
  obtain ⟨y, y1, y2, y3, y4⟩ := exp_value hr fuel n e (· ≤ 1 / 10 ^ 20) hb hs
  have he : ∀ k ∈ b.sub.blades, k ∈ [0, 3, 5, 6] := by
    revert hs; generalize b.sub = S; revert S; decide
  have h0 : coeff b 0 = 0 := coeff_notMem (by revert hs; generalize b.sub = S; revert S; decide)
  have hv := even_ev hb he
  rw [h0] at hv
  by_cases hd : coeff b 6 = 0
  · refine ⟨y, 0, y1, y2, y3, ?_, le_refl _, by rw [hd]; simp, fun _ => rfl⟩
    rw [y4, if_pos (by rw [hd]; simp), zero_smul, sub_zero, hv, hd, Real.cos_zero, show (1 : ℝ) • (1 : Cl pga ℝ) + (1 : ℝ) • ev 0 (coeff b 3) (coeff b 5) 0 =
      ev 1 (coeff b 3) (coeff b 5) 0 by simp [ev, add_assoc]]
    exact isExp_shifting _ _
  · have hx := isExp_turning (coeff b 3) (coeff b 5) hd
    have hform : ∀ k : ℝ, Real.cos (coeff b 6) • (1 : Cl pga ℝ) + k • val pga b - (k - Real.sin (coeff b 6) / coeff b 6) • val pga b =
        ev (Real.cos (coeff b 6)) (Real.sin (coeff b 6) / coeff b 6 * coeff b 3) (Real.sin (coeff b 6) / coeff b 6 * coeff b 5)
          (Real.sin (coeff b 6) / coeff b 6 * coeff b 6) := by
      intro k
      rw [hv]; simp only [ev]; module
    have hsinc := sinc_error (abs_pos.2 hd)
    have ha : Real.sin |coeff b 6| / |coeff b 6| = Real.sin (coeff b 6) / coeff b 6 := by
      rcases abs_choice (coeff b 6) with h | h <;> rw [h]
      rw [Real.sin_neg, neg_div_neg_eq]
    rw [ha, abs_mul_abs_self] at hsinc
    refine ⟨y, (if |coeff b 6| ≤ 1 / 10 ^ 20 then 1 else Real.sin (coeff b 6) / coeff b 6) - Real.sin (coeff b 6) / coeff b 6, y1, y2, y3, ?_, ?_, ?_, ?_⟩
    · rw [y4, hform _, hv]; exact hx
    · split
      · exact hsinc.1
      · simp
    · split
      · exact hsinc.2
      · rw [sub_self]; exact div_nonneg (mul_self_nonneg _) (by norm_num)
    · intro h; rw [if_neg (not_le.2 h), sub_self]

/-- C103: `exp` of a multiple of a point turns the plane about that point, by twice the multiple. -/
theorem C103_about {rt : Roots ℝ} (hr : RealRoots rt) (fuel n : Nat) (e : ℝ → ℝ) (p q x y : ℝ) {t : ℝ} (ht : 1 / 10 ^ 20 < |t|) :
    ∃ m, Pga2d.exp pga rt fuel Real.sin Real.cos (· ≤ 1 / 10 ^ 20) e n ⟨⟨[3, 5, 6]⟩, (pointAt p q).vals.map (t * ·)⟩ = .ok m ∧
      m.sandwich pga (pointAt x y) = some (pointAt (p + (Real.cos (2 * t) * (x - p) - Real.sin (2 * t) * (y - q)))
        (q + (Real.sin (2 * t) * (x - p) + Real.cos (2 * t) * (y - q)))) := by
  have ht0 : t ≠ 0 := by
    rintro rfl
    rw [abs_zero] at ht
    exact absurd ht (not_lt.2 (by positivity))
  have hb : WfMV pga (⟨⟨[3, 5, 6]⟩, (pointAt p q).vals.map (t * ·)⟩ : MV ℝ) := wf_point _ rfl
  obtain ⟨m, m1, m2, m3, m4⟩ := exp_value hr fuel n e (· ≤ 1 / 10 ^ 20) hb (by simp [turning])
  have hc : coeff (⟨⟨[3, 5, 6]⟩, (pointAt p q).vals.map (t * ·)⟩ : MV ℝ) 6 = t * -1 := rfl
  have hv : val pga m = ev (Real.cos t) (-(Real.sin t * q)) (Real.sin t * p) (-Real.sin t) := by
    rw [m4, hc, mul_neg_one, abs_neg, if_neg (not_le.2 ht), Real.cos_neg, Real.sin_neg, neg_div_neg_eq]
    simp only [pointAt, List.map_cons, List.map_nil]
    rw [val_point, ev_smul, show t * -q = -(t * q) by ring]
    have h1 : Real.sin t / t * t = Real.sin t := div_mul_cancel₀ _ ht0
    rw [show Real.sin t / t * -(t * q) = -(Real.sin t * q) by rw [mul_neg, ← mul_assoc, h1], show Real.sin t / t * (t * p) = Real.sin t * p by rw [← mul_assoc, h1],
      show Real.sin t / t * (t * -1) = -Real.sin t by rw [← mul_assoc, h1, mul_neg_one]]
    simp [ev, add_assoc]
  refine ⟨m, m1, ?_⟩
  have h0 : (0 : Nat) ∈ m.sub.blades := by rw [m3]; simp
  have h1 := Real.sin_sq_add_cos_sq t
  rw [pointAt, sandwich_exact m2 hv (sandwich_layout m2.sub h0), pointAt, Real.cos_two_mul', Real.sin_two_mul]
  congr 3
  · linear_combination (-q) * h1
  · congr 1
    · linear_combination p * h1
    · congr 1; linear_combination -h1

/-- C103: once the module is imported, `exp` of a bivector without an `xy` part raises; without it, `exp` is the exponential. -/
theorem C103_wrong (rt : Roots ℝ) (fuel n : Nat) (e : ℝ → ℝ) (small : ℝ → Prop) [DecidablePred small] {b : MV ℝ} (hb : WfMV pga b) (hs : b.sub ∈ shifting) :
    Pga2d.exp pga rt fuel Real.sin Real.cos small e n b = .error .raised ∧
    ∃ y, b.exp pga fuel e n = .ok y ∧ WfMV pga y ∧ IsExp pga (val pga b) (val pga y) := by
  constructor
  · have hn : ¬ SubOf b.sub ⟨[0]⟩ := by
      intro h
      have : ∃ k ∈ b.sub.blades, k ≠ 0 := by revert hs; generalize b.sub = S; revert S; decide
      obtain ⟨k, hk, h0⟩ := this
      exact h0 (by simpa using h k hk)
    obtain ⟨z, z1, z2, z3, -⟩ := norm_eq wf_pga rt fuel hb hn (shifting_symmetric _ hs)
    obtain ⟨S, v⟩ := z
    simp only at z3
    subst z3
    obtain rfl : v = [] := List.eq_nil_of_length_eq_zero z2.len
    have hz : (⟨⟨[]⟩, []⟩ : MV ℝ).squareRoot pga rt fuel = .ok ⟨⟨[]⟩, []⟩ := by
      rw [MV.squareRoot, empty_rule]; rfl
    rw [Pga2d.exp, shifting_option _ hs]
    simp only [expPlane, z1, hz, bind, Except.bind]
  · have h0 : ∀ a ∈ b.sub.blades, NullBlade pga a := by
      have : ∀ a ∈ b.sub.blades, a.testBit 0 = true := by revert hs; generalize b.sub = S; revert S; decide
      exact fun a ha => ⟨0, by decide, this a ha, by decide⟩
    obtain ⟨y, y1, y2, y3⟩ := exp_degenerate wf_pga fuel n e hb (by rintro h; revert hs; rw [h]; decide) h0
    refine ⟨y, y1, y2, ?_⟩
    have he : ∀ k ∈ b.sub.blades, k ∈ [0, 3, 5, 6] := by revert hs; generalize b.sub = S; revert S; decide
    have c0 : coeff b 0 = 0 := coeff_notMem (by revert hs; generalize b.sub = S; revert S; decide)
    have c6 : coeff b 6 = 0 := coeff_notMem (by revert hs; generalize b.sub = S; revert S; decide)
    rw [y3, even_ev hb he, c0, c6, show (1 : Cl pga ℝ) + ev 0 (coeff b 3) (coeff b 5) 0 = ev 1 (coeff b 3) (coeff b 5) 0 by simp [ev, add_assoc]]
    exact isExp_shifting _ _

/-- The algebra `x+t-`. -/
def Plane.boosts : Alg := ⟨⟨["x".toList, "t".toList], [1, -1]⟩, 1, 1⟩

/-- C103: once the module is imported, `exp` of a boost is not a number. -/
theorem C103_boost {rt : Roots ℝ} (hr : RealRoots rt) (fuel n : Nat) (e : ℝ → ℝ) (small : ℝ → Prop) [DecidablePred small] {β : ℝ} (hβ : β ≠ 0) :
    Pga2d.exp boosts rt fuel Real.sin Real.cos small e n ⟨⟨[3]⟩, [β]⟩ = .error .nan := by
  have wf : WfAlg boosts := by constructor <;> decide
  have hs : WfSub boosts ⟨[3]⟩ := wfSub_of_B (by decide +kernel)
  have hb : WfMV boosts (⟨⟨[3]⟩, [β]⟩ : MV ℝ) := ⟨hs, rfl⟩
  obtain ⟨z, z1, z2, z3, z4⟩ := norm_eq wf rt fuel hb (fun h => absurd (h 3 (by simp)) (by decide)) (show SubSpace.symmetricReverse boosts ⟨[3]⟩ = some ⟨[0]⟩ by decide +kernel)
  have hv : val boosts (⟨⟨[3]⟩, [β]⟩ : MV ℝ) * CliffordAlgebra.reverse (val boosts (⟨⟨[3]⟩, [β]⟩ : MV ℝ)) = (-(β * β)) • 1 := by
    have h3 : blade boosts ℝ 3 * blade boosts ℝ 3 = 1 := by
      rw [blade_mul wf, show sgn boosts 3 3 = 1 from by decide +kernel]; simp [blade_zero]
    have hrv : CliffordAlgebra.reverse (blade boosts ℝ 3) = -blade boosts ℝ 3 := by
      rw [reverse_blade, show pc boosts.n 3 = 2 from by decide]; simp
    rw [show val boosts (⟨⟨[3]⟩, [β]⟩ : MV ℝ) = β • blade boosts ℝ 3 by simp [val, denote], map_smul, hrv, smul_mul_smul_comm, mul_neg, h3, smul_neg, neg_smul]
  obtain ⟨S, v⟩ := z
  simp only at z3
  subst z3
  obtain ⟨c, rfl⟩ : ∃ c, v = [c] := by
    match v, z2.len with
    | [c], _ => exact ⟨c, rfl⟩
  have hc : c = -(β * β) := by
    have := congrArg (coef boosts ℝ 0) (z4.trans hv)
    rw [show val boosts (⟨⟨[0]⟩, [c]⟩ : MV ℝ) = c • 1 by simp [val, denote, blade_zero], map_smul, map_smul, ← blade_zero, coef_blade boosts ℝ (a := 0) (by decide)] at this
    simpa using this
  have hneg : c < 0 := by rw [hc]; have := mul_self_pos.2 hβ; linarith
  have hsq : (⟨⟨[0]⟩, [c]⟩ : MV ℝ).squareRoot boosts rt fuel = .error .nan := by
    rw [MV.squareRoot, show Dispatch.matchLoop (⟨[0]⟩ : SubSpace) (sqrtOptions boosts) = some .scalar from by decide +kernel]
    simp only [MV.runSqrt, MV.sqrt, List.mapM_cons, MV.sqrtVal, hr.neg c hneg]
    rfl
  rw [Pga2d.exp, show Dispatch.matchLoop (⟨[3]⟩ : SubSpace) (Pga2d.expOptions boosts) = some none from by decide +kernel]
  simp only [expPlane, z1, hsq, bind, Except.bind]

/-- In more than three dimensions, where bivectors need not be simple, importing the module changes nothing. -/
theorem C103_elsewhere {A : Alg} (hA : WfAlg A) (hn : 3 < A.n) (rt : Roots ℝ) (fuel n : Nat) (sin cos e : ℝ → ℝ) (small : ℝ → Prop) [DecidablePred small] (b : MV ℝ) :
    Pga2d.exp A rt fuel sin cos small e n b = b.exp A fuel e n := by
  obtain ⟨B, hB, -⟩ := kVector_isSpace hA (g := 2) (k := 2) ⟨by omega, Or.inl rfl⟩
  have key : Dispatch.matchLoop b.sub (Pga2d.expOptions A) = (Dispatch.matchLoop b.sub (Model.expOptions A)).map some := by
    have hi : (do if ← insideBivector A b.sub then some (decide (A.n ≤ 3)) else some false) = some false := by
      rw [insideBivector, show A.bivector = some B from hB]
      simp only [Option.bind_eq_bind, Option.bind_some]
      split <;> simp [hn]
    simp only [Pga2d.expOptions, Model.expOptions, List.map_cons, List.map_nil, Dispatch.matchLoop, hi]
    repeat' split
    all_goals first | rfl | simp_all
  rw [Pga2d.exp, key]
  cases h : Dispatch.matchLoop b.sub (Model.expOptions A) with
  | none => simp only [Option.map_none, MV.exp, h]
  | some r => rfl

/-! ### concrete cases -/

/-- The algebra of space. -/
example (b : MV ℝ) : Pga2d.exp pga3d (realRoots 1000) 3 Real.sin Real.cos (· ≤ 1 / 10 ^ 20) Real.exp 15 b = b.exp pga3d 3 Real.exp 15 :=
  C103_elsewhere wf_pga3d (by decide) _ 3 15 _ _ _ _ b

example : plane (R := ℚ) 2 5 7 = .ok ⟨⟨[1, 2, 4]⟩, [-7, 2, 5]⟩ ∧ translator (R := ℚ) 3 2 5 = .ok ⟨⟨[0, 3, 5]⟩, [1, -1, -5 / 2]⟩ ∧
    point (R := ℚ) 3 2 5 = .ok ⟨⟨[3, 5, 6]⟩, [-5, 2, -1]⟩ := by
  refine ⟨(C103_values two_ne_zero 3 2 5 7).1, ?_, (C103_values two_ne_zero 3 2 5 7).2.2⟩
  rw [(C103_values (R := ℚ) two_ne_zero 3 2 5 7).2.1, shift]
  norm_num

example : (shift (2 : ℚ) 5).sandwich pga (pointAt 10 20) = some (pointAt (10 + 2) (20 + 5)) := (C103_translations two_ne_zero 2 5 10 20).2

/-- The lines `x = 3` and `x + y = 5` cross at `(3, 2)`. -/
example : (line (1 : ℚ) 0 3).wedge pga (line 1 1 5) = some ⟨⟨[3, 5, 6]⟩, (pointAt 3 2).vals.map (-(1 * 1 - 0 * 1) * ·)⟩ :=
  C103_crossing (by norm_num) (by norm_num)

/-- A unit motor that is neither a rotation nor a translation. -/
example : ∃ x' y', transformPoint (⟨⟨[0, 3, 5, 6]⟩, [3 / 5, 1, 2, 4 / 5]⟩ : MV ℚ) 10 20 = .ok (x', y') ∧
    Gives pga ((⟨⟨[0, 3, 5, 6]⟩, [3 / 5, 1, 2, 4 / 5]⟩ : MV ℚ).sandwich pga (pointAt 10 20)) (val pga (⟨⟨[3, 5, 6]⟩, [-y', x', -1]⟩ : MV ℚ)) := by
  refine C103_transform (wf_even _ rfl) (fun b hb => hb) ?_ 10 20
  rw [Verif.Pga2d.val_even, ev_norm]
  norm_num

example : ∃ m, Pga2d.exp pga (realRoots 1000) 3 Real.sin Real.cos (· ≤ 1 / 10 ^ 20) Real.exp 15 ⟨⟨[3, 5, 6]⟩, (pointAt 1 2).vals.map (Real.pi / 4 * ·)⟩ = .ok m ∧
    m.sandwich pga (pointAt 4 2) = some (pointAt 1 5) := by
  have hp : 1 / 10 ^ 20 < |Real.pi / 4| := by
    rw [abs_of_pos (by positivity)]
    have := Real.two_le_pi
    norm_num
    linarith
  obtain ⟨m, m1, m2⟩ := C103_about (realRoots_law 1000) 3 15 Real.exp 1 2 4 2 hp
  refine ⟨m, m1, m2.trans ?_⟩
  rw [show 2 * (Real.pi / 4) = Real.pi / 2 by ring, Real.cos_pi_div_two, Real.sin_pi_div_two]
  norm_num

example : ∃ y δ, Pga2d.exp pga (realRoots 1000) 3 Real.sin Real.cos (· ≤ 1 / 10 ^ 20) Real.exp 15 ⟨⟨[3, 6]⟩, [2, 3]⟩ = .ok y ∧ WfMV pga y ∧ y.sub = ⟨[0, 3, 6]⟩ ∧
    IsExp pga (val pga (⟨⟨[3, 6]⟩, [2, 3]⟩ : MV ℝ)) (val pga y - (δ : ℝ) • val pga (⟨⟨[3, 6]⟩, [2, 3]⟩ : MV ℝ)) ∧ 0 ≤ δ ∧ δ ≤ 3 * 3 / 6 ∧ (1 / 10 ^ 20 < |(3 : ℝ)| → δ = 0) :=
  C103_exp (realRoots_law 1000) 3 15 Real.exp ⟨show WfSub pga ⟨[3, 6]⟩ from wfSub_of_B (by decide +kernel), rfl⟩ (by simp [turning])

example : Pga2d.exp pga (realRoots 1000) 3 Real.sin Real.cos (· ≤ 1 / 10 ^ 20) Real.exp 15 ⟨⟨[3, 5]⟩, [2, 3]⟩ = .error .raised :=
  (C103_wrong (realRoots 1000) 3 15 Real.exp _ ⟨show WfSub pga ⟨[3, 5]⟩ from wfSub_of_B (by decide +kernel), rfl⟩ (by simp [shifting])).1

end Verif.Props
