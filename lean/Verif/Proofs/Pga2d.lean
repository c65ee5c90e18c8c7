import Verif.Model.Pga2d
import Verif.Proofs.Optimized
import Verif.Proofs.LieIntegrators
import Verif.Props.Sandwich
import Verif.Props.Unary
import Verif.Proofs.Physics3
/-! # Products in the algebra `w0x+y+` -/
namespace Verif.Pga2d
open Model Spec Props Model.Pga2d

theorem wf_pga : WfAlg pga := by constructor <;> decide

section
variable {R : Type} [CommRing R]

local macro "mulBlade" a:num b:num v:term : tactic =>
  `(tactic| (rw [blade_mul wf_pga, show sgn pga $a $b = $v from by decide +kernel]; simp [blade_zero]))

theorem m33 : blade pga R 3 * blade pga R 3 = 0 := by mulBlade 3 3 (0)
theorem m35 : blade pga R 3 * blade pga R 5 = 0 := by mulBlade 3 5 (0)
theorem m36 : blade pga R 3 * blade pga R 6 = blade pga R 5 := by mulBlade 3 6 (1)
theorem m53 : blade pga R 5 * blade pga R 3 = 0 := by mulBlade 5 3 (0)
theorem m55 : blade pga R 5 * blade pga R 5 = 0 := by mulBlade 5 5 (0)
theorem m56 : blade pga R 5 * blade pga R 6 = -blade pga R 3 := by mulBlade 5 6 (-1)
theorem m63 : blade pga R 6 * blade pga R 3 = -blade pga R 5 := by mulBlade 6 3 (-1)
theorem m65 : blade pga R 6 * blade pga R 5 = blade pga R 3 := by mulBlade 6 5 (1)
theorem m66 : blade pga R 6 * blade pga R 6 = -1 := by mulBlade 6 6 (-1)

/-- An even element, by its coefficients. -/
noncomputable def ev (a b c d : R) : Cl pga R := a • 1 + b • blade pga R 3 + c • blade pga R 5 + d • blade pga R 6

theorem ev_mul (a b c d a' b' c' d' : R) : ev a b c d * ev a' b' c' d' =
    ev (a * a' - d * d') (a * b' + b * a' - c * d' + d * c') (a * c' + c * a' + b * d' - d * b') (a * d' + d * a') := by
  simp only [ev, add_mul, mul_add, smul_mul_smul_comm, one_mul, mul_one, m33, m35, m36, m53, m55, m56, m63, m65, m66]
  module

theorem ev_reverse (a b c d : R) : CliffordAlgebra.reverse (ev a b c d) = ev a (-b) (-c) (-d) := by
  have h : ∀ b, pc pga.n b = 2 → CliffordAlgebra.reverse (blade pga R b) = -blade pga R b := fun b hb => by
    rw [reverse_blade, hb]; simp
  simp only [ev, map_add, map_smul, CliffordAlgebra.reverse.map_one, h 3 (by decide), h 5 (by decide), h 6 (by decide)]
  module

theorem ev_smul (k a b c d : R) : k • ev a b c d = ev (k * a) (k * b) (k * c) (k * d) := by
  simp only [ev, smul_add, smul_smul]

theorem ev_add (a b c d a' b' c' d' : R) : ev a b c d + ev a' b' c' d' = ev (a + a') (b + b') (c + c') (d + d') := by
  simp only [ev]; module

theorem ev_coef (a b c d : R) : coef pga R 0 (ev a b c d) = a ∧ coef pga R 3 (ev a b c d) = b ∧ coef pga R 5 (ev a b c d) = c ∧ coef pga R 6 (ev a b c d) = d := by
  have h : ∀ k, coef pga R k (ev a b c d) = a * (if k = 0 then 1 else 0) + b * (if k = 3 then 1 else 0) + c * (if k = 5 then 1 else 0) + d * (if k = 6 then 1 else 0) := fun k => by
    simp only [ev, ← blade_zero, map_add, map_smul, smul_eq_mul]
    rw [coef_blade pga R (a := 0) (by decide), coef_blade pga R (a := 3) (by decide), coef_blade pga R (a := 5) (by decide), coef_blade pga R (a := 6) (by decide)]
  refine ⟨?_, ?_, ?_, ?_⟩ <;> rw [h] <;> simp

theorem val_even (a b c d : R) : val pga (⟨⟨[0, 3, 5, 6]⟩, [a, b, c, d]⟩ : MV R) = ev a b c d := by
  simp [val, denote, ev, blade_zero, add_assoc]
theorem val_point (b c d : R) : val pga (⟨⟨[3, 5, 6]⟩, [b, c, d]⟩ : MV R) = ev 0 b c d := by
  simp [val, denote, ev, add_assoc]
theorem val_translator (a b c : R) : val pga (⟨⟨[0, 3, 5]⟩, [a, b, c]⟩ : MV R) = ev a b c 0 := by
  simp [val, denote, ev, blade_zero, add_assoc]
theorem val_rotor (a d : R) : val pga (⟨⟨[0, 6]⟩, [a, d]⟩ : MV R) = ev a 0 0 d := by
  simp [val, denote, ev, blade_zero]

theorem wf_even (v : List R) (h : v.length = 4) : WfMV pga (⟨⟨[0, 3, 5, 6]⟩, v⟩ : MV R) := ⟨show WfSub pga ⟨[0, 3, 5, 6]⟩ from wfSub_of_B (by decide +kernel), h⟩
theorem wf_point (v : List R) (h : v.length = 3) : WfMV pga (⟨⟨[3, 5, 6]⟩, v⟩ : MV R) := ⟨show WfSub pga ⟨[3, 5, 6]⟩ from wfSub_of_B (by decide +kernel), h⟩
theorem wf_translator (v : List R) (h : v.length = 3) : WfMV pga (⟨⟨[0, 3, 5]⟩, v⟩ : MV R) := ⟨show WfSub pga ⟨[0, 3, 5]⟩ from wfSub_of_B (by decide +kernel), h⟩
theorem wf_rotor (v : List R) (h : v.length = 2) : WfMV pga (⟨⟨[0, 6]⟩, v⟩ : MV R) := ⟨show WfSub pga ⟨[0, 6]⟩ from wfSub_of_B (by decide +kernel), h⟩
theorem wf_blade (k : Nat) (hk : k < 8) (a : R) : WfMV pga (⟨⟨[k]⟩, [a]⟩ : MV R) := ⟨by show WfSub pga ⟨[k]⟩; clear a; interval_cases k <;> exact wfSub_of_B (by decide +kernel), rfl⟩

end

section
variable {R : Type} [Field R]

theorem basis_eq : (MVFactory.basis pga : Option (List (MV R))) = some [⟨⟨[1]⟩, [1]⟩, ⟨⟨[2]⟩, [1]⟩, ⟨⟨[4]⟩, [1]⟩] := by
  have h : MVFactory.basisSpaces pga = some [⟨[1]⟩, ⟨[2]⟩, ⟨[4]⟩] := by decide +kernel
  rw [MVFactory.basis, h]; rfl

theorem named_one {n : String} {t : Nat} (h : pga.desc.parseTokens n.toList = some [t]) {x : MV R}
    (hx : ([⟨⟨[1]⟩, [1]⟩, ⟨⟨[2]⟩, [1]⟩, ⟨⟨[4]⟩, [1]⟩] : List (MV R))[t]? = some x) : (named n : Except Fail (MV R)) = .ok x := by
  rw [named, MVFactory.getattr, basis_eq, h]
  simp [hx, lift]

theorem named_two {n : String} {t u : Nat} (h : pga.desc.parseTokens n.toList = some [t, u]) {x y : MV R}
    (hx : ([⟨⟨[1]⟩, [1]⟩, ⟨⟨[2]⟩, [1]⟩, ⟨⟨[4]⟩, [1]⟩] : List (MV R))[t]? = some x)
    (hy : ([⟨⟨[1]⟩, [1]⟩, ⟨⟨[2]⟩, [1]⟩, ⟨⟨[4]⟩, [1]⟩] : List (MV R))[u]? = some y) : (named n : Except Fail (MV R)) = lift (x.wedge pga y) := by
  rw [named, MVFactory.getattr, basis_eq, h]
  simp [hx, hy]

theorem named_w : (named "w" : Except Fail (MV R)) = .ok ⟨⟨[1]⟩, [1]⟩ := named_one (t := 0) (by decide +kernel) rfl
theorem named_x : (named "x" : Except Fail (MV R)) = .ok ⟨⟨[2]⟩, [1]⟩ := named_one (t := 1) (by decide +kernel) rfl
theorem named_y : (named "y" : Except Fail (MV R)) = .ok ⟨⟨[4]⟩, [1]⟩ := named_one (t := 2) (by decide +kernel) rfl

/-! ### exact results -/

theorem given {r : Option (MV R)} {S : SubSpace} {v : Cl pga R} (h : GivesIn pga r S v) {z : MV R} (hw : WfMV pga z) (hs : S = z.sub) (hv : v = val pga z) :
    r = some z := by
  subst hs hv; exact h.eq hw

theorem add_eq {x y z : MV R} (hx : WfMV pga x) (hy : WfMV pga y) (hz : WfMV pga z) (hU : x.sub.union pga y.sub = some z.sub)
    (hv : val pga x + val pga y = val pga z) : x.add pga (.mv y) = some z := by
  obtain ⟨U, u1, u2, -⟩ := C44_sum wf_pga hx hy
  cases u1.symm.trans hU
  exact given u2 hz rfl hv

theorem sub_eq {x y z : MV R} (hx : WfMV pga x) (hy : WfMV pga y) (hz : WfMV pga z) (hU : x.sub.union pga y.sub = some z.sub)
    (hv : val pga x - val pga y = val pga z) : x.sub' pga (.mv y) = some z := by
  obtain ⟨U, u1, -, u2, -⟩ := C44_sum wf_pga hx hy
  cases u1.symm.trans hU
  exact given u2 hz rfl hv

theorem add_num [DecidableEq R] {x z : MV R} {c : R} (hx : WfMV pga x) (hz : WfMV pga z) (hU : x.sub.union pga ⟨[0]⟩ = some z.sub)
    (hv : val pga x + c • 1 = val pga z) : x.add pga (.num c) = some z := by
  have e : x.add pga (.num c) = x.add pga (.mv ⟨⟨[0]⟩, [c]⟩) := by rw [MV.add, upcast_num wf_pga]; rfl
  rw [e]
  exact add_eq hx (wf_blade 0 (by decide) c) hz hU (by rw [← hv]; simp [val, denote, blade_zero])

theorem mul_eq [DecidableEq R] {x : MV R} (hx : WfMV pga x) (c : R) : x.mul pga (.num c) = some ⟨x.sub, x.vals.map (c * ·)⟩ := by
  have hw : WfMV pga (⟨x.sub, x.vals.map (c * ·)⟩ : MV R) := ⟨hx.sub, by simp [hx.len]⟩
  refine given (num_in wf_pga hx c) hw rfl ?_
  rw [val, val, denote_eq_sum _ _ hx.len, denote_eq_sum _ _ hw.len, Finset.smul_sum]
  refine Finset.sum_congr rfl fun i hi => ?_
  have hl : i < x.vals.length := by rw [hx.len]; exact Finset.mem_range.1 hi
  simp [smul_smul, List.getD_eq_getElem?_getD, hl]

theorem call_eq {o : Option (Operator Int)} {args : List (MV R)} {v : Cl pga R} (h : Gives pga (MV.call o args) v) {z : MV R} (hw : WfMV pga z)
    (hs : o.map (·.output) = some z.sub) (hv : v = val pga z) : MV.call o args = some z :=
  given (GivesIn.of_call h fun op ho => by rw [ho] at hs; exact Option.some_inj.1 hs) hw rfl hv

theorem grades_point (b c d : R) : gradesOf pga R ⟨[3, 5, 6]⟩ (ev 0 b c d) = ev 0 b c d := by
  have h : ∀ k, k < 8 → popcount k = 2 → gradesOf pga R ⟨[3, 5, 6]⟩ (blade pga R k) = blade pga R k := fun k hk h2 => by
    rw [gradesOf, proj_blade _ (show k < 2 ^ pga.n from hk), if_pos ⟨3, by simp, by rw [h2]; decide⟩]
  simp only [ev, zero_smul, zero_add, map_add, map_smul, h 3 (by decide) (by decide), h 5 (by decide) (by decide), h 6 (by decide) (by decide)]


theorem sandwich_ev (a b c d y x w : R) : ev a b c d * ev 0 y x w * CliffordAlgebra.reverse (ev a b c d) =
    ev 0 ((a * a - d * d) * y + 2 * a * d * x + 2 * (b * d - a * c) * w) ((a * a - d * d) * x - 2 * a * d * y + 2 * (c * d + a * b) * w)
      ((a * a + d * d) * w) := by
  rw [ev_reverse, ev_mul, ev_mul]
  congr 1 <;> ring

theorem ev_norm (a b c d : R) : ev a b c d * CliffordAlgebra.reverse (ev a b c d) = (a * a + d * d) • 1 := by
  rw [ev_reverse, ev_mul, show (a * a - d * -d) = a * a + d * d by ring, show a * -b + b * a - c * -d + d * -c = 0 by ring,
    show a * -c + c * a + b * -d - d * -b = 0 by ring, show a * -d + d * a = 0 by ring]
  simp [ev]

/-- Even elements by coefficients. -/
theorem even_ev {m : MV R} (hm : WfMV pga m) (he : ∀ b ∈ m.sub.blades, b ∈ [0, 3, 5, 6]) :
    val pga m = ev (coeff m 0) (coeff m 3) (coeff m 5) (coeff m 6) := by
  have hz : ∀ k, k ∉ [0, 3, 5, 6] → coef pga R k (val pga m) = 0 := fun k hk => by
    rw [← coeff_eq hm, coeff_notMem fun h => hk (he k h)]
  rw [coeff_eq hm, coeff_eq hm, coeff_eq hm, coeff_eq hm]
  conv_lhs => rw [sum_coef pga R (val pga m)]
  rw [show 2 ^ pga.n = 8 from rfl]
  simp only [Finset.sum_range_succ, Finset.sum_range_zero, hz 1 (by decide), hz 2 (by decide), hz 4 (by decide), hz 7 (by decide), zero_smul, zero_add, add_zero,
    ev, blade_zero]

theorem wedge11 : wedgeMap pga R (blade pga R 1) (blade pga R 1) = 0 := by
  rw [wedge_blade wf_pga (by decide) (by decide)]; simp [show inv pga.n 1 1 = 0 from by decide]
theorem wedge12 : wedgeMap pga R (blade pga R 1) (blade pga R 2) = blade pga R 3 := by
  rw [wedge_blade wf_pga (by decide) (by decide)]; simp [show inv pga.n 1 2 = 0 from by decide]
theorem wedge14 : wedgeMap pga R (blade pga R 1) (blade pga R 4) = blade pga R 5 := by
  rw [wedge_blade wf_pga (by decide) (by decide)]; simp [show inv pga.n 1 4 = 0 from by decide]
theorem wedge13 : wedgeMap pga R (blade pga R 1) (blade pga R 3) = 0 := by
  rw [wedge_blade wf_pga (by decide) (by decide)]; simp [show inv pga.n 1 3 = 0 from by decide]
theorem wedge15 : wedgeMap pga R (blade pga R 1) (blade pga R 5) = 0 := by
  rw [wedge_blade wf_pga (by decide) (by decide)]; simp [show inv pga.n 1 5 = 0 from by decide]
theorem wedge16 : wedgeMap pga R (blade pga R 1) (blade pga R 6) = blade pga R 7 := by
  rw [wedge_blade wf_pga (by decide) (by decide)]; simp [show inv pga.n 1 6 = 0 from by decide]
theorem wedge21 : wedgeMap pga R (blade pga R 2) (blade pga R 1) = -blade pga R 3 := by
  rw [wedge_blade wf_pga (by decide) (by decide)]; simp [show inv pga.n 2 1 = 1 from by decide]
theorem wedge22 : wedgeMap pga R (blade pga R 2) (blade pga R 2) = 0 := by
  rw [wedge_blade wf_pga (by decide) (by decide)]; simp [show inv pga.n 2 2 = 0 from by decide]
theorem wedge24 : wedgeMap pga R (blade pga R 2) (blade pga R 4) = blade pga R 6 := by
  rw [wedge_blade wf_pga (by decide) (by decide)]; simp [show inv pga.n 2 4 = 0 from by decide]
theorem wedge23 : wedgeMap pga R (blade pga R 2) (blade pga R 3) = 0 := by
  rw [wedge_blade wf_pga (by decide) (by decide)]; simp [show inv pga.n 2 3 = 1 from by decide]
theorem wedge25 : wedgeMap pga R (blade pga R 2) (blade pga R 5) = -blade pga R 7 := by
  rw [wedge_blade wf_pga (by decide) (by decide)]; simp [show inv pga.n 2 5 = 1 from by decide]
theorem wedge26 : wedgeMap pga R (blade pga R 2) (blade pga R 6) = 0 := by
  rw [wedge_blade wf_pga (by decide) (by decide)]; simp [show inv pga.n 2 6 = 0 from by decide]
theorem wedge41 : wedgeMap pga R (blade pga R 4) (blade pga R 1) = -blade pga R 5 := by
  rw [wedge_blade wf_pga (by decide) (by decide)]; simp [show inv pga.n 4 1 = 1 from by decide]
theorem wedge42 : wedgeMap pga R (blade pga R 4) (blade pga R 2) = -blade pga R 6 := by
  rw [wedge_blade wf_pga (by decide) (by decide)]; simp [show inv pga.n 4 2 = 1 from by decide]
theorem wedge44 : wedgeMap pga R (blade pga R 4) (blade pga R 4) = 0 := by
  rw [wedge_blade wf_pga (by decide) (by decide)]; simp [show inv pga.n 4 4 = 0 from by decide]
theorem wedge43 : wedgeMap pga R (blade pga R 4) (blade pga R 3) = blade pga R 7 := by
  rw [wedge_blade wf_pga (by decide) (by decide)]; simp [show inv pga.n 4 3 = 2 from by decide]
theorem wedge45 : wedgeMap pga R (blade pga R 4) (blade pga R 5) = 0 := by
  rw [wedge_blade wf_pga (by decide) (by decide)]; simp [show inv pga.n 4 5 = 1 from by decide]
theorem wedge46 : wedgeMap pga R (blade pga R 4) (blade pga R 6) = 0 := by
  rw [wedge_blade wf_pga (by decide) (by decide)]; simp [show inv pga.n 4 6 = 1 from by decide]

theorem wedge_lin (x y : Cl pga R) : wedgeMap pga R x y = gradedProductₗ pga R (fun i j k => i + j = k) x y := (gradedProductₗ_apply _ x y).symm

theorem val_line (a b c : R) : val pga (⟨⟨[1, 2, 4]⟩, [a, b, c]⟩ : MV R) = a • blade pga R 1 + b • blade pga R 2 + c • blade pga R 4 := by
  simp [val, denote, add_assoc]

theorem wf_line (v : List R) (h : v.length = 3) : WfMV pga (⟨⟨[1, 2, 4]⟩, v⟩ : MV R) := ⟨show WfSub pga ⟨[1, 2, 4]⟩ from wfSub_of_B (by decide +kernel), h⟩

end

/-- The layout of the sandwich of points with a motor. -/
theorem sandwich_layout {S : SubSpace} (hS : WfSub pga S) (h0 : 0 ∈ S.blades) :
    (Factory.sandwich pga (.sub S) ⟨[3, 5, 6]⟩).map (·.output) = some ⟨[3, 5, 6]⟩ := by
  obtain ⟨u, u1, rfl, u3⟩ : Within pga S (1 : Cl pga ℚ) := blade_zero pga ℚ ▸ within_blade hS h0
  have hp : WfMV pga (⟨⟨[3, 5, 6]⟩, [1, 1, 1]⟩ : MV ℚ) := wf_point _ rfl
  obtain ⟨w, w1, w2, w3⟩ := sandwich_gives wf_pga u1 hp
  obtain ⟨op, o1, -⟩ := sandwich_sem wf_pga u1.sub hp.sub
  have ho : w.sub = op.output := by rw [MV.sandwich, o1] at w1; exact call_sub w1
  rw [o1, Option.map_some, ← ho]
  congr 1
  refine WfSub.ext w2.sub hp.sub fun b => ⟨fun hb => ?_, fun hb => ?_⟩
  · obtain ⟨a, ha, e⟩ := sandwich_sub wf_pga u1 hp (.inl w1) hb
    have h8 : b < 8 := w2.sub.lt b hb
    have h2 : popcount b = 2 := by
      rw [← e]; simp at ha; rcases ha with rfl | rfl | rfl <;> decide
    clear e hb
    interval_cases b <;> revert h2 <;> decide
  · by_contra hn
    have := coeff_eq w2 b
    rw [coeff_notMem hn, w3, u3, CliffordAlgebra.reverse.map_one, one_mul, mul_one, val_point, grades_point] at this
    obtain ⟨-, c3, c5, c6⟩ := ev_coef (0 : ℚ) 1 1 1
    simp at hb
    rcases hb with rfl | rfl | rfl
    · rw [c3] at this; norm_num at this
    · rw [c5] at this; norm_num at this
    · rw [c6] at this; norm_num at this

end Verif.Pga2d
