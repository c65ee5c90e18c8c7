import Verif.Proofs.Optimized
import Verif.Props.Names
import Verif.Props.Roots
import Verif.Props.Description
/-! # Property C78: the optimised normalisation of motors -/
namespace Verif.Props
open Model Spec Pga3d

theorem good_pga3d : GoodNames pga3d := by constructor <;> decide

theorem optimizedFor_iff {s : List Char} {A : Alg} (hA : Alg.fromStr s = some A) {S T : SubSpace} (hS : WfSub A S) (hT : WfSub pga3d T)
    {layout : String} (hl : T.namedStr pga3d = layout.toList) : optimizedFor A layout S = true ↔ A = pga3d ∧ S = T := by
  rw [optimizedFor, Bool.and_eq_true, beq_iff_eq, beq_iff_eq]
  constructor
  · rintro ⟨h1, h2⟩
    rw [Alg.fromStr, Option.bind_eq_some_iff] at hA
    obtain ⟨d, d1, d2⟩ := hA
    have hd : A.desc = d := by
      rw [Alg.ofDesc, Option.map_eq_some_iff] at d2
      obtain ⟨t, -, rfl⟩ := d2
      rfl
    have h3 := (C06_parsed d1).2.2.2.2
    rw [hd, h3, Option.some.injEq] at h2
    subst h2
    have hA : A = pga3d := by
      have : (Description.fromStr "x+y+z+w0".toList).bind Alg.ofDesc = some pga3d := by decide +kernel
      rw [d1, Option.bind_some, d2, Option.some.injEq] at this
      exact this
    subst hA
    exact ⟨rfl, (C77_unique wf_pga3d good_pga3d hS hT).2 (h1.trans hl.symm)⟩
  · rintro ⟨rfl, rfl⟩
    exact ⟨hl, by decide +kernel⟩

/-- C78: the conditions of the optimised methods hold for one subspace of one algebra only, the one for which the code is
written. -/
theorem C78_condition {s : List Char} {A : Alg} (hA : Alg.fromStr s = some A) {S : SubSpace} (hS : WfSub A S) :
    (optimizedFor A "1,xy,xz,yz,xw,yw,zw,xyzw" S = true ↔ A = pga3d ∧ S = ⟨[0, 3, 5, 6, 9, 10, 12, 15]⟩) ∧
    (optimizedFor A "xw,yw,zw" S = true ↔ A = pga3d ∧ S = ⟨[9, 10, 12]⟩) ∧
    (optimizedFor A "xy,xz,yz" S = true ↔ A = pga3d ∧ S = ⟨[3, 5, 6]⟩) ∧
    (optimizedFor A "xy,xz,yz,xw,yw,zw" S = true ↔ A = pga3d ∧ S = ⟨[3, 5, 6, 9, 10, 12]⟩) :=
  ⟨optimizedFor_iff hA hS (wfSub_of_B (by decide +kernel)) (by decide +kernel), optimizedFor_iff hA hS (wfSub_of_B (by decide +kernel)) (by decide +kernel),
    optimizedFor_iff hA hS (wfSub_of_B (by decide +kernel)) (by decide +kernel), optimizedFor_iff hA hS (wfSub_of_B (by decide +kernel)) (by decide +kernel)⟩

example : Alg.fromStr "x+y+z+w0".toList = some pga3d ∧ pga3d.evenGrade = some ⟨[0, 3, 5, 6, 9, 10, 12, 15]⟩ ∧
    pga3d.bivector = some ⟨[3, 5, 6, 9, 10, 12]⟩ := by decide +kernel

variable {R : Type} [Field R] [LinearOrder R] [IsStrictOrderedRing R]

theorem wf_motorSub : WfSub pga3d ⟨[0, 3, 5, 6, 9, 10, 12, 15]⟩ := wfSub_of_B (by decide +kernel)

theorem eight {α : Type} {l : List α} (h : l.length = 8) : ∃ a b c d e f g i, l = [a, b, c, d, e, f, g, i] := by
  match l, h with
  | [a, b, c, d, e, f, g, i], _ => exact ⟨a, b, c, d, e, f, g, i, rfl⟩

theorem mot_norm {R : Type} [CommRing R] (a0 a1 a2 a3 a4 a5 a6 a7 : R) :
    mot a0 a1 a2 a3 a4 a5 a6 a7 * CliffordAlgebra.reverse (mot a0 a1 a2 a3 a4 a5 a6 a7) =
      mot (a0 * a0 + a1 * a1 + a2 * a2 + a3 * a3) 0 0 0 0 0 0 (2 * (a0 * a7 - a1 * a6 + a2 * a5 - a3 * a4)) := by
  rw [mot_reverse, mot_mul]
  congr 1 <;> ring

theorem normalizeMotor_eq {rt : Roots R} {a0 a1 a2 a3 a4 a5 a6 a7 r : R} (hr : rt.sqrt (a0 * a0 + a1 * a1 + a2 * a2 + a3 * a3) = some r)
    (h0 : a0 * a0 + a1 * a1 + a2 * a2 + a3 * a3 ≠ 0) (hrr : r * r = a0 * a0 + a1 * a1 + a2 * a2 + a3 * a3) :
    ∃ y, MV.normalizeMotor rt (⟨⟨[0, 3, 5, 6, 9, 10, 12, 15]⟩, [a0, a1, a2, a3, a4, a5, a6, a7]⟩ : MV R) = .ok y ∧ WfMV pga3d y ∧
      y.sub = ⟨[0, 3, 5, 6, 9, 10, 12, 15]⟩ ∧
      mot r 0 0 0 0 0 0 ((a0 * a7 - a1 * a6 + a2 * a5 - a3 * a4) / r) * val pga3d y = mot a0 a1 a2 a3 a4 a5 a6 a7 := by
  have hr0 : r ≠ 0 := by rintro rfl; exact h0 (by rw [← hrr, mul_zero])
  refine ⟨_, by rw [MV.normalizeMotor]; simp only [MV.invSqrtVal, if_neg h0, hr]; rfl, ⟨wf_motorSub, rfl⟩, rfl, ?_⟩
  rw [val_motor, mot_mul]
  congr 1 <;> field_simp <;> ring

/-- C78: the optimised `normalized` of a motor: if the rotation part is not zero, the result `y` is stored in the same layout and
satisfies `y ~y = ~y y = 1`; otherwise it is not finite. -/
theorem C78_unit {rt : Roots R} (hr : RealRoots rt) {fuel : Nat} {x : MV R} (hx : WfMV pga3d x) (hs : x.sub = ⟨[0, 3, 5, 6, 9, 10, 12, 15]⟩) :
    ((∃ b ∈ [0, 3, 5, 6], coeff x b ≠ 0) → ∃ y, x.normalizedOptimized pga3d rt fuel = .ok y ∧ WfMV pga3d y ∧ y.sub = x.sub ∧
      val pga3d y * CliffordAlgebra.reverse (val pga3d y) = 1 ∧ CliffordAlgebra.reverse (val pga3d y) * val pga3d y = 1) ∧
    ((∀ b ∈ [0, 3, 5, 6], coeff x b = 0) → x.normalizedOptimized pga3d rt fuel = .error .divZero) := by
  have hopt : x.normalizedOptimized pga3d rt fuel = x.normalizeMotor rt := by
    rw [MV.normalizedOptimized, if_pos]
    rw [hs]; decide +kernel
  rw [hopt]
  obtain ⟨S, v⟩ := x
  subst hs
  obtain ⟨a0, a1, a2, a3, a4, a5, a6, a7, rfl⟩ := eight (l := v) hx.len
  have c0 : coeff (⟨⟨[0, 3, 5, 6, 9, 10, 12, 15]⟩, [a0, a1, a2, a3, a4, a5, a6, a7]⟩ : MV R) 0 = a0 := rfl
  have c1 : coeff (⟨⟨[0, 3, 5, 6, 9, 10, 12, 15]⟩, [a0, a1, a2, a3, a4, a5, a6, a7]⟩ : MV R) 3 = a1 := rfl
  have c2 : coeff (⟨⟨[0, 3, 5, 6, 9, 10, 12, 15]⟩, [a0, a1, a2, a3, a4, a5, a6, a7]⟩ : MV R) 5 = a2 := rfl
  have c3 : coeff (⟨⟨[0, 3, 5, 6, 9, 10, 12, 15]⟩, [a0, a1, a2, a3, a4, a5, a6, a7]⟩ : MV R) 6 = a3 := rfl
  constructor
  · intro h
    have hpos : 0 < a0 * a0 + a1 * a1 + a2 * a2 + a3 * a3 := by
      have := mul_self_nonneg a0
      have := mul_self_nonneg a1
      have := mul_self_nonneg a2
      have := mul_self_nonneg a3
      obtain ⟨b, hb, hne⟩ := h
      simp only [List.mem_cons, List.not_mem_nil, or_false] at hb
      rcases hb with rfl | rfl | rfl | rfl
      · rw [c0] at hne; have := mul_self_pos.2 hne; linarith
      · rw [c1] at hne; have := mul_self_pos.2 hne; linarith
      · rw [c2] at hne; have := mul_self_pos.2 hne; linarith
      · rw [c3] at hne; have := mul_self_pos.2 hne; linarith
    obtain ⟨r, r1, r2, r3⟩ := hr.nonneg _ hpos.le
    obtain ⟨y, y1, y2, y3, y4⟩ := normalizeMotor_eq (a4 := a4) (a5 := a5) (a6 := a6) (a7 := a7) r1 hpos.ne' r3
    refine ⟨y, y1, y2, y3, ?_⟩
    have hr0 : r ≠ 0 := by rintro rfl; exact hpos.ne (by rw [← r3, mul_zero])
    set D := a0 * a7 - a1 * a6 + a2 * a5 - a3 * a4
    set q : Cl pga3d R := mot r 0 0 0 0 0 0 (D / r)
    have hqq : q * q = mot (a0 * a0 + a1 * a1 + a2 * a2 + a3 * a3) 0 0 0 0 0 0 (2 * D) := by
      rw [mot_mul, ← r3]; congr 1 <;> field_simp <;> ring
    have hrev : CliffordAlgebra.reverse q = q := by rw [mot_reverse]; simp only [neg_zero]; rfl
    have hqi : q * mot (1 / r) 0 0 0 0 0 0 (-(D / r) / (r * r)) = 1 := by
      have e1 : (1 : Cl pga3d R) = mot 1 0 0 0 0 0 0 0 := by simp [mot]
      rw [mot_mul, e1]
      congr 1 <;> field_simp <;> ring
    have hiq := mul_eq_one_comm.1 hqi
    set i : Cl pga3d R := mot (1 / r) 0 0 0 0 0 0 (-(D / r) / (r * r))
    have hri := reverse_inverse hqi hiq hrev
    have hy : val pga3d y = i * mot a0 a1 a2 a3 a4 a5 a6 a7 := by rw [← y4, ← mul_assoc, hiq, one_mul]
    have e : val pga3d y * CliffordAlgebra.reverse (val pga3d y) = 1 := by
      rw [hy, CliffordAlgebra.reverse.map_mul, hri, mul_assoc, ← mul_assoc (mot a0 a1 a2 a3 a4 a5 a6 a7), mot_norm, ← hqq, mul_assoc q, hqi, mul_one, hiq]
    exact ⟨e, mul_eq_one_comm.1 e⟩
  · intro h
    have e0 : a0 = 0 := (h 0 (by simp))
    have e1 : a1 = 0 := (h 3 (by simp))
    have e2 : a2 = 0 := (h 5 (by simp))
    have e3 : a3 = 0 := (h 6 (by simp))
    subst e0 e1 e2 e3
    rw [MV.normalizeMotor]
    simp only [MV.invSqrtVal, mul_zero, add_zero, if_true]
    rfl

/-- C78: importing the optimised module does not change the value of `normalized`: whatever the generic method returns, for any
subspace of any algebra, the method with the optimisation returns, too. -/
theorem C78_same {s : List Char} {A : Alg} (hs : Alg.fromStr s = some A) {rt : Roots R} (hr : RealRoots rt) {fuel : Nat} (hf : 2 ≤ fuel)
    {x y : MV R} (hx : WfMV A x) (h : x.normalized A rt fuel = .ok y) :
    ∃ y', x.normalizedOptimized A rt fuel = .ok y' ∧ WfMV A y' ∧ val A y' = val A y := by
  have hA : WfAlg A := wf_fromStr hs
  have h2 : (2 : R) ≠ 0 := two_ne_zero
  obtain ⟨fuel, rfl⟩ : ∃ f, fuel = f + 2 := ⟨fuel - 2, by omega⟩
  have hr' : RootLaw rt := hr.law
  obtain ⟨hy, q, i, u, v, q1, q2, q3, q4, q5, c, t, q6, q7⟩ := normalized_spec' hA h2 hr' fuel hx h
  rw [MV.normalizedOptimized]
  by_cases hc : optimizedFor A "1,xy,xz,yz,xw,yw,zw,xyzw" x.sub = true
  swap
  · rw [if_neg hc]
    exact ⟨y, h, hy, rfl⟩
  rw [if_pos hc]
  obtain ⟨rfl, hsub⟩ := (C78_condition hs hx.sub).1.1 hc
  obtain ⟨S, w⟩ := x
  simp only at hsub
  subst hsub
  obtain ⟨a0, a1, a2, a3, a4, a5, a6, a7, rfl⟩ := eight (l := w) hx.len
  rw [val_motor, mot_norm] at q3 q4
  rw [val_motor] at q5
  set D := a0 * a7 - a1 * a6 + a2 * a5 - a3 * a4 with hD
  set N := a0 * a0 + a1 * a1 + a2 * a2 + a3 * a3 with hN
  have hq : q = mot (u + v * N) 0 0 0 0 0 0 (v * (2 * D)) := by
    rw [q3]; simp only [mot]; module
  have hgrade : ∀ a b : R, gradePart pga3d R 0 (mot a 0 0 0 0 0 0 b) = a • (1 : Cl pga3d R) := by
    intro a b
    have h15 : gradePart pga3d R 0 (blade pga3d R 15) = 0 := by
      rw [gradePart_blade 0 (show 15 < 2 ^ pga3d.n by decide), if_neg (by decide)]
    simp only [mot, zero_smul, add_zero, map_add, map_smul, h15, smul_zero]
    rw [← map_smul, gradePart_zero_scalar wf_pga3d]
  have hc0 : u + v * N = c := by
    rw [hq, hgrade] at q7
    exact smul_one_inj q7
  rw [hc0] at hq
  have hsq : c * c = N ∧ 2 * (c * (v * (2 * D))) = 2 * D := by
    rw [hq, mot_mul] at q4
    have := mot_inj q4
    constructor
    · linarith [this.1]
    · linarith [this.2]
  have hcpos : 0 ≤ c := by
    rcases lt_or_ge t 0 with ht | ht
    · rw [hr.neg t ht] at q6; cases q6
    · obtain ⟨r, r1, r2, -⟩ := hr.nonneg t ht
      rw [r1] at q6
      cases q6
      exact r2
  have hc1 : c ≠ 0 := by
    rintro rfl
    have : q * q = 0 := by rw [hq, mot_mul]; simp [mot]
    exact not_unit_of_square pga3d q1 this
  have hNpos : 0 < N := by rw [← hsq.1]; exact mul_self_pos.2 hc1
  obtain ⟨r, r1, r2, r3⟩ := hr.nonneg _ hNpos.le
  have hrc : r = c := by
    rcases mul_self_eq_mul_self_iff.1 (r3.trans hsq.1.symm) with h | h
    · exact h
    · have : c = 0 := by linarith
      exact absurd this hc1
  subst hrc
  obtain ⟨z, z1, z2, -, z4⟩ := normalizeMotor_eq (a4 := a4) (a5 := a5) (a6 := a6) (a7 := a7) r1 hNpos.ne' r3
  refine ⟨z, z1, z2, ?_⟩
  have : mot r 0 0 0 0 0 0 (D / r) = q := by
    rw [hq]
    congr 1
    have := hsq.2
    field_simp
    linarith
  rw [← hD, this] at z4
  rw [q5, ← z4, ← mul_assoc, q2, one_mul]

/-- C78: for a motor with a rotation part both the generic and the optimised `normalized` return, and they return the same
element. -/
theorem C78_agree {rt : Roots R} (hr : RealRoots rt) {fuel : Nat} (hf : 2 ≤ fuel) {x : MV R} (hx : WfMV pga3d x)
    (hs : x.sub = ⟨[0, 3, 5, 6, 9, 10, 12, 15]⟩) (h0 : ∃ b ∈ [0, 3, 5, 6], coeff x b ≠ 0) :
    ∃ y y', x.normalized pga3d rt fuel = .ok y ∧ x.normalizedOptimized pga3d rt fuel = .ok y' ∧ val pga3d y' = val pga3d y := by
  have hgen : ∃ y, x.normalized pga3d rt fuel = .ok y := by
    obtain ⟨S, v⟩ := x
    subst hs
    obtain ⟨a0, a1, a2, a3, a4, a5, a6, a7, rfl⟩ := eight (l := v) hx.len
    have hpos : 0 < a0 * a0 + a1 * a1 + a2 * a2 + a3 * a3 := by
      have := mul_self_nonneg a0
      have := mul_self_nonneg a1
      have := mul_self_nonneg a2
      have := mul_self_nonneg a3
      obtain ⟨b, hb, hne⟩ := h0
      simp only [List.mem_cons, List.not_mem_nil, or_false] at hb
      rcases hb with rfl | rfl | rfl | rfl
      · have := mul_self_pos.2 (show a0 ≠ 0 from hne); linarith
      · have := mul_self_pos.2 (show a1 ≠ 0 from hne); linarith
      · have := mul_self_pos.2 (show a2 ≠ 0 from hne); linarith
      · have := mul_self_pos.2 (show a3 ≠ 0 from hne); linarith
    have w2 : WfSub pga3d ⟨[0, 15]⟩ := wfSub_of_B (by decide +kernel)
    obtain ⟨T, t1, t2, t3⟩ := rev_sub wf_pga3d wf_motorSub w2 (by decide +kernel)
    refine C63_exists wf_pga3d hr hf hx t1 (study_mono wf_pga3d w2 t2 (by decide +kernel) fun b hb => Or.inr (t3 b hb))
      (a := a0 * a0 + a1 * a1 + a2 * a2 + a3 * a3) (s := a0 * a0 + a1 * a1 + a2 * a2 + a3 * a3) (q := 0)
      (n := (2 * (a0 * a7 - a1 * a6 + a2 * a5 - a3 * a4)) • blade pga3d R 15) ?_ ?_ ?_ hpos (by ring) (by linarith)
    · rw [val_motor, mot_norm]; simp [mot]
    · rw [map_smul, gradePart_blade 0 (show 15 < 2 ^ pga3d.n by decide), if_neg (by decide), smul_zero]
    · rw [smul_mul_smul_comm, m15_15, smul_zero, zero_smul]
  obtain ⟨y, hy⟩ := hgen
  obtain ⟨y', h1, -, h3⟩ := C78_same (s := "x+y+z+w0".toList) (by decide +kernel) hr hf hx hy
  exact ⟨y, y', hy, h1, h3⟩

example : ∃ y y', (⟨⟨[0, 3, 5, 6, 9, 10, 12, 15]⟩, [3, 0, 4, 0, 1, 2, 3, 4]⟩ : MV ℝ).normalized pga3d (realRoots 1000) 2 = .ok y ∧
    (⟨⟨[0, 3, 5, 6, 9, 10, 12, 15]⟩, [3, 0, 4, 0, 1, 2, 3, 4]⟩ : MV ℝ).normalizedOptimized pga3d (realRoots 1000) 2 = .ok y' ∧ val pga3d y' = val pga3d y :=
  C78_agree (realRoots_law _) (le_refl _) ⟨wf_motorSub, rfl⟩ rfl ⟨0, by simp, show (3 : ℝ) ≠ 0 by norm_num⟩

end Verif.Props
