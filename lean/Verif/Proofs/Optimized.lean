import Verif.Model.Optimized
import Verif.Proofs.Roots
import Mathlib.Tactic.Module
import Mathlib.Tactic.FieldSimp
/-! # Products of the even blades of the algebra `x+y+z+w0` -/
namespace Verif.Spec
open Model
/-- The algebra for which `optimized.py` is written. -/
def pga3d : Alg := { desc := { names := ["x".toList, "y".toList, "z".toList, "w".toList], sig := [1, 1, 1, 0] }, nbytes := 1, itemsize := 1 }
end Verif.Spec
namespace Verif
open Model Spec

theorem wf_pga3d : WfAlg Spec.pga3d := by constructor <;> decide

namespace Pga3d
variable {R : Type} [CommRing R]

local macro "mulBlade" a:num b:num v:term : tactic =>
  `(tactic| (rw [blade_mul wf_pga3d, show sgn pga3d $a $b = $v from by decide +kernel]; simp [blade_zero]))

theorem m3_3 : blade pga3d R 3 * blade pga3d R 3 = -1 := by mulBlade 3 3 (-1)
theorem m3_5 : blade pga3d R 3 * blade pga3d R 5 = -blade pga3d R 6 := by mulBlade 3 5 (-1)
theorem m3_6 : blade pga3d R 3 * blade pga3d R 6 = blade pga3d R 5 := by mulBlade 3 6 (1)
theorem m3_9 : blade pga3d R 3 * blade pga3d R 9 = -blade pga3d R 10 := by mulBlade 3 9 (-1)
theorem m3_10 : blade pga3d R 3 * blade pga3d R 10 = blade pga3d R 9 := by mulBlade 3 10 (1)
theorem m3_12 : blade pga3d R 3 * blade pga3d R 12 = blade pga3d R 15 := by mulBlade 3 12 (1)
theorem m3_15 : blade pga3d R 3 * blade pga3d R 15 = -blade pga3d R 12 := by mulBlade 3 15 (-1)
theorem m5_3 : blade pga3d R 5 * blade pga3d R 3 = blade pga3d R 6 := by mulBlade 5 3 (1)
theorem m5_5 : blade pga3d R 5 * blade pga3d R 5 = -1 := by mulBlade 5 5 (-1)
theorem m5_6 : blade pga3d R 5 * blade pga3d R 6 = -blade pga3d R 3 := by mulBlade 5 6 (-1)
theorem m5_9 : blade pga3d R 5 * blade pga3d R 9 = -blade pga3d R 12 := by mulBlade 5 9 (-1)
theorem m5_10 : blade pga3d R 5 * blade pga3d R 10 = -blade pga3d R 15 := by mulBlade 5 10 (-1)
theorem m5_12 : blade pga3d R 5 * blade pga3d R 12 = blade pga3d R 9 := by mulBlade 5 12 (1)
theorem m5_15 : blade pga3d R 5 * blade pga3d R 15 = blade pga3d R 10 := by mulBlade 5 15 (1)
theorem m6_3 : blade pga3d R 6 * blade pga3d R 3 = -blade pga3d R 5 := by mulBlade 6 3 (-1)
theorem m6_5 : blade pga3d R 6 * blade pga3d R 5 = blade pga3d R 3 := by mulBlade 6 5 (1)
theorem m6_6 : blade pga3d R 6 * blade pga3d R 6 = -1 := by mulBlade 6 6 (-1)
theorem m6_9 : blade pga3d R 6 * blade pga3d R 9 = blade pga3d R 15 := by mulBlade 6 9 (1)
theorem m6_10 : blade pga3d R 6 * blade pga3d R 10 = -blade pga3d R 12 := by mulBlade 6 10 (-1)
theorem m6_12 : blade pga3d R 6 * blade pga3d R 12 = blade pga3d R 10 := by mulBlade 6 12 (1)
theorem m6_15 : blade pga3d R 6 * blade pga3d R 15 = -blade pga3d R 9 := by mulBlade 6 15 (-1)
theorem m9_3 : blade pga3d R 9 * blade pga3d R 3 = blade pga3d R 10 := by mulBlade 9 3 (1)
theorem m9_5 : blade pga3d R 9 * blade pga3d R 5 = blade pga3d R 12 := by mulBlade 9 5 (1)
theorem m9_6 : blade pga3d R 9 * blade pga3d R 6 = blade pga3d R 15 := by mulBlade 9 6 (1)
theorem m9_9 : blade pga3d R 9 * blade pga3d R 9 = 0 := by mulBlade 9 9 (0)
theorem m9_10 : blade pga3d R 9 * blade pga3d R 10 = 0 := by mulBlade 9 10 (0)
theorem m9_12 : blade pga3d R 9 * blade pga3d R 12 = 0 := by mulBlade 9 12 (0)
theorem m9_15 : blade pga3d R 9 * blade pga3d R 15 = 0 := by mulBlade 9 15 (0)
theorem m10_3 : blade pga3d R 10 * blade pga3d R 3 = -blade pga3d R 9 := by mulBlade 10 3 (-1)
theorem m10_5 : blade pga3d R 10 * blade pga3d R 5 = -blade pga3d R 15 := by mulBlade 10 5 (-1)
theorem m10_6 : blade pga3d R 10 * blade pga3d R 6 = blade pga3d R 12 := by mulBlade 10 6 (1)
theorem m10_9 : blade pga3d R 10 * blade pga3d R 9 = 0 := by mulBlade 10 9 (0)
theorem m10_10 : blade pga3d R 10 * blade pga3d R 10 = 0 := by mulBlade 10 10 (0)
theorem m10_12 : blade pga3d R 10 * blade pga3d R 12 = 0 := by mulBlade 10 12 (0)
theorem m10_15 : blade pga3d R 10 * blade pga3d R 15 = 0 := by mulBlade 10 15 (0)
theorem m12_3 : blade pga3d R 12 * blade pga3d R 3 = blade pga3d R 15 := by mulBlade 12 3 (1)
theorem m12_5 : blade pga3d R 12 * blade pga3d R 5 = -blade pga3d R 9 := by mulBlade 12 5 (-1)
theorem m12_6 : blade pga3d R 12 * blade pga3d R 6 = -blade pga3d R 10 := by mulBlade 12 6 (-1)
theorem m12_9 : blade pga3d R 12 * blade pga3d R 9 = 0 := by mulBlade 12 9 (0)
theorem m12_10 : blade pga3d R 12 * blade pga3d R 10 = 0 := by mulBlade 12 10 (0)
theorem m12_12 : blade pga3d R 12 * blade pga3d R 12 = 0 := by mulBlade 12 12 (0)
theorem m12_15 : blade pga3d R 12 * blade pga3d R 15 = 0 := by mulBlade 12 15 (0)
theorem m15_3 : blade pga3d R 15 * blade pga3d R 3 = -blade pga3d R 12 := by mulBlade 15 3 (-1)
theorem m15_5 : blade pga3d R 15 * blade pga3d R 5 = blade pga3d R 10 := by mulBlade 15 5 (1)
theorem m15_6 : blade pga3d R 15 * blade pga3d R 6 = -blade pga3d R 9 := by mulBlade 15 6 (-1)
theorem m15_9 : blade pga3d R 15 * blade pga3d R 9 = 0 := by mulBlade 15 9 (0)
theorem m15_10 : blade pga3d R 15 * blade pga3d R 10 = 0 := by mulBlade 15 10 (0)
theorem m15_12 : blade pga3d R 15 * blade pga3d R 12 = 0 := by mulBlade 15 12 (0)
theorem m15_15 : blade pga3d R 15 * blade pga3d R 15 = 0 := by mulBlade 15 15 (0)


/-- An even element, by its coefficients. -/
noncomputable def mot (a0 a1 a2 a3 a4 a5 a6 a7 : R) : Cl pga3d R :=
  a0 • 1 + a1 • blade pga3d R 3 + a2 • blade pga3d R 5 + a3 • blade pga3d R 6 + a4 • blade pga3d R 9 + a5 • blade pga3d R 10 +
    a6 • blade pga3d R 12 + a7 • blade pga3d R 15

theorem mot_mul (a0 a1 a2 a3 a4 a5 a6 a7 b0 b1 b2 b3 b4 b5 b6 b7 : R) :
    mot a0 a1 a2 a3 a4 a5 a6 a7 * mot b0 b1 b2 b3 b4 b5 b6 b7 = mot
      (a0 * b0 - a1 * b1 - a2 * b2 - a3 * b3)
      (a0 * b1 + a1 * b0 - a2 * b3 + a3 * b2)
      (a0 * b2 + a1 * b3 + a2 * b0 - a3 * b1)
      (a0 * b3 - a1 * b2 + a2 * b1 + a3 * b0)
      (a0 * b4 + a1 * b5 + a2 * b6 - a3 * b7 + a4 * b0 - a5 * b1 - a6 * b2 - a7 * b3)
      (a0 * b5 - a1 * b4 + a2 * b7 + a3 * b6 + a4 * b1 + a5 * b0 - a6 * b3 + a7 * b2)
      (a0 * b6 - a1 * b7 - a2 * b4 - a3 * b5 + a4 * b2 + a5 * b3 + a6 * b0 - a7 * b1)
      (a0 * b7 + a1 * b6 - a2 * b5 + a3 * b4 + a4 * b3 - a5 * b2 + a6 * b1 + a7 * b0) := by
  simp only [mot, add_mul, mul_add, smul_mul_smul_comm, one_mul, mul_one, m3_3, m3_5, m3_6, m3_9, m3_10, m3_12, m3_15, m5_3, m5_5, m5_6, m5_9, m5_10, m5_12, m5_15, m6_3, m6_5, m6_6, m6_9, m6_10, m6_12, m6_15, m9_3, m9_5, m9_6, m9_9, m9_10, m9_12, m9_15, m10_3, m10_5, m10_6, m10_9, m10_10, m10_12, m10_15, m12_3, m12_5, m12_6, m12_9, m12_10, m12_12, m12_15, m15_3, m15_5, m15_6, m15_9, m15_10, m15_12, m15_15]
  module

theorem mot_reverse (a0 a1 a2 a3 a4 a5 a6 a7 : R) :
    CliffordAlgebra.reverse (mot a0 a1 a2 a3 a4 a5 a6 a7) = mot a0 (-a1) (-a2) (-a3) (-a4) (-a5) (-a6) a7 := by
  have h : ∀ b, pc pga3d.n b = 2 → CliffordAlgebra.reverse (blade pga3d R b) = -blade pga3d R b := fun b hb => by
    rw [reverse_blade, hb]; simp
  have h' : CliffordAlgebra.reverse (blade pga3d R 15) = blade pga3d R 15 := by
    rw [reverse_blade, show pc pga3d.n 15 = 4 by decide]; simp
  simp only [mot, map_add, map_smul, CliffordAlgebra.reverse.map_one, h 3 (by decide), h 5 (by decide), h 6 (by decide), h 9 (by decide),
    h 10 (by decide), h 12 (by decide), h']
  module

theorem mot_inj {a0 a1 a2 a3 a4 a5 a6 a7 b0 b1 b2 b3 b4 b5 b6 b7 : R}
    (h : mot a0 a1 a2 a3 a4 a5 a6 a7 = mot b0 b1 b2 b3 b4 b5 b6 b7) : a0 = b0 ∧ a7 = b7 := by
  have key : ∀ c0 c1 c2 c3 c4 c5 c6 c7 : R, coef pga3d R 0 (mot c0 c1 c2 c3 c4 c5 c6 c7) = c0 ∧ coef pga3d R 15 (mot c0 c1 c2 c3 c4 c5 c6 c7) = c7 := by
    intro c0 c1 c2 c3 c4 c5 c6 c7
    have e : ∀ a b, a < 16 → coef pga3d R b (blade pga3d R a) = if b = a then 1 else 0 := fun a b h => coef_blade pga3d R h b
    simp only [mot, ← blade_zero pga3d R, map_add, map_smul, e _ _ (show 0 < 16 by decide), e _ _ (show 3 < 16 by decide), e _ _ (show 5 < 16 by decide),
      e _ _ (show 6 < 16 by decide), e _ _ (show 9 < 16 by decide), e _ _ (show 10 < 16 by decide), e _ _ (show 12 < 16 by decide),
      e _ _ (show 15 < 16 by decide)]
    simp
  have h1 := key a0 a1 a2 a3 a4 a5 a6 a7
  have h2 := key b0 b1 b2 b3 b4 b5 b6 b7
  rw [h] at h1
  exact ⟨h1.1.symm.trans h2.1, h1.2.symm.trans h2.2⟩

theorem val_motor (a0 a1 a2 a3 a4 a5 a6 a7 : R) :
    val pga3d (⟨⟨[0, 3, 5, 6, 9, 10, 12, 15]⟩, [a0, a1, a2, a3, a4, a5, a6, a7]⟩ : MV R) = mot a0 a1 a2 a3 a4 a5 a6 a7 := by
  simp [val, denote, mot, blade_zero, add_assoc]

theorem val_bivector (a1 a2 a3 a4 a5 a6 : R) :
    val pga3d (⟨⟨[3, 5, 6, 9, 10, 12]⟩, [a1, a2, a3, a4, a5, a6]⟩ : MV R) = mot 0 a1 a2 a3 a4 a5 a6 0 := by
  simp [val, denote, mot, add_assoc]

theorem val_rotor (a0 a1 a2 a3 : R) : val pga3d (⟨⟨[0, 3, 5, 6]⟩, [a0, a1, a2, a3]⟩ : MV R) = mot a0 a1 a2 a3 0 0 0 0 := by
  simp [val, denote, mot, blade_zero, add_assoc]

theorem val_rotation (a1 a2 a3 : R) : val pga3d (⟨⟨[3, 5, 6]⟩, [a1, a2, a3]⟩ : MV R) = mot 0 a1 a2 a3 0 0 0 0 := by
  simp [val, denote, mot, add_assoc]

theorem val_translator (a0 a4 a5 a6 : R) : val pga3d (⟨⟨[0, 9, 10, 12]⟩, [a0, a4, a5, a6]⟩ : MV R) = mot a0 0 0 0 a4 a5 a6 0 := by
  simp [val, denote, mot, blade_zero, add_assoc]

theorem val_translation (a4 a5 a6 : R) : val pga3d (⟨⟨[9, 10, 12]⟩, [a4, a5, a6]⟩ : MV R) = mot 0 0 0 0 a4 a5 a6 0 := by
  simp [val, denote, mot, add_assoc]

end Pga3d

end Verif
