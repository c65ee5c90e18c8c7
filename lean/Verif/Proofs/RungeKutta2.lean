import Verif.Proofs.Integrators
import Verif.Proofs.RungeKutta
/-! # Expansions of the methods in the step size -/
namespace Verif.RK
open Asymptotics Filter Topology

variable {E : Type*} [NormedAddCommGroup E] [NormedSpace ℝ E] {F : E → E} {p : FormalMultilinearSeries ℝ E E} {x : E}

theorem rk4_jet (hp : HasFPowerSeriesAt F p x) :
    J 5 (fun h => rk4 F x h) (fun i => if i = 0 then x else K p (F x) 1 (1 / 2) (1 / 6) (1 / 6) (1 / 24) (1 / 24) (1 / 8) (1 / 4) (i - 1)) := by
  have j1 : J 4 (fun _ : ℝ => F x) (K p (F x) 1 0 0 0 0 0 0 0) := K.first _
  have j2 := (K.stage hp (K.times j1 (1 / 2))).congr (g' := fun h => F (x + (1 / 2 * h) • F x)) fun h => by congr 2; module
  have j3 := (K.stage hp (K.times j2 (1 / 2))).congr (g' := fun h => F (x + (1 / 2 * h) • F (x + (1 / 2 * h) • F x))) fun h => by congr 2; module
  have j4 := K.stage hp j3
  refine ((K.final x (K.weights (K.times (K.plus (K.plus j2 j3) (K.times (K.plus j1 j4) (1 / 2))) (1 / 3))
    (w0 := 1) (w1 := 1 / 2) (w2 := 1 / 6) (w3 := 1 / 6) (w4 := 1 / 24) (w5 := 1 / 24) (w6 := 1 / 8) (w7 := 1 / 4) (by norm_num) (by norm_num)
    (by norm_num) (by norm_num) (by norm_num) (by norm_num) (by norm_num) (by norm_num)))).congr fun h => ?_
  simp only [rk4]
  congr 1
  module

theorem rk8_jet (hp : HasFPowerSeriesAt F p x) :
    J 5 (fun h => rk8 F x h) (fun i => if i = 0 then x else K p (F x) 1 (1 / 2) (1 / 6) (1 / 6) (1397 / 33600) (1 / 24) (1401 / 11200) (1 / 4) (i - 1)) := by
  have j1 : J 4 (fun h => s1 F x h) (K p (F x) 1 0 0 0 0 0 0 0) := K.first _
  have j2 : J 4 (fun h => s2 F x h) (K p (F x) (1) (4/27) (0) (8/729) (0) (0) (0) (64/19683)) :=
    K.weights ((K.stage hp (K.times j1 (4 / 27))).congr (g' := fun h => s2 F x h) fun h => by simp only [s2]; congr 2; module) (by norm_num) (by norm_num) (by norm_num) (by norm_num) (by norm_num) (by norm_num) (by norm_num) (by norm_num)
  have j3 : J 4 (fun h => s3 F x h) (K p (F x) (1) (2/9) (2/81) (2/81) (0) (4/2187) (4/729) (8/729)) :=
    K.weights ((K.stage hp (K.times (K.plus j1 (K.times j2 (3))) (1 / 18))).congr (g' := fun h => s3 F x h) fun h => by simp only [s3]; congr 2; module) (by norm_num) (by norm_num) (by norm_num) (by norm_num) (by norm_num) (by norm_num) (by norm_num) (by norm_num)
  have j4 : J 4 (fun h => s4 F x h) (K p (F x) (1) (1/3) (1/18) (1/18) (1/162) (1/162) (1/54) (1/27)) :=
    K.weights ((K.stage hp (K.times (K.plus j1 (K.times j3 (3))) (1 / 12))).congr (g' := fun h => s4 F x h) fun h => by simp only [s4]; congr 2; module) (by norm_num) (by norm_num) (by norm_num) (by norm_num) (by norm_num) (by norm_num) (by norm_num) (by norm_num)
  have j5 : J 4 (fun h => s5 F x h) (K p (F x) (1) (1/2) (1/8) (1/8) (1/48) (1/48) (1/16) (1/8)) :=
    K.weights ((K.stage hp (K.times (K.plus j1 (K.times j4 (3))) (1 / 8))).congr (g' := fun h => s5 F x h) fun h => by simp only [s5]; congr 2; module) (by norm_num) (by norm_num) (by norm_num) (by norm_num) (by norm_num) (by norm_num) (by norm_num) (by norm_num)
  have j6 : J 4 (fun h => s6 F x h) (K p (F x) (1) (2/3) (2/9) (2/9) (4/81) (4/81) (4/27) (8/27)) :=
    K.weights ((K.stage hp (K.times (K.plus (K.times j1 (13)) (K.plus (K.times j3 (-27)) (K.plus (K.times j4 (42)) (K.times j5 (8))))) (1 / 54))).congr (g' := fun h => s6 F x h) fun h => by simp only [s6]; congr 2; module) (by norm_num) (by norm_num) (by norm_num) (by norm_num) (by norm_num) (by norm_num) (by norm_num) (by norm_num)
  have j7 : J 4 (fun h => s7 F x h) (K p (F x) (1) (1/6) (1/72) (1/72) (1/1296) (1/1296) (1/432) (1/216)) :=
    K.weights ((K.stage hp (K.times (K.plus (K.times j1 (389)) (K.plus (K.times j3 (-54)) (K.plus (K.times j4 (966)) (K.plus (K.times j5 (-824)) (K.times j6 (243)))))) (1 / 4320))).congr (g' := fun h => s7 F x h) fun h => by simp only [s7]; congr 2; module) (by norm_num) (by norm_num) (by norm_num) (by norm_num) (by norm_num) (by norm_num) (by norm_num) (by norm_num)
  have j8 : J 4 (fun h => s8 F x h) (K p (F x) (1) (17/20) (1/2) (289/800) (1/6) (1/6) (17/40) (4913/8000)) :=
    K.weights ((K.stage hp (K.times (K.plus (K.times j1 (-234)) (K.plus (K.times j3 (81)) (K.plus (K.times j4 (-1164)) (K.plus (K.times j5 (656)) (K.plus (K.times j6 (-122)) (K.times j7 (800))))))) (1 / 20))).congr (g' := fun h => s8 F x h) fun h => by simp only [s8]; congr 2; module) (by norm_num) (by norm_num) (by norm_num) (by norm_num) (by norm_num) (by norm_num) (by norm_num) (by norm_num)
  have j9 : J 4 (fun h => s9 F x h) (K p (F x) (1) (5/6) (497/1440) (25/72) (125/1296) (49001/518400) (497/1728) (125/216)) :=
    K.weights ((K.stage hp (K.times (K.plus (K.times j1 (-127)) (K.plus (K.times j3 (18)) (K.plus (K.times j4 (-678)) (K.plus (K.times j5 (456)) (K.plus (K.times j6 (-9)) (K.plus (K.times j7 (576)) (K.times j8 (4)))))))) (1 / 288))).congr (g' := fun h => s9 F x h) fun h => by simp only [s9]; congr 2; module) (by norm_num) (by norm_num) (by norm_num) (by norm_num) (by norm_num) (by norm_num) (by norm_num) (by norm_num)
  have j10 : J 4 (fun h => s10 F x h) (K p (F x) (1) (1) (419/820) (1/2) (811/4920) (17399/98400) (419/820) (1)) :=
    K.weights ((K.stage hp (K.times (K.plus (K.times j1 (1481)) (K.plus (K.times j3 (-81)) (K.plus (K.times j4 (7104)) (K.plus (K.times j5 (-3376)) (K.plus (K.times j6 (72)) (K.plus (K.times j7 (-5040)) (K.plus (K.times j8 (-60)) (K.times j9 (720))))))))) (1 / 820))).congr (g' := fun h => s10 F x h) fun h => by simp only [s10]; congr 2; module) (by norm_num) (by norm_num) (by norm_num) (by norm_num) (by norm_num) (by norm_num) (by norm_num) (by norm_num)
  exact ((K.final x (K.weights (K.times (K.plus (K.times j1 (41)) (K.plus (K.times j4 (27)) (K.plus (K.times j5 (272)) (K.plus (K.times j6 (27)) (K.plus (K.times j7 (216)) (K.plus (K.times j9 (216)) (K.times j10 (41)))))))) (1 / 840)) (w0 := 1) (w1 := 1 / 2) (w2 := 1 / 6) (w3 := 1 / 6) (w4 := 1397 / 33600) (w5 := 1 / 24) (w6 := 1401 / 11200) (w7 := 1 / 4) (by norm_num) (by norm_num) (by norm_num) (by norm_num) (by norm_num) (by norm_num) (by norm_num) (by norm_num)))).congr fun h => by
    simp only [rk8]; congr 1; module

theorem rk1_jet (hp : HasFPowerSeriesAt F p x) :
    J 2 (fun h => x + h • F x) (fun i => if i = 0 then x else K p (F x) 1 (1 / 2) (1 / 6) (1 / 6) (1 / 24) (1 / 24) (1 / 8) (1 / 4) (i - 1)) :=
  ((K.final (p := p) x (K.first (F x))).mono (by omega)).coeffs fun i hi _ => by interval_cases i <;> simp [K]

theorem rk8_linear {V : Type*} [AddCommGroup V] [Module ℝ V] (L : V →ₗ[ℝ] V) (y : V) (h : ℝ) (u : ℕ → V) (hy : y = u 0) (hu : ∀ k, L (u k) = u (k + 1)) :
    rk8 L y h = (1 : ℝ) • u 0 + (1 * h ^ 1 : ℝ) • u 1 + (1/2 * h ^ 2 : ℝ) • u 2 + (1/6 * h ^ 3 : ℝ) • u 3 + (1397/33600 * h ^ 4 : ℝ) • u 4 + (1/120 * h ^ 5 : ℝ) • u 5 + (1/720 * h ^ 6 : ℝ) • u 6 + (1/5040 * h ^ 7 : ℝ) • u 7 + (1/40320 * h ^ 8 : ℝ) • u 8 + (1/2177280 * h ^ 9 : ℝ) • u 9 + (1/2177280 * h ^ 10 : ℝ) • u 10 := by
  have l1 : s1 L y h = u 1 := by rw [s1, hy]; exact hu 0
  have l2 : s2 L y h = (1 : ℝ) • u 1 + (4/27 * h ^ 1 : ℝ) • u 2 := by
    rw [s2, l1]
    simp only [map_add, map_smul, hy, hu]
    module
  have l3 : s3 L y h = (1 : ℝ) • u 1 + (2/9 * h ^ 1 : ℝ) • u 2 + (2/81 * h ^ 2 : ℝ) • u 3 := by
    rw [s3, l1, l2]
    simp only [map_add, map_smul, hy, hu]
    module
  have l4 : s4 L y h = (1 : ℝ) • u 1 + (1/3 * h ^ 1 : ℝ) • u 2 + (1/18 * h ^ 2 : ℝ) • u 3 + (1/162 * h ^ 3 : ℝ) • u 4 := by
    rw [s4, l1, l3]
    simp only [map_add, map_smul, hy, hu]
    module
  have l5 : s5 L y h = (1 : ℝ) • u 1 + (1/2 * h ^ 1 : ℝ) • u 2 + (1/8 * h ^ 2 : ℝ) • u 3 + (1/48 * h ^ 3 : ℝ) • u 4 + (1/432 * h ^ 4 : ℝ) • u 5 := by
    rw [s5, l1, l4]
    simp only [map_add, map_smul, hy, hu]
    module
  have l6 : s6 L y h = (1 : ℝ) • u 1 + (2/3 * h ^ 1 : ℝ) • u 2 + (2/9 * h ^ 2 : ℝ) • u 3 + (4/81 * h ^ 3 : ℝ) • u 4 + (23/2916 * h ^ 4 : ℝ) • u 5 + (1/2916 * h ^ 5 : ℝ) • u 6 := by
    rw [s6, l1, l3, l4, l5]
    simp only [map_add, map_smul, hy, hu]
    module
  have l7 : s7 L y h = (1 : ℝ) • u 1 + (1/6 * h ^ 1 : ℝ) • u 2 + (1/72 * h ^ 2 : ℝ) • u 3 + (1/1296 * h ^ 3 : ℝ) • u 4 + (43/233280 * h ^ 4 : ℝ) • u 5 + (1/466560 * h ^ 5 : ℝ) • u 6 + (1/51840 * h ^ 6 : ℝ) • u 7 := by
    rw [s7, l1, l3, l4, l5, l6]
    simp only [map_add, map_smul, hy, hu]
    module
  have l8 : s8 L y h = (1 : ℝ) • u 1 + (17/20 * h ^ 1 : ℝ) • u 2 + (1/2 * h ^ 2 : ℝ) • u 3 + (1/6 * h ^ 3 : ℝ) • u 4 + (29/540 * h ^ 4 : ℝ) • u 5 + (19/540 * h ^ 5 : ℝ) • u 6 + (-13/6480 * h ^ 6 : ℝ) • u 7 + (1/1296 * h ^ 7 : ℝ) • u 8 := by
    rw [s8, l1, l3, l4, l5, l6, l7]
    simp only [map_add, map_smul, hy, hu]
    module
  have l9 : s9 L y h = (1 : ℝ) • u 1 + (5/6 * h ^ 1 : ℝ) • u 2 + (497/1440 * h ^ 2 : ℝ) • u 3 + (125/1296 * h ^ 3 : ℝ) • u 4 + (323/15552 * h ^ 4 : ℝ) • u 5 + (47/10368 * h ^ 5 : ℝ) • u 6 + (5/10368 * h ^ 6 : ℝ) • u 7 + (1/93312 * h ^ 7 : ℝ) • u 8 + (1/93312 * h ^ 8 : ℝ) • u 9 := by
    rw [s9, l1, l3, l4, l5, l6, l7, l8]
    simp only [map_add, map_smul, hy, hu]
    module
  have l10 : s10 L y h = (1 : ℝ) • u 1 + (1 * h ^ 1 : ℝ) • u 2 + (419/820 * h ^ 2 : ℝ) • u 3 + (811/4920 * h ^ 3 : ℝ) • u 4 + (881/22140 * h ^ 4 : ℝ) • u 5 + (8/1845 * h ^ 5 : ℝ) • u 6 + (7/4920 * h ^ 6 : ℝ) • u 7 + (1/2214 * h ^ 7 : ℝ) • u 8 + (-5/106272 * h ^ 8 : ℝ) • u 9 + (1/106272 * h ^ 9 : ℝ) • u 10 := by
    rw [s10, l1, l3, l4, l5, l6, l7, l8, l9]
    simp only [map_add, map_smul, hy, hu]
    module
  rw [rk8, l1, l4, l5, l6, l7, l9, l10, hy]
  module

end Verif.RK
