import Mathlib.Analysis.Analytic.Basic
import Mathlib.Analysis.Calculus.MeanValue
import Mathlib.Analysis.Calculus.Deriv.Pow
import Mathlib.Analysis.Calculus.Deriv.Add
import Mathlib.Analysis.Calculus.Deriv.Mul
import Mathlib.Tactic.Module
import Mathlib.Tactic.FieldSimp
import Mathlib.Tactic.IntervalCases
/-! # Expansions in the step size -/
namespace Verif.RK
open Asymptotics Filter Topology

variable {E : Type*} [NormedAddCommGroup E] [NormedSpace ℝ E]

/-- The polynomial with the given coefficients. -/
def poly (c : ℕ → E) (h : ℝ) : E := c 0 + h • c 1 + h ^ 2 • c 2 + h ^ 3 • c 3 + h ^ 4 • c 4

/-- `g` agrees with the polynomial with coefficients `c` up to terms of order `n`. -/
def J (n : ℕ) (g : ℝ → E) (c : ℕ → E) : Prop := (fun h => g h - poly c h) =O[𝓝 0] fun h => h ^ n

theorem pow_O {m n : ℕ} (h : n ≤ m) : (fun t : ℝ => t ^ m) =O[𝓝 0] fun t : ℝ => t ^ n := by
  obtain ⟨k, rfl⟩ := Nat.exists_eq_add_of_le h
  have : (fun t : ℝ => t ^ k) =O[𝓝 0] fun _ => (1 : ℝ) := by
    have : ContinuousAt (fun t : ℝ => t ^ k) 0 := (continuous_pow k).continuousAt
    exact this.norm.isBoundedUnder_le.isBigO_one ℝ
  simpa [pow_add] using (isBigO_refl (fun t : ℝ => t ^ n) (𝓝 0)).mul this

theorem bdd {g : ℝ → E} (hg : Continuous g) : g =O[𝓝 0] fun _ => (1 : ℝ) :=
  (hg.continuousAt (x := 0)).norm.isBoundedUnder_le.isBigO_one ℝ

theorem smul_O {m n : ℕ} (h : n ≤ m) {g : ℝ → E} (hg : g =O[𝓝 0] fun _ => (1 : ℝ)) : (fun t : ℝ => t ^ m • g t) =O[𝓝 0] fun t : ℝ => t ^ n := by
  simpa using (pow_O h).smul hg

theorem poly_cont (c : ℕ → E) : Continuous (poly c) := by unfold poly; fun_prop

theorem J.congr {n : ℕ} {g g' : ℝ → E} {c : ℕ → E} (h : J n g c) (e : ∀ t, g t = g' t) : J n g' c := by
  have : g = g' := funext e
  exact this ▸ h

/-- Coefficients of order at least `n` do not matter. -/
theorem J.coeffs {n : ℕ} {g : ℝ → E} {c d : ℕ → E} (h : J n g c) (e : ∀ i < n, i < 5 → c i = d i) : J n g d := by
  have key : (fun t => poly c t - poly d t) =O[𝓝 0] fun t : ℝ => t ^ n := by
    have : ∀ i < 5, (fun t : ℝ => t ^ i • (c i - d i)) =O[𝓝 0] fun t : ℝ => t ^ n := by
      intro i hi
      by_cases hn : i < n
      · rw [e i hn hi]; simpa using isBigO_zero _ _
      · exact smul_O (by omega) (isBigO_const_const _ one_ne_zero _)
    have := ((((this 0 (by omega)).add (this 1 (by omega))).add (this 2 (by omega))).add (this 3 (by omega))).add (this 4 (by omega))
    refine this.congr_left fun t => ?_
    simp only [poly]
    module
  exact (h.add key).congr_left fun t => by abel

theorem J.mono {m n : ℕ} {g : ℝ → E} {c : ℕ → E} (h : J m g c) (hn : n ≤ m) : J n g c := IsBigO.trans h (pow_O hn)

theorem J.add {n : ℕ} {g g' : ℝ → E} {c c' : ℕ → E} (h : J n g c) (h' : J n g' c') : J n (fun t => g t + g' t) (fun i => c i + c' i) :=
  (IsBigO.add h h').congr_left fun t => by simp only [poly]; module

theorem J.smul {n : ℕ} {g : ℝ → E} {c : ℕ → E} (h : J n g c) (r : ℝ) : J n (fun t => r • g t) (fun i => r • c i) :=
  (IsBigO.const_smul_left h r).congr_left fun t => by simp only [poly, Pi.smul_apply]; module

theorem J.const (n : ℕ) (a : E) : J n (fun _ => a) (fun i => if i = 0 then a else 0) := by
  simp only [J, poly]
  simpa using isBigO_zero _ _

/-- Multiplication with the step size. -/
theorem J.shift {n : ℕ} {g : ℝ → E} {c : ℕ → E} (h : J n g c) (h4 : n ≤ 4) : J (n + 1) (fun t => t • g t) (fun i => if i = 0 then 0 else c (i - 1)) := by
  have h1 : (fun t : ℝ => t • (g t - poly c t)) =O[𝓝 0] fun t : ℝ => t ^ (n + 1) := by
    have := (isBigO_refl (fun t : ℝ => t) (𝓝 0)).smul h
    refine this.congr_right fun t => ?_
    rw [smul_eq_mul, pow_succ, mul_comm]
  have h2 : (fun t : ℝ => t ^ 5 • c 4) =O[𝓝 0] fun t : ℝ => t ^ (n + 1) := smul_O (by omega) (isBigO_const_const _ one_ne_zero _)
  refine (h1.add h2).congr_left fun t => ?_
  simp only [poly]
  norm_num
  module

/-- Integration. -/
theorem J.integral {n : ℕ} {y g : ℝ → E} {c : ℕ → E} (hy : ∀ᶠ t in 𝓝 0, HasDerivAt y (g t) t) (h : J n g c) (h4 : n ≤ 4) :
    J (n + 1) y (fun i => if i = 0 then y 0 else (1 / (i : ℝ)) • c (i - 1)) := by
  have hc := h.coeffs (d := fun i => if i = 4 then 0 else c i) (fun i hi _ => by rw [if_neg (by omega)])
  obtain ⟨C, hC⟩ := IsBigO.bound hc
  obtain ⟨ε, e0, he⟩ := Metric.eventually_nhds_iff.1 (hy.and hC)
  set Y := poly (fun i => if i = 0 then y 0 else (1 / (i : ℝ)) • c (i - 1)) with hY
  have hYd : ∀ t, HasDerivAt Y (poly (fun i => if i = 4 then 0 else c i) t) t := by
    intro t
    have p : ∀ (k : ℕ) (v : E), HasDerivAt (fun t : ℝ => t ^ k • v) (((k : ℝ) * t ^ (k - 1)) • v) t := fun k v => (hasDerivAt_pow k t).smul_const v
    have := (((((hasDerivAt_const t (y 0)).add ((hasDerivAt_id t).smul_const ((1 / ((1 : ℕ) : ℝ)) • c 0))).add (p 2 ((1 / ((2 : ℕ) : ℝ)) • c 1))).add
      (p 3 ((1 / ((3 : ℕ) : ℝ)) • c 2))).add (p 4 ((1 / ((4 : ℕ) : ℝ)) • c 3)))
    refine (this.congr_deriv ?_).congr_of_eventuallyEq (Eventually.of_forall fun t => ?_)
    · simp only [poly]
      norm_num
      module
    · rw [hY]
      simp [poly]
  have hY0 : Y 0 = y 0 := by rw [hY]; simp [poly]
  refine IsBigO.of_bound C (Metric.eventually_nhds_iff.2 ⟨ε, e0, fun t ht => ?_⟩)
  have hseg : ∀ s ∈ Set.uIcc 0 t, |s| ≤ |t| := fun s hs => by
    rcases Set.mem_uIcc.1 hs with h | h
    · rw [abs_of_nonneg h.1, abs_of_nonneg (h.1.trans h.2)]; exact h.2
    · rw [abs_of_nonpos h.2, abs_of_nonpos (h.1.trans h.2)]; linarith [h.1]
  have hin : ∀ s ∈ Set.uIcc 0 t, dist s 0 < ε := fun s hs => by
    rw [Real.dist_0_eq_abs] at ht ⊢
    exact (hseg s hs).trans_lt ht
  have C0 : 0 ≤ C * |t| ^ n := by
    have := (he ht).2
    rw [norm_pow, Real.norm_eq_abs] at this
    exact (norm_nonneg _).trans this
  have key := Convex.norm_image_sub_le_of_norm_hasDerivWithin_le (f := fun s => y s - Y s) (f' := fun s => g s - poly (fun i => if i = 4 then 0 else c i) s)
    (s := Set.uIcc 0 t) (x := 0) (y := t) (C := C * |t| ^ n) (fun s hs => ((he (hin s hs)).1.sub (hYd s)).hasDerivWithinAt) (fun s hs => by
      refine (he (hin s hs)).2.trans ?_
      rw [norm_pow, Real.norm_eq_abs]
      rcases eq_or_lt_of_le (abs_nonneg t) with h0 | h0
      · have : |s| = |t| := le_antisymm (hseg s hs) (h0 ▸ abs_nonneg s)
        rw [this]
      · have hCn : 0 ≤ C := nonneg_of_mul_nonneg_left C0 (pow_pos h0 n)
        exact mul_le_mul_of_nonneg_left (pow_le_pow_left₀ (abs_nonneg _) (hseg s hs) n) hCn) (convex_uIcc 0 t) Set.left_mem_uIcc Set.right_mem_uIcc
  rw [hY0, sub_self, sub_zero, sub_zero, Real.norm_eq_abs t, mul_assoc, ← pow_succ] at key
  rwa [norm_pow, Real.norm_eq_abs]

/-! ## Composition with an analytic function -/

/-- Two curves through zero that agree to order `n` have images under a multilinear map that agree to order `n`. -/
theorem multi_close {n k : ℕ} (p : ContinuousMultilinearMap ℝ (fun _ : Fin k => E) E) {δ P : ℝ → E} (h : (fun t => δ t - P t) =O[𝓝 0] fun t => t ^ n)
    (hδ : δ =O[𝓝 0] fun _ => (1 : ℝ)) (hP : P =O[𝓝 0] fun _ => (1 : ℝ)) :
    (fun t => p (fun _ => δ t) - p (fun _ => P t)) =O[𝓝 0] fun t => t ^ n := by
  have h1 : (fun t => ‖p‖ * k * max ‖fun _ : Fin k => δ t‖ ‖fun _ : Fin k => P t‖ ^ (k - 1)) =O[𝓝 0] fun _ => (1 : ℝ) := by
    have hm : (fun t => max ‖δ t‖ ‖P t‖) =O[𝓝 0] fun _ => (1 : ℝ) := by
      refine IsBigO.trans (IsBigO.of_norm_le fun t => ?_) (hδ.norm_left.add hP.norm_left)
      rw [Real.norm_of_nonneg (le_max_of_le_left (norm_nonneg _))]
      exact max_le (le_add_of_nonneg_right (norm_nonneg _)) (le_add_of_nonneg_left (norm_nonneg _))
    have hm' : (fun t => max ‖fun _ : Fin k => δ t‖ ‖fun _ : Fin k => P t‖) =O[𝓝 0] fun _ => (1 : ℝ) := by
      refine IsBigO.trans (IsBigO.of_norm_le fun t => ?_) hm
      rw [Real.norm_of_nonneg (le_max_of_le_left (norm_nonneg _))]
      exact max_le_max (pi_norm_const_le _) (pi_norm_const_le _)
    simpa using (hm'.pow (k - 1)).const_mul_left (‖p‖ * k)
  have h2 : (fun t => ‖(fun _ : Fin k => δ t) - fun _ : Fin k => P t‖) =O[𝓝 0] fun t => t ^ n := by
    refine IsBigO.trans (IsBigO.of_norm_le fun t => ?_) h.norm_left
    rw [norm_norm]
    exact (pi_norm_const_le (δ t - P t))
  refine IsBigO.trans (IsBigO.of_norm_le (g := fun t => ‖p‖ * k * max ‖fun _ : Fin k => δ t‖ ‖fun _ : Fin k => P t‖ ^ (k - 1) *
    ‖(fun _ : Fin k => δ t) - fun _ : Fin k => P t‖) fun t => ?_) (by simpa using h1.mul h2)
  have := p.norm_image_sub_le (fun _ => δ t) (fun _ => P t)
  rwa [Fintype.card_fin] at this

variable (p : FormalMultilinearSeries ℝ E E)

/-- The derivative. -/
def D (u : E) : E := p 1 fun _ => u
/-- The second derivative. -/
def B (u v : E) : E := p 2 ![u, v] + p 2 ![v, u]
/-- A sixth of the third derivative on the diagonal. -/
def T (u : E) : E := p 3 fun _ => u

theorem two_add (u v w : E) : p 2 ![u + v, w] = p 2 ![u, w] + p 2 ![v, w] := (p 2).cons_add ![w] u v
theorem two_smul' (c : ℝ) (u w : E) : p 2 ![c • u, w] = c • p 2 ![u, w] := (p 2).cons_smul ![w] c u
theorem two_add_right (u v w : E) : p 2 ![w, u + v] = p 2 ![w, u] + p 2 ![w, v] := by
  have h : ∀ u : E, Function.update ![w, 0] 1 u = ![w, u] := fun u => by funext i; fin_cases i <;> rfl
  have := (p 2).map_update_add ![w, 0] 1 u v
  rwa [h, h, h] at this
theorem two_smul_right (c : ℝ) (u w : E) : p 2 ![w, c • u] = c • p 2 ![w, u] := by
  have h : ∀ u : E, Function.update ![w, 0] 1 u = ![w, u] := fun u => by funext i; fin_cases i <;> rfl
  have := (p 2).map_update_smul ![w, 0] 1 c u
  rwa [h, h] at this

theorem D_add (u v : E) : D p (u + v) = D p u + D p v := by
  have := (p 1).map_update_add ![0] 0 u v
  simp only [D]
  convert this using 2
  · funext i; fin_cases i; rfl
  · congr 1; funext i; fin_cases i; rfl
  · congr 1; funext i; fin_cases i; rfl
theorem D_smul (c : ℝ) (u : E) : D p (c • u) = c • D p u := by
  have := (p 1).map_update_smul ![0] 0 c u
  simp only [D]
  convert this using 2
  · funext i; fin_cases i; rfl
  · congr 1; funext i; fin_cases i; rfl
theorem T_smul (c : ℝ) (u : E) : T p (c • u) = c ^ 3 • T p u := by
  have := (p 3).map_smul_univ (fun _ => c) (fun _ => u)
  simpa [T] using this
theorem B_smul_left (c : ℝ) (u v : E) : B p (c • u) v = c • B p u v := by simp only [B, two_smul', two_smul_right, smul_add]
theorem B_smul_right (c : ℝ) (u v : E) : B p u (c • v) = c • B p u v := by simp only [B, two_smul', two_smul_right, smul_add]
theorem B_add_left (u v w : E) : B p (u + v) w = B p u w + B p v w := by simp only [B, two_add, two_add_right]; abel
theorem B_add_right (u v w : E) : B p w (u + v) = B p w u + B p w v := by simp only [B, two_add, two_add_right]; abel

variable {p} {f : E → E} {x : E}

/-- The coefficients of the image of a curve. -/
noncomputable def img (p : FormalMultilinearSeries ℝ E E) (a : E) (c : ℕ → E) : ℕ → E
  | 0 => a
  | 1 => D p (c 1)
  | 2 => D p (c 2) + (1 / 2 : ℝ) • B p (c 1) (c 1)
  | 3 => D p (c 3) + B p (c 1) (c 2) + T p (c 1)
  | _ => 0

theorem J.comp (hf : HasFPowerSeriesAt f p x) {n : ℕ} (h1 : 1 ≤ n) (h4 : n ≤ 4) {g : ℝ → E} {c : ℕ → E} (h : J n g c) (h0 : c 0 = x) :
    J n (fun t => f (g t)) (img p (f x) c) := by
  -- the deviation and the polynomial for it
  set δ : ℝ → E := fun t => g t - x with hδ
  set u : ℝ → E := fun t => c 1 + t • c 2 + t ^ 2 • c 3 + t ^ 3 • c 4 with hu
  have hP : ∀ t, poly c t - x = t • u t := fun t => by rw [hu]; simp only [poly, h0]; module
  have uc : Continuous u := by rw [hu]; fun_prop
  have uO : u =O[𝓝 0] fun _ => (1 : ℝ) := bdd uc
  have hδP : (fun t => δ t - t • u t) =O[𝓝 0] fun t => t ^ n := IsBigO.congr_left h fun t => by rw [← hP]; simp only [hδ]; abel
  have PO : (fun t : ℝ => t • u t) =O[𝓝 0] fun t : ℝ => t ^ 1 := by simpa using smul_O (m := 1) (le_refl 1) uO
  have δO : δ =O[𝓝 0] fun t : ℝ => t ^ 1 := ((hδP.trans (pow_O h1)).add PO).congr_left fun t => by abel
  have δ1 : δ =O[𝓝 0] fun _ => (1 : ℝ) := by simpa using δO.trans (pow_O (Nat.zero_le 1))
  have P1 : (fun t : ℝ => t • u t) =O[𝓝 0] fun _ => (1 : ℝ) := by simpa using PO.trans (pow_O (Nat.zero_le 1))
  have δ0 : Tendsto δ (𝓝 0) (𝓝 0) := δO.trans_tendsto (by simpa using (continuous_pow 1).tendsto (0 : ℝ))
  -- Taylor's formula
  have t1 : (fun t => f (x + δ t) - p.partialSum 4 (δ t)) =O[𝓝 0] fun t : ℝ => t ^ n := by
    have := (hf.isBigO_sub_partialSum_pow 4).comp_tendsto δ0
    refine IsBigO.trans this (IsBigO.trans (g := fun t : ℝ => (t ^ 1) ^ 4) ?_ (by simpa using pow_O h4))
    exact (δO.norm_left).pow 4
  have t2 : ∀ k, (fun t => p k (fun _ => δ t) - p k (fun _ => t • u t)) =O[𝓝 0] fun t : ℝ => t ^ n := fun k => multi_close (p k) hδP δ1 P1
  have t3 : ∀ k, ∀ t : ℝ, p k (fun _ => t • u t) = t ^ k • p k (fun _ => u t) := fun k t => by
    have := (p k).map_smul_univ (fun _ => t) (fun _ => u t)
    simpa using this
  -- the quadratic and the cubic term
  have q1 : (fun t => p 2 (fun _ => u t) - p 2 (fun _ => c 1 + t • c 2)) =O[𝓝 0] fun t : ℝ => t ^ 2 := by
    refine multi_close (p 2) ?_ uO (bdd (by fun_prop))
    have : (fun t : ℝ => t ^ 2 • (c 3 + t • c 4)) =O[𝓝 0] fun t : ℝ => t ^ 2 := smul_O (le_refl _) (bdd (by fun_prop))
    exact this.congr_left fun t => by rw [hu]; module
  have q2 : (fun t => p 3 (fun _ => u t) - p 3 (fun _ => c 1)) =O[𝓝 0] fun t : ℝ => t ^ 1 := by
    refine multi_close (p 3) ?_ uO (bdd continuous_const)
    have : (fun t : ℝ => t ^ 1 • (c 2 + t • c 3 + t ^ 2 • c 4)) =O[𝓝 0] fun t : ℝ => t ^ 1 := smul_O (le_refl _) (bdd (by fun_prop))
    exact this.congr_left fun t => by rw [hu]; module
  have r1 : (fun t : ℝ => t ^ 2 • (p 2 (fun _ => u t) - p 2 (fun _ => c 1 + t • c 2))) =O[𝓝 0] fun t : ℝ => t ^ n :=
    ((isBigO_refl (fun t : ℝ => t ^ 2) (𝓝 0)).smul q1).trans (by simpa [← pow_add] using pow_O h4)
  have r2 : (fun t : ℝ => t ^ 3 • (p 3 (fun _ => u t) - p 3 (fun _ => c 1))) =O[𝓝 0] fun t : ℝ => t ^ n :=
    ((isBigO_refl (fun t : ℝ => t ^ 3) (𝓝 0)).smul q2).trans (by simpa [← pow_succ] using pow_O h4)
  have r3 : (fun t : ℝ => t ^ 4 • (D p (c 4) + p 2 ![c 2, c 2])) =O[𝓝 0] fun t : ℝ => t ^ n := smul_O h4 (isBigO_const_const _ one_ne_zero _)
  refine (((((t1.add (t2 1)).add (t2 2)).add (t2 3)).add (r1.add r2)).add r3).congr_left fun t => ?_
  have e0 : p 0 (fun _ => δ t) = f x := hf.coeff_zero _
  have e1 : p 1 (fun _ => u t) = D p (c 1) + t • D p (c 2) + t ^ 2 • D p (c 3) + t ^ 3 • D p (c 4) := by
    change D p (u t) = _
    rw [hu]
    simp only [D_add, D_smul]
  have e2 : p 2 (fun _ => c 1 + t • c 2) = p 2 ![c 1, c 1] + t • B p (c 1) (c 2) + t ^ 2 • p 2 ![c 2, c 2] := by
    have : (fun _ : Fin 2 => c 1 + t • c 2) = ![c 1 + t • c 2, c 1 + t • c 2] := by funext i; fin_cases i <;> rfl
    rw [this, two_add, two_add_right, two_add_right, two_smul', two_smul', two_smul_right, two_smul_right, B]
    module
  have e3 : B p (c 1) (c 1) = (2 : ℝ) • p 2 ![c 1, c 1] := by rw [B, two_smul]
  have e4 : p 3 (fun _ => c 1) = T p (c 1) := rfl
  have e5 : x + δ t = g t := by simp only [hδ]; abel
  simp only [FormalMultilinearSeries.partialSum, Finset.sum_range_succ, Finset.sum_range_zero, zero_add, poly, img, e0, e5, t3, e1, e2, e3, e4]
  module

/-! ## Combinations of the elementary differentials -/

/-- The expansion of a combination of stages: coefficients of the elementary differentials up to order four. -/
noncomputable def K (p : FormalMultilinearSeries ℝ E E) (a : E) (w0 w1 w2 w3 w4 w5 w6 w7 : ℝ) : ℕ → E
  | 0 => w0 • a
  | 1 => w1 • D p a
  | 2 => w2 • D p (D p a) + w3 • B p a a
  | 3 => w4 • D p (D p (D p a)) + w5 • D p (B p a a) + w6 • B p a (D p a) + w7 • T p a
  | _ => 0

section
variable {a : E}
variable {u0 u1 u2 u3 u4 u5 u6 u7 w0 w1 w2 w3 w4 w5 w6 w7 : ℝ} {g k : ℝ → E}

theorem K_add (i : ℕ) : K p a u0 u1 u2 u3 u4 u5 u6 u7 i + K p a w0 w1 w2 w3 w4 w5 w6 w7 i =
    K p a (u0 + w0) (u1 + w1) (u2 + w2) (u3 + w3) (u4 + w4) (u5 + w5) (u6 + w6) (u7 + w7) i := by
  match i with
  | 0 => simp only [K]; module
  | 1 => simp only [K]; module
  | 2 => simp only [K]; module
  | 3 => simp only [K]; module
  | i + 4 => simp only [K]; module

theorem K_smul (c : ℝ) (i : ℕ) : c • K p a w0 w1 w2 w3 w4 w5 w6 w7 i =
    K p a (c * w0) (c * w1) (c * w2) (c * w3) (c * w4) (c * w5) (c * w6) (c * w7) i := by
  match i with
  | 0 => simp only [K]; module
  | 1 => simp only [K]; module
  | 2 => simp only [K]; module
  | 3 => simp only [K]; module
  | i + 4 => simp only [K]; module

theorem K.first (a : E) : J 4 (fun _ : ℝ => a) (K p a 1 0 0 0 0 0 0 0) :=
  (J.const 4 a).coeffs fun i hi _ => by interval_cases i <;> simp [K]

theorem K.plus (h : J 4 g (K p a u0 u1 u2 u3 u4 u5 u6 u7)) (h' : J 4 k (K p a w0 w1 w2 w3 w4 w5 w6 w7)) :
    J 4 (fun t => g t + k t) (K p a (u0 + w0) (u1 + w1) (u2 + w2) (u3 + w3) (u4 + w4) (u5 + w5) (u6 + w6) (u7 + w7)) :=
  (h.add h').coeffs fun i _ _ => K_add i

theorem K.times (h : J 4 g (K p a w0 w1 w2 w3 w4 w5 w6 w7)) (c : ℝ) :
    J 4 (fun t => c • g t) (K p a (c * w0) (c * w1) (c * w2) (c * w3) (c * w4) (c * w5) (c * w6) (c * w7)) :=
  (h.smul c).coeffs fun i _ _ => K_smul c i

/-- A stage. -/
theorem K.stage (hf : HasFPowerSeriesAt f p x) (h : J 4 g (K p (f x) w0 w1 w2 w3 w4 w5 w6 w7)) :
    J 4 (fun t => f (x + t • g t)) (K p (f x) 1 w0 w1 (w0 ^ 2 / 2) w2 w3 (w0 * w1) (w0 ^ 3)) := by
  have h1 : J 4 (fun t => x + t • g t) (fun i => if i = 0 then x else K p (f x) w0 w1 w2 w3 w4 w5 w6 w7 (i - 1)) :=
    ((J.const 4 x).add ((h.shift (le_refl 4)).mono (by omega))).coeffs fun i hi _ => by interval_cases i <;> simp
  refine (h1.comp hf (by omega) (le_refl 4) (by simp)).coeffs fun i hi _ => ?_
  interval_cases i
  · simp [img, K]
  · simp [img, K, D_smul]
  · simp only [img, K, if_neg, OfNat.ofNat_ne_zero, one_ne_zero, not_false_eq_true, D_smul, B_smul_left, B_smul_right, Nat.add_one_sub_one, Nat.sub_self]
    module
  · simp only [img, K, if_neg, OfNat.ofNat_ne_zero, one_ne_zero, not_false_eq_true, D_smul, D_add, B_smul_left, B_smul_right, T_smul,
      Nat.add_one_sub_one, Nat.sub_self]
    module

theorem K.weights (h : J 4 g (K p a u0 u1 u2 u3 u4 u5 u6 u7)) (e0 : u0 = w0) (e1 : u1 = w1) (e2 : u2 = w2) (e3 : u3 = w3) (e4 : u4 = w4)
    (e5 : u5 = w5) (e6 : u6 = w6) (e7 : u7 = w7) : J 4 g (K p a w0 w1 w2 w3 w4 w5 w6 w7) := by
  subst e0 e1 e2 e3 e4 e5 e6 e7; exact h

/-- The last step of the method. -/
theorem K.final (x : E) (h : J 4 g (K p a w0 w1 w2 w3 w4 w5 w6 w7)) :
    J 5 (fun t => x + t • g t) (fun i => if i = 0 then x else K p a w0 w1 w2 w3 w4 w5 w6 w7 (i - 1)) :=
  ((J.const 5 x).add (h.shift (le_refl 4))).coeffs fun i hi _ => by interval_cases i <;> simp

end

/-- The expansion of the exact solution. -/
theorem exact_solution (hf : HasFPowerSeriesAt f p x) {y : ℝ → E} (h0 : y 0 = x) (hy : ∀ᶠ t in 𝓝 0, HasDerivAt y (f (y t)) t) :
    J 5 y (fun i => if i = 0 then x else K p (f x) 1 (1 / 2) (1 / 6) (1 / 6) (1 / 24) (1 / 24) (1 / 8) (1 / 4) (i - 1)) := by
  set v : ℕ → E := fun i => if i = 0 then x else K p (f x) 1 (1 / 2) (1 / 6) (1 / 6) (1 / 24) (1 / 24) (1 / 8) (1 / 4) (i - 1) with hv
  have v0 : v 0 = x := by simp [hv]
  have v1 : v 1 = f x := by simp [hv, K]
  have v2 : v 2 = (1 / 2 : ℝ) • D p (f x) := by simp [hv, K]
  have v3 : v 3 = (1 / 6 : ℝ) • D p (D p (f x)) + (1 / 6 : ℝ) • B p (f x) (f x) := by simp [hv, K]
  have v4 : v 4 = (1 / 24 : ℝ) • D p (D p (D p (f x))) + (1 / 24 : ℝ) • D p (B p (f x) (f x)) + (1 / 8 : ℝ) • B p (f x) (D p (f x)) +
      (1 / 4 : ℝ) • T p (f x) := by simp [hv, K]
  have j1 : J 1 y v := by
    have h1 : (fun t => y t - x) =O[𝓝 0] fun t : ℝ => t ^ 1 := by
      have := hy.self_of_nhds.differentiableAt.isBigO_sub
      simpa [h0] using this
    have : J 1 y (fun i => if i = 0 then x else 0) := by simpa [J, poly] using h1
    exact this.coeffs fun i hi _ => by interval_cases i; simp [v0]
  have step : ∀ n, 1 ≤ n → n ≤ 4 → J n y v → J (n + 1) y v := by
    intro n n1 n4 h
    refine (J.integral hy (h.comp hf n1 n4 v0) n4).coeffs fun i _ hi => ?_
    interval_cases i
    · simp [v0, h0]
    · simp [img, v1]
    · simp [img, v1, v2]
    · simp only [img, v1, v2, v3, if_neg, OfNat.ofNat_ne_zero, not_false_eq_true, D_smul, Nat.add_one_sub_one, Nat.cast_ofNat]
      module
    · simp only [img, v1, v2, v3, v4, if_neg, OfNat.ofNat_ne_zero, not_false_eq_true, D_smul, D_add, B_smul_right, Nat.add_one_sub_one, Nat.cast_ofNat]
      module
  exact step 4 (by omega) (by omega) (step 3 (by omega) (by omega) (step 2 (by omega) (by omega) (step 1 (by omega) (by omega) j1)))

end Verif.RK
