import Verif.Props.Racket
import Verif.Props.Description
import Mathlib.Analysis.SpecialFunctions.Trigonometric.DerivHyp
import Mathlib.Analysis.Calculus.MeanValue
import Mathlib.Topology.Order.IntermediateValue
/-! # The tennis racket theorem (C105) -/
namespace Verif.Props
open Model Spec

/-- The algebra of the example, `Algebra.from_pqr(3, 0, 0)`. -/
def racket3 : Alg := ⟨⟨[['a'], ['b'], ['c']], [1, 1, 1]⟩, 1, 1⟩

theorem racket3_eq : Alg.fromPqr 3 0 0 = some racket3 := by decide

/-- Euclidean spaces are those of `from_pqr(n, 0, 0)`. -/
theorem euc_pqr {n : Nat} (h1 : 2 ≤ n) (h2 : n ≤ 26) {A : Alg} (h : Alg.fromPqr n 0 0 = some A) : Euc A ∧ A.n = n := by
  obtain ⟨d, d1, d2, -, d4, -⟩ := C07_from_pqr n 0 0 (by omega) (by omega)
  have hA := wf_fromPqr h
  rw [Alg.fromPqr, d1, Option.bind_some, Alg.ofDesc] at h
  obtain ⟨t, -, rfl⟩ := Option.map_eq_some_iff.1 h
  have hn : d.nDimensions = n := by rw [d4]; simp
  refine ⟨⟨hA, by show 2 ≤ d.nDimensions; omega, fun s hs => ?_⟩, hn⟩
  have hs : s ∈ d.sig := hs
  rw [d2] at hs
  simp only [List.replicate_zero, List.append_nil] at hs
  exact List.eq_of_mem_replicate hs

theorem euc_racket3 : Euc racket3 := (euc_pqr (by norm_num) (by norm_num) racket3_eq).1

section
variable {R : Type} [Field R] [LinearOrder R] [IsStrictOrderedRing R]

/-- C105: in three dimensions `rate_derivative` gives Euler's equations of the top with the moments 40, 80 and 104. -/
theorem C105_space {b : Body R} (hb : Box racket3 b) (hd : coeff b.damping 0 = 0) : ∃ d, b.rateDerivative racket3 = some d ∧ WfMV racket3 d ∧ d.sub = b.rate.sub ∧
    coeff d 3 = -(3 / 5) * (coeff b.rate 5 * coeff b.rate 6) ∧ coeff d 5 = 4 / 5 * (coeff b.rate 3 * coeff b.rate 6) ∧
    coeff d 6 = -(5 / 13) * (coeff b.rate 3 * coeff b.rate 5) := by
  obtain ⟨d, d1, d2, d3, e⟩ := C105_euler euc_racket3 two_ne_zero hb
  obtain ⟨B, L, hl⟩ := hb.live euc_racket3
  rw [hd] at e
  have hs : ∀ f : Fin racket3.n → R, ∑ j, f j = f (0 : Fin 3) + f (1 : Fin 3) + f (2 : Fin 3) := fun f => Fin.sum_univ_three (f : Fin 3 → R)
  refine ⟨d, d1, d2, d3, ?_⟩
  rw [coeff_eq d2, coeff_eq d2, coeff_eq d2, coeff_eq hl.rateWf, coeff_eq hl.rateWf, coeff_eq hl.rateWf]
  have s1 : ∀ z : Cl racket3 R, spin racket3 z (0 : Fin 3) (1 : Fin 3) = coef racket3 R 3 z := fun z => if_pos (by decide)
  have s2 : ∀ z : Cl racket3 R, spin racket3 z (0 : Fin 3) (2 : Fin 3) = coef racket3 R 5 z := fun z => if_pos (by decide)
  have s3 : ∀ z : Cl racket3 R, spin racket3 z (1 : Fin 3) (2 : Fin 3) = coef racket3 R 6 z := fun z => if_pos (by decide)
  have s0 : ∀ (z : Cl racket3 R) (i : Fin 3), spin racket3 z i i = 0 := fun z i => (if_neg (lt_irrefl i)).trans (if_neg (lt_irrefl i))
  have t1 := fun z : Cl racket3 R => (spin_skew z (0 : Fin 3) (1 : Fin 3)).trans (congrArg Neg.neg (s1 z))
  have t3 := fun z : Cl racket3 R => (spin_skew z (1 : Fin 3) (2 : Fin 3)).trans (congrArg Neg.neg (s3 z))
  have e1 := e (0 : Fin 3) (1 : Fin 3)
  have e2 := e (0 : Fin 3) (2 : Fin 3)
  have e3 := e (1 : Fin 3) (2 : Fin 3)
  rw [hs] at e1 e2 e3
  simp only [s0, s1, s2, s3, t1, t3] at e1 e2 e3
  have n3 : (2 : R) ^ racket3.n = 8 := by rw [show racket3.n = 3 from rfl]; norm_num
  rw [n3] at e1 e2 e3
  norm_num at e1 e2 e3
  refine ⟨?_, ?_, ?_⟩ <;> linarith

end

/-- The exact motion of a box: at any time the rate changes by `rate_derivative`, without damping. -/
def Tumbles (b : ℝ → Body ℝ) : Prop := ∀ t, Box racket3 (b t) ∧ coeff (b t).damping 0 = 0 ∧
  ∃ d, (b t).rateDerivative racket3 = some d ∧ ∀ a, HasDerivAt (fun s => coeff (b s).rate a) (coeff d a) t

theorem Tumbles.euler {b : ℝ → Body ℝ} (h : Tumbles b) (t : ℝ) :
    HasDerivAt (fun s => coeff (b s).rate 3) (-(3 / 5) * (coeff (b t).rate 5 * coeff (b t).rate 6)) t ∧
    HasDerivAt (fun s => coeff (b s).rate 5) (4 / 5 * (coeff (b t).rate 3 * coeff (b t).rate 6)) t ∧
    HasDerivAt (fun s => coeff (b s).rate 6) (-(5 / 13) * (coeff (b t).rate 3 * coeff (b t).rate 5)) t := by
  obtain ⟨hb, hd, d, d1, d2⟩ := h t
  obtain ⟨d', e1, -, -, e2, e3, e4⟩ := C105_space hb hd
  cases d1.symm.trans e1
  rw [← e2, ← e3, ← e4]
  exact ⟨d2 3, d2 5, d2 6⟩

/-- C105: two quadratic forms of the rate never change. -/
theorem C105_conserved {b : ℝ → Body ℝ} (h : Tumbles b) (t : ℝ) :
    25 * coeff (b t).rate 5 ^ 2 + 52 * coeff (b t).rate 6 ^ 2 = 25 * coeff (b 0).rate 5 ^ 2 + 52 * coeff (b 0).rate 6 ^ 2 ∧
    4 * coeff (b t).rate 3 ^ 2 + 3 * coeff (b t).rate 5 ^ 2 = 4 * coeff (b 0).rate 3 ^ 2 + 3 * coeff (b 0).rate 5 ^ 2 := by
  constructor
  · refine is_const_of_deriv_eq_zero (f := fun t => 25 * coeff (b t).rate 5 ^ 2 + 52 * coeff (b t).rate 6 ^ 2) (fun t => ?_) (fun t => ?_) t 0
    · obtain ⟨-, h2, h3⟩ := h.euler t
      exact (((h2.pow 2).const_mul 25).add ((h3.pow 2).const_mul 52)).differentiableAt
    · obtain ⟨-, h2, h3⟩ := h.euler t
      refine (((h2.pow 2).const_mul 25).add ((h3.pow 2).const_mul 52)).deriv.trans ?_
      push_cast; ring
  · refine is_const_of_deriv_eq_zero (f := fun t => 4 * coeff (b t).rate 3 ^ 2 + 3 * coeff (b t).rate 5 ^ 2) (fun t => ?_) (fun t => ?_) t 0
    · obtain ⟨h1, h2, -⟩ := h.euler t
      exact (((h1.pow 2).const_mul 4).add ((h2.pow 2).const_mul 3)).differentiableAt
    · obtain ⟨h1, h2, -⟩ := h.euler t
      refine (((h1.pow 2).const_mul 4).add ((h2.pow 2).const_mul 3)).deriv.trans ?_
      push_cast; ring

theorem keeps_sign {f : ℝ → ℝ} (hf : Continuous f) (h0 : 0 < f 0) (hn : ∀ t, f t ≠ 0) (t : ℝ) : 0 < f t := by
  by_contra hc
  obtain ⟨s, hs⟩ := intermediate_value_univ t 0 hf ⟨not_lt.1 hc, h0.le⟩
  exact hn s hs

/-- C105: a box does not turn over about the axis of the smallest or of the largest moment: the spin about that axis keeps its sense for ever, and the
other components stay as small as they were. -/
theorem C105_stable {b : ℝ → Body ℝ} (h : Tumbles b) :
    (0 < coeff (b 0).rate 3 → 39 * coeff (b 0).rate 6 ^ 2 < 25 * coeff (b 0).rate 3 ^ 2 → ∀ t, 0 < coeff (b t).rate 3 ∧
      25 * coeff (b t).rate 5 ^ 2 + 52 * coeff (b t).rate 6 ^ 2 ≤ 25 * coeff (b 0).rate 5 ^ 2 + 52 * coeff (b 0).rate 6 ^ 2) ∧
    (0 < coeff (b 0).rate 6 → 25 * coeff (b 0).rate 3 ^ 2 < 39 * coeff (b 0).rate 6 ^ 2 → ∀ t, 0 < coeff (b t).rate 6 ∧
      4 * coeff (b t).rate 3 ^ 2 + 3 * coeff (b t).rate 5 ^ 2 ≤ 4 * coeff (b 0).rate 3 ^ 2 + 3 * coeff (b 0).rate 5 ^ 2) := by
  constructor
  · intro h0 h1 t
    refine ⟨keeps_sign (f := fun t => coeff (b t).rate 3) ?_ h0 (fun t e => ?_) t, (C105_conserved h t).1.le⟩
    · exact continuous_iff_continuousAt.2 fun t => (h.euler t).1.continuousAt
    · have e : coeff (b t).rate 3 = 0 := e
      obtain ⟨c1, c2⟩ := C105_conserved h t
      rw [e] at c2
      nlinarith [sq_nonneg (coeff (b t).rate 6)]
  · intro h0 h1 t
    refine ⟨keeps_sign (f := fun t => coeff (b t).rate 6) ?_ h0 (fun t e => ?_) t, (C105_conserved h t).2.le⟩
    · exact continuous_iff_continuousAt.2 fun t => (h.euler t).2.2.continuousAt
    · have e : coeff (b t).rate 6 = 0 := e
      obtain ⟨c1, c2⟩ := C105_conserved h t
      rw [e] at c1
      nlinarith [sq_nonneg (coeff (b t).rate 3)]

/-- A solution of Euler's equations that leaves one sense of the middle axis for the other. -/
theorem flip_euler {c k u w : ℝ} (h1 : u * k = 3 / 5 * (c * w)) (h2 : c * k = 4 / 5 * (u * w)) (h3 : w * k = 5 / 13 * (u * c)) (s t : ℝ) :
    let i := fun t : ℝ => (Real.cosh (k * (t - s)))⁻¹
    let y := fun t : ℝ => c * (Real.sinh (k * (t - s)) * i t)
    HasDerivAt (fun t => u * i t) (-(3 / 5) * (y t * (w * i t))) t ∧ HasDerivAt y (4 / 5 * (u * i t * (w * i t))) t ∧
      HasDerivAt (fun t => w * i t) (-(5 / 13) * (u * i t * y t)) t := by
  intro i y
  have hc := (Real.cosh_pos (k * (t - s))).ne'
  have hk : HasDerivAt (fun t => k * (t - s)) k t := by simpa using ((hasDerivAt_id t).sub_const s).const_mul k
  have dc : HasDerivAt i (-(Real.sinh (k * (t - s)) * k) / Real.cosh (k * (t - s)) ^ 2) t := ((Real.hasDerivAt_cosh _).comp t hk).inv hc
  have ds : HasDerivAt (fun t => Real.sinh (k * (t - s))) (Real.cosh (k * (t - s)) * k) t := (Real.hasDerivAt_sinh _).comp t hk
  have hcs := Real.cosh_sq (k * (t - s))
  have e : -(Real.sinh (k * (t - s)) * k) / Real.cosh (k * (t - s)) ^ 2 = -(Real.sinh (k * (t - s)) * k) * (i t * i t) := by
    simp only [i]; field_simp
  rw [e] at dc
  have ei : Real.cosh (k * (t - s)) * i t = 1 := mul_inv_cancel₀ hc
  generalize Real.cosh (k * (t - s)) = C at *
  refine ⟨(dc.const_mul u).congr_deriv ?_, ((ds.mul dc).const_mul c).congr_deriv ?_, (dc.const_mul w).congr_deriv ?_⟩
  · simp only [y]
    linear_combination (-(Real.sinh (k * (t - s)) * (i t * i t))) * h1
  · generalize i t = I at *
    generalize Real.sinh (k * (t - s)) = S at *
    linear_combination I ^ 2 * h2 + c * k * I ^ 2 * hcs - c * k * (C * I) * ei
  · simp only [y]
    linear_combination (-(Real.sinh (k * (t - s)) * (i t * i t))) * h3

/-- Every solution of Euler's equations is a motion of the box. -/
theorem exists_tumbles {x y z : ℝ → ℝ} (h : ∀ t, HasDerivAt x (-(3 / 5) * (y t * z t)) t ∧ HasDerivAt y (4 / 5 * (x t * z t)) t ∧
    HasDerivAt z (-(5 / 13) * (x t * y t)) t) :
    ∃ b, Tumbles b ∧ ∀ t, val racket3 (b t).motor = 1 ∧ (b t).rate = ⟨⟨[3, 5, 6]⟩, [x t, y t, z t]⟩ := by
  obtain ⟨bs, -, b2, b3⟩ := C105_bodies (R := ℝ) euc_racket3 fun _ _ => 0
  have hlt : 0 < bs.length := by rw [b2]; decide
  obtain ⟨hb, hm, hs, -, hd, -⟩ := b3 0 bs[0] (List.getElem?_eq_getElem hlt)
  generalize bs[0] = b0 at *
  have hB : racket3.bivector = some ⟨[3, 5, 6]⟩ := by decide +kernel
  obtain ⟨B, L, hl⟩ := hb.live euc_racket3
  cases hl.bivector.symm.trans hB
  have hw : ∀ v : List ℝ, v.length = 3 → WfMV racket3 (⟨⟨[3, 5, 6]⟩, v⟩ : MV ℝ) := fun v hv => ⟨hl.spaceB.1, hv⟩
  have hd0 : coeff b0.damping 0 = 0 := by rw [coeff_eq hl.dampingWf, hd, map_zero]
  refine ⟨fun t => { b0 with rate := ⟨⟨[3, 5, 6]⟩, [x t, y t, z t]⟩ }, fun t => ?_, fun t => ⟨hm, rfl⟩⟩
  have hbox : Box racket3 { b0 with rate := ⟨⟨[3, 5, 6]⟩, [x t, y t, z t]⟩ } := by
    obtain ⟨p, ps, h1, h2⟩ := hb
    exact ⟨p, ps, h1, .copy (m := none) (r := some ⟨⟨[3, 5, 6]⟩, [x t, y t, z t]⟩) (g := none) (d := none) h2 (by simp) (by rintro x ⟨⟩; exact hw _ rfl)
      (by simp) (by simp) (hl.copy_total euc_racket3.wf (m := none) (r := some ⟨⟨[3, 5, 6]⟩, [x t, y t, z t]⟩) rfl rfl)⟩
  refine ⟨hbox, hd0, ?_⟩
  obtain ⟨d, d1, d2, d3, e1, e2, e3⟩ := C105_space hbox hd0
  have c3 : ∀ t, coeff (⟨⟨[3, 5, 6]⟩, [x t, y t, z t]⟩ : MV ℝ) 3 = x t := fun t => rfl
  have c5 : ∀ t, coeff (⟨⟨[3, 5, 6]⟩, [x t, y t, z t]⟩ : MV ℝ) 5 = y t := fun t => rfl
  have c6 : ∀ t, coeff (⟨⟨[3, 5, 6]⟩, [x t, y t, z t]⟩ : MV ℝ) 6 = z t := fun t => rfl
  simp only [c3, c5, c6] at e1 e2 e3
  refine ⟨d, d1, fun a => ?_⟩
  obtain ⟨h1, h2, h3⟩ := h t
  by_cases a3 : a = 3
  · subst a3; simp only [c3, e1]; exact h1
  by_cases a5 : a = 5
  · subst a5; simp only [c5, e2]; exact h2
  by_cases a6 : a = 6
  · subst a6; simp only [c6, e3]; exact h3
  have na : ∀ v : List ℝ, coeff (⟨⟨[3, 5, 6]⟩, v⟩ : MV ℝ) a = 0 := fun v => coeff_notMem (by simp [a3, a5, a6])
  rw [coeff_notMem (by rw [d3]; simp [a3, a5, a6])]
  simp only [na]
  exact hasDerivAt_const t 0

/-- C105: a box turns over about the middle axis: however small the disturbance, there is a motion that starts with the spin `-c` in the middle plane up to that
disturbance, and has the spin `c` in the middle plane up to that disturbance later. -/
theorem C105_turns_over {c ε : ℝ} (hc : 0 < c) (hε : 0 < ε) : ∃ b, Tumbles b ∧ ∃ T > 0,
    (|coeff (b 0).rate 3| < ε ∧ |coeff (b 0).rate 5 + c| < ε ∧ |coeff (b 0).rate 6| < ε) ∧
    (|coeff (b T).rate 3| < ε ∧ |coeff (b T).rate 5 - c| < ε ∧ |coeff (b T).rate 6| < ε) := by
  have h3 : √3 * √3 = 3 := Real.mul_self_sqrt (by norm_num)
  have h13 : √13 * √13 = 13 := Real.mul_self_sqrt (by norm_num)
  have p3 : 0 < √3 := by positivity
  have p13 : 0 < √13 := by positivity
  obtain ⟨u, hu⟩ : ∃ u, u = c * (√3 / 2) := ⟨_, rfl⟩
  obtain ⟨w, hw⟩ : ∃ w, w = c * (5 * √13 / 26) := ⟨_, rfl⟩
  obtain ⟨k, hk⟩ : ∃ k, k = c * (√3 * √13 / 13) := ⟨_, rfl⟩
  have k0 : 0 < k := by rw [hk]; positivity
  have u0 : 0 < u := by rw [hu]; positivity
  have w0 : 0 < w := by rw [hw]; positivity
  have u1 : u ≤ c := by rw [hu]; nlinarith
  have w1 : w ≤ c := by rw [hw]; nlinarith
  obtain ⟨N, hN⟩ : ∃ N, N = c / ε := ⟨_, rfl⟩
  have N0 : 0 < N := by rw [hN]; positivity
  have key := flip_euler (c := c) (k := k) (u := u) (w := w) (by rw [hu, hw, hk]; linear_combination (c ^ 2 * √13 / 26) * h3)
    (by rw [hu, hw, hk]; ring) (by rw [hu, hw, hk]; linear_combination (c ^ 2 * 5 * √3 / 338) * h13) (N / k)
  obtain ⟨b, b1, b2⟩ := exists_tumbles key
  have bd : c * (Real.cosh N)⁻¹ < ε := by
    have h1 : N < Real.cosh N := lt_of_le_of_lt (Real.self_le_sinh_iff.2 N0.le) (Real.sinh_lt_cosh N)
    rw [← div_eq_mul_inv, div_lt_iff₀ (Real.cosh_pos N)]
    have h2 : c / ε < Real.cosh N := by rw [← hN]; exact h1
    rwa [div_lt_iff₀ hε, mul_comm] at h2
  have i0 : 0 < (Real.cosh N)⁻¹ := inv_pos.2 (Real.cosh_pos N)
  have bu : |u * (Real.cosh N)⁻¹| < ε := by rw [abs_of_pos (by positivity)]; exact lt_of_le_of_lt (mul_le_mul_of_nonneg_right u1 i0.le) bd
  have bw : |w * (Real.cosh N)⁻¹| < ε := by rw [abs_of_pos (by positivity)]; exact lt_of_le_of_lt (mul_le_mul_of_nonneg_right w1 i0.le) bd
  have by' : |c * (Real.sinh N * (Real.cosh N)⁻¹) - c| < ε := by
    have e : c * (Real.sinh N * (Real.cosh N)⁻¹) - c = -(c * (Real.cosh N)⁻¹ * Real.exp (-N)) := by
      rw [← Real.cosh_sub_sinh]
      have := (Real.cosh_pos N).ne'
      field_simp; ring
    rw [e, abs_neg, abs_of_pos (by positivity)]
    refine lt_of_le_of_lt (mul_le_of_le_one_right (by positivity) ?_) bd
    exact Real.exp_le_one_iff.2 (by linarith)
  have t0 : k * (0 - N / k) = -N := by field_simp; ring
  have tT : k * (2 * N / k - N / k) = N := by field_simp; ring
  refine ⟨b, b1, 2 * N / k, by positivity, ?_, ?_⟩
  · rw [(b2 0).2]
    refine ⟨?_, ?_, ?_⟩
    · show |u * (Real.cosh (k * (0 - N / k)))⁻¹| < ε
      rwa [t0, Real.cosh_neg]
    · show |c * (Real.sinh (k * (0 - N / k)) * (Real.cosh (k * (0 - N / k)))⁻¹) + c| < ε
      rw [t0, Real.cosh_neg, Real.sinh_neg, ← abs_neg]
      convert by' using 2; ring
    · show |w * (Real.cosh (k * (0 - N / k)))⁻¹| < ε
      rwa [t0, Real.cosh_neg]
  · rw [(b2 _).2]
    refine ⟨?_, ?_, ?_⟩
    · show |u * (Real.cosh (k * (2 * N / k - N / k)))⁻¹| < ε
      rwa [tT]
    · show |c * (Real.sinh (k * (2 * N / k - N / k)) * (Real.cosh (k * (2 * N / k - N / k)))⁻¹) - c| < ε
      rwa [tT]
    · show |w * (Real.cosh (k * (2 * N / k - N / k)))⁻¹| < ε
      rwa [tT]

/-! ### examples -/

/-- The three bodies of the example, without jitter: each of them is steady, the loop can be run, and the step keeps the rate. -/
example : ∃ bs, Racket.bodies racket3 (fun _ _ => (0 : ℝ)) = .ok bs ∧ bs.length = 3 ∧ ∀ (i : Nat) (b : Body ℝ), bs[i]? = some b →
    b.rate = ⟨⟨[3, 5, 6]⟩, [if i = 0 then 1 else 0, if i = 1 then 1 else 0, if i = 2 then 1 else 0]⟩ ∧ Gives racket3 (b.rateDerivative racket3) 0 ∧
      (∃ ms, Racket.simulate racket3 (realRoots 1) 4 (1 / 4) 800 b = .ok ms ∧ ms.length = 800) ∧
      ∃ c, b.integrate racket3 (realRoots 1) 4 (1 / 4) = .ok c ∧ c.rate = b.rate := by
  obtain ⟨bs, b1, b2, b3⟩ := C105_bodies (R := ℝ) euc_racket3 fun _ _ => 0
  refine ⟨bs, b1, b2, fun i b hi => ?_⟩
  obtain ⟨hb, hm, hs, hv, hd, -⟩ := b3 i b hi
  have hB : racket3.bivector = some ⟨[3, 5, 6]⟩ := by decide +kernel
  have hs : b.rate.sub = ⟨[3, 5, 6]⟩ := Option.some.inj (hs.symm.trans hB)
  have hr : b.rate = ⟨⟨[3, 5, 6]⟩, [if i = 0 then 1 else 0, if i = 1 then 1 else 0, if i = 2 then 1 else 0]⟩ := by
    obtain ⟨r, hr⟩ : ∃ r, r = b.rate := ⟨_, rfl⟩
    rw [← hr] at hs hv ⊢
    obtain ⟨S, v⟩ := r
    simp only at hs hv
    rw [hs, hv, show racket3.n.choose 2 = 3 by decide]
    simp [List.range_succ]
  obtain ⟨B, L, hl⟩ := hb.live euc_racket3
  have hd0 : coeff b.damping 0 = 0 := by rw [coeff_eq hl.dampingWf, hd, map_zero]
  have hu : val racket3 b.motor * CliffordAlgebra.reverse (val racket3 b.motor) = 1 := by rw [hm]; simp
  have h3 : i < 3 := by
    have := (List.getElem?_eq_some_iff.1 hi).1
    rw [b2] at this
    exact this
  have hst : Gives racket3 (b.rateDerivative racket3) 0 := by
    refine C105_plane euc_racket3 hb hd0 (c := 1) (a := [3, 5, 6].getD i 0) ?_ ?_ ?_
    · interval_cases i <;> decide
    · interval_cases i <;> decide +kernel
    · rw [hr]; interval_cases i <;> simp [val, denote]
  obtain ⟨ms, m1, m2, -⟩ := C105_simulate euc_racket3 (by decide) (realRoots_law 1) (le_refl 4) (dt := 1 / 4) (by norm_num) 800 hb hu
  exact ⟨hr, hst, ⟨ms, m1, m2⟩, C105_keeps euc_racket3 (by decide) (realRoots_law 1) (le_refl 4) (by norm_num) hb hu hst⟩

/-- Spaces of four and of five dimensions. -/
example : ∃ A, Alg.fromPqr 5 0 0 = some A ∧ Euc A ∧ A.n = 5 ∧ A.n.choose 2 = 10 := by
  have h : Alg.fromPqr 5 0 0 = some ⟨⟨[['a'], ['b'], ['c'], ['d'], ['e']], [1, 1, 1, 1, 1]⟩, 1, 1⟩ := by decide
  obtain ⟨h1, h2⟩ := euc_pqr (by norm_num) (by norm_num) h
  exact ⟨_, h, h1, h2, by rw [h2]; decide⟩

/-- A steady motion about the axis of the smallest moment. -/
example : ∃ b, Tumbles b ∧ 0 < coeff (b 0).rate 3 ∧ 39 * coeff (b 0).rate 6 ^ 2 < 25 * coeff (b 0).rate 3 ^ 2 := by
  obtain ⟨b, b1, b2⟩ := exists_tumbles (x := fun _ => 1) (y := fun _ => 0) (z := fun _ => 0) fun t =>
    ⟨by simpa using hasDerivAt_const t (1 : ℝ), by simpa using hasDerivAt_const t (0 : ℝ), by simpa using hasDerivAt_const t (0 : ℝ)⟩
  refine ⟨b, b1, ?_⟩
  rw [(b2 0).2]
  have e3 : coeff (⟨⟨[3, 5, 6]⟩, [1, 0, 0]⟩ : MV ℝ) 3 = 1 := rfl
  have e6 : coeff (⟨⟨[3, 5, 6]⟩, [1, 0, 0]⟩ : MV ℝ) 6 = 0 := rfl
  rw [e3, e6]; norm_num

/-- A disturbed spin about the middle axis. -/
example : ∃ b, Tumbles b ∧ ∃ T > 0, |coeff (b 0).rate 5 + 1| < 1 / 100000 ∧ |coeff (b T).rate 5 - 1| < 1 / 100000 := by
  obtain ⟨b, h1, T, hT, h2, h3⟩ := C105_turns_over (c := 1) (ε := 1 / 100000) (by norm_num) (by norm_num)
  exact ⟨b, h1, T, hT, h2.2.1, h3.2.1⟩

end Verif.Props
