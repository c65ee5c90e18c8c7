import Verif.Proofs.Conformal
import Verif.Proofs.Decompose
/-! # Conformal algebra: positions, inner products, normalisation -/
namespace Verif
open Model Spec Factory Props

variable {A : Alg}

theorem pow_of_hom (hA : WfAlg A) {R : Type} {x : MV R} (hx : WfMV A x) (h : Homogeneous 1 x) {b : Nat} (hb : b ∈ x.sub.blades) :
    ∃ i < A.n, b = 2 ^ i := by
  obtain ⟨S, h1, h2⟩ := (C14_named hA).2.1
  rw [vector_eq hA] at h1
  cases h1
  have := (h2.2 b).2 ⟨hx.sub.lt b hb, h b hb⟩
  simp only [List.mem_map, List.mem_range] at this
  obtain ⟨i, hi, e⟩ := this
  exact ⟨i, hi, e.symm⟩

theorem two_pow_inj {i j : Nat} (h : 2 ^ i = 2 ^ j) : i = j := Nat.pow_right_injective (le_refl 2) h

theorem testBit_pow (i k : Nat) : (2 ^ i).testBit k = decide (i = k) := by rw [Nat.testBit_two_pow]

/-- The inner product of two vectors is a number. -/
theorem inner_vecs (hA : WfAlg A) {R : Type} [Field R] [DecidableEq R] {x y : MV R} (hx : WfMV A x) (h : Homogeneous 1 x) (hy : WfMV A y) (h' : Homogeneous 1 y) :
    ∃ z, x.inner A y = some z ∧ WfMV A z ∧ Sc z (dot A (coords A x) (coords A y)) := by
  obtain ⟨U, u1, z, z1, z2, z3, z4⟩ := inner_in hA hx hy
  refine ⟨z, z1, z3, Sc.of z3 ?_ ?_⟩
  · intro b hb
    rw [z2, u1.2] at hb
    obtain ⟨_, a, ha, c, hc, hi, _, rfl⟩ := hb
    obtain ⟨i, _, rfl⟩ := pow_of_hom hA hx h ha
    obtain ⟨j, _, rfl⟩ := pow_of_hom hA hy h' hc
    have : i = j := by
      by_contra hne
      have h0 : 2 ^ i &&& 2 ^ j = 0 := by
        apply Nat.eq_of_testBit_eq
        intro k
        rw [Nat.testBit_and, testBit_pow, testBit_pow, Nat.zero_testBit]
        by_cases hk : i = k
        · have : ¬ j = k := by omega
          simp [this]
        · simp [hk]
      have p1 := Nat.two_pow_pos i
      have p2 := Nat.two_pow_pos j
      rw [h0] at hi
      omega
    subst this
    simp
  · rw [z4, val_vec hA hx h, val_vec hA hy h', inner_vec hA, Algebra.algebraMap_eq_smul_one]

namespace Conf
variable {d : Nat} (h : Conf A d) {R : Type} [Field R] [DecidableEq R]
include h

theorem and_N {i : Nat} : 2 ^ i &&& (2 ^ d ||| 2 ^ (d + 1)) = 0 ↔ i ≠ d ∧ i ≠ d + 1 := by
  constructor
  · intro h0
    have := congrArg (·.testBit i) h0
    simp only [Nat.testBit_and, Nat.testBit_or, testBit_pow, Nat.zero_testBit] at this
    simp at this
    omega
  · intro hi
    apply Nat.eq_of_testBit_eq
    intro k
    rw [Nat.testBit_and, Nat.testBit_or, testBit_pow, testBit_pow, testBit_pow, Nat.zero_testBit]
    by_cases hk : i = k
    · subst hk
      have h1 : ¬ d = i := by omega
      have h2 : ¬ d + 1 = i := by omega
      simp [h1, h2]
    · simp [hk]

theorem lt_N : 2 ^ d ||| 2 ^ (d + 1) < 2 ^ A.n := Nat.or_lt_two_pow h.lt_p h.lt_m

theorem wedge_gen_N (i : Fin A.n) : wedgeMap A R (gen A R i) (blade A R (2 ^ d ||| 2 ^ (d + 1))) =
    if (i : Nat) < d then gen A R i * blade A R (2 ^ d ||| 2 ^ (d + 1)) else 0 := by
  have hi : (i : Nat) < d + 2 := lt_of_lt_of_eq i.2 h.n
  rw [← blade_two_pow, wedge_blade h.wf (pow_lt i) h.lt_N]
  by_cases hd : (i : Nat) < d
  · have h0 : 2 ^ (i : Nat) &&& (2 ^ d ||| 2 ^ (d + 1)) = 0 := h.and_N.2 (by omega)
    rw [if_pos h0, if_pos hd, blade_mul h.wf, sgn_disjoint h0]
    push_cast
    rfl
  · rw [if_neg hd, if_neg]
    rw [h.and_N]
    omega

/-- Wedging with `N` and then multiplying with `N` keeps the coordinates before `p` and `n`. -/
theorem reject (u : Fin A.n → R) : wedgeMap A R (vec A u) (blade A R (2 ^ d ||| 2 ^ (d + 1))) * blade A R (2 ^ d ||| 2 ^ (d + 1)) =
    vec A (fun i => if (i : Nat) < d then u i else 0) := by
  rw [vec_eq_sum, vec_eq_sum, wedgeMap, ← gradedProductₗ_apply, map_sum, LinearMap.sum_apply, Finset.sum_mul]
  refine Finset.sum_congr rfl fun i _ => ?_
  rw [map_smul, LinearMap.smul_apply, gradedProductₗ_apply, ← wedgeMap, h.wedge_gen_N]
  split
  · rw [smul_mul_assoc, mul_assoc, h.N_sq, mul_one]
  · simp

/-- Position of a vector. -/
theorem position (h2 : (2 : R) ≠ 0) (fuel : Nat) {x : MV R} (hx : WfMV A x) (hh : Homogeneous 1 x) :
    ∃ z, Conformal.pointPosition A fuel x = .ok z ∧ WfMV A z ∧ (∀ b, b ∈ z.sub.blades ↔ b ∈ x.sub.blades ∧ b < 2 ^ d) ∧
      val A z = vec A (fun i => if (i : Nat) < d then coords A x i else 0) := by
  obtain ⟨U, u1, y, y1, y2, y3, y4⟩ := wedge_in h.wf hx (h.mv_N (R := R))
  obtain ⟨T, t1, z, z1, z2, z3, z4⟩ := mul_in h.wf y3 (h.mv_N (R := R))
  have hz : ∀ b, b ∈ z.sub.blades ↔ b ∈ x.sub.blades ∧ b < 2 ^ d := by
    intro b
    rw [z2, t1.2]
    simp only [List.mem_singleton, exists_eq_left, y2, u1.2]
    constructor
    · rintro ⟨_, c, ⟨_, a, ha, h0, rfl⟩, rfl, _⟩
      obtain ⟨i, hi, rfl⟩ := pow_of_hom h.wf hx hh ha
      have hi' := h.and_N.1 h0
      have hd : i < d := by have := h.n; omega
      have e : (2 ^ i ||| (2 ^ d ||| 2 ^ (d + 1))) ^^^ (2 ^ d ||| 2 ^ (d + 1)) = 2 ^ i := by
        apply Nat.eq_of_testBit_eq
        intro k
        rw [Nat.testBit_xor, Nat.testBit_or, testBit_pow]
        by_cases hk : i = k
        · subst hk
          have := congrArg (·.testBit i) h0
          simp only [Nat.testBit_and, testBit_pow, Nat.zero_testBit] at this
          simp at this
          simp [this]
        · simp [hk]
      rw [e]
      exact ⟨ha, Nat.pow_lt_pow_right (by norm_num) hd⟩
    · rintro ⟨hb, hlt⟩
      obtain ⟨i, hi, rfl⟩ := pow_of_hom h.wf hx hh hb
      have hd : i < d := (Nat.pow_lt_pow_iff_right (by norm_num)).1 hlt
      have h0 : 2 ^ i &&& (2 ^ d ||| 2 ^ (d + 1)) = 0 := h.and_N.2 (by omega)
      refine ⟨hx.sub.lt _ hb, 2 ^ i ||| (2 ^ d ||| 2 ^ (d + 1)), ⟨Nat.or_lt_two_pow (hx.sub.lt _ hb) h.lt_N, _, hb, h0, rfl⟩, ?_, ?_⟩
      · apply Nat.eq_of_testBit_eq
        intro k
        rw [Nat.testBit_xor, Nat.testBit_or, testBit_pow]
        by_cases hk : i = k
        · subst hk
          have := congrArg (·.testBit i) h0
          simp only [Nat.testBit_and, testBit_pow, Nat.zero_testBit] at this
          simp at this
          simp [this]
        · simp [hk]
      · rw [sgn_ne_zero h.wf (Nat.or_lt_two_pow (hx.sub.lt _ hb) h.lt_N)]
        rintro ⟨k, hk, _, hb, h0⟩
        simp only [Nat.testBit_or, testBit_pow, Bool.or_eq_true, decide_eq_true_eq] at hb
        rcases hb with rfl | rfl
        · rw [h.p] at h0; exact absurd h0 (by norm_num)
        · rw [h.m] at h0; exact absurd h0 (by norm_num)
  refine ⟨z, ?_, z3, hz, ?_⟩
  · have a1 : Conformal.assertIn x.sub ⟨(List.range A.n).map (2 ^ ·)⟩ = .ok () := by
      rw [Conformal.assertIn, if_pos]
      rw [contains_iff]
      intro b hb
      obtain ⟨i, hi, rfl⟩ := pow_of_hom h.wf hx hh hb
      simp only [List.mem_map, List.mem_range]
      exact ⟨i, hi, rfl⟩
    have a2 : Conformal.assertIn z.sub ⟨(List.range d).map (2 ^ ·)⟩ = .ok () := by
      rw [Conformal.assertIn, if_pos]
      rw [contains_iff]
      intro b hb
      obtain ⟨h1, h3⟩ := (hz b).1 hb
      obtain ⟨i, hi, rfl⟩ := pow_of_hom h.wf hx hh h1
      exact h.mem_E.2 ⟨i, (Nat.pow_lt_pow_iff_right (by norm_num)).1 h3, rfl⟩
    rw [Conformal.pointPosition, h.N_eq h2, h.euclidian_eq, vector_eq h.wf]
    simp only [bind, Except.bind, lift_some, a1, y1, z1, a2]
    rfl
  · have ev : val A (⟨⟨[2 ^ d ||| 2 ^ (d + 1)]⟩, [1]⟩ : MV R) = blade A R (2 ^ d ||| 2 ^ (d + 1)) := by simp [val, denote]
    rw [z4, y4, ev, val_vec h.wf hx hh, h.reject]

/-- The denominator of `normalize`. -/
theorem normalize_eq (fuel : Nat) {x : MV R} (hx : WfMV A x) (hh : Homogeneous 1 x) :
    ∃ s, Sc s (coords A x h.im - coords A x h.ip) ∧ Conformal.normalize A fuel x = x.truediv A fuel (.mv s) := by
  obtain ⟨r, r1, r2, r3, r4⟩ := (C04_values h.wf hx).1
  have hr : r = x := by
    refine mv_eq r3 hx r2 ?_
    rw [r4, val_vec h.wf hx hh, vec, CliffordAlgebra.reverse_ι]
  subst hr
  obtain ⟨z, z1, z2, z3⟩ := inner_vecs h.wf hx hh (h.mv_pm (R := R) 1 1) (h.hom_pm 1 1)
  rw [h.coords_pm, h.dot_pm] at z3
  obtain ⟨y, y1, y2, y3, y4⟩ := C44_neg z2
  refine ⟨y, Sc.of y3 (y2 ▸ z3.sub) ?_, ?_⟩
  · rw [y4, z3.val, ← neg_smul]
    congr 1
    ring
  · rw [Conformal.normalize, h.ni_eq, r1]
    simp only [bind, Except.bind, lift_some, z1, y1]

end Conf
end Verif
