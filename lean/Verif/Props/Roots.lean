import Verif.Proofs.Roots2
import Verif.Props.Transform
import Mathlib.Data.Real.Sqrt
/-! # C50, C51, C63: square roots, motor square roots, normalisation -/
namespace Verif.Props
open Model Spec Model.Factory

variable {A : Alg}

/-! ## C50 -/
section C50
variable {R : Type} [Field R] [LinearOrder R] [IsStrictOrderedRing R]

theorem nonneg_root_unique {s t : R} (hs : 0 ≤ s) (ht : 0 ≤ t) (h : s * s = t * t) : s = t := by
  rcases mul_self_eq_mul_self_iff.1 h with h | h
  · exact h
  · have : s = 0 := le_antisymm (by rw [h]; exact neg_nonpos.2 ht) hs
    rw [this, zero_eq_neg] at h
    rw [this, h]

/-- C50: a study number with scalar part `a` and rest `n`, where `n² = q`, `s` is the nonnegative root of the study norm
squared `a² - q`, and `a + s > 0`: `square_root` returns a root. -/
theorem C50_square_root (hA : WfAlg A) {rt : Roots R} (hr : RealRoots rt) {fuel : Nat} (hf : 1 ≤ fuel) {x : MV R} (hx : WfMV A x)
    (hs : x.sub.isStudy A = some true) {a q s : R} {n : Cl A R} (hv : val A x = a • 1 + n) (h0 : gradePart A R 0 n = 0)
    (hq : n * n = q • 1) (s0 : 0 ≤ s) (s1 : s * s = a * a - q) (hpos : 0 < a + s) :
    ∃ y, x.squareRoot A rt fuel = .ok y ∧ WfMV A y ∧ val A y * val A y = val A x := by
  obtain ⟨fuel, rfl⟩ : ∃ f, fuel = f + 1 := ⟨fuel - 1, by omega⟩
  have h2 : (2 : R) ≠ 0 := two_ne_zero
  by_cases hd : ∀ b ∈ x.sub.blades, b ≠ 0 → NullBlade A b
  · obtain ⟨hn, ⟨y, c, y1, y2, c0, c1, y3⟩ | ⟨_, ha⟩⟩ := squareRoot_null hA hr fuel hx hs hd hv h0
    all_goals
      have q0 : q = 0 := smul_one_inj (A := A) (by rw [← hq, hn, zero_smul])
      rw [q0, sub_zero] at s1
      have hsa : a = s := by
        rcases mul_self_eq_mul_self_iff.1 s1.symm with h | h
        · exact h
        · rw [h] at hpos; simp at hpos
    · refine ⟨y, y1, y2, ?_⟩
      have hc : c ≠ 0 := by
        rintro rfl
        rw [mul_zero] at c1
        rw [← hsa, ← c1, add_zero] at hpos
        exact lt_irrefl _ hpos
      rw [y3, if_neg hc]
      exact root_square h2 (s := a) hv (hq.trans (by rw [q0])) (by ring) (by rw [c1]; field_simp; ring) hc
    · rw [hsa] at ha; exact absurd s0 (not_le.2 ha)
  · obtain ⟨q', q1, ⟨y, c, t, y1, y2, c0, t0, t1, c1, y3⟩ | ⟨_, ha⟩⟩ := squareRoot_study hA hr fuel hx hs hd hv h0
    all_goals
      have hqq : q' = q := smul_one_inj (A := A) (by rw [← hq, q1])
      subst hqq
    · have hst : t = s := nonneg_root_unique t0 s0 (by rw [t1, s1])
      subst hst
      refine ⟨y, y1, y2, ?_⟩
      have hc : c ≠ 0 := by
        rintro rfl
        rw [mul_zero] at c1
        linarith
      rw [y3, if_neg hc]
      exact root_square h2 (s := t) hv hq (by rw [t1]; ring) c1 hc
    · rcases ha with h | ⟨t, t0, t1, t2⟩
      · rw [← s1] at h; exact absurd (mul_self_nonneg s) (not_le.2 h)
      · obtain rfl := nonneg_root_unique t0 s0 (by rw [t1, s1])
        exact absurd hpos (not_lt.2 t2.le)

/-- C50: there is no result (the computation yields `nan`) if the study norm squared is negative, or if `a + s < 0`. -/
theorem C50_nan (hA : WfAlg A) {rt : Roots R} (hr : RealRoots rt) {fuel : Nat} (hf : 1 ≤ fuel) {x : MV R} (hx : WfMV A x)
    (hs : x.sub.isStudy A = some true) {a q : R} {n : Cl A R} (hv : val A x = a • 1 + n) (h0 : gradePart A R 0 n = 0)
    (hq : n * n = q • 1) (h : a * a - q < 0 ∨ ∃ s, 0 ≤ s ∧ s * s = a * a - q ∧ a + s < 0) :
    x.squareRoot A rt fuel = .error .nan := by
  obtain ⟨fuel, rfl⟩ : ∃ f, fuel = f + 1 := ⟨fuel - 1, by omega⟩
  by_cases hd : ∀ b ∈ x.sub.blades, b ≠ 0 → NullBlade A b
  · exfalso
    have hn := (squareRoot_null hA hr fuel hx hs hd hv h0).1
    have q0 : q = 0 := smul_one_inj (A := A) (by rw [← hq, hn, zero_smul])
    rw [q0, sub_zero] at h
    rcases h with h | ⟨s, s0, s1, s2⟩
    · exact absurd (mul_self_nonneg a) (not_le.2 h)
    · rcases mul_self_eq_mul_self_iff.1 s1 with h | h <;> linarith
  · obtain ⟨q', q1, ⟨y, c, t, y1, y2, c0, t0, t1, c1, y3⟩ | ⟨e, _⟩⟩ := squareRoot_study hA hr fuel hx hs hd hv h0
    · exfalso
      have hqq : q' = q := smul_one_inj (A := A) (by rw [← hq, q1])
      subst hqq
      rcases h with h | ⟨s, s0, s1, s2⟩
      · exact absurd (mul_self_nonneg t) (not_le.2 (t1 ▸ h))
      · obtain rfl := nonneg_root_unique t0 s0 (by rw [t1, s1])
        have := mul_self_nonneg c
        rw [c1] at this
        linarith
    · exact e

/-- C50, the case left out: if `a + s = 0` and some blade other than the scalar has no null vector, `square_root` returns `n`
times the number that replaces infinity.  This squares to zero, not to `x`, unless `a = 0`. -/
theorem C50_silent (hA : WfAlg A) {rt : Roots R} (hr : RealRoots rt) {fuel : Nat} (hf : 1 ≤ fuel) {x : MV R} (hx : WfMV A x)
    (hs : x.sub.isStudy A = some true) (hd : ∃ b ∈ x.sub.blades, b ≠ 0 ∧ ¬ NullBlade A b) {a q s : R} {n : Cl A R}
    (hv : val A x = a • 1 + n) (h0 : gradePart A R 0 n = 0) (hq : n * n = q • 1) (s0 : 0 ≤ s) (s1 : s * s = a * a - q) (hz : a + s = 0) :
    ∃ y, x.squareRoot A rt fuel = .ok y ∧ WfMV A y ∧ val A y = rt.big • n ∧ val A y * val A y = 0 := by
  obtain ⟨fuel, rfl⟩ : ∃ f, fuel = f + 1 := ⟨fuel - 1, by omega⟩
  have hd' : ¬ ∀ b ∈ x.sub.blades, b ≠ 0 → NullBlade A b := by
    obtain ⟨b, b1, b2, b3⟩ := hd
    exact fun h => b3 (h b b1 b2)
  have q0 : q = 0 := by
    have : a = - s := by linarith
    rw [this] at s1
    linear_combination s1
  obtain ⟨q', q1, ⟨y, c, t, y1, y2, c0, t0, t1, c1, y3⟩ | ⟨_, ha⟩⟩ := squareRoot_study hA hr fuel hx hs hd' hv h0
  all_goals
    have hqq : q' = q := smul_one_inj (A := A) (by rw [← hq, q1])
    subst hqq
  · obtain rfl := nonneg_root_unique t0 s0 (by rw [t1, s1])
    rw [hz, zero_div, mul_self_eq_zero] at c1
    rw [c1, if_pos rfl, zero_smul, zero_add] at y3
    refine ⟨y, y1, y2, y3, ?_⟩
    rw [y3, smul_mul_smul_comm, hq, q0, zero_smul, smul_zero]
  · exfalso
    rcases ha with h | ⟨t, t0, t1, t2⟩
    · rw [← s1] at h; exact absurd (mul_self_nonneg s) (not_le.2 h)
    · obtain rfl := nonneg_root_unique t0 s0 (by rw [t1, s1])
      rw [hz] at t2; exact lt_irrefl _ t2

/-- C50: if every blade but the scalar has a null vector, a negative scalar part yields `nan`. -/
theorem C50_nan_null (hA : WfAlg A) {rt : Roots R} (hr : RealRoots rt) {fuel : Nat} (hf : 1 ≤ fuel) {x : MV R} (hx : WfMV A x)
    (hs : x.sub.isStudy A = some true) (hd : ∀ b ∈ x.sub.blades, b ≠ 0 → NullBlade A b) {a : R} {n : Cl A R} (hv : val A x = a • 1 + n)
    (h0 : gradePart A R 0 n = 0) (ha : a < 0) : x.squareRoot A rt fuel = .error .nan := by
  obtain ⟨fuel, rfl⟩ : ∃ f, fuel = f + 1 := ⟨fuel - 1, by omega⟩
  obtain ⟨_, ⟨y, c, _, _, _, c1, _⟩ | ⟨e, _⟩⟩ := squareRoot_null hA hr fuel hx hs hd hv h0
  · exact absurd (mul_self_nonneg c) (not_le.2 (c1 ▸ ha))
  · exact e

/-- C50: other subspaces have no implementation. -/
theorem C50_no_match (hA : WfAlg A) (rt : Roots R) (fuel : Nat) {x : MV R} (hx : WfMV A x) (hs : x.sub.isStudy A = some false) :
    x.squareRoot A rt fuel = .error .noMatch := by
  rcases sqrt_dispatch hA hx.sub with ⟨hsc, _⟩ | ⟨_, hs', _⟩ | ⟨_, hs', _⟩ | ⟨_, _, hm⟩
  · rw [study_of_scalar hA hx.sub hsc] at hs; cases hs
  · rw [hs] at hs'; cases hs'
  · rw [hs] at hs'; cases hs'
  · rw [MV.squareRoot, hm]

/-- The real numbers as a backend. -/
noncomputable def realRoots (big : ℝ) : Roots ℝ := ⟨fun a => if 0 ≤ a then some (Real.sqrt a) else none, fun a => |a|, big⟩
theorem realRoots_law (big : ℝ) : RealRoots (realRoots big) where
  nonneg a ha := ⟨Real.sqrt a, if_pos ha, Real.sqrt_nonneg a, Real.mul_self_sqrt ha⟩
  neg a ha := if_neg (not_le.2 ha)

end C50

/-- Exact roots in the rational numbers, of a few squares. -/
def someRoots : Roots ℚ := ⟨fun a => [0, 1, 2, 3, 4, 5, 1/2, 3/2, 5/2].find? fun r => r * r = a, fun a => |a|, 1000⟩
theorem someRoots_law : RootLaw someRoots := fun a r h => by simpa using List.find?_some h

/-! ## C63 -/
section C63
variable {R : Type} [Field R] [DecidableEq R]

theorem reverse_smul_one (c : R) : CliffordAlgebra.reverse (c • (1 : Cl A R)) = c • 1 := by
  rw [map_smul, CliffordAlgebra.reverse.map_one]

theorem reverse_norm (x : Cl A R) : CliffordAlgebra.reverse (x * CliffordAlgebra.reverse x) = x * CliffordAlgebra.reverse x := by
  rw [CliffordAlgebra.reverse.map_mul, CliffordAlgebra.reverse_reverse]

/-- The inverse of an element that is its own reverse is its own reverse. -/
theorem reverse_inverse {q i : Cl A R} (h1 : q * i = 1) (h2 : i * q = 1) (hq : CliffordAlgebra.reverse q = q) : CliffordAlgebra.reverse i = i := by
  have e := congrArg CliffordAlgebra.reverse h1
  rw [CliffordAlgebra.reverse.map_mul, CliffordAlgebra.reverse.map_one, hq] at e
  rw [← mul_one (CliffordAlgebra.reverse i), ← h1, ← mul_assoc, e, one_mul]

/-- C63: whatever `normalized` returns satisfies `y ~y = ~y y = 1`, in every dimension and signature. -/
theorem C63_normalized (hA : WfAlg A) (h2 : (2 : R) ≠ 0) {rt : Roots R} (hr : RootLaw rt) {fuel : Nat} (hf : 2 ≤ fuel) {x y : MV R}
    (hx : WfMV A x) (h : x.normalized A rt fuel = .ok y) :
    WfMV A y ∧ val A y * CliffordAlgebra.reverse (val A y) = 1 ∧ CliffordAlgebra.reverse (val A y) * val A y = 1 := by
  obtain ⟨fuel, rfl⟩ : ∃ f, fuel = f + 2 := ⟨fuel - 2, by omega⟩
  obtain ⟨hy, q, i, u, v, q1, q2, q3, q4, q5⟩ := normalized_spec hA h2 hr fuel hx h
  have hq : CliffordAlgebra.reverse q = q := by rw [q3, map_add, reverse_smul_one, map_smul, reverse_norm]
  have e : val A y * CliffordAlgebra.reverse (val A y) = 1 := by
    rw [q5, CliffordAlgebra.reverse.map_mul, reverse_inverse q1 q2 hq, mul_assoc, ← mul_assoc (val A x), ← q4, mul_assoc q, q1, mul_one, q2]
  exact ⟨hy, e, mul_eq_one_comm.1 e⟩

/-- `normalized` keeps the ray: the result is the argument times an element that commutes with the norm squared and is its own
reverse. -/
theorem C63_direction (hA : WfAlg A) (h2 : (2 : R) ≠ 0) {rt : Roots R} (hr : RootLaw rt) {fuel : Nat} (hf : 2 ≤ fuel) {x y : MV R}
    (hx : WfMV A x) (h : x.normalized A rt fuel = .ok y) :
    ∃ q : Cl A R, q * q = val A x * CliffordAlgebra.reverse (val A x) ∧ CliffordAlgebra.reverse q = q ∧ q * val A y = val A x := by
  obtain ⟨fuel, rfl⟩ : ∃ f, fuel = f + 2 := ⟨fuel - 2, by omega⟩
  obtain ⟨hy, q, i, u, v, q1, q2, q3, q4, q5⟩ := normalized_spec hA h2 hr fuel hx h
  exact ⟨q, q4, by rw [q3, map_add, reverse_smul_one, map_smul, reverse_norm], by rw [q5, ← mul_assoc, q1, one_mul]⟩

/-! ## C51 -/

theorem require_ok {α : Type} {c : Option Bool} {r : Except Fail α} {y : α} (h : require c r = .ok y) : c = some true ∧ r = .ok y := by
  unfold require at h
  split at h
  · exact ⟨rfl, h⟩
  · cases h
  · cases h

/-- The computation behind both theorems: `y` is `(1 + m) l` divided by the root of `(1 + m) ~(1 + m)`. -/
theorem mean_square {m q i l y : Cl A R} {u v : R} (h1 : m * CliffordAlgebra.reverse m = 1) (h1' : CliffordAlgebra.reverse m * m = 1)
    (q1 : q * i = 1) (q2 : i * q = 1) (q3 : q = u • 1 + v • ((1 + m) * CliffordAlgebra.reverse (1 + m)))
    (q4 : q * q = (1 + m) * CliffordAlgebra.reverse (1 + m)) (hy : y = i * ((1 + m) * l)) (hl : l * CliffordAlgebra.reverse l = 1)
    (hl' : CliffordAlgebra.reverse l * l = 1) : y * CliffordAlgebra.reverse l * y = m * l := by
  set r := CliffordAlgebra.reverse m with hr
  have e1 : CliffordAlgebra.reverse (1 + m) = 1 + r := by rw [map_add, CliffordAlgebra.reverse.map_one]
  rw [e1] at q3 q4
  have hs : (1 + m) * (1 + r) = 2 + m + r := by rw [mul_add, add_mul, add_mul, h1]; simp; rw [← one_add_one_eq_two]; abel
  rw [hs] at q3 q4
  have hc : m * q = q * m := by
    rw [q3, mul_add, add_mul, mul_smul_comm, smul_mul_assoc, mul_one, one_mul, mul_smul_comm, smul_mul_assoc]
    congr 2
    rw [mul_add, mul_add, add_mul, add_mul, h1, h1', mul_two, two_mul]
  have hci : m * i = i * m := by
    calc m * i = (i * q) * (m * i) := by rw [q2, one_mul]
      _ = i * (q * m) * i := by noncomm_ring
      _ = i * (m * q) * i := by rw [hc]
      _ = i * m * (q * i) := by noncomm_ring
      _ = i * m := by rw [q1, mul_one]
  have hsq : (1 + m) * (1 + m) = m * (q * q) := by
    rw [q4, mul_add m, h1]
    noncomm_ring
  have hci' : (1 + m) * i = i * (1 + m) := by rw [add_mul, mul_add, one_mul, mul_one, hci]
  calc y * CliffordAlgebra.reverse l * y = i * (1 + m) * (l * CliffordAlgebra.reverse l) * (i * (1 + m)) * l := by rw [hy]; simp only [mul_assoc, mul_one, one_mul]
    _ = i * ((1 + m) * i) * (1 + m) * l := by rw [hl]; simp only [mul_assoc, mul_one, one_mul]
    _ = i * i * ((1 + m) * (1 + m)) * l := by rw [hci']; simp only [mul_assoc, mul_one, one_mul]
    _ = i * (i * m) * q * q * l := by rw [hsq]; simp only [mul_assoc, mul_one, one_mul]
    _ = i * (m * i) * q * q * l := by rw [hci]
    _ = i * m * (i * q) * q * l := by simp only [mul_assoc]
    _ = (i * m) * q * l := by rw [q2]; simp only [mul_assoc, mul_one, one_mul]
    _ = m * (i * q) * l := by rw [← hci]; simp only [mul_assoc, mul_one, one_mul]
    _ = m * l := by rw [q2, mul_one]

/-- C51: whatever `motor_square_root` returns for an even element with `m ~m = 1` is a root of `m`, and normalised. -/
theorem C51_square_root (hA : WfAlg A) (h2 : (2 : R) ≠ 0) {rt : Roots R} (hr : RootLaw rt) {fuel : Nat} (hf : 2 ≤ fuel) {m y : MV R}
    (hm : WfMV A m) (h1 : val A m * CliffordAlgebra.reverse (val A m) = 1) (h : m.motorSquareRoot A rt fuel = .ok y) :
    WfMV A y ∧ val A y * val A y = val A m ∧ val A y * CliffordAlgebra.reverse (val A y) = 1 := by
  obtain ⟨_, h⟩ := require_ok h
  obtain ⟨x, x1, x2, x3⟩ := (C44_numbers hA hm 1).1
  rw [x1] at h
  simp only [lift_some, bind, Except.bind] at h
  rw [map_one, add_comm] at x3
  obtain ⟨c1, c2, _⟩ := C63_normalized hA h2 hr hf x2 h
  obtain ⟨fuel, rfl⟩ : ∃ f, fuel = f + 2 := ⟨fuel - 2, by omega⟩
  obtain ⟨hy, q, i, u, v, q1, q2, q3, q4, q5⟩ := normalized_spec hA h2 hr fuel x2 h
  rw [x3] at q3 q4 q5
  refine ⟨c1, ?_, c2⟩
  have := mean_square (l := 1) (y := val A y) h1 (mul_eq_one_comm.1 h1) q1 q2 q3 q4 (by rw [q5, mul_one]) (by rw [CliffordAlgebra.reverse.map_one, one_mul])
    (by rw [CliffordAlgebra.reverse.map_one, one_mul])
  rwa [CliffordAlgebra.reverse.map_one, mul_one, mul_one] at this

/-- C51: whatever `motor_geometric_mean` returns for even elements with `l ~l = 1` and `r ~r = 1` is half way from `l` to `r`:
the step from `l` to the mean, done twice, leads to `r`. -/
theorem C51_geometric_mean (hA : WfAlg A) (h2 : (2 : R) ≠ 0) {rt : Roots R} (hr : RootLaw rt) {fuel : Nat} (hf : 2 ≤ fuel) {l r y : MV R}
    (wl : WfMV A l) (wr : WfMV A r) (hl : val A l * CliffordAlgebra.reverse (val A l) = 1)
    (hr1 : val A r * CliffordAlgebra.reverse (val A r) = 1) (h : l.motorGeometricMean A rt fuel r = .ok y) :
    WfMV A y ∧ val A y * CliffordAlgebra.reverse (val A l) * val A y = val A r ∧ val A y * CliffordAlgebra.reverse (val A y) = 1 := by
  obtain ⟨_, h⟩ := require_ok h
  obtain ⟨_, _, x, x1, _, x2, x3⟩ := combine_gives hA wl wr (1 : R)
  have e : l.add A (.mv r) = some x := by rw [MV.add, MV.upcast]; simpa using x1
  rw [e] at h
  simp only [lift_some, bind, Except.bind] at h
  obtain ⟨c1, c2, _⟩ := C63_normalized hA h2 hr hf x2 h
  obtain ⟨fuel, rfl⟩ : ∃ f, fuel = f + 2 := ⟨fuel - 2, by omega⟩
  obtain ⟨hy, q, i, u, v, q1, q2, q3, q4, q5⟩ := normalized_spec hA h2 hr fuel x2 h
  have hl' := mul_eq_one_comm.1 hl
  have hr1' := mul_eq_one_comm.1 hr1
  set L := val A l
  set P := val A r
  have hx : val A x = (1 + P * CliffordAlgebra.reverse L) * L := by rw [x3, one_smul, add_mul, one_mul, mul_assoc, hl', mul_one]
  have hn : val A x * CliffordAlgebra.reverse (val A x) =
      (1 + P * CliffordAlgebra.reverse L) * CliffordAlgebra.reverse (1 + P * CliffordAlgebra.reverse L) := by
    rw [hx, CliffordAlgebra.reverse.map_mul, ← mul_assoc, mul_assoc _ L, hl, mul_one]
  rw [hn] at q3 q4
  rw [hx] at q5
  refine ⟨c1, ?_, c2⟩
  have hM : P * CliffordAlgebra.reverse L * CliffordAlgebra.reverse (P * CliffordAlgebra.reverse L) = 1 := by
    rw [CliffordAlgebra.reverse.map_mul, CliffordAlgebra.reverse_reverse, ← mul_assoc, mul_assoc P, hl', mul_one, hr1]
  rw [mean_square hM (mul_eq_one_comm.1 hM) q1 q2 q3 q4 q5 hl hl', mul_assoc, hl', mul_one]

/-! ### when there is a result -/

/-- The subspace of `x ~x` consists of study numbers: for every `x` in dimension at most four, and for even and odd `x` in
dimension five. -/
theorem norm_study (hA : WfAlg A) {S : SubSpace} (hS : WfSub A S)
    (h : A.n ≤ 4 ∨ A.n ≤ 5 ∧ ∃ p, ∀ b ∈ S.blades, popcount b % 2 = p) :
    ∃ T, S.symmetricReverse A = some T ∧ WfSub A T ∧ T.isStudy A = some true := by
  obtain ⟨T, t1, t2, t3⟩ := symmetricReverse_sub hA hS
  refine ⟨T, t1, t2, ?_⟩
  have key : ∀ a ∈ T.blades, ∀ c ∈ T.blades, pairSign A.n sgnSN a c ≠ 0 → a ^^^ c ∈ (⟨[0]⟩ : SubSpace).blades := by
    intro a ha c hc hs
    rw [List.mem_singleton]
    rcases h with h4 | ⟨h5, p, hp⟩
    · exact pair_sn4 A.n h4 a (t2.lt a ha) c (t2.lt c hc) ⟨t3 a ha, t3 c hc, hs⟩
    · obtain ⟨U, _, u2, u3⟩ := (C14_named hA).2.2.2.2.2.2.2.2.2.2.2.2.1
      obtain ⟨T', t1', _, t3'⟩ := rev_sub hA hS u2 (by
        intro a ha c hc _
        have la := hS.lt a ha
        have lc := hS.lt c hc
        rw [u3]
        refine ⟨xor_lt la lc, ?_⟩
        have h1 := hp a ha
        have h2 := hp c hc
        have := popcount_xor a c
        change popcount (a ^^^ c) % 2 = 0
        omega)
      rw [t1, Option.some_inj] at t1'
      subst t1'
      have hm : ∀ b ∈ T.blades, pc A.n b % 4 = 0 := by
        intro b hb
        have h1 : popcount b % 2 = 0 := ((u3 b).1 (t3' b hb)).2
        rw [popcount_of_lt hA.le32 (t2.lt b hb)] at h1
        have := t3 b hb
        omega
      exact pair_sn5 A.n h5 a (t2.lt a ha) c (t2.lt c hc) ⟨hm a ha, hm c hc, hs⟩
  obtain ⟨V, v1, v2, v3⟩ := sn_sub hA t2 (wf_scalar (A := A)) key
  rw [SubSpace.isStudy, SubSpace.isScalarNegationSimple, v1]
  exact nsimple_scalar hA 0 v2 v3

end C63

section exists_
variable {R : Type} [Field R] [LinearOrder R] [IsStrictOrderedRing R]

/-- C63: `normalized` has a result if `x ~x` is stored in study numbers, has scalar part `a` and rest `n` with `n² = q`, and
both `a² - q` and `a + √(a² - q)` are positive. -/
theorem C63_exists (hA : WfAlg A) {rt : Roots R} (hr : RealRoots rt) {fuel : Nat} (hf : 2 ≤ fuel) {x : MV R} (hx : WfMV A x) {T : SubSpace}
    (hT : x.sub.symmetricReverse A = some T) (hs : T.isStudy A = some true) {a q s : R} {n : Cl A R}
    (hv : val A x * CliffordAlgebra.reverse (val A x) = a • 1 + n) (h0 : gradePart A R 0 n = 0)
    (hq : n * n = q • 1) (s0 : 0 < s) (s1 : s * s = a * a - q) (hpos : 0 < a + s) :
    ∃ y, x.normalized A rt fuel = .ok y := by
  obtain ⟨fuel, rfl⟩ : ∃ f, fuel = f + 2 := ⟨fuel - 2, by omega⟩
  have h2 : (2 : R) ≠ 0 := two_ne_zero
  obtain ⟨z, z1, z2, z3, z4⟩ := symmetricReverse_in hA hx hT
  have e0 : equalsEmpty A T = some (T == ⟨[]⟩) := by rw [equalsEmpty, empty_eq hA]; rfl
  have e1 : equalsScalar A T = some (T == ⟨[0]⟩) := by rw [equalsScalar, (scalar_eq hA).1]; rfl
  have hN : a * a - q ≠ 0 := by rw [← s1]; exact (mul_pos s0 s0).ne'
  have fin : ∀ {s : MV R}, WfMV A s → ∃ y, lift (s.mul A (.mv x)) = .ok y := by
    intro s hs
    obtain ⟨w, w1, w2, w3⟩ := product_gives hA hs hx
    exact ⟨w, by rw [MV.mul, MV.upcast]; simp [w1, lift_some]⟩
  have hzv : val A z = a • 1 + n := z4.trans hv
  have empty_or : SubOf T ⟨[0]⟩ → n = 0 ∧ q = 0 ∧ 0 < a := by
    intro h
    obtain ⟨c, _, c2⟩ := Sc.of' z3 (z2 ▸ h)
    have : c = a := scalar_part_eq hA hzv h0 (by rw [c2, gradePart_zero_scalar hA])
    subst this
    have hn : n = 0 := by rw [c2] at hzv; simpa using hzv
    have q0 : q = 0 := smul_one_inj (A := A) (by rw [← hq, hn, zero_smul, mul_zero])
    refine ⟨hn, q0, ?_⟩
    rw [q0, sub_zero] at s1
    rcases mul_self_eq_mul_self_iff.1 s1 with h | h <;> linarith
  rw [MV.normalized]
  simp only [normOptions, Dispatch.matchLoop, hT, Option.bind_eq_bind, Option.bind_some, e0, e1]
  cases c0 : T == ⟨[]⟩ with
  | true =>
    exfalso
    obtain ⟨hn, _, ha⟩ := empty_or (by rw [beq_iff_eq.1 c0]; simp [SubOf])
    rw [hn, add_zero, val_empty (z2.trans (beq_iff_eq.1 c0)), ← zero_smul R (1 : Cl A R)] at hzv
    exact ha.ne (smul_one_inj hzv)
  | false =>
  cases c1 : T == ⟨[0]⟩ with
  | true =>
    simp only [z1, lift_some, bind, Except.bind]
    obtain ⟨hn, _, ha⟩ := empty_or (by rw [beq_iff_eq.1 c1]; exact fun _ h => h)
    obtain ⟨c, c2, c3⟩ := val_scalar z3 (z2.trans (beq_iff_eq.1 c1))
    rw [hzv, hn, add_zero] at c3
    obtain rfl := smul_one_inj c3
    obtain ⟨r, r1, _⟩ := hr.nonneg a ha.le
    rw [MV.inverseSquareRoot, (scalar_eq hA).1]
    simp only [lift_some, bind, Except.bind]
    rw [if_pos (z2.trans (beq_iff_eq.1 c1)), c2]
    simp only [List.mapM_cons, List.mapM_nil, bind, Except.bind, pure, Except.pure, MV.invSqrtVal, r1]
    rw [if_neg ha.ne']
    have e : z.copy [1 / r] = some ⟨⟨[0]⟩, [1 / r]⟩ := by
      rw [MV.copy, MV.construct, z2, beq_iff_eq.1 c1, if_pos (by simp)]
    simp only [e, lift_some]
    exact fin (s := ⟨⟨[0]⟩, [1 / r]⟩) ⟨wf_scalar, rfl⟩
  | false =>
    rw [hs]
    simp only [z1, lift_some, bind, Except.bind]
    obtain ⟨w, w1, w2, w3⟩ := C50_square_root hA hr (fuel := fuel + 2) (by omega) z3 (z2 ▸ hs) hzv h0 hq s0.le s1 hpos
    rw [w1]
    simp only
    obtain ⟨_, hsub, _⟩ := squareRoot_spec hA h2 hr.law (fuel + 1) z3 w1
    have hst := study_mono hA z3.sub w2.sub (z2 ▸ hs) hsub
    have hu : IsUnit (val A w) := by
      have e : val A w * (val A w * (((a * a - q)⁻¹) • (a • 1 - n))) = 1 := by
        rw [← mul_assoc, w3, hzv, mul_smul_comm, add_mul, mul_sub, mul_sub, hq]
        simp only [mul_smul_comm, smul_mul_assoc, mul_one, one_mul, smul_smul]
        rw [show (a * a) • (1 : Cl A R) - a • n + (a • n - q • 1) = (a * a - q) • 1 by module, smul_smul, inv_mul_cancel₀ hN, one_smul]
      exact ⟨⟨_, _, e, mul_eq_one_comm.1 e⟩, rfl⟩
    obtain ⟨i, i1⟩ := inverse_ok1 hA (fuel + 1) w2 (nsimple_study hA w2.sub hst) hu
    rcases inverse_works1 hA fuel w2 (nsimple_study hA w2.sub hst) with ⟨i', i1', i2, _⟩ | hd
    · rw [i1']
      exact fin i2
    · rw [hd] at i1; cases i1

/-- C51: `motor_square_root` has a result, in dimension below six, if the norm squared of `1 + m` has scalar part `a` and rest
`n` with `n² = q`, and both `a² - q` and `a + √(a² - q)` are positive. -/
theorem C51_exists (hA : WfAlg A) (h5 : A.n < 6) {rt : Roots R} (hr : RealRoots rt) {fuel : Nat} (hf : 2 ≤ fuel) {m : MV R} (hm : WfMV A m)
    (he : ∀ b ∈ m.sub.blades, popcount b % 2 = 0) {a q s : R} {n : Cl A R}
    (hv : (val A m + 1) * CliffordAlgebra.reverse (val A m + 1) = a • 1 + n) (h0 : gradePart A R 0 n = 0)
    (hq : n * n = q • 1) (s0 : 0 < s) (s1 : s * s = a * a - q) (hpos : 0 < a + s) :
    ∃ y, m.motorSquareRoot A rt fuel = .ok y := by
  obtain ⟨E, E1, E2, E3⟩ := (C14_named hA).2.2.2.2.2.2.2.2.2.2.2.2.1
  have hin : insideEven A m.sub = some true := by
    rw [insideEven, E1, Option.bind_eq_bind, Option.bind_some, Option.some_inj, contains_iff]
    exact fun b hb => (E3 b).2 ⟨hm.sub.lt b hb, he b hb⟩
  obtain ⟨u, u1, u2, u3⟩ := upcast_gives hA (1 : R)
  obtain ⟨U, U1, x, x1, x2, x3, x4⟩ := combine_gives hA hm u2 (1 : R)
  have hus : u.sub = ⟨[0]⟩ := by rw [upcast_num hA] at u1; cases u1; rfl
  have e : m.add A (.num 1) = some x := by rw [MV.add, u1]; exact x1
  rw [u3, map_one, one_smul] at x4
  have hxe : ∀ b ∈ x.sub.blades, popcount b % 2 = 0 := by
    obtain ⟨V, v1, v2, v3⟩ := union_spec hA hm.sub u2.sub
    cases U1.symm.trans v1
    intro b hb
    rw [x2, v3, hus] at hb
    rcases hb.2 with h | h
    · exact he b h
    · rw [List.mem_singleton.1 h]; rfl
  obtain ⟨T, t1, _, t3⟩ := norm_study hA x3.sub (Or.inr ⟨by omega, 0, hxe⟩)
  obtain ⟨y, hy⟩ := C63_exists hA hr hf x3 t1 t3 (by rw [x4]; exact hv) h0 hq s0 s1 hpos
  refine ⟨y, ?_⟩
  rw [MV.motorSquareRoot, hin]
  simp only [require, e, lift_some, bind, Except.bind, hy]

end exists_

/-! ### examples -/

theorem val_two {A : Alg} {R : Type} [CommRing R] (b : Nat) (u v : R) : val A (⟨⟨[0, b]⟩, [u, v]⟩ : MV R) = u • 1 + v • blade A R b := by
  simp [val, denote, blade_zero]

theorem blade3_sq (v : ℝ) : (v • blade euc2 ℝ 3) * (v • blade euc2 ℝ 3) = (- (v * v)) • (1 : Cl euc2 ℝ) := by
  rw [smul_mul_smul_comm, blade_mul wf_euc2, show sgn euc2 3 3 = -1 by decide +kernel, Nat.xor_self, blade_zero]
  simp

theorem blade3_scalar (v : ℝ) : gradePart euc2 ℝ 0 (v • blade euc2 ℝ 3) = 0 := by
  rw [map_smul, gradePart_blade _ (by decide), if_neg (by decide), smul_zero]

/-- `3 + 4 e12` meets the hypotheses of `C50_square_root`: `a = 3`, `q = -16`, `s = 5`. -/
example : ∃ y, (⟨⟨[0, 3]⟩, [3, 4]⟩ : MV ℝ).squareRoot euc2 (realRoots 1000) 1 = .ok y ∧ WfMV euc2 y ∧
    val euc2 y * val euc2 y = val euc2 (⟨⟨[0, 3]⟩, [3, 4]⟩ : MV ℝ) :=
  C50_square_root wf_euc2 (realRoots_law _) (le_refl _) ⟨wfSub_of_B (by decide +kernel), rfl⟩ (by decide +kernel) (val_two 3 3 4)
    (blade3_scalar 4) (blade3_sq 4) (s := 5) (by norm_num) (by norm_num) (by norm_num)
example : (⟨⟨[0, 3]⟩, [3, 4]⟩ : MV ℚ).squareRoot euc2 someRoots 1 = .ok ⟨⟨[0, 3]⟩, [2, 1]⟩ := by decide +kernel

/-- `-1` stored in `{1, e12}`: the result is zero, without a sign that there is no root of this form. -/
example : ∃ y, (⟨⟨[0, 3]⟩, [-1, 0]⟩ : MV ℝ).squareRoot euc2 (realRoots 1000) 1 = .ok y ∧ WfMV euc2 y ∧
    val euc2 y = (realRoots 1000).big • ((0 : ℝ) • blade euc2 ℝ 3) ∧ val euc2 y * val euc2 y = 0 :=
  C50_silent wf_euc2 (realRoots_law _) (le_refl _) ⟨wfSub_of_B (by decide +kernel), rfl⟩ (by decide +kernel)
    ⟨3, by simp, by decide, by unfold NullBlade; decide +kernel⟩ (val_two 3 (-1) 0)
    (blade3_scalar 0) (blade3_sq 0) (s := 1) (by norm_num) (by norm_num) (by norm_num)
example : (⟨⟨[0, 3]⟩, [-1, 0]⟩ : MV ℚ).squareRoot euc2 someRoots 1 = .ok ⟨⟨[0, 3]⟩, [0, 0]⟩ := by decide +kernel
/-- `-1` stored in the scalars. -/
example : (⟨⟨[0]⟩, [-1]⟩ : MV ℚ).squareRoot euc2 someRoots 1 = .error .nan := by decide +kernel
/-- Degenerate study numbers: the root of `4 + 6 e01` in plane-based algebra. -/
example : (⟨⟨[0, 3]⟩, [4, 6]⟩ : MV ℚ).squareRoot pga3 someRoots 1 = .ok ⟨⟨[0, 3]⟩, [2, 3/2]⟩ ∧
    (⟨[0, 3]⟩ : SubSpace).isStudy pga3 = some true ∧ NullBlade pga3 3 := ⟨by decide +kernel, by decide +kernel, 0, by decide +kernel⟩
/-- No implementation. -/
example : (⟨⟨[3, 12]⟩, [1, 1]⟩ : MV ℚ).squareRoot pga3 someRoots 1 = .error .noMatch ∧ (⟨[3, 12]⟩ : SubSpace).isStudy pga3 = some false := by
  decide +kernel

/-- A rotor: `-7/25 + 24/25 e12` has the root `3/5 + 4/5 e12`; a normalised element. -/
def rootsR : Roots ℚ := ⟨fun a => [0, 1, 3/5, 4/5, 6/5].find? fun r => r * r = a, fun a => |a|, 1000⟩
theorem rootsR_law : RootLaw rootsR := fun a r h => by simpa using List.find?_some h
example : (⟨⟨[0, 3]⟩, [-7/25, 24/25]⟩ : MV ℚ).motorSquareRoot euc2 rootsR 2 = .ok ⟨⟨[0, 3]⟩, [3/5, 4/5]⟩ ∧
    (⟨⟨[0, 3]⟩, [-7/25, 24/25]⟩ : MV ℚ).symmetricReverse euc2 = some ⟨⟨[0]⟩, [1]⟩ := by decide +kernel
example : (⟨⟨[0, 3]⟩, [3, 4]⟩ : MV ℚ).normalized euc2 someRoots 2 = .ok ⟨⟨[0, 3]⟩, [3/5, 4/5]⟩ := by decide +kernel
/-- A translator and the identity: half the translation. -/
example : (⟨⟨[0, 3]⟩, [1, 6]⟩ : MV ℚ).motorGeometricMean pga3 someRoots 2 ⟨⟨[0]⟩, [1]⟩ = .ok ⟨⟨[0, 3]⟩, [1, 3]⟩ := by decide +kernel

end Verif.Props
