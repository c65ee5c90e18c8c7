import Verif.Proofs.Shirokov
import Verif.Proofs.Inverse3
import Verif.Props.InverseLimits
/-! # The recursion of `inverse_shirokov` in the Clifford algebra, and its model -/
namespace Verif
open Model Spec Model.Factory Props Finset
open Shirokov (mulc T U)

section
variable (A : Alg) {R : Type} [CommRing R]

theorem cl_eq_T (x : Cl A R) : x = T (genN A R) A.n (fun b => coef A R b x) := by
  conv_lhs => rw [sum_coef A R x]
  simp only [T, blade_eq_P]

theorem coef_T (f : ℕ → R) {c : ℕ} (hc : c < 2 ^ A.n) : coef A R c (T (genN A R) A.n f) = f c := by
  rw [T, map_sum, Finset.sum_eq_single c]
  · rw [map_smul, ← blade_eq_P, coef_blade _ _ hc]; simp
  · intro b hb hne
    rw [map_smul, ← blade_eq_P, coef_blade _ _ (by simpa using hb)]
    simp [hne.symm]
  · intro h; simp [hc] at h

theorem coef_mul (x y : Cl A R) {c : ℕ} (hc : c < 2 ^ A.n) :
    coef A R c (x * y) = mulc A.n (metric A R) (fun b => coef A R b x) (fun b => coef A R b y) c := by
  conv_lhs => rw [cl_eq_T A x, cl_eq_T A y]
  rw [Shirokov.T_mul (genN A R) A.n (metric A R), coef_T A _ hc]
  · intro i hi; simp only [genN, hi, dif_pos]; exact gen_sq A R ⟨i, hi⟩
  · intro i hi j hj hij; simp only [genN, hi, hj, dif_pos]; exact gen_anti A R _ _ (by simpa using hij)

theorem mulc_congr (n : ℕ) (m : ℕ → R) {f f' g g' : ℕ → R} (hf : ∀ b < 2 ^ n, f b = f' b) (hg : ∀ b < 2 ^ n, g b = g' b) {c : ℕ}
    (hc : c < 2 ^ n) : mulc n m f g c = mulc n m f' g' c := by
  unfold mulc
  refine Finset.sum_congr rfl fun a ha => ?_
  have ha := Finset.mem_range.1 ha
  rw [hf a ha, hg _ (xor_lt ha hc)]

end

section
variable (A : Alg) {R : Type} [Field R]

/-- The sequence of `u` in `inverse_shirokov`. -/
noncomputable def ucl (N : ℕ) (x : Cl A R) : ℕ → Cl A R
  | 0 => x
  | k + 1 => x * (ucl N x k - ((N : R) / ((k + 1 : ℕ) : R) * coef A R 0 (ucl N x k)) • 1)

variable [CharZero R]

theorem coef_ucl (N : ℕ) (x : Cl A R) (k : ℕ) {b : ℕ} (hb : b < 2 ^ A.n) :
    coef A R b (ucl A N x k) = U N A.n (metric A R) (fun b => coef A R b x) k b := by
  induction k generalizing b with
  | zero => rfl
  | succ k ih =>
    rw [ucl, coef_mul A _ _ hb, U]
    refine mulc_congr _ _ (fun _ _ => rfl) (fun b hb => ?_) hb
    rw [map_sub, ih hb, map_smul, ← blade_zero, coef_blade _ _ (by simp), ih (by simp)]
    simp only [map_div₀, map_natCast, map_add, map_one, Nat.cast_add, Nat.cast_one]
    by_cases h : b = 0 <;> simp [h]

theorem ucl_last {h : ℕ} (hn : A.n ≤ 2 * h) (h1 : 1 ≤ h) (x : Cl A R) :
    ucl A (2 ^ h) x (2 ^ h - 1) = coef A R 0 (ucl A (2 ^ h) x (2 ^ h - 1)) • 1 := by
  apply ext_coef
  intro b hb
  rw [map_smul, ← blade_zero, coef_blade _ _ (by simp)]
  by_cases h0 : b = 0
  · subst h0; simp
  · rw [if_neg h0, smul_zero, coef_ucl A _ _ _ hb]
    exact Shirokov.last_scalar _ _ hn h1 _ _ _ (by omega) hb

/-- The final scalar. -/
noncomputable def fin (h : ℕ) (x : Cl A R) : R := coef A R 0 (ucl A (2 ^ h) x (2 ^ h - 1))

theorem U_congr (N n : ℕ) (m : ℕ → R) {f g : ℕ → R} (hf : ∀ b < 2 ^ n, f b = g b) (k : ℕ) {b : ℕ} (hb : b < 2 ^ n) :
    U N n m f k b = U N n m g k b := by
  induction k generalizing b with
  | zero => exact hf b hb
  | succ k ih =>
    rw [U, U]
    refine mulc_congr _ _ hf (fun b hb => ?_) hb
    rw [ih hb, ih (b := 0) (by simp)]

theorem fin_mul {h : ℕ} (hn : A.n ≤ 2 * h) (h1 : 1 ≤ h) (x y : Cl A R) : fin A h (x * y) = -(fin A h x * fin A h y) := by
  simp only [fin]
  rw [coef_ucl A _ _ _ (by simp), coef_ucl A _ _ _ (by simp), coef_ucl A _ _ _ (by simp), ← Shirokov.last_mul _ _ hn h1]
  exact U_congr _ _ _ (fun b hb => coef_mul A x y hb) _ (by simp)

theorem ucl_one (N k : ℕ) (hk : k < N) : ∃ c : R, c ≠ 0 ∧ ucl A N (1 : Cl A R) k = c • 1 := by
  induction k with
  | zero => exact ⟨1, one_ne_zero, by rw [ucl, one_smul]⟩
  | succ k ih =>
    obtain ⟨c, hc, e⟩ := ih (by omega)
    refine ⟨c - (N : R) / ((k + 1 : ℕ) : R) * c, ?_, ?_⟩
    · have h0 : ((k + 1 : ℕ) : R) ≠ 0 := Nat.cast_ne_zero.2 (by omega)
      have h1 : (N : R) ≠ ((k + 1 : ℕ) : R) := fun h => by have := Nat.cast_injective h; omega
      intro h
      have : c * (((k + 1 : ℕ) : R) - N) = 0 := by
        have h2 := congrArg (· * ((k + 1 : ℕ) : R)) h
        simp only [sub_mul, zero_mul] at h2
        rw [mul_assoc, mul_comm c, ← mul_assoc, div_mul_cancel₀ _ h0] at h2
        rw [mul_sub]; rw [mul_comm c, mul_comm c]; exact h2
      rcases mul_eq_zero.1 this with h | h
      · exact hc h
      · exact h1 (sub_eq_zero.1 h).symm
    · have h0 : coef A R 0 (c • (1 : Cl A R)) = c := by
        rw [map_smul, ← blade_zero, coef_blade _ _ (by simp)]; simp
      rw [ucl, one_mul, e, h0, sub_smul]

/-- The final scalar of one is minus one. -/
theorem fin_one {h : ℕ} (hn : A.n ≤ 2 * h) (h1 : 1 ≤ h) : fin A h (1 : Cl A R) = -1 := by
  have h2 := fin_mul A hn h1 (1 : Cl A R) 1
  rw [mul_one] at h2
  obtain ⟨c, hc, e⟩ := ucl_one A (R := R) (2 ^ h) (2 ^ h - 1) (by have := Nat.one_le_two_pow (n := h); omega)
  have h3 : fin A h (1 : Cl A R) = c := by
    rw [fin, e, map_smul, ← blade_zero, coef_blade _ _ (by simp)]; simp
  rw [h3] at h2 ⊢
  have : c * (c + 1) = 0 := by linear_combination h2
  rcases mul_eq_zero.1 this with h | h
  · exact absurd h hc
  · exact eq_neg_of_add_eq_zero_left h

theorem fin_unit {h : ℕ} (hn : A.n ≤ 2 * h) (h1 : 1 ≤ h) {x : Cl A R} (hx : IsUnit x) : fin A h x ≠ 0 := by
  obtain ⟨u, rfl⟩ := hx
  intro h0
  have := fin_mul A hn h1 (u : Cl A R) ((u⁻¹ : (Cl A R)ˣ) : Cl A R)
  rw [Units.mul_inv, fin_one A hn h1, h0] at this
  simp at this

end

section
variable {A : Alg} {R : Type} [Field R] [DecidableEq R]

omit [DecidableEq R] in
theorem val_of_coeff {z x : MV R} (hA : WfAlg A) (hz : WfMV A z) (hx : WfMV A x)
    (h : ∀ b, coeff z b = if popcount b ∈ [0] then coeff x b else 0) : val A z = coef A R 0 (val A x) • 1 := by
  apply ext_coef
  intro b hb
  rw [← coeff_eq hz, h, map_smul, ← blade_zero, coef_blade _ _ (by simp), coeff_eq hx]
  by_cases h0 : b = 0
  · subst h0; simp [show popcount 0 = 0 by decide]
  · simp [h0, popcount_eq_zero hA.le32 hb]

/-- One step of the loop. -/
theorem shirokov_step (hA : WfAlg A) {a u : MV R} (ha : WfMV A a) (hu : WfMV A u) (q : R) :
    ∃ s c d u', u.selectGrades A [0] = some s ∧ s.rmul A (.num q) = some c ∧ u.sub' A (.mv c) = some d ∧ a.product A d = some u' ∧
      WfMV A d ∧ WfMV A u' ∧ val A d = val A u - (q * coef A R 0 (val A u)) • 1 ∧ val A u' = val A a * val A d := by
  have hg : List.Forall₂ (IsGrade A.n) [0] [0] := .cons ⟨by omega, Or.inl rfl⟩ .nil
  obtain ⟨⟨s, s1, _, s3, s4⟩, _⟩ := C25_grades hA hu hg (by simp) (by simp)
  obtain ⟨_, _, _, _, ⟨c, c1, c2, c3⟩⟩ := C44_numbers hA s3 q
  obtain ⟨_, _, _, ⟨d, d1, _, d2, d3⟩, _⟩ := C44_sum hA hu c2
  obtain ⟨u', u1, u2, u3⟩ := product_gives hA ha d2
  refine ⟨s, c, d, u', s1, c1, d1, u1, d2, u2, ?_, u3⟩
  rw [d3, c3, val_of_coeff hA s3 hu s4, smul_smul]

/-- The loop computes the sequence `ucl`. -/
theorem shirokovLoop_spec (hA : WfAlg A) {a : MV R} (ha : WfMV A a) (N : ℕ) (m : ℕ) : ∀ (k : ℕ) (u : MV R) (d : Option (MV R)),
    WfMV A u → val A u = ucl A N (val A a) k →
    ∃ u' d', MV.shirokovLoop A a N (List.range' (k + 1) (m + 1)) (u, d) = .ok (u', some d') ∧ a.product A d' = some u' ∧
      WfMV A d' ∧ WfMV A u' ∧ val A u' = ucl A N (val A a) (k + m + 1) := by
  induction m with
  | zero =>
    intro k u d hu e
    obtain ⟨s, c, d', u', h1, h2, h3, h4, h5, h6, h7, h8⟩ := shirokov_step hA ha hu ((N : R) / ((k + 1 : ℕ) : R))
    refine ⟨u', d', ?_, h4, h5, h6, ?_⟩
    · simp only [List.range', MV.shirokovLoop, h1, h2, h3, h4, lift_some, bind, Except.bind]
    · rw [h8, h7, e]; rfl
  | succ m ih =>
    intro k u d hu e
    obtain ⟨s, c, d', u', h1, h2, h3, h4, h5, h6, h7, h8⟩ := shirokov_step hA ha hu ((N : R) / ((k + 1 : ℕ) : R))
    obtain ⟨u'', d'', g1, g2⟩ := ih (k + 1) u' (some d') h6 (by rw [h8, h7, e]; rfl)
    refine ⟨u'', d'', ?_, ?_⟩
    · rw [List.range'_succ]
      simp only [MV.shirokovLoop, h1, h2, h3, h4, lift_some, bind, Except.bind]
      exact g1
    · rw [show k + (m + 1) + 1 = k + 1 + m + 1 by omega]; exact g2

omit [DecidableEq R] in
theorem product_sub_empty (hA : WfAlg A) {x y z : MV R} (hx : WfMV A x) (hy : WfMV A y) (h : x.product A y = some z) (he : y.vals = []) :
    z.sub.blades = [] := by
  rw [MV.product] at h
  obtain ⟨op, o1, _⟩ := product_bin hA (argSem_sub hx.sub) (argSem_sub hy.sub)
  rw [o1] at h
  have hb := bin_output hA (product_bin hA) hx.sub hy.sub o1 (product_squeezed hA hx.sub hy.sub o1)
  rw [call_sub h, List.eq_nil_iff_forall_not_mem]
  intro b hm
  have := hy.len
  rw [he, List.length_nil, eq_comm, List.length_eq_zero_iff] at this
  obtain ⟨_, _, c, hc, _⟩ := (hb b).1 hm
  rw [this] at hc
  cases hc

/-- `inverse_shirokov` divides by the final scalar. -/
theorem inverseShirokov_spec [CharZero R] (hA : WfAlg A) (h1 : 1 ≤ A.n) {fuel : Nat} (hf : 1 ≤ fuel) {a : MV R} (ha : WfMV A a) :
    (fin A ((A.n + 1) / 2) (val A a) ≠ 0 → ∃ y, a.inverseShirokov A fuel = .ok y ∧ WfMV A y ∧ val A a * val A y = 1) ∧
    (fin A ((A.n + 1) / 2) (val A a) = 0 → a.inverseShirokov A fuel = .error .divZero) := by
  obtain ⟨fuel, rfl⟩ : ∃ f, fuel = f + 1 := ⟨fuel - 1, by omega⟩
  have hh : 1 ≤ (A.n + 1) / 2 := by omega
  have hp : 2 ≤ 2 ^ ((A.n + 1) / 2) := by
    calc 2 = 2 ^ 1 := rfl
      _ ≤ _ := Nat.pow_le_pow_right (by omega) hh
  obtain ⟨m, hm⟩ : ∃ m, 2 ^ ((A.n + 1) / 2) - 1 = m + 1 := ⟨2 ^ ((A.n + 1) / 2) - 2, by omega⟩
  obtain ⟨u, d, l1, l2, l3, l4, l5⟩ := shirokovLoop_spec hA ha (2 ^ ((A.n + 1) / 2)) m 0 a none ha rfl
  rw [show 0 + m + 1 = 2 ^ ((A.n + 1) / 2) - 1 by omega] at l5
  have hl := l5
  rw [ucl_last A (by omega) hh] at hl
  change val A u = fin A ((A.n + 1) / 2) (val A a) • 1 at hl
  obtain ⟨d', e1, e2, e3⟩ := product_gives hA ha l3
  cases l2.symm.trans e1
  have hg : List.Forall₂ (IsGrade A.n) [0] [0] := .cons ⟨by omega, Or.inl rfl⟩ .nil
  obtain ⟨_, ⟨p, p1, p2, p3, p4⟩⟩ := C25_grades hA l4 hg (by simp) (by simp)
  have hpv := val_of_coeff hA p3 l4 p4
  rw [hl] at hpv
  have hc : coef A R 0 (fin A ((A.n + 1) / 2) (val A a) • (1 : Cl A R)) = fin A ((A.n + 1) / 2) (val A a) := by
    rw [map_smul, ← blade_zero, coef_blade _ _ (by simp)]; simp
  rw [hc] at hpv
  have hrun : MV.inverseShirokov A (fuel + 1) a = d.divideWith A (MV.inverse A (fuel + 1)) p := by
    rw [MV.inverseShirokov]
    simp only [hm]
    rw [show List.range' 1 (m + 1) = List.range' (0 + 1) (m + 1) by rfl, l1]
    simp only [lift_some, bind, Except.bind, p1, MV.truediv, MV.upcast]
  generalize fin A ((A.n + 1) / 2) (val A a) = t at *
  rw [hrun, MV.divideWith, (scalar_eq hA).1, lift_some]
  simp only [bind, Except.bind]
  have hsub := sub_of_scalar p3.sub fun b hb => by
    have := ((p2.2 b).1 hb).2.1
    simp only [List.mem_singleton] at this ⊢
    exact (popcount_eq_zero hA.le32 (p3.sub.lt b hb)).1 this
  rcases hsub with hs | hs
  · rw [if_neg (by rw [hs]; simp), inverse_empty hA fuel hs]
    have ht : t = 0 := by
      rw [val_empty hs] at hpv
      by_contra h
      exact one_ne_zero' A R ((smul_eq_zero.1 hpv.symm).resolve_left h)
    exact ⟨fun h => absurd ht h, fun _ => rfl⟩
  · rw [if_pos hs]
    obtain ⟨c, c1, c2⟩ := val_scalar p3 hs
    have hct : c = t := by
      rw [hpv] at c2
      have := congrArg (coef A R 0) c2
      rw [map_smul, map_smul, ← blade_zero, coef_blade _ _ (by simp)] at this
      simpa using this.symm
    subst hct
    refine ⟨fun h0 => ?_, fun h0 => ?_⟩
    · obtain ⟨y, y1, y2, _, y3⟩ := divValues_spec l3 c1 (fun h => absurd h h0)
      exact ⟨y, y1, y2, by rw [y3, mul_smul_comm, ← e3, hl, smul_smul, inv_mul_cancel₀ h0, one_smul]⟩
    · have hne : d.vals ≠ [] := by
        intro he
        have := ((p2.2 0).1 (by rw [hs]; simp)).2.2
        rw [product_sub_empty hA ha l3 l2 he] at this
        simp at this
      rw [MV.divValues, c1]
      simp only
      rw [if_pos ⟨h0, hne⟩]

end
end Verif
