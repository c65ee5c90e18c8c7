import Verif.Proofs.Physics3
import Mathlib.Algebra.Order.BigOperators.Ring.Finset
import Mathlib.Algebra.Order.Field.Basic
/-! # Pairings of bivectors; positivity of the kinetic energy -/
namespace Verif
open Model Spec Model.Factory Props

variable {A : Alg} {R : Type}

section
variable [CommRing R]

/-- Bit patterns of two sets of the same size, one inside the other. -/
theorem eq_of_inside (hA : WfAlg A) {a c : Nat} (ha : a < 2 ^ A.n) (hc : c < 2 ^ A.n) (hp : popcount a = popcount c)
    (h : a &&& (c ^^^ A.pss) = 0) : a = c := by
  rw [popcount_of_lt hA.le32 ha, popcount_of_lt hA.le32 hc] at hp
  have h1 : a &&& c = a := by
    have : a &&& (c ^^^ A.pss) = (a &&& c) ^^^ (a &&& A.pss) := by rw [Nat.and_xor_distrib_left]
    rw [h, pc_and_pss ha] at this
    have h2 := congrArg (· ^^^ a) this
    simp only [Nat.zero_xor, Nat.xor_assoc, Nat.xor_self, Nat.xor_zero] at h2
    exact h2.symm
  have h2 := pc_xor A.n a c
  rw [h1] at h2
  have h3 : pc A.n (a ^^^ c) = 0 := by omega
  have h4 : a ^^^ c = 0 := by
    apply Nat.eq_of_testBit_eq
    intro i
    rw [Nat.zero_testBit]
    by_cases hi : i < A.n
    · exact (pc_eq_zero_iff ..).1 h3 i hi
    · exact testBit_false_of_lt (xor_lt ha hc) (by omega)
  have := congrArg (· ^^^ c) h4
  simpa [Nat.xor_assoc] using this

/-- The sign of a blade in the pairing of a bivector with its dual. -/
def lineSign (A : Alg) (R : Type) [CommRing R] (b : Nat) : R := (-1) ^ (pc A.n A.negatives + pc A.n (b &&& A.negatives))

/-- The join of the dual of a bivector with a bivector. -/
theorem dual_pairing (hA : WfAlg A) {x y : Cl A R} (hx : gradePart A R 2 x = x) (hy : gradePart A R 2 y = y) :
    meet A R (rhMap A R x) y = (∑ b ∈ Finset.range (2 ^ A.n), lineSign A R b * (coef A R b x * coef A R b y)) • 1 := by
  have hP := pss_lt A
  have : ((meet A R).comp (rhMap A R)).compl₁₂ (gradePart A R 2) (gradePart A R 2) =
      ((∑ b ∈ Finset.range (2 ^ A.n), (LinearMap.mul R R).compl₁₂ (lineSign A R b • coef A R b) (coef A R b)).compr₂
        ((LinearMap.id : R →ₗ[R] R).smulRight (1 : Cl A R))).compl₁₂ (gradePart A R 2) (gradePart A R 2) := by
    apply lin_ext₂
    intro a ha c hc
    rw [LinearMap.compl₁₂_apply, LinearMap.compl₁₂_apply, gradePart_blade _ ha, gradePart_blade _ hc]
    by_cases pa : popcount a = 2
    swap
    · rw [if_neg pa]; simp
    by_cases pc' : popcount c = 2
    swap
    · rw [if_neg pc']; simp
    rw [if_pos pa, if_pos pc', LinearMap.comp_apply, LinearMap.compr₂_apply, LinearMap.sum_apply, LinearMap.sum_apply]
    have e1 : (∑ b ∈ Finset.range (2 ^ A.n), ((LinearMap.mul R R).compl₁₂ (lineSign A R b • coef A R b) (coef A R b)) (blade A R a) (blade A R c)) =
        if a = c then lineSign A R a else 0 := by
      rw [Finset.sum_eq_single a]
      · rw [LinearMap.compl₁₂_apply, LinearMap.smul_apply, coef_blade _ _ ha, coef_blade _ _ hc, if_pos rfl, smul_eq_mul, mul_one, LinearMap.mul_apply']
        split <;> simp
      · intro b _ hb
        rw [LinearMap.compl₁₂_apply, LinearMap.smul_apply, coef_blade _ _ ha, if_neg hb, smul_zero, map_zero, LinearMap.zero_apply]
      · intro h; exact absurd (Finset.mem_range.2 ha) h
    rw [e1, rhMap, compl_blade _ ha, map_smul, LinearMap.smul_apply, meet_blade hA (xor_lt ha hP) hc, xor_xor_pss]
    by_cases hac : a = c
    · subst hac
      have h0 : a &&& (a ^^^ A.pss) = 0 := by rw [Nat.and_xor_distrib_left, pc_and_pss ha, Nat.and_self, Nat.xor_self]
      have h1 : a ^^^ A.pss ^^^ a ^^^ A.pss = 0 := by
        rw [Nat.xor_comm a, Nat.xor_assoc A.pss, Nat.xor_self, Nat.xor_zero, Nat.xor_self]
      rw [if_pos h0, if_pos rfl, h1, blade_zero, hodgeSign_pow hA ha, smul_smul, LinearMap.smulRight_apply, LinearMap.id_apply, lineSign]
      congr 1
      push_cast
      rw [← pow_add]
      apply sign_congr
      push_cast
      simp only [← i2.eq_1, ← p2.eq_1, i2_left, i2_right, p2_and_xor]
      have w1 := i2_swap A.n a A.pss
      have w3 : p2 A.n (A.pss &&& A.negatives) = p2 A.n A.negatives := by rw [p2, p2, pc_neg_pss]
      have w4 : p2 A.n 0 = 0 := by simp [p2]
      have w5 : p2 A.n a = 0 := by rw [p2, ← popcount_of_lt hA.le32 ha, pa]; rfl
      have w6 : p2 A.n (0 &&& A.negatives) = 0 := by rw [Nat.zero_and, w4]
      have w7 : i2 A.n 0 (a ^^^ A.pss ^^^ a) = 0 := by
        have := i2_left A.n 0 0 (a ^^^ A.pss ^^^ a)
        simpa using this
      rw [pc_and_pss ha, w5] at w1
      simp only [i2_right] at w7
      rw [w3, w6]
      linear_combination (norm := (ring_nf; reduce_mod_char)) w1 + w7
    · rw [if_neg hac, if_neg (fun h => hac (eq_of_inside hA ha hc (pa.trans pc'.symm) h))]
      simp
  have e := LinearMap.congr_fun₂ this x y
  simp only [LinearMap.compl₁₂_apply, hx, hy, LinearMap.comp_apply, LinearMap.compr₂_apply, LinearMap.sum_apply, LinearMap.smulRight_apply,
    LinearMap.id_apply, LinearMap.smul_apply, LinearMap.mul_apply', smul_eq_mul, mul_assoc] at e
  exact e

/-- The pairing of lines and bivectors is nondegenerate. -/
theorem pairing_ext (hA : WfAlg A) (hn : 2 ≤ A.n) {x : Cl A R} (hx : gradePart A R (A.n - 2) x = x)
    (h : ∀ y : Cl A R, gradePart A R 2 y = y → meet A R x y = 0) : x = 0 := by
  set x' := rhInv A R x with hx'
  have ex : x = rhMap A R x' := by rw [hx', rh_rhInv]
  have gx : gradePart A R 2 x' = x' := by
    rw [hx', rhInv_grade hA (k := A.n - 2) (by omega), hx]
  suffices x' = 0 by rw [ex, this, map_zero]
  rw [sum_coef A R x']
  refine Finset.sum_eq_zero fun b hb => ?_
  rw [Finset.mem_range] at hb
  by_cases hp : popcount b = 2
  · have gy : gradePart A R 2 (blade A R b) = blade A R b := by rw [gradePart_blade _ hb, if_pos hp]
    have e := h _ gy
    rw [ex, dual_pairing hA gx gy, Finset.sum_eq_single b] at e
    · rw [coef_blade _ _ hb, if_pos rfl, mul_one] at e
      have e' := congrArg (coef A R 0) e
      rw [map_smul, map_zero, ← blade_zero, coef_blade _ _ (by positivity), if_pos rfl, smul_eq_mul, mul_one] at e'
      have e2 := congrArg (lineSign A R b * ·) e'
      have sq : lineSign A R b * lineSign A R b = 1 := by rw [lineSign, ← mul_pow]; norm_num
      simp only [mul_zero, ← mul_assoc, sq, one_mul] at e2
      rw [e2, zero_smul]
    · intro c _ hc
      rw [coef_blade _ _ hb, if_neg hc, mul_zero, mul_zero]
    · intro hb'; exact absurd (Finset.mem_range.2 hb) hb'
  · rw [← gx, gradePart_eq_proj, coef_proj, if_neg hp, zero_smul]

end

section
variable [Field R] [LinearOrder R] [IsStrictOrderedRing R]

/-- The signature has no negative basis vectors. -/
def NonNeg (A : Alg) : Prop := ∀ s ∈ A.desc.sig, 0 ≤ s

theorem NonNeg.getD {A : Alg} (h : NonNeg A) (i : Nat) : 0 ≤ A.desc.sig.getD i 0 := by
  rw [List.getD_eq_getElem?_getD]
  cases e : A.desc.sig[i]? with
  | none => simp
  | some s => exact h s (List.mem_of_getElem? e)

theorem NonNeg.pc (hA : WfAlg A) (h : NonNeg A) (b : Nat) : pc A.n (b &&& A.negatives) = 0 := by
  rw [pc_eq_zero_iff]
  intro i hi
  rw [Nat.testBit_and, negatives_testBit hA i hi]
  have := h.getD i
  have e : ¬ A.desc.sig.getD i 0 = -1 := by omega
  rw [decide_eq_false e, Bool.and_false]

theorem NonNeg.sign (hA : WfAlg A) (h : NonNeg A) (b : Nat) : lineSign A R b = 1 := by
  have h1 := h.pc hA A.negatives
  rw [Nat.and_self] at h1
  rw [lineSign, h1, h.pc hA]; simp

theorem NonNeg.dot_nonneg (h : NonNeg A) (u : Fin A.n → R) : 0 ≤ dot A u u := by
  refine Finset.sum_nonneg fun i _ => ?_
  rw [mul_assoc]
  exact mul_nonneg (by rw [metric]; exact_mod_cast h.getD i) (mul_self_nonneg _)

theorem NonNeg.dot_zero (h : NonNeg A) {u : Fin A.n → R} (h0 : dot A u u = 0) (v : Fin A.n → R) : dot A u v = 0 := by
  have hm : ∀ i : Fin A.n, 0 ≤ metric A R i := fun i => by rw [metric]; exact_mod_cast h.getD i
  have := (Finset.sum_eq_zero_iff_of_nonneg (s := Finset.univ) (f := fun i : Fin A.n => metric A R i * u i * u i)
    (fun i _ => by rw [mul_assoc]; exact mul_nonneg (hm i) (mul_self_nonneg _))).1 h0
  refine Finset.sum_eq_zero fun i _ => ?_
  have e := this i (Finset.mem_univ i)
  rcases mul_eq_zero.1 e with e | e
  · rw [e, zero_mul]
  · rw [e, mul_zero, zero_mul]

/-- The kinetic energy of a body in a space without negative basis vectors is positive, except at rest. -/
theorem Live.positive [DecidableEq R] {b : Body R} {ps : List (Cl A R)} {B L : SubSpace} (h : Live A b ps B L) (hA : WfAlg A) (hN : NonNeg A) :
    ∃ e : R, meet A R (opMap A b.inertia B L (val A b.rate)) (val A b.rate) = e • 1 ∧ 0 ≤ e ∧ (e = 0 ↔ val A b.rate = 0) := by
  have ex : ∀ p ∈ ps, ∀ y : Cl A R, gradePart A R 2 y = y → ∃ v : Fin A.n → R, meet A R p y = vec A v := fun p hp y hy =>
    exists_vec hA (h.joinGrade hA hp hy)
  classical
  have hsum : ∀ y : Cl A R, gradePart A R 2 y = y → ∃ f : Cl A R → Fin A.n → R, (∀ p ∈ ps, meet A R p y = vec A (f p)) := fun y hy =>
    ⟨fun p => if hp : p ∈ ps then (ex p hp y hy).choose else 0, fun p hp => by simp only [hp, dif_pos]; exact (ex p hp y hy).choose_spec⟩
  obtain ⟨u, hu⟩ := hsum _ h.rateGrade
  have pair : ∀ (y : Cl A R) (v : Cl A R → Fin A.n → R), gradePart A R 2 y = y → (∀ p ∈ ps, meet A R p y = vec A (v p)) →
      meet A R (opMap A b.inertia B L (val A b.rate)) y = (ps.map fun p => dot A (u p) (v p)).sum • 1 := by
    intro y v hy hv
    rw [h.pairing hA h.rateIn hy, List.sum_smul, List.map_map]
    congr 1
    refine List.map_congr_left fun p hp => ?_
    rw [hu p hp, hv p hp, inner_vec hA, Function.comp_apply, Algebra.algebraMap_eq_smul_one]
  refine ⟨(ps.map fun p => dot A (u p) (u p)).sum, pair _ _ h.rateGrade hu, ?_, ?_⟩
  · refine List.sum_nonneg fun x hx => ?_
    obtain ⟨p, -, rfl⟩ := List.mem_map.1 hx
    exact hN.dot_nonneg _
  · constructor
    · intro e0
      have hz : ∀ p ∈ ps, dot A (u p) (u p) = 0 := by
        intro p hp
        have h1 := List.single_le_sum (l := ps.map fun p => dot A (u p) (u p)) (fun x hx => by
          obtain ⟨p, -, rfl⟩ := List.mem_map.1 hx
          exact hN.dot_nonneg _) _ (List.mem_map_of_mem hp)
        rw [e0] at h1
        exact le_antisymm h1 (hN.dot_nonneg _)
      have hI : opMap A b.inertia B L (val A b.rate) = 0 := by
        refine pairing_ext hA h.two (within_grade (h.spaceL.congr fun b _ => by have := h.two; omega) (h.inL _)) fun y hy => ?_
        obtain ⟨v, hv⟩ := hsum y hy
        rw [pair y v hy hv, List.sum_eq_zero, zero_smul]
        intro x hx
        obtain ⟨p, hp, rfl⟩ := List.mem_map.1 hx
        exact hN.dot_zero (hz p hp) _
      rw [← h.left _ h.rateIn, hI, map_zero]
    · intro hr
      have := pair _ _ h.rateGrade hu
      rw [hr, map_zero] at this
      have := congrArg (coef A R 0) this
      rw [map_smul, map_zero, ← blade_zero, coef_blade _ _ (by positivity), if_pos rfl, smul_eq_mul, mul_one] at this
      exact this.symm

end
end Verif
