import Verif.Proofs.Momentum
/-! # The commutator with a bivector is a derivation -/
namespace Verif
open Model Spec

variable {A : Alg} {R : Type} [CommRing R]

/-- A ring in which doubling is injective on the algebra. -/
abbrev Halving (A : Alg) (R : Type) [CommRing R] : Prop := ∀ x : Cl A R, (2 : R) • x = 0 → x = 0

theorem halving {F : Type} [Field F] (h2 : (2 : F) ≠ 0) : Halving A F := fun _ h => (smul_eq_zero.1 h).resolve_left h2

theorem comm_gradePart (hA : WfAlg A) {b : Cl A R} (hb : gradePart A R 2 b = b) (k : Nat) (x : Cl A R) :
    gradePart A R k (comm A R b x) = comm A R b (gradePart A R k x) := by
  have hx : x = ∑ j ∈ Finset.range (A.n + 1), gradePart A R j x := (sum_gradePart hA x).symm
  have h1 : ∀ j, gradePart A R k (comm A R b (gradePart A R j x)) = comm A R b (gradePart A R k (gradePart A R j x)) := by
    intro j
    have hg : gradePart A R j (gradePart A R j x) = gradePart A R j x := by rw [gradePart_gradePart, if_pos rfl]
    have := comm_grade hA hb hg
    rw [← this, gradePart_gradePart, this, gradePart_gradePart]
    by_cases h : k = j
    · rw [if_pos h, if_pos h]
    · rw [if_neg h, if_neg h, map_zero]
  rw [hx, map_sum, map_sum, map_sum, map_sum]
  exact Finset.sum_congr rfl fun j _ => h1 j

theorem comm_mul (hA : WfAlg A) (h2 : Halving A R) (b x y : Cl A R) :
    comm A R b (x * y) = comm A R b x * y + x * comm A R b y := by
  rw [← sub_eq_zero]
  apply h2
  rw [smul_sub, smul_add, two_comm hA, ← smul_mul_assoc, ← mul_smul_comm, two_comm hA, two_comm hA]
  noncomm_ring

theorem comm_graded (hA : WfAlg A) (h2 : Halving A R) (sel : Nat → Nat → Nat → Prop) [∀ i j k, Decidable (sel i j k)] {b : Cl A R}
    (hb : gradePart A R 2 b = b) (x y : Cl A R) :
    comm A R b (gradedProduct A R sel x y) = gradedProduct A R sel (comm A R b x) y + gradedProduct A R sel x (comm A R b y) := by
  unfold gradedProduct
  rw [map_sum, ← Finset.sum_add_distrib]
  refine Finset.sum_congr rfl fun i _ => ?_
  rw [map_sum, ← Finset.sum_add_distrib]
  refine Finset.sum_congr rfl fun j _ => ?_
  rw [map_sum, ← Finset.sum_add_distrib]
  refine Finset.sum_congr rfl fun k _ => ?_
  by_cases h : sel i j k
  · rw [if_pos h, if_pos h, if_pos h, ← comm_gradePart hA hb, comm_mul hA h2, map_add, comm_gradePart hA hb i, comm_gradePart hA hb j]
  · rw [if_neg h, if_neg h, if_neg h]; simp

theorem comm_pss (hA : WfAlg A) {b : Cl A R} (hb : gradePart A R 2 b = b) : comm A R b (blade A R A.pss) = 0 := by
  have hP := pss_lt A
  have : ((comm A R).comp (gradePart A R 2)).flip (blade A R A.pss) = 0 := by
    apply lin_ext
    intro a ha
    rw [LinearMap.flip_apply, LinearMap.comp_apply, gradePart_blade _ ha]
    by_cases h2 : popcount a = 2
    · rw [if_pos h2, comm_blade_cast ha hP]
      rcases comm_bivector_blade hA (c := A.pss) ha h2 with h | h
      · exfalso
        have := compl_pop hA ha
        have hp : popcount A.pss = A.n := by rw [popcount_of_lt hA.le32 hP, pc_pss]
        omega
      · rw [h]; simp
    · rw [if_neg h2]; simp
  have := LinearMap.congr_fun this b
  rwa [LinearMap.flip_apply, LinearMap.comp_apply, hb] at this

theorem top_grade (hA : WfAlg A) {x : Cl A R} (hx : gradePart A R A.n x = x) : x = coef A R A.pss x • blade A R A.pss := by
  have hP := pss_lt A
  have : gradePart A R A.n = (coef A R A.pss).smulRight (blade A R A.pss) ∘ₗ gradePart A R A.n := by
    apply lin_ext
    intro a ha
    rw [LinearMap.comp_apply, gradePart_blade _ ha, LinearMap.smulRight_apply]
    by_cases h : popcount a = A.n
    · have g2 := compl_pop hA ha
      have g3 := (popcount_eq_zero hA.le32 (xor_lt ha hP)).1 (by omega)
      have : a = A.pss := by
        have := congrArg (· ^^^ A.pss) g3
        simpa [xor_xor_pss] using this
      rw [if_pos h, this, coef_blade _ _ hP, if_pos rfl, one_smul]
    · rw [if_neg h]; simp
  have := LinearMap.congr_fun this x
  rwa [LinearMap.comp_apply, hx, LinearMap.smulRight_apply] at this

theorem wedge_grade (hA : WfAlg A) {j k : Nat} {x y : Cl A R} (hx : gradePart A R j x = x) (hy : gradePart A R k y = y) :
    gradePart A R (j + k) (wedgeMap A R x y) = wedgeMap A R x y := by
  have : ((gradedProductₗ A R fun i j k => i + j = k).compl₁₂ (gradePart A R j) (gradePart A R k)).compr₂ (gradePart A R (j + k)) =
      (gradedProductₗ A R fun i j k => i + j = k).compl₁₂ (gradePart A R j) (gradePart A R k) := by
    apply lin_ext₂
    intro a ha c hc
    rw [LinearMap.compr₂_apply, LinearMap.compl₁₂_apply, gradePart_blade _ ha, gradePart_blade _ hc]
    by_cases h2 : popcount a = j
    · by_cases h3 : popcount c = k
      · rw [if_pos h2, if_pos h3, gradedProductₗ_apply, ← wedgeMap, wedge_blade hA ha hc]
        by_cases h0 : a &&& c = 0
        · rw [if_pos h0, map_smul, gradePart_blade _ (xor_lt ha hc), if_pos (by rw [← (grade_add_iff hA ha c).2 h0, h2, h3])]
        · rw [if_neg h0, map_zero]
      · rw [if_neg h3]; simp
    · rw [if_neg h2]; simp
  have := LinearMap.congr_fun₂ this x y
  rwa [LinearMap.compr₂_apply, LinearMap.compl₁₂_apply, hx, hy, gradedProductₗ_apply] at this

/-- The join of elements of complementary grades is invariant under the motion of a bivector. -/
theorem meet_invariant (hA : WfAlg A) (h2 : Halving A R) {j k : Nat} (hjk : j + k = A.n) {b x y : Cl A R} (hb : gradePart A R 2 b = b)
    (hx : gradePart A R j x = x) (hy : gradePart A R k y = y) :
    meet A R (comm A R b x) y + meet A R x (comm A R b y) = 0 := by
  have hw : gradePart A R A.n (wedgeMap A R x y) = wedgeMap A R x y := by
    have := wedge_grade hA hx hy
    rwa [hjk] at this
  rw [meet_wedge hA hjk (comm_grade hA hb hx) hy, meet_wedge hA hjk hx (comm_grade hA hb hy), ← add_smul, ← mul_add, ← map_add, wedgeMap, wedgeMap,
    ← comm_graded hA h2 _ hb, ← wedgeMap, top_grade hA hw, map_smul, comm_pss hA hb]
  simp

end Verif
