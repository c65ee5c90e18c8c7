import Verif.Proofs.LeastSquares
import Verif.Proofs.Inverse
/-! # Cubic forms in dimension at most four: the inverse lies in the subspace of `inverse_factor` -/
namespace Verif
open Model Spec Finset Props

/-- Sign of `~e_a l(e_c ~e_d)` when `l` multiplies a blade of `k` vectors by `l k`. -/
def triSign (n : Nat) (l : Nat → ℤ) (a c d : Nat) : ℤ :=
  sgnRev (pc n a) * sgnRev (pc n d) * l (pc n (c ^^^ d)) * (-1) ^ (inv n c d) * (-1) ^ (inv n a (c ^^^ d))
/-- Sum over the orders of three arguments. -/
def sym3 {R : Type} [Add R] (f : Nat → Nat → Nat → R) (a c d : Nat) : R := f a c d + f a d c + f c a d + f c d a + f d a c + f d c a

theorem tri_sn4 : ∀ n ≤ 4, ∀ a < 2 ^ n, ∀ c < 2 ^ n, ∀ d < 2 ^ n, sym3 (triSign n sgnConj) a c d = 0 → sym3 (triSign n sgnSN) a c d = 0 := by
  decide +kernel

variable {A : Alg} {R : Type} [CommRing R]

/-- Metric factor of the product of three blades. -/
def triMet (A : Alg) (a c d : Nat) : ℤ := mprod (metric A ℤ) A.n c d * mprod (metric A ℤ) A.n a (c ^^^ d)
/-- Coefficient of blade `b` in `~e_a l(e_c ~e_d)`. -/
def tri (A : Alg) (l : Nat → ℤ) (b a c d : Nat) : ℤ := if a ^^^ (c ^^^ d) = b then triMet A a c d * triSign A.n l a c d else 0

theorem triMet_swap (A : Alg) (a c d : Nat) : triMet A a c d = triMet A a d c := by
  rw [triMet, triMet, mprod_comm', Nat.xor_comm]

theorem triMet_rot (A : Alg) (a c d : Nat) : triMet A a c d = triMet A c a d := by
  simp only [triMet, mprod, ← Finset.prod_mul_distrib]
  refine Finset.prod_congr rfl fun i _ => ?_
  rw [Nat.testBit_xor, Nat.testBit_xor]
  cases a.testBit i <;> cases c.testBit i <;> cases d.testBit i <;> simp

theorem sym3_tri (A : Alg) (l : Nat → ℤ) (b a c d : Nat) :
    sym3 (tri A l b) a c d = if a ^^^ (c ^^^ d) = b then triMet A a c d * sym3 (triSign A.n l) a c d else 0 := by
  have m1 := triMet_swap A a c d
  have m2 := triMet_rot A a c d
  have m3 := triMet_swap A c a d
  have m4 := triMet_rot A a d c
  have m5 := triMet_swap A d a c
  have x1 : a ^^^ (d ^^^ c) = a ^^^ (c ^^^ d) := by rw [Nat.xor_comm d]
  have x2 : c ^^^ (a ^^^ d) = a ^^^ (c ^^^ d) := by rw [← Nat.xor_assoc, ← Nat.xor_assoc, Nat.xor_comm c]
  have x3 : c ^^^ (d ^^^ a) = a ^^^ (c ^^^ d) := by rw [Nat.xor_comm d, x2]
  have x4 : d ^^^ (a ^^^ c) = a ^^^ (c ^^^ d) := by rw [Nat.xor_comm d, Nat.xor_assoc]
  have x5 : d ^^^ (c ^^^ a) = a ^^^ (c ^^^ d) := by rw [Nat.xor_comm c, x4]
  simp only [sym3, tri, x1, x2, x3, x4, x5]
  rw [← m5, ← m4, ← m3, ← m2, ← m1]
  split
  · ring
  · simp

/-- Coefficients of `~x l(x ~x)`. -/
theorem cubic {L : Cl A R →ₗ[R] Cl A R} {l : Nat → ℤ} (hl : ∀ b < 2 ^ A.n, L (blade A R b) = (l (pc A.n b) : R) • blade A R b)
    (b : Nat) (x : Cl A R) :
    coef A R b (CliffordAlgebra.reverse x * L (x * CliffordAlgebra.reverse x)) =
      ∑ a ∈ range (2 ^ A.n), ∑ c ∈ range (2 ^ A.n), ∑ d ∈ range (2 ^ A.n),
        coef A R a x * coef A R c x * coef A R d x * (tri A l b a c d : R) := by
  have hx := sum_coef A R x
  obtain ⟨u, hu⟩ : ∃ u : Nat → R, u = fun b => coef A R b x := ⟨_, rfl⟩
  have hu' : ∀ b, coef A R b x = u b := fun b => by rw [hu]
  simp only [hu'] at hx ⊢
  have hm : ∀ n a b, mprod (metric A R) n a b = ((mprod (metric A ℤ) n a b : ℤ) : R) := by
    intro n a b
    rw [mprod, mprod, Int.cast_prod]
    refine prod_congr rfl fun i _ => ?_
    split <;> simp [metric]
  have hr : CliffordAlgebra.reverse x = ∑ b ∈ range (2 ^ A.n), (u b * (-1) ^ (pc A.n b / 2)) • blade A R b := by
    rw [hx, map_sum]
    exact sum_congr rfl fun b _ => by rw [map_smul, reverse_blade, smul_smul]
  have hp : L (x * CliffordAlgebra.reverse x) = ∑ c ∈ range (2 ^ A.n), ∑ d ∈ range (2 ^ A.n),
      (u c * (u d * (-1) ^ (pc A.n d / 2)) * ((-1) ^ (inv A.n c d) * mprod (metric A R) A.n c d) * l (pc A.n (c ^^^ d))) •
        blade A R (c ^^^ d) := by
    rw [hr]
    conv_lhs => rw [hx]
    rw [sum_mul_sum, map_sum]
    refine sum_congr rfl fun c hc => ?_
    rw [map_sum]
    refine sum_congr rfl fun d hd => ?_
    rw [smul_mul_smul_comm, blade_mul', smul_smul, map_smul, hl _ (xor_lt (mem_range.1 hc) (mem_range.1 hd)), smul_smul]
  rw [hp, hr, sum_mul, map_sum]
  refine sum_congr rfl fun a ha => ?_
  rw [mul_sum, map_sum]
  refine sum_congr rfl fun c hc => ?_
  rw [mul_sum, map_sum]
  refine sum_congr rfl fun d hd => ?_
  rw [smul_mul_smul_comm, blade_mul', smul_smul, map_smul,
    coef_blade A R (xor_lt (mem_range.1 ha) (xor_lt (mem_range.1 hc) (mem_range.1 hd))), smul_eq_mul, tri]
  by_cases h : a ^^^ (c ^^^ d) = b
  · rw [if_pos h.symm, if_pos h, triMet, triSign, hm, hm]
    push_cast [sgnRev]
    ring
  · rw [if_neg (Ne.symm h), if_neg h]
    simp

/-- Six times a cubic form, with symmetrised coefficients. -/
theorem cubic_sym (N : Nat) (u : Nat → R) (f : Nat → Nat → Nat → R) :
    6 * ∑ a ∈ range N, ∑ c ∈ range N, ∑ d ∈ range N, u a * u c * u d * f a c d =
      ∑ a ∈ range N, ∑ c ∈ range N, ∑ d ∈ range N, u a * u c * u d * sym3 f a c d := by
  have s1 : ∀ g : Nat → Nat → Nat → R, ∑ a ∈ range N, ∑ c ∈ range N, ∑ d ∈ range N, g a c d =
      ∑ a ∈ range N, ∑ c ∈ range N, ∑ d ∈ range N, g a d c := fun g => sum_congr rfl fun a _ => sum_comm
  have s2 : ∀ g : Nat → Nat → Nat → R, ∑ a ∈ range N, ∑ c ∈ range N, ∑ d ∈ range N, g a c d =
      ∑ a ∈ range N, ∑ c ∈ range N, ∑ d ∈ range N, g c a d := fun g => sum_comm
  obtain ⟨g, hg⟩ : ∃ g : Nat → Nat → Nat → R, g = fun a c d => u a * u c * u d * f a c d := ⟨_, rfl⟩
  have e : ∀ a c d, u a * u c * u d * sym3 f a c d = g a c d + g a d c + g c a d + g c d a + g d a c + g d c a := by
    intro a c d
    rw [hg, sym3]; ring
  have e' : ∀ a c d, u a * u c * u d * f a c d = g a c d := fun a c d => by rw [hg]
  simp only [e, e', sum_add_distrib]
  have h1 := s1 g
  have h2 := s2 g
  have h3 := s1 (fun a c d => g c a d)
  have h4 := s2 (fun a c d => g a d c)
  have h5 := s2 (fun a c d => g d a c)
  linear_combination 2 * h1 + 3 * h2 + 2 * h3 + h4 + h5

/-- In dimension at most four a subspace that holds all `~x conj(x ~x)` holds all `~x (2 (x ~x)₀ - x ~x)`. -/
theorem factor_space4 (hA : WfAlg A) (h4 : A.n ≤ 4) {S T : SubSpace} (hS : WfSub A S) (hT : WfSub A T)
    (h : ∀ x : Cl A ℤ, Within A S x → Within A T (CliffordAlgebra.reverse x *
      CliffordAlgebra.involute (CliffordAlgebra.reverse (x * CliffordAlgebra.reverse x))))
    {x : Cl A R} (hx : Within A S x) (h6 : ∀ r : R, 6 * r = 0 → r = 0) :
    Within A T (CliffordAlgebra.reverse x * (2 • gradePart A R 0 (x * CliffordAlgebra.reverse x) - x * CliffordAlgebra.reverse x)) := by
  rw [within_iff hT]
  intro b hb hbT
  have hconj : ∀ b < 2 ^ A.n, (CliffordAlgebra.involute.toLinearMap.comp CliffordAlgebra.reverse : Cl A ℤ →ₗ[ℤ] Cl A ℤ) (blade A ℤ b) =
      ((sgnConj (pc A.n b) : ℤ) : ℤ) • blade A ℤ b := fun b _ => by
    simp only [LinearMap.comp_apply, AlgHom.toLinearMap_apply, reverse_blade, map_smul, involute_blade, sgnConj, smul_smul]
    rw [mul_comm]
  have hsn : ∀ b < 2 ^ A.n, ((2 : R) • gradePart A R 0 - LinearMap.id : Cl A R →ₗ[R] Cl A R) (blade A R b) = (sgnSN (pc A.n b) : R) • blade A R b := fun b hb => by
    rw [LinearMap.sub_apply, LinearMap.smul_apply, LinearMap.id_apply, gradePart_blade _ hb, popcount_of_lt hA.le32 hb, sgnSN]
    split_ifs <;> push_cast <;> module
  have hz : ∀ a ∈ S.blades, ∀ c ∈ S.blades, ∀ d ∈ S.blades, sym3 (tri A sgnConj b) a c d = 0 := by
    intro a ha c hc d hd
    obtain ⟨g, hg⟩ : ∃ g : List Nat → ℤ, g = fun idx => if ∀ i ∈ idx, i ∈ S.blades then
      tri A sgnConj b (idx.getD 0 0) (idx.getD 1 0) (idx.getD 2 0) else 0 := ⟨_, rfl⟩
    have := polar (L := 2 ^ A.n) [a, c, d] (by simpa using ⟨hS.lt a ha, hS.lt c hc, hS.lt d hd⟩) (g := g) (by
      intro u
      obtain ⟨X, hX⟩ : ∃ X : Cl A ℤ, X = denote A ℤ S (S.blades.map u) := ⟨_, rfl⟩
      have hw : WfMV A (⟨S, S.blades.map u⟩ : MV ℤ) := ⟨hS, by simp⟩
      have hXw : Within A S X := ⟨_, hw, rfl, hX.symm⟩
      have hcX : ∀ i, coef A ℤ i X = if i ∈ S.blades then u i else 0 := by
        intro i
        split
        · rename_i hi
          obtain ⟨k, hk, rfl⟩ := List.getElem_of_mem hi
          have := coef_denote_getD hS (u := S.blades.map u) (by simp) hk
          rw [List.getD_eq_getElem _ _ hk, List.getD_eq_getElem _ _ (by simpa using hk), List.getElem_map] at this
          rw [hX, this]
        · rename_i hi
          exact hX ▸ (coeff_eq hw i).symm.trans (coeff_notMem (x := ⟨S, S.blades.map u⟩) hi)
      have h0 := (within_iff hT).1 (h X hXw) b hb hbT
      have h1 := cubic hconj b X
      simp only [LinearMap.comp_apply, AlgHom.toLinearMap_apply] at h1
      rw [h0] at h1
      rw [h1]
      simp only [diag, List.length_cons, List.length_nil, mul_sum]
      refine sum_congr rfl fun a _ => sum_congr rfl fun c _ => sum_congr rfl fun d _ => ?_
      rw [hcX, hcX, hcX, hg]
      by_cases h1 : a ∈ S.blades <;> by_cases h2 : c ∈ S.blades <;> by_cases h3 : d ∈ S.blades <;> simp [h1, h2, h3]
      ring)
    rw [← this, hg]
    simp [List.permutations', List.permutations'Aux, sym3, ha, hc, hd]
    ring
  have hz2 : ∀ a ∈ S.blades, ∀ c ∈ S.blades, ∀ d ∈ S.blades, sym3 (tri A sgnSN b) a c d = 0 := by
    intro a ha c hc d hd
    have := hz a ha c hc d hd
    rw [sym3_tri] at this ⊢
    split_ifs at this ⊢
    · rcases mul_eq_zero.1 this with h0 | h0
      · rw [h0, zero_mul]
      · rw [tri_sn4 A.n h4 a (hS.lt a ha) c (hS.lt c hc) d (hS.lt d hd) h0, mul_zero]
    · rfl
  have h1 := cubic hsn b x
  have h2 := cubic_sym (2 ^ A.n) (fun a => coef A R a x) (fun a c d => (tri A sgnSN b a c d : R))
  simp only [LinearMap.sub_apply, LinearMap.smul_apply, LinearMap.id_apply] at h1
  rw [← h1] at h2
  apply h6
  rw [ofNat_smul_eq_nsmul] at h2
  rw [h2]
  have h0 := (within_iff hS).1 hx
  refine sum_eq_zero fun a ha => sum_eq_zero fun c hc => sum_eq_zero fun d hd => ?_
  by_cases ha' : a ∈ S.blades
  · by_cases hc' : c ∈ S.blades
    · by_cases hd' : d ∈ S.blades
      · have := hz2 a ha' c hc' d hd'
        have : sym3 (fun a c d => (tri A sgnSN b a c d : R)) a c d = ((sym3 (tri A sgnSN b) a c d : ℤ) : R) := by
          simp [sym3]
        rw [this, hz2 a ha' c hc' d hd', Int.cast_zero, mul_zero]
      · rw [h0 d (mem_range.1 hd) hd']; ring
    · rw [h0 c (mem_range.1 hc) hc']; ring
  · rw [h0 a (mem_range.1 ha) ha']; ring
end Verif
