import Verif.Model.Inverse
import Verif.Props.Closure
import Mathlib.LinearAlgebra.Matrix.SemiringInverse
import Mathlib.LinearAlgebra.Matrix.ToLin
/-! # Inverses in the Clifford algebra, and the products that `inverse` divides by -/
namespace Verif
open Model Spec Model.Factory Props

variable {A : Alg}

section ring
variable (A) (R : Type) [CommRing R]

instance : IsDedekindFiniteMonoid (Cl A R) :=
  IsDedekindFiniteMonoid.of_injective (Algebra.leftMulMatrix (bladeBasis A R)) (Algebra.leftMulMatrix_injective _)
end ring

theorem mprod_comm' {R : Type*} [CommRing R] (m : ℕ → R) (k a b : ℕ) : mprod m k a b = mprod m k b a := by
  induction k with
  | zero => simp [mprod]
  | succ k ih => rw [mprod_succ, mprod_succ, ih, Bool.and_comm]

/-- Blades that can occur in `x * L x`. -/
theorem selfSem_sub (hA : WfAlg A) {f : SubSpace → Option SubSpace} {L : LinMap A} (h : SelfSem A f L) {l : Nat → ℤ}
    (hl : ∀ b < 2 ^ A.n, L ℤ (blade A ℤ b) = l b • blade A ℤ b) {S U : SubSpace} (hS : WfSub A S) (hU : WfSub A U)
    (hc : ∀ a ∈ S.blades, ∀ c ∈ S.blades, l c * (-1) ^ (inv A.n a c) + l a * (-1) ^ (inv A.n c a) ≠ 0 → a ^^^ c ∈ U.blades) :
    ∃ T, f S = some T ∧ WfSub A T ∧ SubOf T U := by
  obtain ⟨T, t1, t2, _, t4⟩ := h S hS
  refine ⟨T, t1, t2, t4 U hU ?_⟩
  have key : ∀ x y : Cl A ℤ, Within A S x → Within A S y → Within A U (x * L ℤ y + y * L ℤ x) := by
    intro x y hx hy
    refine within_induction hS (p := fun x => Within A U (x * L ℤ y + y * L ℤ x)) (by simpa using within_zero hU)
      (fun u v hu hv => ?_) (fun r a ha => ?_) hx
    · have := hu.add hU hv
      rwa [show u * L ℤ y + y * L ℤ u + (v * L ℤ y + y * L ℤ v) = (u + v) * L ℤ y + y * L ℤ (u + v) by
        rw [map_add]; noncomm_ring] at this
    refine within_induction hS (p := fun y => Within A U (r • blade A ℤ a * L ℤ y + y * L ℤ (r • blade A ℤ a)))
      (by simpa using within_zero hU) (fun u v hu hv => ?_) (fun t c hc' => ?_) hy
    · have := hu.add hU hv
      rwa [show r • blade A ℤ a * L ℤ u + u * L ℤ (r • blade A ℤ a) + (r • blade A ℤ a * L ℤ v + v * L ℤ (r • blade A ℤ a)) =
        r • blade A ℤ a * L ℤ (u + v) + (u + v) * L ℤ (r • blade A ℤ a) by rw [map_add]; noncomm_ring] at this
    rw [map_smul, map_smul, hl a (hS.lt a ha), hl c (hS.lt c hc'), smul_mul_smul_comm, smul_mul_smul_comm, mul_smul_comm,
      mul_smul_comm, blade_mul', blade_mul', mprod_comm' (metric A ℤ) A.n c a, Nat.xor_comm c a]
    by_cases h0 : l c * (-1) ^ (inv A.n a c) + l a * (-1) ^ (inv A.n c a) = 0
    · have : (r * t) • l c • ((-1 : ℤ) ^ inv A.n a c * mprod (metric A ℤ) A.n a c) • blade A ℤ (a ^^^ c) +
          (t * r) • l a • ((-1 : ℤ) ^ inv A.n c a * mprod (metric A ℤ) A.n a c) • blade A ℤ (a ^^^ c) =
          (r * t * mprod (metric A ℤ) A.n a c * (l c * (-1) ^ (inv A.n a c) + l a * (-1) ^ (inv A.n c a))) • blade A ℤ (a ^^^ c) := by
        module
      rw [this, h0, mul_zero, zero_smul]
      exact within_zero hU
    · have hm := within_blade (R := ℤ) hU (hc a ha c hc' h0)
      exact (((hm.smul hU _).smul hU _).smul hU _).add hU (((hm.smul hU _).smul hU _).smul hU _)
  intro x hx
  have h2 := key x x hx hx
  rw [within_iff hU] at h2 ⊢
  intro b hb hne
  have := h2 b hb hne
  rw [map_add] at this
  omega

/-! ### the six products, one by one -/

theorem squared_self (hA : WfAlg A) : SelfSem A (SubSpace.squared A) (fun _ _ => LinearMap.id) := by
  have h := selfProducts_sem hA
  cases h with | cons h0 h => exact h0
theorem symmetricReverse_self (hA : WfAlg A) : SelfSem A (SubSpace.symmetricReverse A) (fun _ _ => CliffordAlgebra.reverse) := by
  have h := selfProducts_sem hA
  cases h with | cons h0 h => cases h with | cons h1 h => exact h1
theorem symmetricInvolute_self (hA : WfAlg A) :
    SelfSem A (SubSpace.symmetricInvolute A) (fun _ _ => CliffordAlgebra.involute.toLinearMap) := by
  have h := selfProducts_sem hA
  cases h with | cons h0 h => cases h with | cons h1 h => cases h with | cons h2 h => exact h2
theorem symmetricConjugate_self (hA : WfAlg A) :
    SelfSem A (SubSpace.symmetricConjugate A) (fun _ _ => CliffordAlgebra.involute.toLinearMap.comp CliffordAlgebra.reverse) := by
  have h := selfProducts_sem hA
  cases h with | cons h0 h => cases h with | cons h1 h => cases h with | cons h2 h => cases h with | cons h3 h => exact h3
theorem symmetricScalarNegation_self (hA : WfAlg A) :
    SelfSem A (SubSpace.symmetricScalarNegation A) (fun R _ => (2 : R) • gradePart A R 0 - LinearMap.id) := by
  have h := selfProducts_sem hA
  cases h with | cons h0 h => cases h with | cons h1 h => cases h with | cons h2 h => cases h with | cons h3 h =>
    cases h with | cons h4 h => exact h4
theorem symmetricPseudoscalarNegation_self (hA : WfAlg A) :
    SelfSem A (SubSpace.symmetricPseudoscalarNegation A) (fun R _ => (2 : R) • (gradePart A R 0 + gradePart A R A.n) - LinearMap.id) := by
  have h := selfProducts_sem hA
  cases h with | cons h0 h => cases h with | cons h1 h => cases h with | cons h2 h => cases h with | cons h3 h =>
    cases h with | cons h4 h => cases h with | cons h5 h => exact h5

/-- Signs of the maps on a blade with `k` of `n` vectors. -/
def sgnRev (k : Nat) : ℤ := (-1) ^ (k / 2)
/-- Signs of the maps on a blade with `k` of `n` vectors. -/
def sgnConj (k : Nat) : ℤ := (-1) ^ k * (-1) ^ (k / 2)
/-- Signs of the maps on a blade with `k` of `n` vectors. -/
def sgnSN (k : Nat) : ℤ := if k = 0 then 1 else -1
/-- Signs of the maps on a blade with `k` of `n` vectors. -/
def sgnPS (n k : Nat) : ℤ := if k = 0 ∨ k = n then 1 else -1

/-- Sign with which the product of blades `a` and `c` occurs in `x * L x`. -/
def pairSign (n : Nat) (l : Nat → ℤ) (a c : Nat) : ℤ := l (pc n c) * (-1) ^ (inv n a c) + l (pc n a) * (-1) ^ (inv n c a)

theorem rev_sub (hA : WfAlg A) {S U : SubSpace} (hS : WfSub A S) (hU : WfSub A U)
    (hc : ∀ a ∈ S.blades, ∀ c ∈ S.blades, pairSign A.n sgnRev a c ≠ 0 → a ^^^ c ∈ U.blades) :
    ∃ T, S.symmetricReverse A = some T ∧ WfSub A T ∧ SubOf T U :=
  selfSem_sub hA (symmetricReverse_self hA) (l := fun b => sgnRev (pc A.n b)) (fun b _ => reverse_blade A ℤ b) hS hU hc
theorem sq_sub (hA : WfAlg A) {S U : SubSpace} (hS : WfSub A S) (hU : WfSub A U)
    (hc : ∀ a ∈ S.blades, ∀ c ∈ S.blades, pairSign A.n (fun _ => 1) a c ≠ 0 → a ^^^ c ∈ U.blades) :
    ∃ T, S.squared A = some T ∧ WfSub A T ∧ SubOf T U :=
  selfSem_sub hA (squared_self hA) (l := fun _ => 1) (fun b _ => by simp) hS hU hc
theorem conj_sub (hA : WfAlg A) {S U : SubSpace} (hS : WfSub A S) (hU : WfSub A U)
    (hc : ∀ a ∈ S.blades, ∀ c ∈ S.blades, pairSign A.n sgnConj a c ≠ 0 → a ^^^ c ∈ U.blades) :
    ∃ T, S.symmetricConjugate A = some T ∧ WfSub A T ∧ SubOf T U :=
  selfSem_sub hA (symmetricConjugate_self hA) (l := fun b => sgnConj (pc A.n b)) (fun b _ => by
    simp only [LinearMap.comp_apply, AlgHom.toLinearMap_apply, reverse_blade, map_smul, involute_blade, sgnConj, smul_smul]
    rw [mul_comm]) hS hU hc
theorem sn_sub (hA : WfAlg A) {S U : SubSpace} (hS : WfSub A S) (hU : WfSub A U)
    (hc : ∀ a ∈ S.blades, ∀ c ∈ S.blades, pairSign A.n sgnSN a c ≠ 0 → a ^^^ c ∈ U.blades) :
    ∃ T, S.symmetricScalarNegation A = some T ∧ WfSub A T ∧ SubOf T U :=
  selfSem_sub hA (symmetricScalarNegation_self hA) (l := fun b => sgnSN (pc A.n b)) (fun b hb => by
    rw [LinearMap.sub_apply, LinearMap.smul_apply, LinearMap.id_apply, gradePart_blade _ hb, popcount_of_lt hA.le32 hb, sgnSN]
    split_ifs <;> module) hS hU hc
theorem ps_sub (hA : WfAlg A) {S U : SubSpace} (hS : WfSub A S) (hU : WfSub A U)
    (hc : ∀ a ∈ S.blades, ∀ c ∈ S.blades, pairSign A.n (sgnPS A.n) a c ≠ 0 → a ^^^ c ∈ U.blades) :
    ∃ T, S.symmetricPseudoscalarNegation A = some T ∧ WfSub A T ∧ SubOf T U :=
  selfSem_sub hA (symmetricPseudoscalarNegation_self hA) (l := fun b => sgnPS A.n (pc A.n b)) (fun b hb => by
    rw [LinearMap.sub_apply, LinearMap.smul_apply, LinearMap.id_apply, LinearMap.add_apply, gradePart_blade _ hb, gradePart_blade _ hb,
      popcount_of_lt hA.le32 hb, sgnPS]
    have := hA.pos
    split_ifs <;> first | omega | module) hS hU hc

/-! ### simplicity in dimension below six -/

theorem nsimple_of (hA : WfAlg A) {f : SubSpace → Option SubSpace} (hf : f ∈ SubSpace.selfProducts A) {S T : SubSpace} (hS : WfSub A S)
    {n : Nat} (h1 : f S = some T) (h2 : SubSpace.isNSimple A n T = some true) : SubSpace.isNSimple A (n + 1) S = some true := by
  have hmem : ∀ f ∈ SubSpace.selfProducts A, ∃ r, (do SubSpace.isNSimple A n (← f S)) = some r := by
    intro f hf
    obtain ⟨L, hL, h⟩ := mem_forall₂ (selfProducts_sem hA) hf
    obtain ⟨T, t1, t2, _⟩ := h S hS
    obtain ⟨r, r1, _⟩ := isNSimple_spec hA n t2
    exact ⟨r, by rw [t1]; exact r1⟩
  choose! g hg using hmem
  rw [SubSpace.isNSimple]
  refine (anyM_some hg).trans ?_
  congr 1
  rw [List.any_eq_true]
  refine ⟨f, hf, ?_⟩
  have := hg f hf
  rw [h1, Option.bind_eq_bind, Option.bind_some, h2] at this
  exact (Option.some_inj.1 this).symm

theorem wf_scalar : WfSub A ⟨[0]⟩ := ⟨by simp, by simp⟩

theorem nsimple_scalar (hA : WfAlg A) (n : Nat) {S : SubSpace} (hS : WfSub A S) (h : SubOf S ⟨[0]⟩) : SubSpace.isNSimple A n S = some true := by
  induction n generalizing S with
  | zero => rw [SubSpace.isNSimple, (scalar_eq hA).1, Option.bind_eq_bind, Option.bind_some, contains_iff.2 h]
  | succ n ih =>
    obtain ⟨T, t1, t2, t3⟩ := sq_sub hA hS (wf_scalar (A := A)) (by
      intro a ha c hc _
      have e1 := h a ha
      have e2 := h c hc
      simp only [List.mem_singleton] at e1 e2 ⊢
      subst e1 e2; rfl)
    exact nsimple_of hA (by simp [SubSpace.selfProducts]) hS t1 (ih t2 t3)

theorem pair_sn4 : ∀ n ≤ 4, ∀ a < 2 ^ n, ∀ c < 2 ^ n, pc n a % 4 ≤ 1 ∧ pc n c % 4 ≤ 1 ∧ pairSign n sgnSN a c ≠ 0 → a ^^^ c = 0 := by
  decide +kernel
theorem pair_ps5 : ∀ a < 2 ^ 5, ∀ c < 2 ^ 5, pc 5 a % 4 ≤ 1 ∧ pc 5 c % 4 ≤ 1 ∧ pairSign 5 (sgnPS 5) a c ≠ 0 → a ^^^ c = 0 ∨ a ^^^ c = 31 := by
  decide +kernel
theorem pair_biv : ∀ n ≤ 5, ∀ a < 2 ^ n, ∀ c < 2 ^ n, pc n a = 2 ∧ pc n c = 2 ∧ pairSign n sgnRev a c ≠ 0 → pc n (a ^^^ c) % 4 = 0 := by
  decide +kernel
theorem pair_tri : ∀ n ≤ 5, ∀ a < 2 ^ n, ∀ c < 2 ^ n, pc n a = 3 ∧ pc n c = 3 ∧ pairSign n (fun _ => 1) a c ≠ 0 → pc n (a ^^^ c) % 4 = 0 := by
  decide +kernel
theorem pair_sn5 : ∀ n ≤ 5, ∀ a < 2 ^ n, ∀ c < 2 ^ n, pc n a % 4 = 0 ∧ pc n c % 4 = 0 ∧ pairSign n sgnSN a c ≠ 0 → a ^^^ c = 0 := by
  decide +kernel
theorem pair_conj2 : ∀ n ≤ 2, ∀ a < 2 ^ n, ∀ c < 2 ^ n, pairSign n sgnConj a c ≠ 0 → a ^^^ c = 0 := by
  decide +kernel

/-- Blades with a number of vectors divisible by four: simple in one step. -/
theorem nsimple_mod4 (hA : WfAlg A) (h5 : A.n ≤ 5) {S : SubSpace} (hS : WfSub A S) (h : ∀ b ∈ S.blades, pc A.n b % 4 = 0) (n : Nat) :
    SubSpace.isNSimple A (n + 1) S = some true := by
  obtain ⟨T, t1, t2, t3⟩ := sn_sub hA hS (wf_scalar (A := A)) (by
    intro a ha c hc hs
    rw [List.mem_singleton]
    exact pair_sn5 A.n h5 a (hS.lt a ha) c (hS.lt c hc) ⟨h a ha, h c hc, hs⟩)
  exact nsimple_of hA (by simp [SubSpace.selfProducts]) hS t1 (nsimple_scalar hA n t2 t3)

theorem nsimple_dim2 (hA : WfAlg A) (h2 : A.n ≤ 2) {S : SubSpace} (hS : WfSub A S) (n : Nat) :
    SubSpace.isNSimple A (n + 1) S = some true := by
  obtain ⟨T, t1, t2, t3⟩ := conj_sub hA hS (wf_scalar (A := A)) (by
    intro a ha c hc hs
    rw [List.mem_singleton]
    exact pair_conj2 A.n h2 a (hS.lt a ha) c (hS.lt c hc) hs)
  exact nsimple_of hA (by simp [SubSpace.selfProducts]) hS t1 (nsimple_scalar hA n t2 t3)

theorem symmetricReverse_sub (hA : WfAlg A) {S : SubSpace} (hS : WfSub A S) :
    ∃ T, S.symmetricReverse A = some T ∧ WfSub A T ∧ ∀ b ∈ T.blades, pc A.n b % 4 ≤ 1 := by
  obtain ⟨s, s1, s2, _⟩ := symmetricReverse_sem hA hS
  refine ⟨s.output, by rw [SubSpace.symmetricReverse, s1]; rfl, s2.wf_output, fun b hb => ?_⟩
  have := symmetricReverse_output hA hS s1 hb
  rw [popcount_of_lt hA.le32 (s2.wf_output.lt b hb)] at this
  omega

/-- Two steps suffice in dimension at most four. -/
theorem nsimple_dim4 (hA : WfAlg A) (h4 : A.n ≤ 4) {S : SubSpace} (hS : WfSub A S) (n : Nat) :
    SubSpace.isNSimple A (n + 2) S = some true ∧ S.isReverseSimple A (n + 1) = some true := by
  obtain ⟨T, t1, t2, t3⟩ := symmetricReverse_sub hA hS
  obtain ⟨U, u1, u2, u3⟩ := sn_sub hA t2 (wf_scalar (A := A)) (by
    intro a ha c hc hs
    rw [List.mem_singleton]
    exact pair_sn4 A.n h4 a (t2.lt a ha) c (t2.lt c hc) ⟨t3 a ha, t3 c hc, hs⟩)
  have := nsimple_of hA (by simp [SubSpace.selfProducts]) t2 u1 (nsimple_scalar hA n u2 u3)
  exact ⟨nsimple_of hA (by simp [SubSpace.selfProducts]) hS t1 this, by rw [SubSpace.isReverseSimple, t1]; exact this⟩

/-- Three steps suffice in dimension at most five. -/
theorem nsimple_dim5 (hA : WfAlg A) (h5 : A.n ≤ 5) {S : SubSpace} (hS : WfSub A S) : SubSpace.isNSimple A 3 S = some true := by
  by_cases h4 : A.n ≤ 4
  · exact (nsimple_dim4 hA h4 hS 1).1
  have hn : A.n = 5 := by omega
  obtain ⟨T, t1, t2, t3⟩ := symmetricReverse_sub hA hS
  have hU : WfSub A ⟨[0, 31]⟩ := wfSub_of_B (by
    rw [wfSubB, hn]; decide +kernel)
  obtain ⟨U, u1, u2, u3⟩ := ps_sub hA t2 hU (by
    intro a ha c hc hs
    have l1 := t2.lt a ha
    have l2 := t2.lt c hc
    have l3 := t3 a ha
    have l4 := t3 c hc
    rw [hn] at l1 l2 l3 l4 hs
    simpa using pair_ps5 a l1 c l2 ⟨l3, l4, hs⟩)
  obtain ⟨V, v1, v2, v3⟩ := sn_sub hA u2 (wf_scalar (A := A)) (by
    intro a ha c hc hs
    rw [List.mem_singleton]
    have l1 := u3 a ha
    have l2 := u3 c hc
    rw [hn] at hs
    simp only [List.mem_cons, List.not_mem_nil, or_false] at l1 l2
    rcases l1 with rfl | rfl <;> rcases l2 with rfl | rfl
    · rfl
    · exact absurd rfl hs
    · exact absurd rfl hs
    · rfl)
  have := nsimple_of hA (by simp [SubSpace.selfProducts]) u2 v1 (nsimple_scalar hA 0 v2 v3)
  exact nsimple_of hA (by simp [SubSpace.selfProducts]) hS t1 (nsimple_of hA (by simp [SubSpace.selfProducts]) t2 u1 this)

end Verif
