import Verif.Props.Roots
import Verif.Props.Named
import Verif.Props.Products2
import Mathlib.Combinatorics.Colex
import Mathlib.Data.Finset.Powerset
/-! # C67 – C69: norms, construction of multivectors, grades by index -/
namespace Verif.Props
open Model Spec Model.Factory

variable {A : Alg}

/-! ## C67 -/
section C67

/-- C67: `norm_squared` is `x ~x`, for every subspace. -/
theorem C67_norm_squared {R : Type} [Field R] [DecidableEq R] (hA : WfAlg A) {x : MV R} (hx : WfMV A x) :
    Gives A (x.normSquared A) (val A x * CliffordAlgebra.reverse (val A x)) ∧
    Agree A (x.normSquared A) (do x.product A (← x.reverse A)) := by
  have h : Gives A (x.normSquared A) (val A x * CliffordAlgebra.reverse (val A x)) := by
    obtain ⟨T, hT, _⟩ := symmetricReverse_sub hA hx.sub
    exact (symmetricReverse_in hA hx hT).gives
  obtain ⟨v, v1, v2⟩ := (C64_calls hA hx hx).1
  obtain ⟨z, z1, _, z3⟩ := v1
  obtain ⟨w, w1, _, w3⟩ := (C64_values hA hx hx).1
  cases z1.symm.trans w1
  exact ⟨h, _, h, by rw [← w3, z3]; exact v2⟩

variable {R : Type} [Field R] [LinearOrder R] [IsStrictOrderedRing R]

/-- The absolute value of the backend is the one of the ordered field. -/
def AbsLaw (rt : Roots R) : Prop := ∀ a, rt.abs a = |a|

/-- C67: the norm of a scalar is its absolute value; the subspace stays. -/
theorem C67_scalar (hA : WfAlg A) {rt : Roots R} (ha : AbsLaw rt) (fuel : Nat) {x : MV R} (hx : WfMV A x) (hs : SubOf x.sub ⟨[0]⟩) :
    ∃ y, x.norm A rt fuel = .ok y ∧ WfMV A y ∧ y.sub = x.sub ∧ val A y = |coeff x 0| • (1 : Cl A R) ∧
      val A y * val A y = val A x * CliffordAlgebra.reverse (val A x) := by
  obtain ⟨r, r1, r2⟩ := insideScalar_eq hA x.sub
  rw [r2.2 hs] at r1
  obtain ⟨c, hc, hv⟩ := Sc.of' hx hs
  have hl : (x.vals.map rt.abs).length = x.sub.blades.length := by rw [List.length_map, hx.len]
  have hw : WfMV A (⟨x.sub, x.vals.map rt.abs⟩ : MV R) := ⟨hx.sub, hl⟩
  have h0 : coeff x 0 = c := by
    rw [coeff_eq hx, hv, ← blade_zero, map_smul, coef_blade A R (Nat.two_pow_pos _)]; simp
  have e : val A (⟨x.sub, x.vals.map rt.abs⟩ : MV R) = |coeff x 0| • (1 : Cl A R) := by
    obtain ⟨⟨bs⟩, vs⟩ := x
    have hn := hx.sub.nodup
    have hlen := hx.len
    have hs' : ∀ b ∈ bs, b = 0 := fun b hb => by simpa using hs b hb
    match bs, vs, hlen with
    | [], [], _ => simp [val, denote, coeff]
    | [b], [v], _ =>
      cases hs' b (by simp)
      have : rt.abs v = |v| := ha v
      simp [val, denote, coeff, this, blade_zero]
    | b :: b' :: bs, _, _ =>
      cases hs' b (by simp); cases hs' b' (by simp); simp at hn
  refine ⟨⟨x.sub, x.vals.map rt.abs⟩, ?_, hw, rfl, e, ?_⟩
  · rw [MV.norm, r1]
    simp [MV.abs, MV.copy, MV.construct, hl, lift]
  · rw [e, hv, h0, reverse_smul_one, smul_mul_smul_comm, smul_mul_smul_comm, abs_mul_abs_self]

/-- The norm of anything that is not a scalar is the square root of `x ~x`. -/
theorem norm_eq (hA : WfAlg A) (rt : Roots R) (fuel : Nat) {x : MV R} (hx : WfMV A x) (hs : ¬ SubOf x.sub ⟨[0]⟩) {T : SubSpace}
    (hT : x.sub.symmetricReverse A = some T) :
    ∃ z, x.norm A rt fuel = z.squareRoot A rt fuel ∧ WfMV A z ∧ z.sub = T ∧
      val A z = val A x * CliffordAlgebra.reverse (val A x) := by
  obtain ⟨r, r1, r2⟩ := insideScalar_eq hA x.sub
  have r3 : r = false := by
    cases r with
    | false => rfl
    | true => exact absurd (r2.1 rfl) hs
  obtain ⟨z, z1, z2, z3, z4⟩ := symmetricReverse_in hA hx hT
  refine ⟨z, ?_, z3, z2, z4⟩
  rw [MV.norm, r1, r3, MV.normSquared, z1]
  rfl

/-- C67: the norm of an element with `x ~x = a ≥ 0` is the nonnegative number with this square. -/
theorem C67_value (hA : WfAlg A) {rt : Roots R} (hr : RealRoots rt) {fuel : Nat} (hf : 1 ≤ fuel) {x : MV R} (hx : WfMV A x)
    (hs : ¬ SubOf x.sub ⟨[0]⟩) {T : SubSpace} (hT : x.sub.symmetricReverse A = some T) (hst : T.isStudy A = some true) {a : R}
    (hv : val A x * CliffordAlgebra.reverse (val A x) = a • 1) (h0 : 0 ≤ a) :
    ∃ y c, x.norm A rt fuel = .ok y ∧ WfMV A y ∧ 0 ≤ c ∧ c * c = a ∧ val A y = c • (1 : Cl A R) := by
  obtain ⟨fuel, rfl⟩ : ∃ f, fuel = f + 1 := ⟨fuel - 1, by omega⟩
  obtain ⟨z, z1, z2, z3, z4⟩ := norm_eq hA rt (fuel + 1) hx hs hT
  rw [z1]
  have e : val A z = a • 1 + (0 : Cl A R) := by rw [z4, hv, add_zero]
  have g : gradePart A R 0 (0 : Cl A R) = 0 := map_zero _
  by_cases hd : ∀ b ∈ z.sub.blades, b ≠ 0 → NullBlade A b
  · obtain ⟨_, ⟨y, c, y1, y2, y3, y4, y5⟩ | ⟨_, h⟩⟩ := squareRoot_null hA hr fuel z2 (z3 ▸ hst) hd e g
    · exact ⟨y, c, y1, y2, y3, y4, by rw [y5, smul_zero, add_zero]⟩
    · exact absurd h0 (not_le.2 h)
  · obtain ⟨q, q1, h⟩ := squareRoot_study hA hr fuel z2 (z3 ▸ hst) hd e g
    have q0 : q = 0 := smul_one_inj (A := A) (by rw [← q1, mul_zero, zero_smul])
    subst q0
    obtain ⟨y, c, s, y1, y2, y3, s0, s1, y4, y5⟩ | ⟨_, h⟩ := h
    · have : s = a := nonneg_root_unique s0 h0 (by rw [s1, sub_zero])
      subst this
      exact ⟨y, c, y1, y2, y3, by rw [y4]; field_simp; ring, by rw [y5, smul_zero, add_zero]⟩
    · exfalso
      rcases h with h | ⟨s, s0, _, h⟩
      · exact absurd (mul_self_nonneg a) (not_le.2 (by simpa using h))
      · linarith

/-- C67: the norm of an element with `x ~x = a + n`, a study number with nonnegative root `s` of its study norm squared and `a + s > 0`,
squares to `x ~x`. -/
theorem C67_study (hA : WfAlg A) {rt : Roots R} (hr : RealRoots rt) {fuel : Nat} (hf : 1 ≤ fuel) {x : MV R} (hx : WfMV A x)
    (hs : ¬ SubOf x.sub ⟨[0]⟩) {T : SubSpace} (hT : x.sub.symmetricReverse A = some T) (hst : T.isStudy A = some true) {a q s : R}
    {n : Cl A R} (hv : val A x * CliffordAlgebra.reverse (val A x) = a • 1 + n) (h0 : gradePart A R 0 n = 0)
    (hq : n * n = q • 1) (s0 : 0 ≤ s) (s1 : s * s = a * a - q) (hpos : 0 < a + s) :
    ∃ y, x.norm A rt fuel = .ok y ∧ WfMV A y ∧ val A y * val A y = val A x * CliffordAlgebra.reverse (val A x) := by
  obtain ⟨z, z1, z2, z3, z4⟩ := norm_eq hA rt fuel hx hs hT
  obtain ⟨y, y1, y2, y3⟩ := C50_square_root hA hr hf z2 (z3 ▸ hst) (z4.trans hv) h0 hq s0 s1 hpos
  exact ⟨y, z1.trans y1, y2, y3.trans z4⟩

/-- C67: there is no norm if `x ~x` cannot be a study number. -/
theorem C67_no_match (hA : WfAlg A) (rt : Roots R) (fuel : Nat) {x : MV R} (hx : WfMV A x)
    (hs : ¬ SubOf x.sub ⟨[0]⟩) {T : SubSpace} (hT : x.sub.symmetricReverse A = some T) (hst : T.isStudy A = some false) :
    x.norm A rt fuel = .error .noMatch := by
  obtain ⟨z, z1, z2, z3, z4⟩ := norm_eq hA rt fuel hx hs hT
  rw [z1, C50_no_match hA rt fuel z2 (z3 ▸ hst)]

end C67

/-! ## C68 -/
section C68
variable {R : Type} [CommRing R]

/-- C68: `multivector(values, subspace)` asks for one value per blade, and stores the values at the blades in order; without values
it is the default of the subspace; without subspace it is a full multivector. -/
theorem C68_multivector (hA : WfAlg A) {S : SubSpace} (hS : WfSub A S) (v : List R) :
    (v.length ≠ S.blades.length → MVFactory.multivector A (some v) (some S) = none) ∧
    (v.length = S.blades.length → ∃ z, MVFactory.multivector A (some v) (some S) = some z ∧ WfMV A z ∧ z.sub = S ∧
      ∀ (i : Nat) (b : Nat) (c : R), S.blades[i]? = some b → v[i]? = some c → coeff z b = c) ∧
    MVFactory.multivector (R := R) A none (some S) = some (MV.default S) ∧
    ∃ F, A.full = some F ∧ IsSpace A F (fun _ => True) ∧ MVFactory.multivector A (some v) none = MVFactory.multivector A (some v) (some F) := by
  refine ⟨fun h => ?_, fun h => ?_, rfl, ?_⟩
  · simp [MVFactory.multivector, MV.construct, h]
  · refine ⟨⟨S, v⟩, by simp [MVFactory.multivector, MV.construct, h], ⟨hS, h⟩, rfl, fun i b c hb hc => ?_⟩
    have hn := hS.nodup
    obtain ⟨bs⟩ := S
    simp only [coeff] at *
    clear hS
    induction bs generalizing v i with
    | nil => simp at hb
    | cons d ds ih =>
      obtain ⟨w, ws, rfl⟩ : ∃ w ws, v = w :: ws := by
        cases v with
        | nil => simp at h
        | cons w ws => exact ⟨w, ws, rfl⟩
      cases i with
      | zero => simp at hb hc; simp [hb, hc]
      | succ i =>
        simp only [List.getElem?_cons_succ] at hb hc
        have hne : (b == d) = false := by
          rw [beq_eq_false_iff_ne]
          rintro rfl
          exact (List.nodup_cons.1 hn).1 (List.mem_of_getElem? hb)
        rw [List.zip_cons_cons, List.lookup_cons, hne]
        exact ih ws i (hb := hb) (hc := hc) (h := by simpa using h) (hn := (List.nodup_cons.1 hn).2)
  · obtain ⟨F, f1, f2⟩ := (C14_named hA).2.2.2.2.2.2.2.2.2.2.1
    exact ⟨F, f1, f2, by simp [MVFactory.multivector, f1]⟩

/-- C68: `blade(b, s)` is the element `s` times the blade. -/
theorem C68_blade (hA : WfAlg A) {b : Nat} (hb : b < 2 ^ A.n) (s : R) :
    GivesIn A (MVFactory.blade A b s) ⟨[b]⟩ (s • blade A R b) := by
  obtain ⟨h1, h2⟩ := bladeSpace_eq hA hb
  refine ⟨⟨⟨[b]⟩, [s]⟩, by simp [MVFactory.blade, h1, MV.construct], rfl, ⟨h2, rfl⟩, by simp [val, denote]⟩

/-- The number of blades of a subspace is the number of bit patterns. -/
theorem space_card {S : SubSpace} {p : Nat → Prop} [DecidablePred p] (h : IsSpace A S p) :
    S.blades.length = ((Finset.range (2 ^ A.n)).filter p).card := by
  rw [← List.toFinset_card_of_nodup h.1.nodup]
  congr 1
  ext b
  simp [h.2 b]

theorem card_popcount {n : Nat} (hn : n ≤ 32) (k : Nat) :
    ((Finset.range (2 ^ n)).filter fun b => popcount b = k).card = n.choose k := by
  rw [← Finset.card_range n, ← Finset.card_powersetCard, Finset.card_range]
  have hpc : ∀ b < 2 ^ n, popcount b = b.bitIndices.toFinset.card ∧ b.bitIndices.toFinset ⊆ Finset.range n := by
    intro b hb
    have hs : b.bitIndices.toFinset ⊆ Finset.range n := by
      intro i hi
      rw [List.mem_toFinset, Nat.mem_bitIndices] at hi
      rw [Finset.mem_range]
      by_contra hc
      rw [Nat.testBit_lt_two_pow (lt_of_lt_of_le hb (Nat.pow_le_pow_right (by norm_num) (not_lt.1 hc)))] at hi
      cases hi
    refine ⟨?_, hs⟩
    rw [popcount_of_lt hn hb, pc_eq_card, bitSet]
    congr 1
    ext i
    rw [Finset.mem_filter, List.mem_toFinset, Nat.mem_bitIndices]
    exact ⟨fun h => h.2, fun h => ⟨hs (by rwa [List.mem_toFinset, Nat.mem_bitIndices]), h⟩⟩
  have hinv : ∀ s ∈ Finset.powersetCard k (Finset.range n), ∑ i ∈ s, 2 ^ i < 2 ^ n := by
    intro s hs
    refine Nat.lt_pow_two_of_testBit _ fun i hi => ?_
    by_contra hc
    rw [Bool.not_eq_false, ← Nat.mem_bitIndices, ← List.mem_toFinset, Finset.toFinset_bitIndices_sum_two_pow] at hc
    have := Finset.mem_range.1 ((Finset.mem_powersetCard.1 hs).1 hc)
    omega
  refine Finset.card_bij' (fun b _ => b.bitIndices.toFinset) (fun s _ => ∑ i ∈ s, 2 ^ i) ?_ ?_ ?_ ?_
  · intro b hb
    rw [Finset.mem_filter, Finset.mem_range] at hb
    rw [Finset.mem_powersetCard]
    exact ⟨(hpc b hb.1).2, by rw [← (hpc b hb.1).1, hb.2]⟩
  · intro s hs
    have h1 := hinv s hs
    rw [Finset.mem_filter, Finset.mem_range, (hpc _ h1).1, Finset.toFinset_bitIndices_sum_two_pow]
    exact ⟨h1, (Finset.mem_powersetCard.1 hs).2⟩
  · intro b _
    exact Finset.sum_toFinset_bitIndices_two_pow b
  · intro s _
    exact Finset.toFinset_bitIndices_sum_two_pow s

/-- C68: `k_vector(k, values)`, with `k` possibly negative, takes as many values as there are ways to choose `k` of the basis vectors,
and yields an element of grade `k`. -/
theorem C68_k_vector (hA : WfAlg A) {g : Int} {k : Nat} (hg : IsGrade A.n g k) (v : List R) :
    (v.length ≠ A.n.choose k → MVFactory.kVector A g (some v) = none) ∧
    (v.length = A.n.choose k → ∃ z, MVFactory.kVector A g (some v) = some z ∧ WfMV A z ∧ z.vals = v ∧
      IsSpace A z.sub fun b => popcount b = k) := by
  obtain ⟨S, h1, h2⟩ := kVector_isSpace hA hg
  have hl : S.blades.length = A.n.choose k := by rw [space_card h2, card_popcount hA.le32]
  rw [← hl, MVFactory.kVector, h1]
  refine ⟨fun h => by simp [MVFactory.multivector, MV.construct, h], fun h => ⟨⟨S, v⟩, by simp [MVFactory.multivector, MV.construct, h],
    ⟨h2.1, h⟩, rfl, h2⟩⟩

theorem card_even {n : Nat} (hn : n ≤ 32) (h0 : 0 < n) : ((Finset.range (2 ^ n)).filter fun b => popcount b % 2 = 0).card = 2 ^ (n - 1) := by
  have hlt : ∀ b < 2 ^ n, b ^^^ 1 < 2 ^ n := fun b hb => Nat.xor_lt_two_pow hb (Nat.one_lt_two_pow h0.ne')
  have hpar : ∀ b, popcount (b ^^^ 1) % 2 = (popcount b + 1) % 2 := by
    intro b
    have := popcount_xor b 1
    have h1 : popcount 1 = 1 := by decide +kernel
    omega
  have e : ((Finset.range (2 ^ n)).filter fun b => popcount b % 2 = 0).card = ((Finset.range (2 ^ n)).filter fun b => ¬ popcount b % 2 = 0).card := by
    refine Finset.card_bij' (fun b _ => b ^^^ 1) (fun b _ => b ^^^ 1) ?_ ?_ ?_ ?_
    · intro b hb
      rw [Finset.mem_filter, Finset.mem_range] at *
      exact ⟨hlt b hb.1, by have := hpar b; omega⟩
    · intro b hb
      rw [Finset.mem_filter, Finset.mem_range] at *
      exact ⟨hlt b hb.1, by have := hpar b; omega⟩
    · intro b _; simp [Nat.xor_assoc]
    · intro b _; simp [Nat.xor_assoc]
  have := Finset.card_filter_add_card_filter_not (s := Finset.range (2 ^ n)) (fun b => popcount b % 2 = 0)
  rw [← e, Finset.card_range] at this
  obtain ⟨m, rfl⟩ : ∃ m, n = m + 1 := ⟨n - 1, by omega⟩
  have hp := pow_succ 2 m
  rw [e, Nat.add_sub_cancel]
  omega

/-- C68: `even_grade`, `rotor` and `motor` take half as many values as the algebra has blades. -/
theorem C68_even_grade (hA : WfAlg A) (h0 : 0 < A.n) (v : List R) :
    (v.length ≠ 2 ^ (A.n - 1) → MVFactory.evenGrade A (some v) = none) ∧
    (v.length = 2 ^ (A.n - 1) → ∃ z, MVFactory.evenGrade A (some v) = some z ∧ WfMV A z ∧ z.vals = v ∧
      IsSpace A z.sub fun b => popcount b % 2 = 0) := by
  obtain ⟨S, h1, h2⟩ := (C14_named hA).2.2.2.2.2.2.2.2.2.2.2.2.1
  have hl : S.blades.length = 2 ^ (A.n - 1) := by rw [space_card h2, card_even hA.le32 h0]
  rw [← hl, MVFactory.evenGrade, h1]
  refine ⟨fun h => by simp [MVFactory.multivector, MV.construct, h], fun h => ⟨⟨S, v⟩, by simp [MVFactory.multivector, MV.construct, h],
    ⟨h2.1, h⟩, rfl, h2⟩⟩

end C68

/-! ## C69 -/
section C69
variable {R : Type} [CommRing R]

/-- C69: `select_grade` and `restrict_grade`, by possibly negative index, keep the part of this grade; `select` in the subspace of the
grade, `restrict` in the blades of this grade that `x` has. -/
theorem C69_grade (hA : WfAlg A) {x : MV R} (hx : WfMV A x) {g : Int} {k : Nat} (hg : IsGrade A.n g k) :
    (∃ z, x.selectGrade A g = some z ∧ IsSpace A z.sub (fun b => popcount b = k) ∧ WfMV A z ∧
      val A z = gradePart A R k (val A x) ∧ ∀ b, coeff z b = if popcount b = k then coeff x b else 0) ∧
    (∃ z, x.restrictGrade A g = some z ∧ IsSpace A z.sub (fun b => popcount b = k ∧ b ∈ x.sub.blades) ∧ WfMV A z ∧
      val A z = gradePart A R k (val A x) ∧ ∀ b, coeff z b = if popcount b = k then coeff x b else 0) := by
  obtain ⟨S, h1, h2, h3⟩ := kVector_isSpace hA hg
  have e : ∀ b, (if b ∈ S.blades then coeff x b else 0) = if popcount b = k then coeff x b else 0 := by
    intro b
    by_cases hb : b < 2 ^ A.n
    · simp [h3 b, hb]
    · have : coeff x b = 0 := coeff_notMem fun h => hb (hx.sub.lt b h)
      simp [this]
  rw [MV.selectGrade, MV.restrictGrade, h1]
  refine ⟨?_, ?_⟩
  · obtain ⟨z, z1, z2, z3, z4⟩ := C25_select hx h2
    have hc : ∀ b, coeff z b = if popcount b = k then coeff x b else 0 := fun b => by rw [z4, e]
    refine ⟨z, z1, z2 ▸ ⟨h2, h3⟩, z3, ?_, hc⟩
    exact ext_coef A R fun b hb => by rw [← coeff_eq z3, hc, gradePart_eq_proj, coef_proj, coeff_eq hx]
  · obtain ⟨z, z1, z2, z3, z4⟩ := C25_restrict hA hx h2
    have hc : ∀ b, coeff z b = if popcount b = k then coeff x b else 0 := fun b => by rw [z4, e]
    refine ⟨z, z1, ⟨z2.1, fun b => ?_⟩, z3, ?_, hc⟩
    · rw [z2.2 b]
      have := h3 b
      simp only at this ⊢
      tauto
    · exact ext_coef A R fun b hb => by rw [← coeff_eq z3, hc, gradePart_eq_proj, coef_proj, coeff_eq hx]

/-- C69: an index that denotes no grade raises. -/
theorem C69_out_of_range {x : MV R} {g : Int} (h : (A.n : Int) < g ∨ g < -(A.n + 1)) : x.selectGrade A g = none ∧ x.restrictGrade A g = none := by
  have : A.kVector g = none := by
    have := C14_out_of_range (A := A) (gs := [g]) (g := g) (by simp) h
    cases hk : A.kVector g with
    | none => rfl
    | some S =>
      exfalso
      rw [Alg.kVector] at hk
      rw [this] at hk
      cases hk
  rw [MV.selectGrade, MV.restrictGrade, this]
  exact ⟨rfl, rfl⟩

end C69

/-! ## Examples -/

theorem ex_rotor_norm : val euc2 (⟨⟨[0, 3]⟩, [3, 4]⟩ : MV ℝ) * CliffordAlgebra.reverse (val euc2 (⟨⟨[0, 3]⟩, [3, 4]⟩ : MV ℝ)) = (25 : ℝ) • 1 := by
  have h3 : CliffordAlgebra.reverse (blade euc2 ℝ 3) = - blade euc2 ℝ 3 := by
    rw [C04_reverse_sign wf_euc2 ℝ (by decide), show euc2.reverseSign 3 = -1 by decide +kernel]
    simp
  have hq := blade3_sq 4
  rw [val_two 3 3 4, map_add, reverse_smul_one, map_smul, h3, smul_neg, mul_add, add_mul, add_mul, smul_mul_smul_comm, one_mul]
  rw [mul_neg, mul_neg, hq, smul_mul_smul_comm, smul_mul_smul_comm, one_mul, mul_one]
  module

example : ∃ y, ∃ c : ℝ, (⟨⟨[0, 3]⟩, [3, 4]⟩ : MV ℝ).norm euc2 (realRoots 1000) 1 = .ok y ∧ WfMV euc2 y ∧ 0 ≤ c ∧ c * c = 25 ∧ val euc2 y = c • 1 :=
  C67_value wf_euc2 (realRoots_law _) (le_refl _) ⟨wfSub_of_B (by decide +kernel), rfl⟩ (fun h => by simpa using h 3 (by simp))
    (T := ⟨[0]⟩) (by decide +kernel) (by decide +kernel) ex_rotor_norm (by norm_num)
example : (⟨⟨[0, 3]⟩, [3, 4]⟩ : MV ℚ).norm euc2 someRoots 1 = .ok ⟨⟨[0]⟩, [5]⟩ ∧
    (⟨⟨[0, 3]⟩, [3, 4]⟩ : MV ℚ).normSquared euc2 = some ⟨⟨[0]⟩, [25]⟩ := by decide +kernel
example : (⟨⟨[0]⟩, [-3]⟩ : MV ℚ).norm euc2 someRoots 1 = .ok ⟨⟨[0]⟩, [3]⟩ ∧ AbsLaw someRoots := ⟨by decide +kernel, fun _ => rfl⟩
/-- A pseudoscalar part: `(1 + e0123) (1 + e0123)~ = 1 + 2 e0123`. -/
example : (⟨⟨[0, 15]⟩, [2, 3]⟩ : MV ℚ).norm pga3 someRoots 1 = .ok ⟨⟨[0, 15]⟩, [2, 3]⟩ := by decide +kernel
example : (⟨[0, 15]⟩ : SubSpace).symmetricReverse pga3 = some ⟨[0, 15]⟩ ∧ (⟨[0, 15]⟩ : SubSpace).isStudy pga3 = some true := by decide +kernel

example : (MVFactory.kVector pga3 2 (some [1, 2, 3, 4, 5, 6]) : Option (MV ℤ)) = some ⟨⟨[3, 5, 6, 9, 10, 12]⟩, [1, 2, 3, 4, 5, 6]⟩ ∧
    (MVFactory.kVector pga3 2 (some [1, 2, 3]) : Option (MV ℤ)) = none ∧ IsGrade pga3.n (-3) 2 ∧ pga3.n.choose 2 = 6 :=
  ⟨by decide +kernel, by decide +kernel, ⟨by decide, Or.inr (by decide)⟩, by decide⟩
example : (MVFactory.evenGrade euc2 (some [1, 2]) : Option (MV ℤ)) = some ⟨⟨[0, 3]⟩, [1, 2]⟩ ∧
    (MVFactory.blade pga3 5 7 : Option (MV ℤ)) = some ⟨⟨[5]⟩, [7]⟩ ∧
    (MVFactory.multivector pga3 none (some ⟨[0, 3]⟩) : Option (MV ℤ)) = some ⟨⟨[0, 3]⟩, [1, 0]⟩ := by decide +kernel
example : exX.selectGrade pga3 2 = some ⟨⟨[3, 5, 6, 9, 10, 12]⟩, [3, 0, 5, 0, 0, 0]⟩ ∧ exX.restrictGrade pga3 (-3) = some ⟨⟨[3, 6]⟩, [3, 5]⟩ ∧
    exX.selectGrade pga3 5 = none := by decide +kernel

end Verif.Props
