import Verif.Proofs.Physics7
/-! # Constraints between bodies -/
namespace Verif
open Model Spec Model.Factory Props

variable {A : Alg} {R : Type} [Field R] [DecidableEq R]

/-- Turning with an even element keeps the grade two below the top, in dimension below six. -/
theorem even_turn (hA : WfAlg A) (h5 : A.n < 6) (h2 : (2 : R) ≠ 0) {k : Nat} (hk : k + 2 = A.n) {M d : Cl A R} (hM : CliffordAlgebra.involute M = M)
    (hd : gradePart A R k d = d) : gradePart A R k (M * d * CliffordAlgebra.reverse M) = M * d * CliffordAlgebra.reverse M := by
  have h0 : ∀ b < 2 ^ A.n, popcount b ≠ k → coef A R b d = 0 := fun b hb hp => by
    rw [← hd, gradePart_eq_proj, coef_proj, if_neg hp]
  have r1 : CliffordAlgebra.reverse d = (-1 : R) ^ (k / 2) • d := by
    apply ext_coef
    intro b hb
    rw [coef_reverse hA R hb, map_smul, smul_eq_mul]
    by_cases hp : popcount b = k
    · rw [hp]
    · rw [h0 b hb hp, mul_zero, mul_zero]
  have r2 : CliffordAlgebra.involute d = (-1 : R) ^ k • d := by
    apply ext_coef
    intro b hb
    rw [coef_involute hA R hb, map_smul, smul_eq_mul]
    by_cases hp : popcount b = k
    · rw [hp]
    · rw [h0 b hb hp, mul_zero, mul_zero]
  obtain ⟨t, ht⟩ : ∃ t, t = M * d * CliffordAlgebra.reverse M := ⟨_, rfl⟩
  have t1 : CliffordAlgebra.reverse t = (-1 : R) ^ (k / 2) • t := by
    rw [ht, CliffordAlgebra.reverse.map_mul, CliffordAlgebra.reverse.map_mul, CliffordAlgebra.reverse_reverse, r1, smul_mul_assoc, mul_smul_comm, mul_assoc]
  have t2 : CliffordAlgebra.involute t = (-1 : R) ^ k • t := by
    rw [ht, map_mul, map_mul, ← CliffordAlgebra.reverse_involute, hM, r2, mul_smul_comm, smul_mul_assoc]
  rw [← ht]
  apply gradePart_of hA
  intro b hb hp
  by_contra hc
  have hl : popcount b ≤ A.n := by rw [popcount_of_lt hA.le32 hb]; exact pc_le A.n b
  have e1 := congrArg (coef A R b) t1
  have e2 := congrArg (coef A R b) t2
  rw [coef_reverse hA R hb, map_smul, smul_eq_mul] at e1
  rw [coef_involute hA R hb, map_smul, smul_eq_mul] at e2
  have e1 := mul_right_cancel₀ hc e1
  have e2 := mul_right_cancel₀ hc e2
  have k1 : (1 : R) ≠ -1 := fun h => h2 (by linear_combination h)
  rw [neg_one_pow_mod, neg_one_pow_mod (k / 2)] at e1
  rw [neg_one_pow_mod, neg_one_pow_mod k] at e2
  split_ifs at e1 e2 <;> first | exact k1 e1 | exact k1 e1.symm | exact k1 e2 | exact k1 e2.symm | omega

omit [DecidableEq R] in
/-- A bivector commutes with everything under the outer product. -/
theorem wedge_bivector_comm (hA : WfAlg A) {x : Cl A R} (hx : gradePart A R 2 x = x) (y : Cl A R) : wedgeMap A R x y = wedgeMap A R y x := by
  have : (gradedProductₗ A R fun i j k => i + j = k).compl₁₂ (gradePart A R 2) LinearMap.id =
      (gradedProductₗ A R fun i j k => i + j = k).flip.compl₁₂ (gradePart A R 2) LinearMap.id := by
    apply lin_ext₂
    intro a ha c hc
    rw [LinearMap.compl₁₂_apply, LinearMap.compl₁₂_apply, gradePart_blade _ ha, LinearMap.id_apply]
    by_cases h2 : popcount a = 2
    · rw [if_pos h2, LinearMap.flip_apply, gradedProductₗ_apply, gradedProductₗ_apply, ← wedgeMap, ← wedgeMap, wedge_blade hA ha hc, wedge_blade hA hc ha,
        Nat.and_comm c a, Nat.xor_comm c a]
      split
      · rename_i h0
        have e := inv_add A.n a c
        rw [h0, popcount_of_lt hA.le32 ha] at *
        rw [h2, show pc A.n 0 = 0 by rw [pc_eq_zero_iff]; simp, add_zero] at e
        congr 1
        rw [neg_one_pow_mod, neg_one_pow_mod (inv A.n c a)]
        congr 1
        apply propext
        omega
      · rfl
    · rw [if_neg h2]; simp
  have := LinearMap.congr_fun₂ this x y
  rwa [LinearMap.compl₁₂_apply, LinearMap.compl₁₂_apply, hx, LinearMap.flip_apply, gradedProductₗ_apply, gradedProductₗ_apply] at this

omit [DecidableEq R] in
theorem meet_bivector_comm (hA : WfAlg A) {k : Nat} (hk : k + 2 = A.n) {x y : Cl A R} (hx : gradePart A R 2 x = x) (hy : gradePart A R k y = y) :
    meet A R x y = meet A R y x := by
  rw [meet_wedge hA (by omega) hx hy, meet_wedge hA hk hy hx, wedge_bivector_comm hA hx]

omit [DecidableEq R] in
theorem call_mem' {op : Option (Operator Int)} {xs ys : List (MV R)} {z : MV R} (h : MV.call op xs = some z) {v : Cl A R}
    (g : Gives A (MV.call op ys) v) {b : Nat} (hv : coef A R b v ≠ 0) : b ∈ z.sub.blades := by
  obtain ⟨w, w1, w2, w3⟩ := g
  cases op with
  | none => rw [MV.call] at h; cases h
  | some o =>
    rw [(call_output h).1, ← (call_output w1).1]
    exact mem_of_coef w2 (w3 ▸ hv)

/-- The sandwiches of a motor with a space of all the blades of a grade stay in this space. -/
theorem turn_in (hA : WfAlg A) {m d : MV R} (hm : WfMV A m) (h0 : 0 ∈ m.sub.blades) (hd : WfMV A d) {k : Nat} (hk : IsSpace A d.sub fun b => popcount b = k) :
    GivesIn A (m.sandwich A d) d.sub (gradePart A R k (val A m * val A d * CliffordAlgebra.reverse (val A m))) ∧
    GivesIn A (m.reverseSandwich A d) d.sub (gradePart A R k (CliffordAlgebra.reverse (val A m) * val A d * val A m)) := by
  have hg : ∀ a ∈ d.sub.blades, ∀ x : Cl A R, gradesOf A R d.sub x = gradePart A R k x := by
    intro a ha x
    apply ext_coef
    intro b hb
    rw [gradesOf, gradePart_eq_proj, coef_proj, coef_proj]
    refine if_congr ⟨?_, fun h => ⟨a, ha, ((hk.2 a).1 ha).2.trans h.symm⟩⟩ rfl rfl
    rintro ⟨c, hc, e⟩
    exact e.symm.trans ((hk.2 c).1 hc).2
  have fin : ∀ {z : MV R}, (m.sandwich A d = some z ∨ m.reverseSandwich A d = some z) → WfMV A z → (∀ b ∈ d.sub.blades, b ∈ z.sub.blades) → z.sub = d.sub := by
    intro z hz wz hb
    refine WfSub.ext wz.sub hd.sub fun b => ⟨fun h => ?_, hb b⟩
    obtain ⟨c, hc, e⟩ := sandwich_sub hA hm hd hz h
    exact (hk.2 b).2 ⟨wz.sub.lt b h, e.symm.trans ((hk.2 c).1 hc).2⟩
  obtain ⟨m', m1, m2, m3⟩ := basis_mv (R := R) hm.sub h0
  have one : ∀ b ∈ d.sub.blades, coef A R b (gradesOf A R d.sub (1 * blade A R b * 1)) ≠ 0 := by
    intro b hb
    rw [hg b hb, one_mul, mul_one, gradePart_blade _ (hd.sub.lt b hb), if_pos ((hk.2 b).1 hb).2, coef_blade A R (hd.sub.lt b hb), if_pos rfl]
    exact one_ne_zero
  have hv : ∀ x y : Cl A R, gradesOf A R d.sub (x * val A d * y) = gradePart A R k (x * val A d * y) := by
    intro x y
    by_cases hne : d.sub.blades = []
    · have : val A d = 0 := by simp [val, denote, hne]
      rw [this, mul_zero, zero_mul, map_zero, map_zero]
    · obtain ⟨a, ha⟩ := List.exists_mem_of_ne_nil _ hne
      exact hg a ha _
  constructor
  · obtain ⟨z, z1, z2, z3⟩ := sandwich_gives hA hm hd
    refine ⟨z, z1, fin (.inl z1) z2 fun b hb => ?_, z2, z3.trans (hv _ _)⟩
    obtain ⟨y, y1, y2, y3⟩ := basis_mv (R := R) hd.sub hb
    have g := sandwich_gives hA m1 y1
    rw [MV.sandwich, m2, y2, m3, y3, blade_zero, CliffordAlgebra.reverse.map_one] at g
    exact call_mem' z1 g (one b hb)
  · obtain ⟨z, z1, z2, z3⟩ := reverseSandwich_gives hA hm hd
    refine ⟨z, z1, fin (.inr z1) z2 fun b hb => ?_, z2, z3.trans (hv _ _)⟩
    obtain ⟨y, y1, y2, y3⟩ := basis_mv (R := R) hd.sub hb
    have g := reverseSandwich_gives hA m1 y1
    rw [MV.reverseSandwich, m2, y2, m3, y3, blade_zero, CliffordAlgebra.reverse.map_one] at g
    exact call_mem' z1 g (one b hb)

end Verif
