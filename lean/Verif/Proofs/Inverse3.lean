import Verif.Proofs.Inverse2
/-! # `inverse` finds an inverse whenever there is one -/
namespace Verif
open Model Spec Model.Factory Props

variable {A : Alg} {R : Type} [Field R] [DecidableEq R]

theorem one_ne_zero' (A : Alg) (R : Type) [Field R] : (1 : Cl A R) ≠ 0 := by
  intro h
  have := congrArg (coef A R 0) h
  rw [← blade_zero, coef_blade _ _ (by simp)] at this
  simp at this

theorem unit_ne_zero {x : Cl A R} (h : IsUnit x) : x ≠ 0 := by
  rintro rfl
  obtain ⟨u, hu⟩ := h
  have := u.mul_inv
  rw [hu, zero_mul] at this
  exact one_ne_zero' A R this.symm

theorem divideWith_ok (hA : WfAlg A) {inv : MV R → Except Fail (MV R)} {q p : MV R} (hq : WfMV A q) (hp : WfMV A p) (h0 : val A p ≠ 0)
    (h : p.sub ≠ ⟨[0]⟩ → ∃ y, inv p = .ok y ∧ WfMV A y) : ∃ y, q.divideWith A inv p = .ok y := by
  rw [MV.divideWith, (scalar_eq hA).1, lift_some]
  simp only [bind, Except.bind]
  split_ifs with hs
  · obtain ⟨c, hc, hv⟩ := val_scalar hp hs
    obtain ⟨y, y1, _⟩ := divValues_spec hq hc (fun h => absurd (by rw [hv, h, zero_smul]) h0)
    exact ⟨y, y1⟩
  · obtain ⟨i, i1, i2⟩ := h hs
    obtain ⟨y, y1, _⟩ := product_gives hA hq i2
    exact ⟨y, by rw [i1]; simp only [y1]; rfl⟩

theorem val_empty {p : MV R} (hs : p.sub = ⟨[]⟩) : val A p = 0 := by simp [val, denote, hs]

theorem sub_of_scalar {S : SubSpace} (hS : WfSub A S) (h : SubOf S ⟨[0]⟩) : S = ⟨[]⟩ ∨ S = ⟨[0]⟩ := by
  have hnd := hS.nodup
  obtain ⟨bs⟩ := S
  simp only [SubOf, List.mem_singleton] at h
  match bs, h, hnd with
  | [], _, _ => exact Or.inl rfl
  | [b], h, _ => exact Or.inr (by rw [h b (by simp)])
  | a :: b :: _, h, hnd => rw [h a (by simp), h b (by simp)] at hnd; simp at hnd

theorem nsimple_zero (hA : WfAlg A) {S : SubSpace} (hS : WfSub A S) (h : SubSpace.isNSimple A 0 S = some true) : S = ⟨[]⟩ ∨ S = ⟨[0]⟩ := by
  rw [SubSpace.isNSimple, (scalar_eq hA).1, Option.bind_eq_bind, Option.bind_some, Option.some_inj, contains_iff] at h
  exact sub_of_scalar hS h

theorem involution_ok (hA : WfAlg A) {inv : MV R → Except Fail (MV R)} {x : MV R} {v : Cl A R} {T : SubSpace} {q p : Option (MV R)}
    (hx : WfMV A x) (hq : GivesIn A q x.sub v) (hp : GivesIn A p T (val A x * v)) (h0 : val A x * v ≠ 0)
    (hinv : ∀ p, WfMV A p → p.sub = T → val A p = val A x * v → T ≠ ⟨[0]⟩ → ∃ y, inv p = .ok y ∧ WfMV A y) :
    ∃ y, (do (← lift q).divideWith A inv (← lift p)) = .ok y := by
  obtain ⟨q, rfl, q2, q3, q4⟩ := hq
  obtain ⟨p, rfl, p2, p3, p4⟩ := hp
  exact divideWith_ok hA q3 p3 (by rw [p4]; exact h0) fun hs => hinv p p3 p2 p4 (p2 ▸ hs)

theorem simplify_ok1 (hA : WfAlg A) {c : SubSpace → Option Bool} {rule : InvRule} (hm : (c, rule) ∈ simplifyInverses A 0)
    {x : MV R} (hx : WfMV A x) (hu : IsUnit (val A x)) (hc : c x.sub = some true) (inv : MV R → Except Fail (MV R)) :
    ∃ y, MV.runInverse A inv x rule = .ok y := by
  obtain ⟨v, T, q, p, h1, h2, h3, h5, _, h4⟩ := rule_unpack hA hm hx hc
  have h0 : val A x * v ≠ 0 := by
    intro h
    rw [hu.mul_right_eq_zero] at h
    exact unit_ne_zero hu (h5 h)
  rw [h4]
  refine involution_ok hA hx h1 h2 h0 fun p hp e hv hs => ?_
  obtain ⟨z, _, z2, z3, z4⟩ := h2
  rcases nsimple_zero hA (z2 ▸ z3.sub) h3 with h | h
  · exact absurd (val_empty (A := A) (e.trans h)) (by rw [hv]; exact h0)
  · exact absurd h hs

theorem simplify_ok2 (hA : WfAlg A) {j : Nat} {c : SubSpace → Option Bool} {rule : InvRule} (hm : (c, rule) ∈ simplifyInverses A j)
    (hr : rule ∈ [InvRule.squared, .reverse])
    {x : MV R} (hx : WfMV A x) (hu : IsUnit (val A x)) (hc : c x.sub = some true) {inv : MV R → Except Fail (MV R)}
    (hinv : ∀ p, WfMV A p → SubSpace.isNSimple A j p.sub = some true → IsUnit (val A p) → ∃ y, inv p = .ok y ∧ WfMV A y) :
    ∃ y, MV.runInverse A inv x rule = .ok y := by
  obtain ⟨v, T, q, p, h1, h2, h3, _, h5, h4⟩ := rule_unpack hA hm hx hc
  have h0 := hu.mul (h5 hr hu)
  rw [h4]
  exact involution_ok hA hx h1 h2 (unit_ne_zero h0) fun p hp e hv hs => hinv p hp (e ▸ h3) (hv ▸ h0)

theorem not_special {x : MV R} (hx : WfMV A x) (hu : IsUnit (val A x)) : x.vals ≠ [] ∧ x.sub ≠ ⟨[]⟩ := by
  have he : x.sub ≠ ⟨[]⟩ := fun h => unit_ne_zero hu (val_empty h)
  refine ⟨?_, he⟩
  intro h
  have := hx.len
  rw [h] at this
  apply he
  obtain ⟨⟨bs⟩, v⟩ := x
  rw [List.length_nil, eq_comm, List.length_eq_zero_iff] at this
  simpa using this

theorem inverse_scalar_ok (hA : WfAlg A) (fuel : Nat) {x : MV R} (hx : WfMV A x) (hs : x.sub = ⟨[0]⟩) (hu : IsUnit (val A x)) :
    ∃ y, MV.inverse A (fuel + 1) x = .ok y := by
  have hm : Dispatch.matchLoop x.sub (inverseOptions A) = some .scalar := by
    rw [inverseOptions, hs]
    simp only [Dispatch.matchLoop, empty_eq hA, (scalar_eq hA).1, List.cons_append, Option.bind_eq_bind, Option.bind_some]
    rfl
  obtain ⟨c, hc, hv⟩ := val_scalar hx hs
  simp only [MV.inverse, hm, MV.runInverse, hc]
  rw [if_neg (by rintro rfl; exact unit_ne_zero hu (by rw [hv, zero_smul]))]
  exact ⟨⟨x.sub, [1 / c]⟩, by rw [MV.copy, MV.construct, if_pos (by simp [hs])]; rfl⟩

theorem not_options0 (hA : WfAlg A) {x : MV R} (he : x.sub ≠ ⟨[]⟩) (h0 : x.sub ≠ ⟨[0]⟩) {o : (SubSpace → Option Bool) × InvRule}
    (h : o.1 x.sub = some true) : o ∉ options0 A := by
  intro o3
  simp only [options0, List.mem_cons, List.not_mem_nil, or_false] at o3
  rcases o3 with rfl | rfl
  · simp [empty_eq hA, he] at h
  · simp [(scalar_eq hA).1, h0] at h

/-- On subspaces that simplify in one step. -/
theorem inverse_ok1 (hA : WfAlg A) (fuel : Nat) {x : MV R} (hx : WfMV A x)
    (hs : SubSpace.isNSimple A 1 x.sub = some true) (hu : IsUnit (val A x)) : ∃ y, MV.inverse A (fuel + 1) x = .ok y := by
  obtain ⟨hne, he⟩ := not_special hx hu
  by_cases h0 : x.sub = ⟨[0]⟩
  · exact inverse_scalar_ok hA fuel hx h0 hu
  obtain ⟨o, o1, o2, o3⟩ := dispatch_cases hA hx.sub (j := 0) (by omega) (Or.inr rfl) hs
  rw [MV.inverse, o2]
  rcases o3 with o3 | ⟨i, i1, o3⟩ | ⟨i1, _⟩
  · exact absurd o3 (not_options0 hA he h0 o1)
  · obtain rfl : i = 0 := by omega
    exact simplify_ok1 hA o3 hx hu o1 _
  · omega

theorem inverse_ok1' (hA : WfAlg A) (h5 : A.n ≤ 5) (h2 : (2 : R) ≠ 0) {fuel : Nat} (hf : 2 ≤ fuel) {x : MV R} (hx : WfMV A x)
    (hs : SubSpace.isNSimple A 1 x.sub = some true) (hu : IsUnit (val A x)) : ∃ y, MV.inverse A fuel x = .ok y ∧ WfMV A y := by
  obtain ⟨fuel, rfl⟩ : ∃ f, fuel = f + 1 := ⟨fuel - 1, by omega⟩
  obtain ⟨y, hy⟩ := inverse_ok1 hA fuel hx hs hu
  rcases inverse_works hA h5 h2 1 (by omega) (fuel + 1) (by omega) hx hs with ⟨z, z1, z2, _⟩ | h
  · exact ⟨z, z1, z2⟩
  · rw [hy] at h; cases h

/-- In dimension at most four. -/
theorem inverse_ok2 (hA : WfAlg A) (h4 : A.n ≤ 4) (h2 : (2 : R) ≠ 0) {fuel : Nat} (hf : 3 ≤ fuel) {x : MV R} (hx : WfMV A x)
    (hu : IsUnit (val A x)) : ∃ y, MV.inverse A fuel x = .ok y := by
  obtain ⟨fuel, rfl⟩ : ∃ f, fuel = f + 1 := ⟨fuel - 1, by omega⟩
  by_cases hn : A.n ≤ 2
  · exact inverse_ok1 hA fuel hx (nsimple_dim2 hA hn hx.sub 0) hu
  obtain ⟨hne, he⟩ := not_special hx hu
  by_cases h0 : x.sub = ⟨[0]⟩
  · exact inverse_scalar_ok hA fuel hx h0 hu
  obtain ⟨o, o1, o2, o3⟩ := matchLoop_prefix x.sub (c := SubSpace.isReverseSimple A 1) (f := InvRule.reverse)
    (l1 := optionsBefore A 1 ++ [(SubSpace.isSquaredSimple A 1, .squared)]) (l2 := (simplifyInverses A 1).drop 2 ++ simplifyInverses A 2) (by
      intro o ho
      rcases List.mem_append.1 ho with ho | ho
      · exact before_defined hA hx.sub (by omega) (by omega) o ho
      · exact conditions_defined hA hx.sub 1 o (by rw [List.mem_singleton.1 ho]; simp [simplifyInverses])) (nsimple_dim4 hA h4 hx.sub 0).2
  have hl : inverseOptions A = optionsBefore A 1 ++ [(SubSpace.isSquaredSimple A 1, .squared)] ++
      (SubSpace.isReverseSimple A 1, .reverse) :: ((simplifyInverses A 1).drop 2 ++ simplifyInverses A 2) := by
    simp only [inverseOptions, optionsBefore, options0, optionsS, simplifyInverses, List.drop, List.append_assoc, List.cons_append, List.nil_append]
  rw [MV.inverse, hl, o3]
  have hlast : ∀ r, r ∈ [InvRule.squared, .reverse] → (o.1, r) ∈ simplifyInverses A 1 → ∃ y, MV.runInverse A (MV.inverse A fuel) x r = .ok y :=
    fun r hr hm => simplify_ok2 hA hm hr hx hu o2 fun p hp hps hpu => inverse_ok1' hA (by omega) h2 (by omega) hp hps hpu
  rcases List.mem_append.1 o1 with ho | ho
  swap
  · rw [List.mem_singleton] at ho
    subst ho
    exact hlast _ (by simp) (by simp [simplifyInverses])
  rcases List.mem_append.1 ho with ho | ho
  swap
  · rw [List.mem_singleton] at ho
    subst ho
    exact hlast _ (by simp) (by simp [simplifyInverses])
  rcases mem_before ho with ho | ⟨i, i1, ho⟩ | ⟨_, ho⟩
  · exact absurd ho (not_options0 hA he h0 o2)
  · obtain rfl : i = 0 := by omega
    exact simplify_ok1 hA ho hx hu o2 _
  simp only [optionsS, List.mem_cons, List.not_mem_nil, or_false] at ho
  rcases ho with rfl | rfl
  · obtain ⟨T, t1, t2, t3⟩ := (C14_named hA).2.2.1 (by omega)
    simp only [t1, Option.bind_eq_bind, Option.bind_some, Option.some_inj, contains_iff] at o2
    obtain ⟨_, _, p, p1, p3, p2, p4⟩ := bivector_front hA (by omega) hx (fun b hb => ((t3 b).1 (o2 b hb)).2)
    obtain ⟨i, i1, i2⟩ := inverse_ok1' hA (by omega) h2 (by omega : 2 ≤ fuel) p3 p2 (by rw [p4]; exact (hu.mul hu).neg)
    obtain ⟨y, y1, _⟩ := bivector_run hA (by omega) hx p1 i1 i2
    exact ⟨y, y1⟩
  · obtain ⟨T, t1, t2, t3⟩ := (C14_named hA).2.2.2.1 (by omega)
    simp only [t1, Option.bind_eq_bind, Option.bind_some, Option.some_inj, contains_iff] at o2
    obtain ⟨_, _, p, p1, p3, p2, p4⟩ := trivector_front hA (by omega) hx (fun b hb => ((t3 b).1 (o2 b hb)).2)
    obtain ⟨i, i1, i2⟩ := inverse_ok1' hA (by omega) h2 (by omega : 2 ≤ fuel) p3 p2 (by rw [p4]; exact hu.mul hu)
    obtain ⟨y, y1, _⟩ := trivector_run hA (by omega) hx p1 i1 i2
    exact ⟨y, y1⟩

/-! ### the Hitzer inverse -/

theorem isUnit_reverse {R : Type} [CommRing R] {x : Cl A R} (h : IsUnit x) : IsUnit (CliffordAlgebra.reverse x) := by
  obtain ⟨u, rfl⟩ := h
  have e1 := congrArg CliffordAlgebra.reverse u.mul_inv
  have e2 := congrArg CliffordAlgebra.reverse u.inv_mul
  rw [CliffordAlgebra.reverse.map_mul, CliffordAlgebra.reverse.map_one] at e1 e2
  exact ⟨⟨_, _, e2, e1⟩, rfl⟩

theorem isUnit_involute {R : Type} [CommRing R] {x : Cl A R} (h : IsUnit x) : IsUnit (CliffordAlgebra.involute x) := h.map _

theorem scalarProduct_eq (hA : WfAlg A) {R : Type} [CommRing R] (x y : Cl A R) :
    gradedProduct A R (fun _ _ k => k = 0) x y = gradePart A R 0 (x * y) := by
  have : gradedProductₗ A R (fun _ _ k => k = 0) = (LinearMap.mul R (Cl A R)).compr₂ (gradePart A R 0) := by
    apply lin_ext₂
    intro a ha b hb
    rw [gradedProductₗ_apply, gradedProduct_blade hA _ ha hb, LinearMap.compr₂_apply, LinearMap.mul_apply', gradePart_mul_blade hA _ ha hb]
  rw [← gradedProductₗ_apply, this, LinearMap.compr₂_apply, LinearMap.mul_apply']

theorem pair_conj3 : ∀ n ≤ 3, ∀ a < 2 ^ n, ∀ c < 2 ^ n, pc n a ≤ 1 ∧ pc n c ≤ 1 ∧ pairSign n sgnConj a c ≠ 0 → a ^^^ c = 0 := by
  decide +kernel

theorem gradePart_zero_scalar (hA : WfAlg A) {R : Type} [CommRing R] (c : R) : gradePart A R 0 (c • (1 : Cl A R)) = c • 1 := by
  rw [map_smul, ← blade_zero, gradePart_blade _ (by simp), if_pos (by decide)]

omit [DecidableEq R] in
theorem selfReverse_grades (hA : WfAlg A) (h2 : (2 : R) ≠ 0) {p : Cl A R} (hp : CliffordAlgebra.reverse p = p) {b : Nat} (hb : b < 2 ^ A.n)
    (h : coef A R b p ≠ 0) : popcount b % 4 ≤ 1 := by
  by_contra hcon
  have := coef_reverse hA R hb p
  rw [hp, neg_one_pow_mod, if_neg (by omega), neg_one_mul] at this
  have : (2 : R) * coef A R b p = 0 := by linear_combination this
  exact h ((mul_eq_zero.1 this).resolve_left h2)

omit [DecidableEq R] in
/-- In dimension at most three, `p * conjugate p` is a scalar for self-reverse `p`. -/
theorem hitzer_scalar (hA : WfAlg A) (h3 : A.n ≤ 3) (h2 : (2 : R) ≠ 0) {p : Cl A R} (hp : CliffordAlgebra.reverse p = p) :
    ∃ c : R, p * CliffordAlgebra.involute (CliffordAlgebra.reverse p) = c • 1 := by
  obtain ⟨S, _, s2, s3⟩ := fromBlades_some hA (l := (List.range (2 ^ A.n)).filter fun b => pc A.n b ≤ 1) (by
    intro b hb; simpa using (List.mem_filter.1 hb).1) (List.nodup_range.filter _)
  have hS : ∀ b, b ∈ S.blades ↔ b < 2 ^ A.n ∧ pc A.n b ≤ 1 := by intro b; rw [s3]; simp
  have hw : Within A S p := by
    rw [within_iff s2]
    intro b hb hn
    by_contra h
    have h1 := selfReverse_grades hA h2 hp hb h
    have h4 := popcount_le hA.le32 hb
    exact hn ((hS b).2 ⟨hb, by rw [← popcount_of_lt hA.le32 hb]; omega⟩)
  obtain ⟨T, t1, t2, t3⟩ := conj_sub hA s2 (wf_scalar (A := A)) (by
    intro a ha c hc h
    rw [List.mem_singleton]
    exact pair_conj3 _ h3 _ (s2.lt a ha) _ (s2.lt c hc) ⟨((hS a).1 ha).2, ((hS c).1 hc).2, h⟩)
  obtain ⟨T', t1', t2', t3', _⟩ := symmetricConjugate_self hA S s2
  rw [t1, Option.some_inj] at t1'
  subst t1'
  have := (within_scalar hA).1 ((t3' R p hw).mono t2 wf_scalar t3)
  obtain ⟨c, hc⟩ := this
  exact ⟨c, hc⟩

theorem scalarProduct_sub (hA : WfAlg A) {R : Type} [CommRing R] {x y z : MV R} (hx : WfMV A x) (hy : WfMV A y) (h : x.scalarProduct A y = some z) :
    z.sub = ⟨[]⟩ ∨ z.sub = ⟨[0]⟩ ∧ y.vals ≠ [] := by
  rw [MV.scalarProduct] at h
  obtain ⟨op, o1, _⟩ := scalarProduct_bin hA (argSem_sub hx.sub) (argSem_sub hy.sub)
  rw [o1] at h
  have hsq := makeProduct_squeezed hA hx.sub hy.sub o1
  have hb := bin_output hA (scalarProduct_bin hA) hx.sub hy.sub o1 hsq
  rw [call_sub h]
  have hw := (squeezed_wf hA hsq).wf_output
  have hsub := sub_of_scalar hw fun b hm => ?_
  · refine hsub.imp id fun h0 => ⟨h0, fun hy0 => ?_⟩
    have := hy.len
    rw [hy0, List.length_nil, eq_comm, List.length_eq_zero_iff] at this
    obtain ⟨_, _, c, hc, _⟩ := (hb 0).1 (by rw [h0]; simp)
    rw [this] at hc
    cases hc
  obtain ⟨a, _, c, _, hnz⟩ := (hb b).1 hm
  have hlt := hw.lt b hm
  rw [scalarProduct_eq hA, gradePart_eq_proj, coef_proj] at hnz
  rw [List.mem_singleton]
  by_contra h0
  apply hnz
  rw [if_neg]
  intro hp
  apply h0
  exact (popcount_eq_zero hA.le32 hlt).1 hp

/-- What `inverse_hitzer` divides by. -/
theorem hitzer_spec (hA : WfAlg A) (h3 : A.n ≤ 3) (h2 : (2 : R) ≠ 0) (fuel : Nat) {x : MV R} (hx : WfMV A x) :
    ∃ (i s : MV R) (c : R), WfMV A i ∧ WfMV A s ∧ (s.sub = ⟨[]⟩ ∨ s.sub = ⟨[0]⟩ ∧ i.vals ≠ []) ∧ val A s = c • (1 : Cl A R) ∧ val A x * val A i = c • 1 ∧
      val A i = CliffordAlgebra.reverse (val A x) * CliffordAlgebra.involute (CliffordAlgebra.reverse (val A x * CliffordAlgebra.reverse (val A x))) ∧
      MV.inverseHitzer A fuel x = i.divideWith A (MV.inverse A fuel) s := by
  have hC : Cond.eqOn A [0, 1, 2] R [val A x, val A x, val A x] := by
    intro i hi j hj; simp at hi hj; rcases hi with rfl | rfl | rfl <;> rcases hj with rfl | rfl | rfl <;> rfl
  obtain ⟨i, i1, i2, i3⟩ := call_gives3 (inverseFactor_sem hA hx.sub) hx hx hx hC
  obtain ⟨s, s1, s2, s3⟩ := bin_gives (scalarProduct_bin hA) hx i2
  simp only [List.headD_cons] at i3
  have hp : CliffordAlgebra.reverse (val A x * CliffordAlgebra.reverse (val A x)) = val A x * CliffordAlgebra.reverse (val A x) := by
    rw [CliffordAlgebra.reverse.map_mul, CliffordAlgebra.reverse_reverse]
  obtain ⟨c, hc⟩ := hitzer_scalar hA h3 h2 hp
  have e : val A x * val A i = c • 1 := by rw [i3, ← hc, mul_assoc]
  refine ⟨i, s, c, i2, s2, scalarProduct_sub hA hx i2 s1, ?_, e, i3, ?_⟩
  · rw [s3, scalarProduct_eq hA, e, gradePart_zero_scalar hA]
  · rw [MV.inverseHitzer, MV.inverseFactor, i1]
    simp only [lift_some, bind, Except.bind, MV.truediv, MV.upcast]
    rw [show x.scalarProduct A i = some s from s1]
    rfl

end Verif
