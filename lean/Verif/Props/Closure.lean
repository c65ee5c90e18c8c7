import Verif.Proofs.SubspaceOps
import Verif.Props.Sandwich
/-! # Properties C20, C39, C57, C60, C61: subspaces under products -/
namespace Verif.Props
open Model Spec

variable {A : Alg}

/-! ## C20 -/

/-- C20: `is_subalgebra` decides closure under the geometric product. -/
theorem C20_is_subalgebra (hA : WfAlg A) {S : SubSpace} (hS : WfSub A S) :
    ∃ r, S.isSubalgebra A = some r ∧ (r = true ↔ Closed A S) := by
  obtain ⟨U, u1, _, u3⟩ := product_space hA hS hS
  refine ⟨S.contains U, by rw [SubSpace.isSubalgebra, u1]; rfl, ?_⟩
  rw [contains_iff, closed_iff hA hS]
  constructor
  · intro h a ha c hc hs
    exact h _ ((u3 _).2 ⟨a, ha, c, hc, rfl, hs⟩)
  · intro h b hb
    obtain ⟨a, ha, c, hc, rfl, hs⟩ := (u3 b).1 hb
    exact h a ha c hc hs

/-- Words over a subspace: `a₁ * (a₂ * (… * aₖ))` with every partial product nonzero. -/
inductive Word (A : Alg) (S : SubSpace) : Nat → Prop
  | base {b} : b ∈ S.blades → Word A S b
  | step {a b} : a ∈ S.blades → Word A S b → sgn A a b ≠ 0 → Word A S (a ^^^ b)

/-- C20: the loop of `minimal_subalgebra` terminates, after any number of rounds above `2^n`; its result contains the
subspace, is closed under the product (so `is_subalgebra` holds), and is contained in every closed subspace that
contains the input. -/
theorem C20_minimal (hA : WfAlg A) {S : SubSpace} (hS : WfSub A S) :
    ∃ T, (∀ fuel, 2 ^ A.n < fuel → S.minimalSubalgebra A fuel = some T) ∧ WfSub A T ∧ SubOf S T ∧ Closed A T ∧
      T.isSubalgebra A = some true ∧ ∀ U, WfSub A U → SubOf S U → Closed A U → SubOf T U := by
  let p : SubSpace → Prop := fun T => SubOf S T ∧ ∀ b ∈ T.blades, Word A S b
  have hstep : ∀ T, WfSub A T → p T → ∃ T', (do T.union A (← S.product A T)) = some T' ∧ WfSub A T' ∧ SubOf T T' ∧ p T' := by
    intro T hT hp
    obtain ⟨P, p1, p2, p3⟩ := product_space hA hS hT
    obtain ⟨V, v1, v2, v3⟩ := union_spec hA hT p2
    refine ⟨V, by rw [p1]; exact v1, v2, fun b hb => (v3 b).2 ⟨hT.lt b hb, Or.inl hb⟩,
      fun b hb => (v3 b).2 ⟨hS.lt b hb, Or.inl (hp.1 b hb)⟩, fun b hb => ?_⟩
    rcases ((v3 b).1 hb).2 with h | h
    · exact hp.2 b h
    · obtain ⟨a, ha, c, hc, rfl, hs⟩ := (p3 b).1 h
      exact Word.step ha (hp.2 c hc) hs
  obtain ⟨T, t1, t2, t3, t4, t5⟩ := iterate_spec hstep hS ⟨fun _ h => h, fun b hb => Word.base hb⟩
  have hclosed : Closed A T := by
    rw [closed_iff hA t2]
    have hST : ∀ a ∈ S.blades, ∀ c ∈ T.blades, sgn A a c ≠ 0 → a ^^^ c ∈ T.blades := by
      intro a ha c hc hs
      obtain ⟨P, p1, p2, p3⟩ := product_space hA hS t2
      rw [p1, Option.bind_eq_bind, Option.bind_some] at t5
      obtain ⟨V, v1, _, v3⟩ := union_spec hA t2 p2
      cases v1.symm.trans t5
      exact (v3 _).2 ⟨xor_lt (hS.lt a ha) (t2.lt c hc), Or.inr ((p3 _).2 ⟨a, ha, c, hc, rfl, hs⟩)⟩
    have hw : ∀ a, Word A S a → a < 2 ^ A.n ∧ ∀ c ∈ T.blades, sgn A a c ≠ 0 → a ^^^ c ∈ T.blades := by
      intro a ha
      induction ha with
      | base hb => exact ⟨hS.lt _ hb, hST _ hb⟩
      | @step a b ha _ hs ih =>
        have la := hS.lt a ha
        refine ⟨xor_lt la ih.1, fun c hc hsc => ?_⟩
        have := sgn_assoc hA la ih.1 (t2.lt c hc)
        have h1 : sgn A b c * sgn A a (b ^^^ c) ≠ 0 := by rw [← this]; exact mul_ne_zero hs hsc
        rw [Nat.xor_assoc]
        exact hST a ha _ (ih.2 c hc (left_ne_zero_of_mul h1)) (right_ne_zero_of_mul h1)
    exact fun a ha c hc hs => (hw a (t4.2 a ha)).2 c hc hs
  refine ⟨T, t1, t2, t3, hclosed, ?_, fun U hU hSU hUc b hb => ?_⟩
  · obtain ⟨r, r1, r2⟩ := C20_is_subalgebra hA t2
    rw [r1, r2.2 hclosed]
  · rw [closed_iff hA hU] at hUc
    have : ∀ b, Word A S b → b ∈ U.blades := by
      intro b hb
      induction hb with
      | base h => exact hSU _ h
      | step ha _ hs ih => exact hUc _ (hSU _ ha) _ ih hs
    exact this b (t4.2 b hb)

example : (⟨[2, 4]⟩ : SubSpace).minimalSubalgebra pga3 20 = some ⟨[0, 2, 4, 6]⟩ ∧
    (⟨[1, 2]⟩ : SubSpace).minimalSubalgebra pga3 20 = some ⟨[0, 1, 2, 3]⟩ ∧ (⟨[1]⟩ : SubSpace).minimalSubalgebra pga3 20 = some ⟨[1]⟩ ∧
    (⟨[1, 2]⟩ : SubSpace).isSubalgebra pga3 = some false := by decide +kernel
example : WfAlg pga3 ∧ WfSub pga3 ⟨[2, 4]⟩ := ⟨wf_pga3, wfSub_of_B (by decide +kernel)⟩

/-! ## C39 -/

/-- C39: `is_squared_n_simple(1)`, `is_reverse_n_simple(1)`, … hold exactly when `x * L x` is a number for every
multivector `x` of the subspace (`L` the identity, reversal, …), over every ring of coefficients; integer coefficients
suffice to tell. -/
theorem C39_one (hA : WfAlg A) {S : SubSpace} (hS : WfSub A S) :
    List.Forall₂ (fun (f : SubSpace → Option Bool) (L : LinMap A) => ∃ r, f S = some r ∧
        (r = true → ∀ (R : Type) [CommRing R] (x : Cl A R), Within A S x → IsScalar (x * L R x)) ∧
        ((∀ x : Cl A ℤ, Within A S x → IsScalar (x * L ℤ x)) → r = true))
      [SubSpace.isSquaredSimple A 0, SubSpace.isReverseSimple A 0, SubSpace.isInvoluteSimple A 0, SubSpace.isConjugateSimple A 0,
        SubSpace.isScalarNegationSimple A 0, SubSpace.isPseudoscalarNegationSimple A 0]
      (involutions A) := by
  have h := selfProducts_sem hA
  cases h with | cons h0 h => ?_
  cases h with | cons h1 h => ?_
  cases h with | cons h2 h => ?_
  cases h with | cons h3 h => ?_
  cases h with | cons h4 h => ?_
  cases h with | cons h5 h => ?_
  exact .cons (h0.simple hA hS) (.cons (h1.simple hA hS) (.cons (h2.simple hA hS) (.cons (h3.simple hA hS)
    (.cons (h4.simple hA hS) (.cons (h5.simple hA hS) .nil)))))

/-- C39: the subspaces reported for `x * L x` (`squared`, `symmetric_reverse`, …) are the least ones that hold every value. -/
theorem C39_least (hA : WfAlg A) {S : SubSpace} (hS : WfSub A S) :
    List.Forall₂ (fun (f : SubSpace → Option SubSpace) (L : LinMap A) => ∃ T, f S = some T ∧ WfSub A T ∧
        (∀ (R : Type) [CommRing R] (x : Cl A R), Within A S x → Within A T (x * L R x)) ∧
        (∀ U, WfSub A U → (∀ x : Cl A ℤ, Within A S x → Within A U (x * L ℤ x)) → SubOf T U))
      [SubSpace.squared A, SubSpace.symmetricReverse A, SubSpace.symmetricInvolute A, SubSpace.symmetricConjugate A,
        SubSpace.symmetricScalarNegation A, SubSpace.symmetricPseudoscalarNegation A]
      (involutions A) :=
  (selfProducts_sem hA).imp fun _ _ h => h S hS

/-- C39: `is_n_simple(n)` never raises, and is sound: there are `n` of the six involutions `L` such that replacing `x` by
`x * L x` with each of them in turn ends in a number, for every multivector `x` of the subspace. -/
theorem C39_n_simple (hA : WfAlg A) (n : Nat) {S : SubSpace} (hS : WfSub A S) :
    ∃ r, SubSpace.isNSimple A n S = some r ∧ (r = true → ∃ Ls : List (LinMap A), Ls.length = n ∧ (∀ L ∈ Ls, L ∈ involutions A) ∧
      ∀ (R : Type) [CommRing R] (x : MV R), WfMV A x → x.sub = S → IsScalar (Ls.foldl (fun y L => y * L R y) (val A x))) := by
  obtain ⟨r, h1, h2⟩ := isNSimple_spec hA n hS
  refine ⟨r, h1, fun hr => ?_⟩
  obtain ⟨Ls, l1, l2, l3⟩ := h2 hr
  exact ⟨Ls, l1, l2, fun R _ x hx hs => l3 R _ (hs ▸ hx.within)⟩

/-- C39: `simplicity` is the least `n ≤ dim // 2 + 1` for which the subspace is `n`-simple, or `None`. -/
theorem C39_simplicity (hA : WfAlg A) {S : SubSpace} (hS : WfSub A S) :
    ∃ o, S.simplicity A = some o ∧
      (∀ n, o = some n → n ≤ A.n / 2 + 1 ∧ SubSpace.isNSimple A n S = some true ∧ ∀ m < n, SubSpace.isNSimple A m S = some false) ∧
      (o = none → ∀ m ≤ A.n / 2 + 1, SubSpace.isNSimple A m S = some false) := by
  have key : ∀ (k i : Nat), (∀ m < i, SubSpace.isNSimple A m S = some false) →
      ∃ o, SubSpace.simplicityFrom A S (List.range' i k) = some o ∧
        (∀ n, o = some n → n < i + k ∧ SubSpace.isNSimple A n S = some true ∧ ∀ m < n, SubSpace.isNSimple A m S = some false) ∧
        (o = none → ∀ m < i + k, SubSpace.isNSimple A m S = some false) := by
    intro k
    induction k with
    | zero => intro i hi; exact ⟨none, rfl, by simp, fun _ m hm => hi m (by omega)⟩
    | succ k ih =>
      intro i hi
      obtain ⟨r, h1, _⟩ := isNSimple_spec hA i hS
      rw [List.range'_succ, SubSpace.simplicityFrom, h1]
      simp only [Option.bind_eq_bind, Option.bind_some]
      cases r with
      | true => exact ⟨some i, rfl, fun n hn => by cases hn; exact ⟨by omega, h1, hi⟩, by simp⟩
      | false =>
        obtain ⟨o, o1, o2, o3⟩ := ih (i + 1) fun m hm => by
          rcases Nat.lt_succ_iff_lt_or_eq.1 hm with h | rfl
          exacts [hi m h, h1]
        refine ⟨o, o1, fun n hn => ?_, fun hn m hm => o3 hn m (by omega)⟩
        obtain ⟨a, b⟩ := o2 n hn
        exact ⟨by omega, b⟩
  obtain ⟨o, o1, o2, o3⟩ := key (A.n / 2 + 2) 0 (by simp)
  rw [← List.range_eq_range'] at o1
  refine ⟨o, o1, fun n hn => ?_, fun hn m hm => o3 hn m (by omega)⟩
  obtain ⟨a, b⟩ := o2 n hn
  exact ⟨by omega, b⟩

/-- C39: `is_study` holds exactly for the subspaces where `(s + n)(s - n)` is a number, `s` the scalar part and `n` the rest. -/
theorem C39_study (hA : WfAlg A) {S : SubSpace} (hS : WfSub A S) :
    ∃ r, S.isStudy A = some r ∧
      (r = true → ∀ (R : Type) [CommRing R] (x : MV R), WfMV A x → x.sub = S → IsScalar (val A x * (2 • gradePart A R 0 (val A x) - val A x))) ∧
      ((∀ x : MV ℤ, WfMV A x → x.sub = S → IsScalar (val A x * (2 • gradePart A ℤ 0 (val A x) - val A x))) → r = true) := by
  have h := C39_one hA hS
  cases h with | cons h0 h => ?_
  cases h with | cons h1 h => ?_
  cases h with | cons h2 h => ?_
  cases h with | cons h3 h => ?_
  cases h with | cons h4 h => ?_
  obtain ⟨r, r1, r2, r3⟩ := h4
  simp only [LinearMap.sub_apply, LinearMap.smul_apply, LinearMap.id_apply, ofNat_smul_eq_nsmul] at r2 r3
  refine ⟨r, r1, fun hr R _ x hx hs => r2 hr R _ (hs ▸ hx.within), fun h => r3 ?_⟩
  rintro _ ⟨z, hz, hs, rfl⟩
  exact h z hz hs

example : (⟨[1, 2]⟩ : SubSpace).isReverseSimple pga3 0 = some true := by decide +kernel
example : (⟨[3, 12]⟩ : SubSpace).isReverseSimple pga3 0 = some false := by decide +kernel
example : (⟨[3, 12]⟩ : SubSpace).simplicity pga3 = some (some 2) := by decide +kernel
example : (⟨[0, 15]⟩ : SubSpace).isStudy pga3 = some true := by decide +kernel
example : WfSub pga3 ⟨[1, 2]⟩ ∧ WfSub pga3 ⟨[3, 12]⟩ := ⟨wfSub_of_B (by decide +kernel), wfSub_of_B (by decide +kernel)⟩

/-! ## C57 -/

/-- C57: blades of a product have the parity of the sum. -/
theorem C57_parity (hA : WfAlg A) {S T : SubSpace} (hS : WfSub A S) (hT : WfSub A T) {p q : Nat}
    (hp : ∀ b ∈ S.blades, popcount b % 2 = p) (hq : ∀ b ∈ T.blades, popcount b % 2 = q) :
    ∃ U, S.product A T = some U ∧ WfSub A U ∧ ∀ b ∈ U.blades, popcount b % 2 = (p + q) % 2 := by
  obtain ⟨U, u1, u2, u3⟩ := product_space hA hS hT
  refine ⟨U, u1, u2, fun b hb => ?_⟩
  obtain ⟨a, ha, c, hc, rfl, _⟩ := (u3 b).1 hb
  have := popcount_xor a c
  have := hp a ha
  have := hq c hc
  omega

/-- C57: the even subspace is a subalgebra, in every signature. -/
theorem C57_even (hA : WfAlg A) : ∃ S, A.evenGrade = some S ∧ WfSub A S ∧ (∀ b, b ∈ S.blades ↔ b < 2 ^ A.n ∧ popcount b % 2 = 0) ∧
    S.isSubalgebra A = some true ∧ Closed A S := by
  obtain ⟨_, _, _, _, _, _, _, _, _, _, _, _, ⟨S, h1, h2, h3⟩, _⟩ := C14_named hA
  obtain ⟨r, r1, r2⟩ := C20_is_subalgebra hA h2
  have hc : Closed A S := by
    rw [closed_iff hA h2]
    intro a ha c hc _
    have ha' := (h3 a).1 ha
    have hc' := (h3 c).1 hc
    refine (h3 _).2 ⟨xor_lt ha'.1 hc'.1, ?_⟩
    have := popcount_xor a c
    omega
  exact ⟨S, h1, h2, h3, by rw [r1, r2.2 hc], hc⟩

/-- C57: `k_reflection(k)` exists and only has grades of at most `k` and of the parity of `k`; it contains the values of all
products of `k` vectors. -/
theorem C57_reflection (hA : WfAlg A) (k : Nat) : ∃ S, A.kReflection k = some S ∧ WfSub A S ∧
    (∀ b ∈ S.blades, popcount b ≤ k ∧ popcount b % 2 = k % 2) ∧
    ∀ (R : Type) [CommRing R] (vs : List (Fin A.n → R)), vs.length = k → Within A S (vs.map (CliffordAlgebra.ι (Q A R))).prod := by
  induction k with
  | zero =>
    obtain ⟨h1, h2⟩ := scalar_eq hA
    refine ⟨⟨[0]⟩, h1, h2, by simp [popcount_eq], fun R _ vs hv => ?_⟩
    rw [List.length_eq_zero_iff] at hv
    subst hv
    rw [within_scalar hA]
    exact ⟨1, by simp⟩
  | succ k ih =>
    obtain ⟨S, s1, s2, s3, s4⟩ := ih
    obtain ⟨_, ⟨V, v1, v2, v3⟩, _⟩ := C14_named hA
    obtain ⟨U, u1, u2, u3⟩ := product_space hA s2 v2
    refine ⟨U, by rw [Alg.kReflection, s1, v1]; exact u1, u2, fun b hb => ?_, fun R _ vs hv => ?_⟩
    · obtain ⟨a, ha, c, hc, rfl, _⟩ := (u3 b).1 hb
      have h1 := popcount_xor a c
      have h2 := ((v3 c).1 hc).2
      have h3 := s3 a ha
      omega
    · obtain ⟨ws, v, rfl⟩ : ∃ ws v, vs = ws ++ [v] := by
        rcases List.eq_nil_or_concat vs with rfl | ⟨ws, v, h⟩
        · simp at hv
        · exact ⟨ws, v, by simpa using h⟩
      have hw := s4 R ws (by simpa using hv)
      rw [List.map_append, List.prod_append, List.map_singleton, List.prod_singleton]
      obtain ⟨x, hx, hxs, hxv⟩ := hw
      have hvw : Within A V (CliffordAlgebra.ι (Q A R) v) := by
        rw [ι_eq_sum]
        refine within_sum v2 _ fun i _ => Within.smul v2 _ ?_
        have : gen A R i = blade A R (2 ^ (i : Nat)) := (blade_two_pow A R i).symm
        rw [this]
        exact within_blade v2 ((v3 _).2 ⟨Nat.pow_lt_pow_right (by norm_num) i.2, popcount_two_pow hA i.2⟩)
      obtain ⟨y, hy, hys, hyv⟩ := hvw
      obtain ⟨z, z1, z2, z3⟩ := product_gives hA hx hy
      refine ⟨z, z2, ?_, by rw [z3, hxv, hyv]⟩
      rw [MV.product, hxs, hys] at z1
      cases hop : Factory.product A (.sub S) (.sub V) with
      | none => rw [hop] at z1; cases z1
      | some op =>
        rw [hop] at z1
        rw [SubSpace.product, hop] at u1
        rw [call_sub z1]
        simpa using u1

example : pga3.kReflection 2 = some ⟨[0, 3, 5, 6, 9, 10, 12]⟩ ∧ pga3.kReflection 3 = some ⟨[1, 2, 4, 8, 7, 11, 13, 14]⟩ := by decide +kernel

/-! ## C60 -/

/-- C60: `minimal_exponential` terminates, after any number of rounds above `2^n`; its result contains the scalars and the
subspace, the square of each of its elements, and is contained in every subspace with these properties. -/
theorem C60_minimal (hA : WfAlg A) {S : SubSpace} (hS : WfSub A S) :
    ∃ T, (∀ fuel, 2 ^ A.n < fuel → S.minimalExponential A fuel = some T) ∧ WfSub A T ∧ SubOf S T ∧ 0 ∈ T.blades ∧
      (∀ (R : Type) [CommRing R] (x : Cl A R), Within A T x → Within A T (x * x)) ∧
      ∀ U, WfSub A U → SubOf S U → 0 ∈ U.blades → (∀ x : Cl A ℤ, Within A U x → Within A U (x * x)) → SubOf T U := by
  have hsq : SelfSem A (SubSpace.squared A) fun _ _ => LinearMap.id := by
    have h := selfProducts_sem hA
    cases h with | cons h0 h => exact h0
  obtain ⟨sc, hsc⟩ := scalar_eq hA
  obtain ⟨S0, s1, s2, s3⟩ := union_spec hA hS hsc
  let good : SubSpace → Prop := fun U => WfSub A U ∧ SubOf S U ∧ 0 ∈ U.blades ∧ ∀ x : Cl A ℤ, Within A U x → Within A U (x * x)
  let p : SubSpace → Prop := fun T => ∀ U, good U → SubOf T U
  have hstep : ∀ T, WfSub A T → p T → ∃ T', (do T.union A (← T.squared A)) = some T' ∧ WfSub A T' ∧ SubOf T T' ∧ p T' := by
    intro T hT hp
    obtain ⟨P, p1, p2, p3, p4⟩ := hsq T hT
    obtain ⟨V, v1, v2, v3⟩ := union_spec hA hT p2
    refine ⟨V, by rw [p1]; exact v1, v2, fun b hb => (v3 b).2 ⟨hT.lt b hb, Or.inl hb⟩, fun U hU b hb => ?_⟩
    rcases ((v3 b).1 hb).2 with h | h
    · exact hp U hU b h
    · exact p4 U hU.1 (fun x hx => hU.2.2.2 x (hx.mono hT hU.1 (hp U hU))) b h
  have hp0 : p S0 := by
    intro U hU b hb
    rcases ((s3 b).1 hb).2 with h | h
    · exact hU.2.1 b h
    · rw [List.mem_singleton.1 h]; exact hU.2.2.1
  obtain ⟨T, t1, t2, t3, t4, t5⟩ := iterate_spec hstep s2 hp0
  refine ⟨T, fun fuel hf => ?_, t2, fun b hb => t3 b ((s3 b).2 ⟨hS.lt b hb, Or.inl hb⟩),
    t3 0 ((s3 0).2 ⟨Nat.two_pow_pos _, Or.inr (by simp)⟩), fun R _ x hx => ?_, fun U hU h1 h2 h3 => t4 U ⟨hU, h1, h2, h3⟩⟩
  · rw [SubSpace.minimalExponential, sc, Option.bind_eq_bind, Option.bind_some, s1, Option.bind_some]
    exact t1 fuel hf
  · obtain ⟨P, p1, p2, p3, _⟩ := hsq T t2
    rw [p1, Option.bind_eq_bind, Option.bind_some] at t5
    obtain ⟨V, v1, _, v3⟩ := union_spec hA t2 p2
    cases v1.symm.trans t5
    exact (p3 R x hx).mono p2 t2 fun b hb => (v3 b).2 ⟨p2.lt b hb, Or.inr hb⟩

/-- C60: therefore all powers of an element of the subspace, hence every polynomial and every partial sum of the
exponential series, stay in the result (if twice a coefficient is only zero for zero). -/
theorem C60_powers (hA : WfAlg A) {S : SubSpace} (hS : WfSub A S) {R : Type} [CommRing R] (h2 : ∀ r : R, 2 * r = 0 → r = 0)
    {T : SubSpace} {fuel : Nat} (hf : 2 ^ A.n < fuel) (hT : S.minimalExponential A fuel = some T) {x : MV R} (hx : WfMV A x)
    (hxs : x.sub = S) (k : Nat) : Within A T (val A x ^ k) := by
  obtain ⟨T', t1, t2, t3, t4, t5, _⟩ := C60_minimal hA hS
  cases (t1 fuel hf).symm.trans hT
  have hx' : Within A T (val A x) := (hxs ▸ hx.within : Within A S (val A x)).mono hS t2 t3
  induction k with
  | zero =>
    rw [pow_zero, ← blade_zero]
    exact within_blade t2 t4
  | succ k ih =>
    have e : (2 : R) • val A x ^ (k + 1) = (val A x + val A x ^ k) * (val A x + val A x ^ k) + ((-1 : R) • (val A x * val A x) + (-1 : R) • (val A x ^ k * val A x ^ k)) := by
      rw [mul_add, add_mul, add_mul, ← pow_succ, ← pow_succ', neg_one_smul, neg_one_smul, two_smul]
      abel
    have hw : Within A T ((2 : R) • val A x ^ (k + 1)) := by
      rw [e]
      exact (t5 R _ (hx'.add t2 ih)).add t2 (((t5 R _ hx').smul t2 _).add t2 ((t5 R _ ih).smul t2 _))
    rw [within_iff t2] at hw ⊢
    intro b hb hb'
    have := hw b hb hb'
    rw [map_smul, smul_eq_mul] at this
    exact h2 _ this

example : (⟨[3, 12]⟩ : SubSpace).minimalExponential pga3 20 = some ⟨[0, 3, 12, 15]⟩ ∧ WfSub pga3 ⟨[3, 12]⟩ ∧ (∀ r : ℤ, 2 * r = 0 → r = 0) :=
  ⟨by decide +kernel, wfSub_of_B (by decide +kernel), fun r h => by omega⟩

/-! ## C61 -/

/-- A blade contains a basis vector that squares to zero. -/
def NullBlade (A : Alg) (b : Nat) : Prop := ∃ i < A.n, b.testBit i = true ∧ A.desc.sig.getD i 0 = 0

theorem sgn_ne_zero (hA : WfAlg A) {a b : Nat} (ha : a < 2 ^ A.n) :
    sgn A a b ≠ 0 ↔ ¬ ∃ i < A.n, a.testBit i ∧ b.testBit i ∧ A.desc.sig.getD i 0 = 0 := by
  rw [← C02_zero_iff hA ha, product_eq hA ha]

theorem nullBlade_iff (hA : WfAlg A) {b : Nat} (hb : b < 2 ^ A.n) : NullBlade A b ↔ (A.product b b).2 = 0 := by
  rw [C02_zero_iff hA hb]
  exact exists_congr fun i => and_congr_right fun _ => by tauto

theorem bitDot_zeros (hA : WfAlg A) {b : Nat} (hb : b < 2 ^ A.n) : A.bitDot b A.zeros > 0 ↔ NullBlade A b := by
  rw [bitDot_eq hA, pc_of_lt (lt_of_le_of_lt Nat.and_le_left hb) hA.le_width, pc, gt_iff_lt, Nat.pos_iff_ne_zero, ne_eq,
    Finset.sum_eq_zero_iff]
  push Not
  apply exists_congr; intro i
  rw [Finset.mem_range]
  apply and_congr_right; intro hi
  rw [Nat.testBit_and, zeros_testBit hA i hi]
  cases b.testBit i <;> simp

/-- C61: `degenerate()`, `scalar_degenerate()`, `nondegenerate()` and `rotor()` of the subspace factory are the blades with a
null vector, those and the scalar, those without a null vector, and the even ones without a null vector. -/
theorem C61_spaces (hA : WfAlg A) :
    (∃ S, A.degenerateSpace = some S ∧ IsSpace A S (NullBlade A)) ∧
    (∃ S, A.scalarDegenerateSpace = some S ∧ IsSpace A S fun b => b = 0 ∨ NullBlade A b) ∧
    (∃ S, A.nondegenerateSpace = some S ∧ IsSpace A S fun b => ¬ NullBlade A b) ∧
    (∃ S, A.rotor = some S ∧ IsSpace A S fun b => popcount b % 2 = 0 ∧ ¬ NullBlade A b) := by
  obtain ⟨F, f1, f2⟩ := full_isSpace hA
  obtain ⟨sc, hsc⟩ := scalar_eq hA
  have hD : ∃ S, A.degenerateSpace = some S ∧ IsSpace A S (NullBlade A) := by
    rw [Alg.degenerateSpace, f1]
    apply fromBlades_isSpace hA (f2.1.nodup.filter _)
    intro b
    rw [List.mem_filter, decide_eq_true_iff]
    constructor
    · rintro ⟨h1, h2⟩
      exact ⟨f2.1.lt b h1, (bitDot_zeros hA (f2.1.lt b h1)).1 h2⟩
    · rintro ⟨h0, h1⟩
      exact ⟨(f2.2 b).2 ⟨h0, trivial⟩, (bitDot_zeros hA h0).2 h1⟩
  refine ⟨hD, ?_, ?_, ?_⟩
  · obtain ⟨D, d1, d2⟩ := hD
    obtain ⟨U, u1, u2⟩ := union_spec hA d2.1 hsc
    refine ⟨U, by rw [Alg.scalarDegenerateSpace, d1, sc]; exact u1, u2.congr fun b hb => ?_⟩
    have := d2.2 b
    simp only [List.mem_singleton]
    tauto
  · obtain ⟨D, d1, d2⟩ := hD
    obtain ⟨U, u1, u2⟩ := difference_spec hA f2.1 (T := D)
    refine ⟨U, by rw [Alg.nondegenerateSpace, d1, f1]; exact u1, u2.congr fun b hb => ?_⟩
    have := d2.2 b
    have := f2.2 b
    tauto
  · obtain ⟨_, _, _, _, _, _, _, _, _, _, _, _, ⟨E, e1, e2⟩, _⟩ := C14_named hA
    obtain ⟨N, n1, n2⟩ := (C17_split hA e2.1).2
    refine ⟨N, by rw [Alg.rotor, e1]; exact n1, n2.congr fun b hb => ?_⟩
    rw [nullBlade_iff hA hb]
    have he := (e2.2 b).trans (and_iff_right hb)
    change b ∈ E.blades ∧ _ ↔ _
    rw [he]

/-- C61: rotors and the nondegenerate subspace are closed under products, in every signature. -/
theorem C61_closed (hA : WfAlg A) {S : SubSpace} (hS : A.rotor = some S ∨ A.nondegenerateSpace = some S) :
    S.isSubalgebra A = some true ∧ Closed A S := by
  have key : WfSub A S ∧ Closed A S := by
    obtain ⟨_, _, ⟨N, n1, n2⟩, ⟨E, e1, e2⟩⟩ := C61_spaces hA
    have hx : ∀ a c, ¬ NullBlade A a → ¬ NullBlade A c → ¬ NullBlade A (a ^^^ c) := by
      rintro a c ha hc ⟨i, hi, h1, h2⟩
      rw [Nat.testBit_xor] at h1
      cases h : a.testBit i with
      | true => exact ha ⟨i, hi, h, h2⟩
      | false => rw [h, Bool.false_xor] at h1; exact hc ⟨i, hi, h1, h2⟩
    rcases hS with hS | hS
    · cases e1.symm.trans hS
      refine ⟨e2.1, (closed_iff hA e2.1).2 fun a ha c hc _ => ?_⟩
      have ha' := (e2.2 a).1 ha
      have hc' := (e2.2 c).1 hc
      refine (e2.2 _).2 ⟨xor_lt ha'.1 hc'.1, ?_, hx a c ha'.2.2 hc'.2.2⟩
      have := popcount_xor a c
      omega
    · cases n1.symm.trans hS
      refine ⟨n2.1, (closed_iff hA n2.1).2 fun a ha c hc _ => ?_⟩
      have ha' := (n2.2 a).1 ha
      have hc' := (n2.2 c).1 hc
      exact (n2.2 _).2 ⟨xor_lt ha'.1 hc'.1, hx a c ha'.2 hc'.2⟩
  obtain ⟨r, r1, r2⟩ := C20_is_subalgebra hA key.1
  exact ⟨by rw [r1, r2.2 key.2], key.2⟩

/-- C61: the degenerate subspace is an ideal: a product with a degenerate factor is degenerate. -/
theorem C61_ideal (hA : WfAlg A) {D : SubSpace} (hD : A.degenerateSpace = some D) {R : Type} [CommRing R] {x y : MV R}
    (hx : WfMV A x) (hy : WfMV A y) (h : x.sub = D ∨ y.sub = D) : Within A D (val A x * val A y) := by
  obtain ⟨⟨D', d1, d2⟩, _⟩ := C61_spaces hA
  cases d1.symm.trans hD
  have key : ∀ a ∈ x.sub.blades, ∀ c ∈ y.sub.blades, Within A D (blade A R a * blade A R c) := by
    intro a ha c hc
    have la := hx.sub.lt a ha
    have lc := hy.sub.lt c hc
    rw [blade_mul hA]
    by_cases hs : sgn A a c = 0
    · rw [hs, Int.cast_zero, zero_smul]; exact within_zero d2.1
    · refine Within.smul d2.1 _ (within_blade d2.1 ((d2.2 _).2 ⟨xor_lt la lc, ?_⟩))
      have hs' := (sgn_ne_zero hA la).1 hs
      have hac : NullBlade A a ∨ NullBlade A c := by
        rcases h with h | h
        · exact Or.inl ((d2.2 a).1 (h ▸ ha)).2
        · exact Or.inr ((d2.2 c).1 (h ▸ hc)).2
      rcases hac with ⟨i, hi, h1, h2⟩ | ⟨i, hi, h1, h2⟩
      · refine ⟨i, hi, ?_, h2⟩
        cases h3 : c.testBit i with
        | true => exact absurd ⟨i, hi, h1, h3, h2⟩ hs'
        | false => rw [Nat.testBit_xor, h1, h3]; rfl
      · refine ⟨i, hi, ?_, h2⟩
        cases h3 : a.testBit i with
        | true => exact absurd ⟨i, hi, h3, h1, h2⟩ hs'
        | false => rw [Nat.testBit_xor, h1, h3]; rfl
  refine within_induction hx.sub (p := fun u => Within A D (u * val A y)) (by rw [zero_mul]; exact within_zero d2.1)
    (fun u v hu hv => by rw [add_mul]; exact hu.add d2.1 hv) (fun r a ha => ?_) hx.within
  refine within_induction hy.sub (p := fun u => Within A D (r • blade A R a * u)) (by rw [mul_zero]; exact within_zero d2.1)
    (fun u v hu hv => by rw [mul_add]; exact hu.add d2.1 hv) (fun s c hc => ?_) hy.within
  rw [smul_mul_assoc, mul_smul_comm]
  exact ((key a ha c hc).smul d2.1 _).smul d2.1 _

theorem popcount_one_bits (hA : WfAlg A) {b : Nat} (hb : b < 2 ^ A.n) (h : popcount b = 1) : ∃ i < A.n, b = 2 ^ i := by
  rw [popcount_of_lt hA.le32 hb, pc] at h
  obtain ⟨i, hi, h1⟩ : ∃ i ∈ Finset.range A.n, (b.testBit i).toNat ≠ 0 := by
    by_contra hc
    push Not at hc
    rw [Finset.sum_eq_zero hc] at h
    cases h
  have hi' := Finset.mem_range.1 hi
  refine ⟨i, hi', Nat.eq_of_testBit_eq fun j => ?_⟩
  rw [Nat.testBit_two_pow]
  by_cases hji : i = j
  · subst hji
    cases hb' : b.testBit i
    · rw [hb'] at h1; exact absurd rfl h1
    · simp
  · rw [decide_eq_false hji]
    by_cases hj : j < A.n
    · rw [← Finset.add_sum_erase _ _ hi] at h
      have h2 : ∑ x ∈ (Finset.range A.n).erase i, (b.testBit x).toNat = 0 := by omega
      rw [Finset.sum_eq_zero_iff] at h2
      have := h2 j (Finset.mem_erase.2 ⟨fun h => hji h.symm, Finset.mem_range.2 hj⟩)
      simpa using this
    · exact testBit_false_of_lt hb (by omega)

theorem popcount_two_bits (hA : WfAlg A) {b : Nat} (hb : b < 2 ^ A.n) (h : popcount b = 2) :
    ∃ i < A.n, ∃ j < A.n, i ≠ j ∧ b = 2 ^ i ^^^ 2 ^ j := by
  obtain ⟨i, hi, h1⟩ : ∃ i ∈ Finset.range A.n, (b.testBit i).toNat ≠ 0 := by
    rw [popcount_of_lt hA.le32 hb, pc] at h
    by_contra hc
    push Not at hc
    rw [Finset.sum_eq_zero hc] at h
    cases h
  have hi' := Finset.mem_range.1 hi
  have hbi : b.testBit i = true := by
    cases hb' : b.testBit i
    · rw [hb'] at h1; exact absurd rfl h1
    · rfl
  have hp := popcount_xor b (2 ^ i)
  have hand : b &&& 2 ^ i = 2 ^ i := by
    apply Nat.eq_of_testBit_eq
    intro j
    rw [Nat.testBit_and, Nat.testBit_two_pow]
    by_cases hj : i = j
    · subst hj; simp [hbi]
    · simp [hj]
  rw [hand, popcount_two_pow hA hi'] at hp
  obtain ⟨j, hj, hbj⟩ := popcount_one_bits hA (xor_lt hb (Nat.pow_lt_pow_right (by norm_num) hi')) (by omega : popcount (b ^^^ 2 ^ i) = 1)
  have hb2 : b = 2 ^ i ^^^ 2 ^ j := by rw [← hbj, Nat.xor_comm b, ← Nat.xor_assoc, Nat.xor_self, Nat.zero_xor]
  refine ⟨i, hi', j, hj, ?_, hb2⟩
  rintro rfl
  rw [Nat.xor_self] at hb2
  rw [hb2, popcount_eq, pc_zero_right] at h
  cases h

/-- C61: `translator()` exists for two or more dimensions; it has the bivectors with a null vector, and the scalar unless
all basis vectors are null. -/
theorem C61_translator (hA : WfAlg A) (h2 : 2 ≤ A.n) : ∃ S, A.translator = some S ∧
    IsSpace A S fun b => (b = 0 ∧ ∃ i < A.n, A.desc.sig.getD i 0 ≠ 0) ∨ (popcount b = 2 ∧ NullBlade A b) := by
  obtain ⟨_, ⟨V, v1, v2⟩, hB, _⟩ := C14_named hA
  obtain ⟨B, b1, b2⟩ := hB h2
  obtain ⟨N, n1, n2⟩ := (C17_split hA b2.1).2
  obtain ⟨sc, hsc⟩ := scalar_eq hA
  obtain ⟨U, u1, u2, u3⟩ := product_space hA hsc v2.1
  obtain ⟨W, w1, w2, w3⟩ := product_space hA u2 v2.1
  obtain ⟨T, t1, t2⟩ := difference_spec hA w2 (T := N)
  have hUV : ∀ b, b ∈ U.blades ↔ ∃ i < A.n, b = 2 ^ i := by
    intro b
    rw [u3]
    constructor
    · rintro ⟨a, ha, c, hc, rfl, _⟩
      rw [List.mem_singleton.1 ha, Nat.zero_xor]
      have := (v2.2 c).1 hc
      exact popcount_one_bits hA this.1 this.2
    · rintro ⟨i, hi, rfl⟩
      refine ⟨0, by simp, 2 ^ i, (v2.2 _).2 ⟨Nat.pow_lt_pow_right (by norm_num) hi, popcount_two_pow hA hi⟩, Nat.zero_xor _, ?_⟩
      rw [sgn_ne_zero hA (Nat.two_pow_pos _)]
      simp
  refine ⟨T, ?_, t2.congr fun b hb => ?_⟩
  · simp only [Alg.translator, Alg.kReflection, sc, v1, b1, n1, u1, w1, t1, Option.bind_eq_bind, Option.bind_some]
  · have hW : b ∈ W.blades ↔ (b = 0 ∧ ∃ i < A.n, A.desc.sig.getD i 0 ≠ 0) ∨ popcount b = 2 := by
      rw [w3]
      constructor
      · rintro ⟨a, ha, c, hc, rfl, hs⟩
        obtain ⟨i, hi, rfl⟩ := (hUV a).1 ha
        have hc' := (v2.2 c).1 hc
        obtain ⟨j, hj, rfl⟩ := popcount_one_bits hA hc'.1 hc'.2
        rw [sgn_ne_zero hA (Nat.pow_lt_pow_right (by norm_num) hi)] at hs
        by_cases hij : i = j
        · subst hij
          exact Or.inl ⟨Nat.xor_self _, i, hi, fun h => hs ⟨i, hi, by simp, by simp, h⟩⟩
        · right
          have := popcount_xor (2 ^ i) (2 ^ j)
          have hz : 2 ^ i &&& 2 ^ j = 0 := by
            apply Nat.eq_of_testBit_eq
            intro k
            rw [Nat.testBit_and, Nat.testBit_two_pow, Nat.testBit_two_pow, Nat.zero_testBit]
            by_cases hk : i = k
            · subst hk; simp [Ne.symm hij]
            · simp [hk]
          rw [hz, popcount_two_pow hA hi, popcount_two_pow hA hj, popcount_eq 0, pc_zero_right] at this
          omega
      · rintro (⟨rfl, i, hi, h⟩ | h)
        · have hlt : 2 ^ i < 2 ^ A.n := Nat.pow_lt_pow_right (by norm_num) hi
          refine ⟨2 ^ i, (hUV _).2 ⟨i, hi, rfl⟩, 2 ^ i, (v2.2 _).2 ⟨hlt, popcount_two_pow hA hi⟩, Nat.xor_self _, ?_⟩
          rw [sgn_ne_zero hA hlt]
          rintro ⟨k, hk, h1, _, h3⟩
          rw [Nat.testBit_two_pow, decide_eq_true_iff] at h1
          exact h (h1 ▸ h3)
        · obtain ⟨i, hi, j, hj, hij, rfl⟩ := popcount_two_bits hA hb h
          refine ⟨2 ^ i, (hUV _).2 ⟨i, hi, rfl⟩, 2 ^ j, (v2.2 _).2 ⟨Nat.pow_lt_pow_right (by norm_num) hj, popcount_two_pow hA hj⟩, rfl, ?_⟩
          rw [sgn_ne_zero hA (Nat.pow_lt_pow_right (by norm_num) hi)]
          rintro ⟨k, hk, h1, h2, _⟩
          rw [Nat.testBit_two_pow, decide_eq_true_iff] at h1 h2
          exact hij (h1.trans h2.symm)
    have hN : b ∈ N.blades ↔ popcount b = 2 ∧ ¬ NullBlade A b := by
      rw [n2.2 b, nullBlade_iff hA hb]
      exact ⟨fun h => ⟨((b2.2 b).1 h.2.1).2, h.2.2⟩, fun h => ⟨hb, (b2.2 b).2 ⟨hb, h.1⟩, h.2⟩⟩
    have h0 : b = 0 → popcount b ≠ 2 := by rintro rfl; rw [popcount_eq, pc_zero_right]; omega
    change b ∈ W.blades ∧ b ∉ N.blades ↔ _
    rw [hW, hN]
    clear hW hN
    generalize popcount b = q at *
    generalize NullBlade A b = u at *
    by_cases hq : q = 2 <;> by_cases hu : u <;> by_cases hz : b = 0 <;> simp_all

/-- C61: with at most one null vector, as in projective geometric algebra, translators are closed under products. -/
theorem C61_translator_closed (hA : WfAlg A) (h2 : 2 ≤ A.n)
    (hone : ∀ i < A.n, ∀ j < A.n, A.desc.sig.getD i 0 = 0 → A.desc.sig.getD j 0 = 0 → i = j) :
    ∃ S, A.translator = some S ∧ S.isSubalgebra A = some true ∧ Closed A S := by
  obtain ⟨S, s1, s2⟩ := C61_translator hA h2
  have hc : Closed A S := by
    rw [closed_iff hA s2.1]
    intro a ha c hc hs
    obtain ⟨la, ha'⟩ := (s2.2 a).1 ha
    obtain ⟨lc, hc'⟩ := (s2.2 c).1 hc
    rcases ha' with ⟨rfl, _⟩ | ⟨_, i, hi, ai, zi⟩
    · rwa [Nat.zero_xor]
    · rcases hc' with ⟨rfl, _⟩ | ⟨_, j, hj, cj, zj⟩
      · rwa [Nat.xor_zero]
      · exfalso
        rw [sgn_ne_zero hA la] at hs
        obtain rfl := hone i hi j hj zi zj
        exact hs ⟨i, hi, ai, cj, zi⟩
  obtain ⟨r, r1, r2⟩ := C20_is_subalgebra hA s2.1
  exact ⟨S, s1, by rw [r1, r2.2 hc], hc⟩

/-- C61: `is_degenerate` holds iff every blade has a null vector; `is_degenerate_scalar` iff the scalar is present and every
other blade has a null vector. -/
theorem C61_predicates (hA : WfAlg A) {S : SubSpace} (hS : WfSub A S) :
    (∃ r, S.isDegenerate A = some r ∧ (r = true ↔ ∀ b ∈ S.blades, NullBlade A b)) ∧
    (∃ r, S.isDegenerateScalar A = some r ∧ (r = true ↔ 0 ∈ S.blades ∧ ∀ b ∈ S.blades, b ≠ 0 → NullBlade A b)) := by
  obtain ⟨D, d1, d2⟩ := (C17_split hA hS).1
  obtain ⟨sc, hsc⟩ := scalar_eq hA
  obtain ⟨U, u1, u2⟩ := union_spec hA hsc d2.1
  have hn : ∀ b ∈ S.blades, (A.product b b).2 = 0 ↔ NullBlade A b := fun b hb => (nullBlade_iff hA (hS.lt b hb)).symm
  constructor
  · refine ⟨S == D, by rw [SubSpace.isDegenerate, d1]; rfl, ?_⟩
    rw [beq_iff_eq]
    constructor
    · intro h b hb
      exact (hn b hb).1 ((d2.2 b).1 (h ▸ hb)).2.2
    · intro h
      refine hS.ext d2.1 fun b => ?_
      rw [d2.2]
      exact ⟨fun hb => ⟨hS.lt b hb, hb, (hn b hb).2 (h b hb)⟩, fun hb => hb.2.1⟩
  · refine ⟨S == U, by rw [SubSpace.isDegenerateScalar, d1, sc]; simp only [Option.bind_eq_bind, Option.bind_some, u1], ?_⟩
    rw [beq_iff_eq]
    constructor
    · intro h
      refine ⟨?_, fun b hb h0 => ?_⟩
      · rw [h, u2.2]; exact ⟨Nat.two_pow_pos _, Or.inl (by simp)⟩
      · have := ((u2.2 b).1 (h ▸ hb)).2
        rcases this with h' | h'
        · exact absurd (List.mem_singleton.1 h') h0
        · exact (hn b hb).1 ((d2.2 b).1 h').2.2
    · rintro ⟨h0, h⟩
      refine hS.ext u2.1 fun b => ?_
      rw [u2.2]
      constructor
      · intro hb
        refine ⟨hS.lt b hb, ?_⟩
        by_cases hz : b = 0
        · exact Or.inl (by simp [hz])
        · exact Or.inr ((d2.2 b).2 ⟨hS.lt b hb, hb, (hn b hb).2 (h b hb hz)⟩)
      · rintro ⟨_, h' | h'⟩
        · rw [List.mem_singleton.1 h']; exact h0
        · exact ((d2.2 b).1 h').2.1

example : pga3.translator = some ⟨[0, 3, 5, 9]⟩ ∧ pga3.rotor = some ⟨[0, 6, 10, 12]⟩ ∧
    pga3.degenerateSpace = some ⟨[1, 3, 5, 9, 7, 11, 13, 15]⟩ ∧ (⟨[0, 3, 5, 9]⟩ : SubSpace).isDegenerateScalar pga3 = some true ∧
    (⟨[3, 5, 9]⟩ : SubSpace).isDegenerate pga3 = some true := by decide +kernel
example : 2 ≤ pga3.n ∧
    ∀ i < pga3.n, ∀ j < pga3.n, pga3.desc.sig.getD i 0 = 0 → pga3.desc.sig.getD j 0 = 0 → i = j := by decide +kernel

end Verif.Props
