import Verif.Proofs.Values
import Verif.Proofs.Products
import Verif.Model.SubspaceOps
/-! # Subspace operations that use the operator factory -/
namespace Verif
open Model Spec Model.Factory

variable {A : Alg} {R : Type} [CommRing R]

/-! ### elements within a subspace -/

theorem Spec.WfMV.within {x : MV R} (hx : WfMV A x) : Within A x.sub (val A x) := ⟨x, hx, rfl, rfl⟩

theorem within_iff {S : SubSpace} (hS : WfSub A S) {x : Cl A R} :
    Within A S x ↔ ∀ b < 2 ^ A.n, b ∉ S.blades → coef A R b x = 0 := by
  constructor
  · rintro ⟨z, hz, rfl, rfl⟩ b _ hb'
    rw [← coeff_eq hz, coeff_notMem hb']
  · intro h
    have hz : WfMV A (⟨S, S.blades.map fun b => coef A R b x⟩ : MV R) := ⟨hS, by simp⟩
    refine ⟨_, hz, rfl, ?_⟩
    apply ext_coef
    intro b hb
    rw [← coeff_eq hz]
    by_cases hm : b ∈ S.blades
    · rw [coeff]
      have : ∀ l : List Nat, b ∈ l → (l.zip (l.map fun b => coef A R b x)).lookup b = some (coef A R b x) := by
        intro l hl
        induction l with
        | nil => cases hl
        | cons a l ih =>
          rw [List.map_cons, List.zip_cons_cons, List.lookup_cons]
          by_cases hab : b = a
          · subst hab; simp
          · have : (b == a) = false := by simpa using hab
            rw [this]
            exact ih (by simpa [hab] using hl)
      simp only [this _ hm, Option.getD_some]
    · rw [coeff_notMem hm, h b hb hm]

theorem within_blade {S : SubSpace} (hS : WfSub A S) {b : Nat} (hb : b ∈ S.blades) : Within A S (blade A R b) := by
  rw [within_iff hS]
  intro c hc hc'
  rw [coef_blade _ _ (hS.lt b hb), if_neg]
  rintro rfl; exact hc' hb

theorem Spec.Within.add {S : SubSpace} (hS : WfSub A S) {x y : Cl A R} (hx : Within A S x) (hy : Within A S y) : Within A S (x + y) := by
  rw [within_iff hS] at *
  intro b hb hb'
  rw [map_add, hx b hb hb', hy b hb hb', add_zero]

theorem Spec.Within.smul {S : SubSpace} (hS : WfSub A S) (r : R) {x : Cl A R} (hx : Within A S x) : Within A S (r • x) := by
  rw [within_iff hS] at *
  intro b hb hb'
  rw [map_smul, hx b hb hb', smul_zero]

theorem Spec.Within.mono {S T : SubSpace} (hS : WfSub A S) (hT : WfSub A T) (h : SubOf S T) {x : Cl A R} (hx : Within A S x) : Within A T x := by
  rw [within_iff hS] at hx
  rw [within_iff hT]
  exact fun b hb hb' => hx b hb fun h' => hb' (h b h')

theorem within_zero {S : SubSpace} (hS : WfSub A S) : Within A S (0 : Cl A R) := by
  rw [within_iff hS]; intro b _ _; rw [map_zero]

theorem within_sum {S : SubSpace} (hS : WfSub A S) {ι : Type*} (s : Finset ι) {f : ι → Cl A R} (h : ∀ i ∈ s, Within A S (f i)) :
    Within A S (∑ i ∈ s, f i) := by
  rw [within_iff hS]
  intro b hb hb'
  rw [map_sum]
  exact Finset.sum_eq_zero fun i hi => (within_iff hS).1 (h i hi) b hb hb'

/-- Elements of a subspace are combinations of its blades. -/
theorem within_induction {S : SubSpace} (hS : WfSub A S) {p : Cl A R → Prop} (h0 : p 0) (hadd : ∀ x y, p x → p y → p (x + y))
    (hsm : ∀ (r : R) b, b ∈ S.blades → p (r • blade A R b)) {x : Cl A R} (hx : Within A S x) : p x := by
  obtain ⟨⟨⟨bs⟩, v⟩, hz, rfl, rfl⟩ := hx
  have hlen := hz.len
  have : ∀ (l : List Nat) (w : List R), (∀ b ∈ l, b ∈ bs) → p (denote A R ⟨l⟩ w) := by
    intro l
    induction l with
    | nil => intro w _; simpa [denote] using h0
    | cons b l ih =>
      intro w hl
      cases w with
      | nil => simpa [denote] using h0
      | cons r w =>
        have := ih w fun c hc => hl c (by simp [hc])
        simp only [denote, List.zipWith_cons_cons, List.sum_cons] at this ⊢
        exact hadd _ _ (hsm r b (hl b (by simp))) this
  exact this bs v fun _ h => h

theorem closed_iff (hA : WfAlg A) {S : SubSpace} (hS : WfSub A S) :
    Closed A S ↔ ∀ a ∈ S.blades, ∀ c ∈ S.blades, sgn A a c ≠ 0 → a ^^^ c ∈ S.blades := by
  constructor
  · intro h a ha c hc hs
    by_contra hne
    have := (within_iff hS).1 (h ℤ _ _ (within_blade hS ha) (within_blade hS hc)) _ (xor_lt (hS.lt a ha) (hS.lt c hc)) hne
    rw [blade_mul hA, map_smul, coef_blade _ _ (xor_lt (hS.lt a ha) (hS.lt c hc)), if_pos rfl] at this
    simp at this
    exact hs this
  · intro h R _ x y hx hy
    refine within_induction hS (p := fun x => Within A S (x * y)) (by rw [zero_mul]; exact within_zero hS)
      (fun u v hu hv => by rw [add_mul]; exact hu.add hS hv) (fun r a ha => ?_) hx
    refine within_induction hS (p := fun y => Within A S (r • blade A R a * y)) (by rw [mul_zero]; exact within_zero hS)
      (fun u v hu hv => by rw [mul_add]; exact hu.add hS hv) (fun t c hc => ?_) hy
    rw [smul_mul_smul_comm, blade_mul hA]
    by_cases hs : sgn A a c = 0
    · rw [hs]; simpa using within_zero hS
    · exact ((within_blade hS (h a ha c hc hs)).smul hS _).smul hS _

/-! ### output subspaces -/

/-- Output blades of a squeezed binary product of two subspaces. -/
theorem product_space (hA : WfAlg A) {S T : SubSpace} (hS : WfSub A S) (hT : WfSub A T) :
    ∃ U, S.product A T = some U ∧ WfSub A U ∧ ∀ b, b ∈ U.blades ↔ ∃ a ∈ S.blades, ∃ c ∈ T.blades, a ^^^ c = b ∧ sgn A a c ≠ 0 := by
  obtain ⟨op, o1, o2, o3, o4⟩ := product_bin hA (argSem_sub hS) (argSem_sub hT)
  replace o3 : op.inputs = [S, T] := o3
  have o5 : Computes A op (Cond.triv A) (fun R _ ds => (ds.take 1).headD 0 * (ds.drop 1).headD 0) :=
    fun R _ xs hx _ => o4 R xs hx ⟨trivial, trivial⟩
  refine ⟨op.output, by rw [SubSpace.product, o1]; rfl, o2.wf_output, fun b => ?_⟩
  rw [squeezed_out hA (product_squeezed hA hS hT o1) o5, o3]
  constructor
  · rintro ⟨idx, hidx, hnz⟩
    cases hidx with
    | @cons i _ _ _ h1 h' =>
      cases h' with
      | @cons j _ _ _ h2 h' =>
        cases h'
        refine ⟨_, getD_mem h1, _, getD_mem h2, ?_⟩
        simp only [bladesAt, List.zipWith_cons_cons, List.zipWith_nil_left, List.take_succ_cons, List.take_zero, List.headD_cons,
          List.drop_succ_cons, List.drop_zero] at hnz
        rw [blade_mul hA, map_smul, coef_blade _ _ (xor_lt (hS.lt _ (getD_mem h1)) (hT.lt _ (getD_mem h2)))] at hnz
        by_cases e : b = S.blades.getD i 0 ^^^ T.blades.getD j 0
        · refine ⟨e.symm, fun h0 => hnz ?_⟩
          rw [h0]; simp
        · rw [if_neg e] at hnz; simp at hnz
  · rintro ⟨a, ha, c, hc, rfl, hs⟩
    have h1 := List.idxOf_lt_length_of_mem ha
    have h2 := List.idxOf_lt_length_of_mem hc
    refine ⟨[S.blades.idxOf a, T.blades.idxOf c], List.Forall₂.cons h1 (List.Forall₂.cons h2 List.Forall₂.nil), ?_⟩
    simp only [bladesAt, List.zipWith_cons_cons, List.zipWith_nil_left, List.take_succ_cons, List.take_zero, List.headD_cons,
      List.drop_succ_cons, List.drop_zero]
    rw [getD_lt _ _ h1, getD_lt _ _ h2, List.getElem_idxOf, List.getElem_idxOf, blade_mul hA, map_smul,
      coef_blade _ _ (xor_lt (hS.lt a ha) (hT.lt c hc)), if_pos rfl]
    simpa using hs

theorem sgn_assoc (hA : WfAlg A) {a b c : Nat} (ha : a < 2 ^ A.n) (hb : b < 2 ^ A.n) (hc : c < 2 ^ A.n) :
    sgn A a b * sgn A (a ^^^ b) c = sgn A b c * sgn A a (b ^^^ c) := by
  have h := mul_assoc (blade A ℤ a) (blade A ℤ b) (blade A ℤ c)
  rw [blade_mul hA, blade_mul hA, smul_mul_assoc, blade_mul hA, mul_smul_comm, blade_mul hA, Nat.xor_assoc] at h
  have h2 := congrArg (coef A ℤ (a ^^^ (b ^^^ c))) h
  rw [map_smul, map_smul, map_smul, map_smul, coef_blade _ _ (xor_lt ha (xor_lt hb hc)), if_pos rfl] at h2
  simpa using h2

/-! ### loops -/

theorem length_le {S : SubSpace} (hS : WfSub A S) : S.blades.length ≤ 2 ^ A.n := by
  have := (List.subperm_of_subset hS.nodup (l₂ := List.range (2 ^ A.n)) fun b hb => List.mem_range.2 (hS.lt b hb)).length_le
  simpa using this

theorem length_lt {S T : SubSpace} (hS : WfSub A S) (hT : WfSub A T) (h : SubOf S T) (hne : T ≠ S) : S.blades.length < T.blades.length := by
  have hp := List.subperm_of_subset hS.nodup h
  rcases hp.length_le.lt_or_eq with h' | h'
  · exact h'
  · have hp' := hp.perm_of_length_le h'.ge
    exact absurd (WfSub.ext hT hS fun b => (hp'.mem_iff).symm) hne

theorem iterate_mono {step : SubSpace → Option SubSpace} {fuel : Nat} {S T : SubSpace} (h : SubSpace.iterate step fuel S = some T) {k : Nat}
    (hk : fuel ≤ k) : SubSpace.iterate step k S = some T := by
  induction fuel generalizing k S with
  | zero => cases h
  | succ f ih =>
    obtain ⟨k, rfl⟩ : ∃ j, k = j + 1 := ⟨k - 1, by omega⟩
    rw [SubSpace.iterate] at h ⊢
    cases hs : step S with
    | none => rw [hs] at h; cases h
    | some U =>
      simp only [hs, Option.bind_eq_bind, Option.bind_some] at h ⊢
      split_ifs at h ⊢ with hU
      · exact h
      · exact ih h (by omega)

/-- A loop whose steps enlarge the subspace and keep an invariant reaches a fixed point within `2 ^ n + 1` rounds. -/
theorem iterate_spec {step : SubSpace → Option SubSpace} {p : SubSpace → Prop}
    (hstep : ∀ S, WfSub A S → p S → ∃ T, step S = some T ∧ WfSub A T ∧ SubOf S T ∧ p T) {S : SubSpace} (hS : WfSub A S) (hp : p S) :
    ∃ T, (∀ fuel, 2 ^ A.n < fuel → SubSpace.iterate step fuel S = some T) ∧ WfSub A T ∧ SubOf S T ∧ p T ∧ step T = some T := by
  have key : ∀ (k : Nat) (S : SubSpace), WfSub A S → p S → 2 ^ A.n - S.blades.length < k →
      ∃ T, SubSpace.iterate step k S = some T ∧ WfSub A T ∧ SubOf S T ∧ p T ∧ step T = some T := by
    intro k
    induction k with
    | zero => intro S _ _ h; omega
    | succ k ih =>
      intro S hS hp hk
      obtain ⟨T, h1, h2, h3, h4⟩ := hstep S hS hp
      rw [SubSpace.iterate, h1, Option.bind_eq_bind, Option.bind_some]
      by_cases hT : T = S
      · subst hT
        rw [if_pos rfl]
        exact ⟨T, rfl, h2, fun _ h => h, h4, h1⟩
      · rw [if_neg hT]
        have := length_lt hS h2 h3 hT
        have := length_le h2
        obtain ⟨U, u1, u2, u3, u4⟩ := ih T h2 h4 (by omega)
        exact ⟨U, u1, u2, fun b hb => u3 b (h3 b hb), u4⟩
  obtain ⟨T, h1, h2⟩ := key (2 ^ A.n + 1) S hS hp (Nat.lt_succ_of_le (Nat.sub_le _ _))
  exact ⟨T, fun fuel hf => iterate_mono h1 (by omega), h2⟩

/-! ### products of an element with its involution -/

theorem within_scalar {x : Cl A R} (hA : WfAlg A) : Within A ⟨[0]⟩ x ↔ IsScalar x := by
  constructor
  · rintro ⟨z, hz, hs, rfl⟩
    have hl := hz.len
    rw [val, hs]
    rw [hs] at hl
    match hv : z.vals, hl with
    | [c], _ => exact ⟨c, by simp [denote, blade_zero]⟩
  · rintro ⟨c, rfl⟩
    exact ⟨⟨⟨[0]⟩, [c]⟩, ⟨⟨by simp, by simp⟩, rfl⟩, rfl, by simp [val, denote, blade_zero]⟩

theorem contains_iff {S T : SubSpace} : S.contains T = true ↔ SubOf T S := by
  simp only [SubSpace.contains, SubSpace.isSubspace, Bool.or_eq_true, beq_iff_eq, List.all_eq_true, List.contains_iff_mem, SubOf]
  constructor
  · rintro (rfl | h)
    · exact fun _ h => h
    · exact h
  · exact Or.inr

/-- The operator behind `f` maps `x` of subspace `S` to `x * L x`, and `f S` is the least subspace that holds all values. -/
def SelfSem (A : Alg) (f : SubSpace → Option SubSpace) (L : LinMap A) : Prop :=
  ∀ S, WfSub A S → ∃ T, f S = some T ∧ WfSub A T ∧
    (∀ (R : Type) [CommRing R] (x : Cl A R), Within A S x → Within A T (x * L R x)) ∧
    (∀ U, WfSub A U → (∀ x : Cl A ℤ, Within A S x → Within A U (x * L ℤ x)) → SubOf T U)

theorem selfSem_of (hA : WfAlg A) {f : Arg Int → Arg Int → Option (Operator Int)} {L : LinMap A}
    (h : BinSem A f fun R _ x y => x * L R y) :
    SelfSem A (fun S => ((f (.sub S) (.sub S)).bind (·.symmetry A [0, 1])).map (·.output)) L := by
  intro S hS
  obtain ⟨s, s1, s2, s3, s4⟩ := h.self2 hA hS
  refine ⟨s.output, by simp only [s1]; rfl, s2.wf_output, ?_, ?_⟩
  · rintro R _ x ⟨z, hz, hzs, rfl⟩
    subst hzs
    have hg := call_gives2 (R := R) (h.self2 hA hS) hz hz (by
      intro i hi j hj; simp at hi hj; rcases hi with rfl | rfl <;> rcases hj with rfl | rfl <;> rfl)
    obtain ⟨w, w1, w2, w3⟩ := hg
    rw [s1] at w1
    exact ⟨w, w2, call_sub w1, w3⟩
  · intro U hU hU2 b hb
    obtain ⟨hlt, a, ha, c, hc, hnz⟩ := self2_output hA h hS s1 hb
    by_contra hne
    apply hnz
    have pol : blade A ℤ a * L ℤ (blade A ℤ c) + blade A ℤ c * L ℤ (blade A ℤ a) =
        (blade A ℤ a + blade A ℤ c) * L ℤ (blade A ℤ a + blade A ℤ c) - blade A ℤ a * L ℤ (blade A ℤ a) - blade A ℤ c * L ℤ (blade A ℤ c) := by
      rw [map_add]; noncomm_ring
    have wa := within_blade (R := ℤ) hS ha
    have wc := within_blade (R := ℤ) hS hc
    have z1 := (within_iff hU).1 (hU2 _ wa) b hlt hne
    have z2 := (within_iff hU).1 (hU2 _ wc) b hlt hne
    have z3 := (within_iff hU).1 (hU2 _ (wa.add hS wc)) b hlt hne
    rw [pol, map_sub, map_sub, z1, z2, z3]; simp

theorem selfProducts_sem (hA : WfAlg A) : List.Forall₂ (SelfSem A) (SubSpace.selfProducts A) (involutions A) := by
  have hn : A.n ≠ 0 := by have := hA.pos; omega
  refine .cons ?_ (.cons ?_ (.cons ?_ (.cons ?_ (.cons ?_ (.cons ?_ .nil)))))
  · exact selfSem_of hA (f := product A) (L := fun _ _ => LinearMap.id) (product_bin hA)
  · exact selfSem_of hA (L := fun _ _ => CliffordAlgebra.reverse) (reverseProduct_bin hA)
  · exact selfSem_of hA (L := fun _ _ => CliffordAlgebra.involute.toLinearMap) (involuteProduct_bin hA)
  · exact selfSem_of hA (L := fun _ _ => CliffordAlgebra.involute.toLinearMap.comp CliffordAlgebra.reverse) (conjugateProduct_bin hA)
  · refine selfSem_of hA (f := scalarNegationProduct A) (L := fun R _ => (2 : R) • gradePart A R 0 - LinearMap.id) ?_
    have := scalarNegationProduct_bin hA
    simpa only [LinearMap.sub_apply, LinearMap.smul_apply, LinearMap.id_apply, ofNat_smul_eq_nsmul] using this
  · refine selfSem_of hA (f := pseudoscalarNegationProduct A)
      (L := fun R _ => (2 : R) • (gradePart A R 0 + gradePart A R A.n) - LinearMap.id) ?_
    have := pseudoscalarNegationProduct_bin hA
    simpa only [LinearMap.sub_apply, LinearMap.smul_apply, LinearMap.add_apply, LinearMap.id_apply, ofNat_smul_eq_nsmul, if_neg hn] using this

theorem anyM_some {α : Type} {l : List α} {f : α → Option Bool} {g : α → Bool} (h : ∀ x ∈ l, f x = some (g x)) :
    l.anyM f = some (l.any g) := by
  induction l with
  | nil => rfl
  | cons a l ih =>
    rw [List.anyM, h a (by simp)]
    simp only [Option.bind_eq_bind, Option.bind_some, List.any_cons]
    cases g a
    · simpa using ih fun x hx => h x (by simp [hx])
    · rfl

theorem mem_forall₂ {α β : Type*} {r : α → β → Prop} {l : List α} {m : List β} (h : List.Forall₂ r l m) {x : α} (hx : x ∈ l) :
    ∃ y ∈ m, r x y := by
  induction h with
  | nil => cases hx
  | cons h1 _ ih =>
    rcases List.mem_cons.1 hx with rfl | hx
    · exact ⟨_, by simp, h1⟩
    · obtain ⟨y, hy, h⟩ := ih hx
      exact ⟨y, by simp [hy], h⟩

theorem isNSimple_spec (hA : WfAlg A) (n : Nat) {S : SubSpace} (hS : WfSub A S) :
    ∃ r, SubSpace.isNSimple A n S = some r ∧ (r = true → ∃ Ls : List (LinMap A), Ls.length = n ∧ (∀ L ∈ Ls, L ∈ involutions A) ∧
      ∀ (R : Type) [CommRing R] (x : Cl A R), Within A S x → IsScalar (Ls.foldl (fun y L => y * L R y) x)) := by
  induction n generalizing S with
  | zero =>
    refine ⟨(⟨[0]⟩ : SubSpace).contains S, by rw [SubSpace.isNSimple, (scalar_eq hA).1]; rfl, fun h => ⟨[], rfl, by simp, ?_⟩⟩
    intro R _ x hx
    rw [contains_iff] at h
    exact (within_scalar hA).1 (hx.mono hS ⟨by simp, by simp⟩ h)
  | succ n ih =>
    have hmem : ∀ f ∈ SubSpace.selfProducts A, ∃ r, (do SubSpace.isNSimple A n (← f S)) = some r ∧
        (r = true → ∃ Ls : List (LinMap A), Ls.length = n + 1 ∧ (∀ L ∈ Ls, L ∈ involutions A) ∧
          ∀ (R : Type) [CommRing R] (x : Cl A R), Within A S x → IsScalar (Ls.foldl (fun y L => y * L R y) x)) := by
      intro f hf
      obtain ⟨L, hL, h⟩ := mem_forall₂ (selfProducts_sem hA) hf
      obtain ⟨T, t1, t2, t3, _⟩ := h S hS
      obtain ⟨r, r1, r2⟩ := ih t2
      refine ⟨r, by rw [t1]; exact r1, fun hr => ?_⟩
      obtain ⟨Ls, l1, l2, l3⟩ := r2 hr
      refine ⟨L :: Ls, by simp [l1], ?_, fun R _ x hx => ?_⟩
      · intro M hM
        rcases List.mem_cons.1 hM with rfl | hM
        exacts [hL, l2 M hM]
      · rw [List.foldl_cons]
        exact l3 R _ (t3 R x hx)
    choose! g hg1 hg2 using hmem
    refine ⟨_, by rw [SubSpace.isNSimple]; exact anyM_some hg1, fun h => ?_⟩
    rw [List.any_eq_true] at h
    obtain ⟨f, hf, h⟩ := h
    exact hg2 f hf h

/-- Simple in one step: exactly the subspaces on which the product is a number. -/
theorem SelfSem.simple (hA : WfAlg A) {f : SubSpace → Option SubSpace} {L : LinMap A} (h : SelfSem A f L) {S : SubSpace} (hS : WfSub A S) :
    ∃ r, (do SubSpace.isNSimple A 0 (← f S)) = some r ∧
      (r = true → ∀ (R : Type) [CommRing R] (x : Cl A R), Within A S x → IsScalar (x * L R x)) ∧
      ((∀ x : Cl A ℤ, Within A S x → IsScalar (x * L ℤ x)) → r = true) := by
  obtain ⟨T, t1, t2, t3, t4⟩ := h S hS
  have hs : WfSub A ⟨[0]⟩ := ⟨by simp, by simp⟩
  refine ⟨(⟨[0]⟩ : SubSpace).contains T, by rw [t1]; simp only [Option.bind_eq_bind, Option.bind_some, SubSpace.isNSimple, (scalar_eq hA).1], ?_, ?_⟩
  · intro hr R _ x hx
    exact (within_scalar hA).1 ((t3 R x hx).mono t2 hs (contains_iff.1 hr))
  · intro hx
    exact contains_iff.2 (t4 _ hs fun x h => (within_scalar hA).2 (hx x h))

end Verif
