import Verif.Proofs.Polar
import Verif.Props.Closure
import Verif.Props.Derived
/-! # C70–C72: subspace-level products, sums of operators, and least output spaces -/
namespace Verif.Props
open Model Spec Model.Factory

variable {A : Alg}

/-! ## C70: subspace-level products -/

theorem xor_zero_eq {a b : Nat} (h : a ^^^ b = 0) : a = b := by
  have := congrArg (a ^^^ ·) h
  simpa [← Nat.xor_assoc] using this.symm

theorem and_eq_of_popcount (hA : WfAlg A) {a c : Nat} (ha : a < 2 ^ A.n) (h : popcount a + popcount (a ^^^ c) = popcount c) :
    a &&& c = a := by
  have e := popcount_xor a c
  have e2 := popcount_xor a (a &&& c)
  have h1 : a &&& (a &&& c) = a &&& c := by rw [← Nat.and_assoc, Nat.and_self]
  rw [h1] at e2
  have h0 : popcount (a ^^^ (a &&& c)) = 0 := by omega
  have hlt : a ^^^ (a &&& c) < 2 ^ A.n := xor_lt ha (lt_of_le_of_lt Nat.and_le_left ha)
  have := (popcount_eq_zero hA.le32 hlt).1 h0
  exact (xor_zero_eq this).symm

theorem popcount_of_and {a c : Nat} (h : a &&& c = a) : popcount a + popcount (a ^^^ c) = popcount c := by
  have e := popcount_xor a c
  rw [h] at e; omega

/-- C70: the wedge of two subspaces consists of the unions of disjoint blades, and nothing else. -/
theorem C70_wedge (hA : WfAlg A) {S T : SubSpace} (hS : WfSub A S) (hT : WfSub A T) :
    ∃ U, S.wedge A T = some U ∧ IsSpace A U fun b => ∃ a ∈ S.blades, ∃ c ∈ T.blades, a &&& c = 0 ∧ b = a ||| c := by
  obtain ⟨op, o1, o2, -⟩ := wedge_bin hA (argSem_sub hS) (argSem_sub hT)
  refine ⟨op.output, by rw [SubSpace.wedge, o1]; rfl, o2.wf_output, fun b => ?_⟩
  rw [bin_output hA (wedge_bin hA) hS hT o1 (makeProduct_squeezed hA hS hT o1)]
  have key : ∀ a ∈ S.blades, ∀ c ∈ T.blades, coef A ℤ b (wedgeMap A ℤ (blade A ℤ a) (blade A ℤ c)) ≠ 0 ↔
      a &&& c = 0 ∧ b = a ||| c := by
    intro a ha c hc
    rw [wedge_blade hA (hS.lt a ha) (hT.lt c hc)]
    by_cases h : a &&& c = 0
    · have e : a ||| c = a ^^^ c := by
        apply Nat.eq_of_testBit_eq; intro i
        have := congrArg (·.testBit i) h
        simp only [Nat.testBit_and, Nat.zero_testBit] at this
        rw [Nat.testBit_or, Nat.testBit_xor]
        revert this; cases a.testBit i <;> cases c.testBit i <;> simp
      rw [if_pos h, map_smul, coef_blade A ℤ (xor_lt (hS.lt a ha) (hT.lt c hc)), e]
      by_cases hb : b = a ^^^ c <;> simp [h, hb]
    · simp [h]
  constructor
  · rintro ⟨a, ha, c, hc, h⟩
    obtain ⟨h1, h2⟩ := (key a ha c hc).1 h
    exact ⟨h2 ▸ Nat.or_lt_two_pow (hS.lt a ha) (hT.lt c hc), a, ha, c, hc, h1, h2⟩
  · rintro ⟨-, a, ha, c, hc, h⟩
    exact ⟨a, ha, c, hc, (key a ha c hc).2 h⟩

/-- The blade of the inner product of blades `a` and `c` is `b`: one contains the other, they share no null vector, and `b`
consists of the vectors in only one of them. -/
def InnerBlade (A : Alg) (a c b : Nat) : Prop :=
  (a &&& c = a ∨ a &&& c = c) ∧ (∀ i < A.n, a.testBit i → c.testBit i → A.desc.sig.getD i 0 ≠ 0) ∧ b = a ^^^ c

/-- C70: the inner product of two subspaces consists of the differences of a blade and a blade it contains. -/
theorem C70_inner (hA : WfAlg A) {S T : SubSpace} (hS : WfSub A S) (hT : WfSub A T) :
    ∃ U, S.inner A T = some U ∧ IsSpace A U fun b => ∃ a ∈ S.blades, ∃ c ∈ T.blades, InnerBlade A a c b := by
  obtain ⟨op, o1, o2, -⟩ := inner_bin hA (argSem_sub hS) (argSem_sub hT)
  refine ⟨op.output, by rw [SubSpace.inner, o1]; rfl, o2.wf_output, fun b => ?_⟩
  rw [bin_output hA (inner_bin hA) hS hT o1 (makeProduct_squeezed hA hS hT o1)]
  have key : ∀ a ∈ S.blades, ∀ c ∈ T.blades,
      coef A ℤ b (gradedProduct A ℤ (fun i j k => i + k = j ∨ j + k = i) (blade A ℤ a) (blade A ℤ c)) ≠ 0 ↔ InnerBlade A a c b := by
    intro a ha c hc
    have la := hS.lt a ha
    have lc := hT.lt c hc
    rw [gradedProduct_blade hA _ la lc]
    have e : (popcount a + popcount (a ^^^ c) = popcount c ∨ popcount c + popcount (a ^^^ c) = popcount a) ↔
        (a &&& c = a ∨ a &&& c = c) := by
      apply or_congr
      · exact ⟨and_eq_of_popcount hA la, popcount_of_and⟩
      · rw [Nat.xor_comm, Nat.and_comm a c]
        exact ⟨and_eq_of_popcount hA lc, popcount_of_and⟩
    rw [InnerBlade, ← e]
    split
    · rename_i h
      rw [blade_mul hA, map_smul, coef_blade A ℤ (xor_lt la lc), smul_eq_mul, mul_ne_zero_iff, Int.cast_id, sgn_ne_zero hA la]
      simp only [h, true_and]
      apply and_congr
      · push Not; rfl
      · simp
    · rename_i h
      simp [h]
  constructor
  · rintro ⟨a, ha, c, hc, h⟩
    have h2 := (key a ha c hc).1 h
    exact ⟨h2.2.2 ▸ xor_lt (hS.lt a ha) (hT.lt c hc), a, ha, c, hc, h2⟩
  · rintro ⟨-, a, ha, c, hc, h⟩
    exact ⟨a, ha, c, hc, (key a ha c hc).2 h⟩

/-- C70: `reject` of `T` from `S`: the parts left of `S ∧ T` after contracting with `T`. -/
theorem C70_reject (hA : WfAlg A) {S T : SubSpace} (hS : WfSub A S) (hT : WfSub A T) :
    ∃ U, S.reject A T = some U ∧ IsSpace A U fun b =>
      ∃ a ∈ S.blades, ∃ c ∈ T.blades, a &&& c = 0 ∧ ∃ d ∈ T.blades, InnerBlade A (a ||| c) d b := by
  obtain ⟨W, w1, w2⟩ := C70_wedge hA hS hT
  obtain ⟨U, u1, u2⟩ := C70_inner hA w2.1 hT
  refine ⟨U, by rw [SubSpace.reject, w1]; exact u1, u2.congr fun b _ => ?_⟩
  constructor
  · rintro ⟨a, ha, d, hd, h⟩
    obtain ⟨-, x, hx, c, hc, h1, rfl⟩ := (w2.2 a).1 ha
    exact ⟨x, hx, c, hc, h1, d, hd, h⟩
  · rintro ⟨x, hx, c, hc, h1, d, hd, h⟩
    exact ⟨x ||| c, (w2.2 _).2 ⟨Nat.or_lt_two_pow (hS.lt x hx) (hT.lt c hc), x, hx, c, hc, h1, rfl⟩, d, hd, h⟩

/-- C70: `scalar_degenerate()` of a subspace: the scalar and its blades with a null vector. -/
theorem C70_scalar_degenerate (hA : WfAlg A) {S : SubSpace} (hS : WfSub A S) :
    ∃ U, S.scalarDegenerate A = some U ∧ IsSpace A U fun b => b = 0 ∨ (b ∈ S.blades ∧ NullBlade A b) := by
  obtain ⟨D, d1, d2⟩ := (C17_split hA hS).1
  obtain ⟨sc, hsc⟩ := scalar_eq hA
  obtain ⟨U, u1, u2⟩ := union_spec hA hsc d2.1
  refine ⟨U, by rw [SubSpace.scalarDegenerate, sc, d1]; exact u1, u2.congr fun b hb => ?_⟩
  rw [nullBlade_iff hA hb, d2.2 b, List.mem_singleton]
  exact or_congr_right (and_iff_right hb)

/-- C70: `grade()` answers exactly when all blades, at least one, have the same number of vectors, and then with that number. -/
theorem C70_grade (hA : WfAlg A) {S : SubSpace} (hS : WfSub A S) (g : Nat) :
    S.grade A = some g ↔ S.blades ≠ [] ∧ ∀ b ∈ S.blades, popcount b = g := by
  obtain ⟨bs⟩ := S
  cases bs with
  | nil => simp [SubSpace.grade, SubSpace.grades, pyMatch]
  | cons a as =>
    have ha := grade_popcount hA (hS.lt a List.mem_cons_self)
    have h : ∀ b ∈ as, A.grade b = popcount b := fun b hb => grade_popcount hA (hS.lt b (List.mem_cons_of_mem _ hb))
    simp only [SubSpace.grade, SubSpace.grades, pyMatch, List.map_cons, Option.ite_none_right_eq_some, Option.some_inj,
      List.all_eq_true, List.mem_map, beq_iff_eq, forall_exists_index, and_imp, forall_apply_eq_imp_iff₂, ne_eq, reduceCtorEq,
      not_false_eq_true, true_and, List.mem_cons, forall_eq_or_imp, ha]
    constructor
    · rintro ⟨h1, rfl⟩
      exact ⟨rfl, fun b hb => by rw [← h b hb, h1 b hb]⟩
    · rintro ⟨rfl, h1⟩
      exact ⟨fun b hb => by rw [h b hb, h1 b hb], rfl⟩

/-- C70: the number of blades of a `k`-vector subspace. -/
theorem C70_len (hA : WfAlg A) {g : Int} {k : Nat} (hg : IsGrade A.n g k) :
    ∃ S, A.kVector g = some S ∧ S.len = A.n.choose k ∧ S.grade A = some k := by
  obtain ⟨S, s1, s2⟩ := kVector_isSpace hA hg
  have hl : S.len = A.n.choose k := by
    rw [SubSpace.len, space_card s2, card_popcount hA.le32]
  refine ⟨S, s1, hl, (C70_grade hA s2.1 k).2 ⟨?_, fun b hb => ((s2.2 b).1 hb).2⟩⟩
  intro h
  have := Nat.choose_pos hg.1
  rw [SubSpace.len, h] at hl
  simp at hl; omega

/-! ## C71: linear combinations and sums of operators -/

theorem apply_getD {R : Type} [CommRing R] {op : Operator Int} (h : WfOp A op) {xs : List (List R)} (hx : Fits xs op.inputs) {o : Nat}
    (ho : o < op.output.blades.length) : (op.apply R xs).getD o 0 = contract xs fun idx => ((op.kernel.get (idx ++ [o]) : Int) : R) := by
  have hx' : xs.map (·.length) = op.inputs.map (·.blades.length) := by
    have := hx
    clear ho hx
    generalize op.inputs = ins at this
    induction this with
    | nil => rfl
    | cons h1 _ ih => simp [h1, ih]
  rw [Operator.apply, eval_getD (wf_cast R h) _ (o := o) ho, evalAt_eq, (wf_cast R h).shape_in]
  change sumIdx (op.inputs.map (·.blades.length)) _ = _
  rw [← hx', ← contract_eq]
  rfl

theorem denote_ext {R : Type} [CommRing R] {S : SubSpace} (hS : WfSub A S) {u v : List R} (hu : u.length = S.blades.length)
    (hv : v.length = S.blades.length) (h : ∀ i < S.blades.length, u.getD i 0 = v.getD i 0) : u = v := by
  apply List.ext_getElem (hu.trans hv.symm)
  intro i h1 h2
  have := h i (by omega)
  rwa [getD_lt _ _ h1, getD_lt _ _ h2] at this

theorem contract_add {R : Type} [CommRing R] (xs : List (List R)) (f g : List Nat → R) :
    contract xs (fun i => f i + g i) = contract xs f + contract xs g := by
  induction xs generalizing f g with
  | nil => rfl
  | cons x xs ih => simp only [contract, ih, mul_add, Finset.sum_add_distrib]

theorem contract_mul {R : Type} [CommRing R] (xs : List (List R)) (f : List Nat → R) (c : R) :
    contract xs (fun i => f i * c) = contract xs f * c := by
  induction xs generalizing f with
  | nil => rfl
  | cons x xs ih => simp only [contract, ih, Finset.sum_mul, mul_assoc]

theorem contract_sum {R : Type} [CommRing R] (xs : List (List R)) {ι : Type} (s : Finset ι) (f : ι → List Nat → R) :
    contract xs (fun i => ∑ m ∈ s, f m i) = ∑ m ∈ s, contract xs (f m) := by
  classical
  induction s using Finset.induction_on with
  | empty =>
    simp only [Finset.sum_empty]
    have := contract_mul xs (fun _ => (0 : R)) 0
    simpa using this
  | insert a s ha ih => simp only [Finset.sum_insert ha, contract_add, ih]

theorem contract_congr {R : Type} [CommRing R] (xs : List (List R)) {f g : List Nat → R}
    (h : ∀ idx : List Nat, idx.length = xs.length → f idx = g idx) : contract xs f = contract xs g := by
  induction xs generalizing f g with
  | nil => exact h [] rfl
  | cons x xs ih =>
    simp only [contract]
    exact Finset.sum_congr rfl fun i _ => by rw [ih fun idx hi => h (i :: idx) (by simp [hi])]

/-- C71: `a + b` of operators with the same axes computes the sums of their results, for all arguments; other axes raise. -/
theorem C71_add {a b : Operator Int} (ha : WfOp A a) (hb : WfOp A b) :
    (a.axes ≠ b.axes → a.add b = none) ∧
    (a.axes = b.axes → ∃ c, a.add b = some c ∧ WfOp A c ∧ c.axes = a.axes ∧
      ∀ (R : Type) [CommRing R] (xs : List (List R)), Fits xs a.inputs →
        c.apply R xs = List.zipWith (· + ·) (a.apply R xs) (b.apply R xs)) := by
  refine ⟨fun h => by rw [Operator.add, if_neg h], fun h => ?_⟩
  have hsh : a.kernel.shape = b.kernel.shape := by rw [ha.shape, hb.shape, h]
  have hout : a.output = b.output := by rw [Operator.output, Operator.output, h]
  have hin : a.inputs = b.inputs := by rw [Operator.inputs, Operator.inputs, h]
  refine ⟨⟨⟨a.kernel.shape, fun i => a.kernel.get i + b.kernel.get i⟩, a.axes⟩,
    by rw [Operator.add, if_pos h, Tensor.add, if_pos hsh]; rfl, ⟨ha.ne, ha.shape, ha.sub⟩, rfl, ?_⟩
  intro R _ xs hx
  have hc : WfOp A (⟨⟨a.kernel.shape, fun i => a.kernel.get i + b.kernel.get i⟩, a.axes⟩ : Operator Int) := ⟨ha.ne, ha.shape, ha.sub⟩
  have la := apply_length R ha xs
  have lb := apply_length R hb xs
  refine denote_ext ha.wf_output (apply_length R hc xs) (by rw [List.length_zipWith, la, lb, hout, min_self]) fun o ho => ?_
  have e : (List.zipWith (· + ·) (a.apply R xs) (b.apply R xs)).getD o 0 = (a.apply R xs).getD o 0 + (b.apply R xs).getD o 0 := by
    rw [getD_lt _ _ (by rw [List.length_zipWith, la, lb, ← hout, min_self]; exact ho), List.getElem_zipWith,
      getD_lt _ _ (by rw [la]; exact ho), getD_lt _ _ (by rw [lb, ← hout]; exact ho)]
  rw [e, apply_getD ha hx ho, apply_getD hb (hin ▸ hx) (hout ▸ ho), apply_getD hc hx ho, ← contract_add]
  simp only [Int.cast_add]

/-- C71: `a * s` and `-a` compute the multiples of the results. -/
theorem C71_mul {a : Operator Int} (ha : WfOp A a) (s : Int) :
    WfOp A (a.mul s) ∧ (a.mul s).axes = a.axes ∧ WfOp A a.neg ∧ a.neg.axes = a.axes ∧
    ∀ (R : Type) [CommRing R] (xs : List (List R)), Fits xs a.inputs →
      (a.mul s).apply R xs = (a.apply R xs).map (· * (s : R)) ∧ a.neg.apply R xs = (a.apply R xs).map (- ·) := by
  have hw : ∀ s, WfOp A (a.mul s) := fun s => ⟨ha.ne, ha.shape, ha.sub⟩
  have key : ∀ (s : Int) (R : Type) [CommRing R] (xs : List (List R)), Fits xs a.inputs →
      (a.mul s).apply R xs = (a.apply R xs).map (· * (s : R)) := by
    intro s R _ xs hx
    have la := apply_length R ha xs
    refine denote_ext ha.wf_output (apply_length R (hw s) xs) (by rw [List.length_map, la]) fun o ho => ?_
    have e : ((a.apply R xs).map (· * (s : R))).getD o 0 = (a.apply R xs).getD o 0 * s := by
      rw [getD_lt _ _ (by rw [List.length_map, la]; exact ho), List.getElem_map, getD_lt _ _ (by rw [la]; exact ho)]
    rw [e, apply_getD ha hx ho, apply_getD (hw s) hx ho, ← contract_mul]
    simp only [Operator.mul, Tensor.map, Int.cast_mul]
  refine ⟨hw s, rfl, hw _, rfl, fun R _ xs hx => ⟨key s R xs hx, ?_⟩⟩
  rw [Operator.neg, key (-1) R xs hx]
  simp

/-- C71: `a - b` computes the differences of the results. -/
theorem C71_sub {a b : Operator Int} (ha : WfOp A a) (hb : WfOp A b) :
    (a.axes ≠ b.axes → a.sub b = none) ∧
    (a.axes = b.axes → ∃ c, a.sub b = some c ∧ WfOp A c ∧ c.axes = a.axes ∧
      ∀ (R : Type) [CommRing R] (xs : List (List R)), Fits xs a.inputs →
        c.apply R xs = List.zipWith (· - ·) (a.apply R xs) (b.apply R xs)) := by
  obtain ⟨h1, h2⟩ := C71_add ha (C71_mul hb 0).2.2.1
  refine ⟨h1, fun h => ?_⟩
  obtain ⟨c, c1, c2, c3, c4⟩ := h2 h
  refine ⟨c, c1, c2, c3, fun R _ xs hx => ?_⟩
  have hin : a.inputs = b.inputs := by rw [Operator.inputs, Operator.inputs, h]
  rw [c4 R xs hx, ((C71_mul hb 0).2.2.2.2 R xs (hin ▸ hx)).2, List.zipWith_map_right]
  simp only [sub_eq_add_neg]

theorem contract_insert {R : Type} [CommRing R] (n : Nat) : ∀ (axis : Nat) (xs : List (List R)), axis ≤ xs.length →
    ∀ k : List Nat → R, contract (xs.insertIdx axis (List.replicate n 1)) k =
      contract xs fun idx => ∑ m ∈ Finset.range n, k (idx.take axis ++ m :: idx.drop axis)
  | 0, xs, _, k => by
    simp only [List.insertIdx_zero, contract, List.length_replicate, List.take_zero, List.nil_append, List.drop_zero]
    rw [contract_sum]
    refine Finset.sum_congr rfl fun i hi => ?_
    rw [getD_lt _ _ (by simpa using hi), List.getElem_replicate, one_mul]
  | axis + 1, [], h, k => by simp at h
  | axis + 1, x :: xs, h, k => by
    simp only [List.insertIdx_succ_cons, contract]
    refine Finset.sum_congr rfl fun i _ => ?_
    rw [contract_insert n axis xs (by simpa using h)]
    simp only [List.take_succ_cons, List.drop_succ_cons, List.cons_append]

theorem fits_insert {R : Type} [CommRing R] {v : List R} : ∀ (axis : Nat) (ins : List SubSpace) (xs : List (List R)), axis < ins.length →
    v.length = (ins.getD axis ⟨[]⟩).blades.length → Fits xs (ins.eraseIdx axis) → Fits (xs.insertIdx axis v) ins
  | _, [], _, h, _, _ => by simp at h
  | 0, S :: ins, xs, _, hv, hx => by
    rw [List.insertIdx_zero]
    exact List.Forall₂.cons (by simpa using hv) hx
  | axis + 1, S :: ins, xs, h, hv, hx => by
    rw [List.eraseIdx_cons_succ] at hx
    cases hx with
    | cons h1 h2 =>
      rw [List.insertIdx_succ_cons]
      exact List.Forall₂.cons h1 (fits_insert axis ins _ (by simpa using h) (by simpa using hv) h2)

/-- C71: `sum(axis)` over an input axis is the operator with that argument set to one in every coefficient. -/
theorem C71_sum (hA : WfAlg A) {a : Operator Int} (ha : WfOp A a) {axis : Nat} (hax : axis < a.arity) :
    ∃ c, a.sum A axis = some c ∧ WfOp A c ∧ c.inputs = a.inputs.eraseIdx axis ∧
      ∀ (R : Type) [CommRing R] (xs : List (List R)), Fits xs (a.inputs.eraseIdx axis) →
        denote A R c.output (c.apply R xs) = denote A R a.output
          (a.apply R (xs.insertIdx axis (List.replicate (a.inputs.getD axis ⟨[]⟩).blades.length 1))) := by
  have hax' : axis < a.inputs.length := hax
  set raw : Operator Int := ⟨{ shape := a.kernel.shape.eraseIdx axis
                               get := fun idx => ((List.range (a.kernel.shape.getD axis 0)).map fun m =>
                                 a.kernel.get (idx.take axis ++ m :: idx.drop axis)).sum }, a.axes.eraseIdx axis⟩ with hraw
  have hnd : axis < a.kernel.ndim := by rw [Tensor.ndim, ha.shape_eq]; simp; omega
  have hraxes : raw.axes = a.inputs.eraseIdx axis ++ [a.output] := by
    rw [hraw]; simp only
    rw [ha.axes_eq, List.eraseIdx_append_of_lt_length hax']
  have hrin : raw.inputs = a.inputs.eraseIdx axis := by rw [Operator.inputs, hraxes]; simp
  have hrout : raw.output = a.output := by rw [Operator.output, hraxes]; simp
  have hwf : WfOp A raw := by
    refine ⟨by rw [hraxes]; simp, ?_, ?_⟩
    · change a.kernel.shape.eraseIdx axis = (a.axes.eraseIdx axis).map (·.blades.length)
      rw [ha.shape, List.eraseIdx_map]
    · intro S hS
      exact ha.sub S (List.mem_of_mem_eraseIdx hS)
  obtain ⟨c, c1, c2, c3, -, -, c6⟩ := squeeze_spec hA hwf
  refine ⟨c, by rw [Operator.sum, if_pos hnd]; exact c1, c2, c3.trans hrin, ?_⟩
  intro R _ xs hx
  rw [c6 R xs, hrout]
  congr 1
  have hlen : xs.length = a.inputs.length - 1 := by
    rw [hx.length_eq, List.length_eraseIdx_of_lt hax']
  have hdim : a.kernel.shape.getD axis 0 = (a.inputs.getD axis ⟨[]⟩).blades.length := by
    rw [ha.shape_eq, getD_lt _ _ (by simp; omega), getD_lt _ _ hax', List.getElem_append_left (by simpa using hax'), List.getElem_map]
  refine denote_ext ha.wf_output (hrout ▸ apply_length R hwf xs) (apply_length R ha _) fun o ho => ?_
  rw [apply_getD hwf (hrin.symm ▸ hx) (hrout.symm ▸ ho), apply_getD ha (fits_insert axis _ _ hax' (by simp) hx) ho,
    contract_insert _ _ _ (by omega)]
  refine contract_congr xs fun idx hi => ?_
  have e : ∀ f : Nat → Int, ((List.range (a.kernel.shape.getD axis 0)).map f).sum = ∑ m ∈ Finset.range (a.kernel.shape.getD axis 0), f m :=
    fun f => rfl
  change (((List.map _ _).sum : Int) : R) = _
  rw [e, hdim, Int.cast_sum]
  refine Finset.sum_congr rfl fun m _ => ?_
  rw [List.take_append_of_le_length (by omega), List.drop_append_of_le_length (by omega)]
  simp

/-! ## C72: least output spaces of repeated products of one argument -/

/-- `T` holds `F x` for every `x` of subspace `S`, whatever the coefficients, and no smaller subspace holds it for all integer
coefficients. -/
def LeastSpace (A : Alg) (S T : SubSpace) (F : ∀ (R : Type) [CommRing R], Cl A R → Cl A R) : Prop :=
  WfSub A T ∧ (∀ (R : Type) [CommRing R] (x : Cl A R), Within A S x → Within A T (F R x)) ∧
    ∀ U, WfSub A U → (∀ x : Cl A ℤ, Within A S x → Within A U (F ℤ x)) → SubOf T U

/-- The operator `r` has `k` inputs of subspace `S`, computes `F x` when all of them are `x`, and its output subspace is the least
possible. -/
def LeastOp (A : Alg) (r : Option (Operator Int)) (k : Nat) (S : SubSpace) (F : ∀ (R : Type) [CommRing R], Cl A R → Cl A R) : Prop :=
  ∃ o, r = some o ∧ WfOp A o ∧ o.inputs = List.replicate k S ∧ LeastSpace A S o.output F ∧
    ∀ (R : Type) [CommRing R] (v : List R), v.length = S.blades.length →
      denote A R o.output (o.apply R (List.replicate k v)) = F R (denote A R S v)

/-- Helper: an operator that computes `F x` when all its `k` arguments are `x`. -/
def DiagSem (A : Alg) (r : Option (Operator Int)) (k : Nat) (S : SubSpace) (F : ∀ (R : Type) [CommRing R], Cl A R → Cl A R) : Prop :=
  ∃ C G, Sem A r (List.replicate k S) C G ∧ ∀ (R : Type) [CommRing R] (x : Cl A R),
    C R (List.replicate k x) ∧ G R (List.replicate k x) = F R x
/-- Helper: the same for an argument of a factory function. -/
def DiagArg (A : Alg) (a : Arg Int) (k : Nat) (S : SubSpace) (F : ∀ (R : Type) [CommRing R], Cl A R → Cl A R) : Prop :=
  ∃ C G, ArgSem A a (List.replicate k S) C G ∧ ∀ (R : Type) [CommRing R] (x : Cl A R),
    C R (List.replicate k x) ∧ G R (List.replicate k x) = F R x

theorem diagArg_sub {S : SubSpace} (hS : WfSub A S) : DiagArg A (.sub S) 1 S fun _ _ x => x :=
  ⟨_, _, argSem_sub hS, fun _ _ _ => ⟨trivial, rfl⟩⟩

theorem DiagSem.bind {r : Option (Operator Int)} {k : Nat} {S : SubSpace} {F : ∀ (R : Type) [CommRing R], Cl A R → Cl A R}
    (h : DiagSem A r k S F) {P : Option (Operator Int) → Prop} {g : Operator Int → Option (Operator Int)}
    (hg : ∀ op, r = some op → DiagArg A (.op op) k S F → P (g op)) : P (r.bind g) := by
  obtain ⟨C, G, ⟨op, rfl, h2⟩, h3⟩ := h
  exact hg op rfl ⟨C, G, Sem.arg ⟨op, rfl, h2⟩, h3⟩

theorem DiagSem.bindL {r : Option (Operator Int)} {k : Nat} {S : SubSpace} {F : ∀ (R : Type) [CommRing R], Cl A R → Cl A R}
    (h : DiagSem A r k S F) {k' : Nat} {F' : ∀ (R : Type) [CommRing R], Cl A R → Cl A R} {g : Operator Int → Option (Operator Int)}
    (hg : ∀ op, r = some op → DiagArg A (.op op) k S F → LeastOp A (g op) k' S F') : LeastOp A (r.bind g) k' S F' :=
  h.bind (P := fun r => LeastOp A r k' S F') hg

theorem DiagArg.un {f : Arg Int → Option (Operator Int)} {L : ∀ (R : Type) [CommRing R], Cl A R → Cl A R} (hf : UnSem A f L) {a : Arg Int}
    {k : Nat} {S : SubSpace} {F : ∀ (R : Type) [CommRing R], Cl A R → Cl A R} (h : DiagArg A a k S F) :
    DiagSem A (f a) k S fun R _ x => L R (F R x) := by
  obtain ⟨C, G, h1, h2⟩ := h
  exact ⟨C, _, hf h1, fun R _ x => ⟨(h2 R x).1, by rw [(h2 R x).2]⟩⟩

theorem DiagArg.bin {f : Arg Int → Arg Int → Option (Operator Int)} {B : ∀ (R : Type) [CommRing R], Cl A R → Cl A R → Cl A R}
    (hf : BinSem A f B) {a b : Arg Int} {i j : Nat} {S : SubSpace} {F G : ∀ (R : Type) [CommRing R], Cl A R → Cl A R}
    (ha : DiagArg A a i S F) (hb : DiagArg A b j S G) :
    DiagSem A (f a b) (i + j) S fun R _ x => B R (F R x) (G R x) := by
  obtain ⟨C, F', h1, h2⟩ := ha
  obtain ⟨D, G', h3, h4⟩ := hb
  refine ⟨_, _, by rw [List.replicate_add]; exact hf h1 h3, fun R _ x => ?_⟩
  simp only [List.length_replicate, List.take_replicate, List.drop_replicate, Nat.add_sub_cancel_left, Nat.min_eq_left (Nat.le_add_right i j)]
  exact ⟨⟨(h2 R x).1, (h4 R x).1⟩, by rw [(h2 R x).2, (h4 R x).2]⟩

theorem DiagSem.symmetry (hA : WfAlg A) {r : Option (Operator Int)} {k : Nat} (hk : 0 < k) {S : SubSpace}
    {F : ∀ (R : Type) [CommRing R], Cl A R → Cl A R} (h : DiagSem A r k S F) :
    DiagSem A (r.bind (·.symmetry A (List.range k))) k S F := by
  obtain ⟨C, G, h1, h2⟩ := h
  have hne : List.range k ≠ [] := by simp; omega
  refine ⟨_, _, h1.symmetry hA hne List.nodup_range (T := S) fun a ha => ?_, fun R _ x => ⟨⟨(h2 R x).1, ?_⟩, (h2 R x).2⟩⟩
  · rw [List.getElem?_replicate, if_pos (List.mem_range.1 ha)]
  · intro i hi j hj
    rw [getD_lt _ _ (by simpa using hi), getD_lt _ _ (by simpa using hj), List.getElem_replicate, List.getElem_replicate]

theorem DiagSem.least (hA : WfAlg A) {r : Option (Operator Int)} {k : Nat} (hk : 0 < k) {S : SubSpace} (hS : WfSub A S)
    {F : ∀ (R : Type) [CommRing R], Cl A R → Cl A R} (h : DiagSem A r k S F) :
    LeastOp A (r.bind (·.symmetry A (List.range k))) k S F := by
  obtain ⟨D, H, ⟨s, s1, s2, s3, s4⟩, h3⟩ := h.symmetry hA hk
  obtain ⟨C, G, ⟨op, rfl, o2, o3, -⟩, -⟩ := h
  rw [Option.bind_some] at s1
  have val_eq : ∀ (R : Type) [CommRing R] (v : List R), v.length = S.blades.length →
      denote A R s.output (s.apply R (List.replicate k v)) = F R (denote A R S v) := by
    intro R _ v hv
    have hf : Fits (List.replicate k v) s.inputs := by
      rw [s3, Fits, List.forall₂_iff_get]
      simp [hv]
    have hd : den A R s.inputs (List.replicate k v) = List.replicate k (denote A R S v) := by
      rw [s3, den, List.zipWith_replicate, min_self]
    have e := s4 R _ hf (by rw [hd]; exact (h3 R _).1)
    rw [e, hd, (h3 R _).2]
  refine ⟨s, s1, s2, s3, ⟨s2.wf_output, ?_, ?_⟩, val_eq⟩
  · rintro R _ x ⟨z, hz, rfl, rfl⟩
    exact ⟨⟨s.output, s.apply R (List.replicate k z.vals)⟩, ⟨s2.wf_output, apply_length R s2 _⟩, rfl, val_eq R z.vals hz.len⟩
  · intro U hU h b hb
    obtain ⟨x, hx, hnz⟩ := symmetry_needed hA o2 hk o3 s1 hb
    by_contra hne
    apply hnz
    rw [val_eq ℤ x hx]
    exact (within_iff hU).1 (h _ ⟨⟨S, x⟩, ⟨hS, hx⟩, rfl, rfl⟩) b (s2.wf_output.lt b hb) hne

theorem squared_diag (hA : WfAlg A) {S : SubSpace} (hS : WfSub A S) : DiagSem A (Factory.squared A (.sub S)) 2 S fun _ _ x => x * x :=
  ((diagArg_sub hS).bin (product_bin hA) (diagArg_sub hS)).symmetry hA (k := 2) (by omega)

theorem symmetricReverse_diag (hA : WfAlg A) {S : SubSpace} (hS : WfSub A S) :
    DiagSem A (Factory.symmetricReverse A (.sub S)) 2 S fun _ _ x => x * CliffordAlgebra.reverse x :=
  ((diagArg_sub hS).bin (reverseProduct_bin hA) (diagArg_sub hS)).symmetry hA (k := 2) (by omega)

/-- C72: `cubed` computes `x * x * x`, and its output subspace is as small as its values allow. -/
theorem C72_cubed (hA : WfAlg A) {S : SubSpace} (hS : WfSub A S) :
    LeastOp A (Factory.cubed A (.sub S)) 3 S (fun _ _ x => x * x * x) ∧
    ∃ T, S.cubed A = some T ∧ LeastSpace A S T fun _ _ x => x * x * x := by
  have h : LeastOp A (Factory.cubed A (.sub S)) 3 S (fun _ _ x => x * x * x) :=
    (squared_diag hA hS).bindL fun op _ hop => (hop.bin (product_bin hA) (diagArg_sub hS)).least hA (k := 3) (by omega) hS
  refine ⟨h, ?_⟩
  obtain ⟨o, o1, o2, o3, o4, o5⟩ := h
  exact ⟨o.output, by rw [SubSpace.cubed, o1]; rfl, o4⟩

/-- C72: the inverse factors compute `~x * conj(x * ~x)` and `~x * neg(x * ~x)`, completed to `x * ~x * ..`; their output
subspaces are as small as their values allow. -/
theorem C72_inverse_factors (hA : WfAlg A) {S : SubSpace} (hS : WfSub A S) :
    LeastOp A (inverseFactor A (.sub S)) 3 S (fun _ _ x => CliffordAlgebra.reverse x *
      CliffordAlgebra.involute (CliffordAlgebra.reverse (x * CliffordAlgebra.reverse x))) ∧
    LeastOp A (inverseFactorCompleted A (.sub S)) 4 S (fun _ _ x => x * CliffordAlgebra.reverse x *
      CliffordAlgebra.involute (CliffordAlgebra.reverse (x * CliffordAlgebra.reverse x))) ∧
    LeastOp A (inverseFactorAlt A (.sub S)) 3 S (fun R _ x => CliffordAlgebra.reverse x *
      (2 • gradePart A R 0 (x * CliffordAlgebra.reverse x) - x * CliffordAlgebra.reverse x)) ∧
    LeastOp A (inverseFactorCompletedAlt A (.sub S)) 4 S (fun R _ x => x * CliffordAlgebra.reverse x *
      (2 • gradePart A R 0 (x * CliffordAlgebra.reverse x) - x * CliffordAlgebra.reverse x)) := by
  refine ⟨?_, ?_, ?_, ?_⟩
  · exact (symmetricReverse_diag hA hS).bindL fun p _ hp => ((diagArg_sub hS).un (reverse_un hA)).bindL fun r _ hr =>
      (hp.un (conjugate_un hA)).bindL fun q _ hq => (hr.bin (product_bin hA) hq).least hA (k := 3) (by omega) hS
  · exact (symmetricReverse_diag hA hS).bindL fun p _ hp =>
      (hp.un (conjugate_un hA)).bindL fun q _ hq => (hp.bin (product_bin hA) hq).least hA (k := 4) (by omega) hS
  · exact (symmetricReverse_diag hA hS).bindL fun p _ hp => ((diagArg_sub hS).un (reverse_un hA)).bindL fun r _ hr =>
      (hp.un (scalarNegation_un hA)).bindL fun q _ hq => (hr.bin (product_bin hA) hq).least hA (k := 3) (by omega) hS
  · exact (symmetricReverse_diag hA hS).bindL fun p _ hp =>
      (hp.un (scalarNegation_un hA)).bindL fun q _ hq => (hp.bin (product_bin hA) hq).least hA (k := 4) (by omega) hS

/-- The unary operations of the factory that keep the subspace, with the maps they stand for. -/
noncomputable def unaries (A : Alg) : List ((Arg Int → Option (Operator Int)) × ∀ (R : Type) [CommRing R], Cl A R → Cl A R) :=
  [(reverse A, fun _ _ x => CliffordAlgebra.reverse x), (involute A, fun _ _ x => CliffordAlgebra.involute x),
    (conjugate A, fun _ _ x => CliffordAlgebra.involute (CliffordAlgebra.reverse x)),
    (scalarNegation A, fun R _ x => 2 • gradePart A R 0 x - x),
    (pseudoscalarNegation A, fun R _ x => 2 • (gradePart A R 0 x + if A.n = 0 then 0 else gradePart A R A.n x) - x)]

theorem unaries_un (hA : WfAlg A) : ∀ f ∈ unaries A, UnSem A f.1 f.2 := by
  intro f hf
  simp only [unaries, List.mem_cons, List.not_mem_nil, or_false] at hf
  rcases hf with rfl | rfl | rfl | rfl | rfl
  · exact reverse_un hA
  · exact involute_un hA
  · exact conjugate_un hA
  · exact scalarNegation_un hA
  · exact pseudoscalarNegation_un hA

/-- C72: `compose_symmetry_ops(x, f, g)` computes `f(x) * g(x * f(x))`, and `complete_op` multiplies it with `x` from the left, for
all of the sign-changing unary operations `f` and `g`; the output subspaces are as small as the values allow. -/
theorem C72_compose (hA : WfAlg A) {S : SubSpace} (hS : WfSub A S) {f g : (Arg Int → Option (Operator Int)) × ∀ (R : Type) [CommRing R], Cl A R → Cl A R}
    (hf : f ∈ unaries A) (hg : g ∈ unaries A) :
    LeastOp A (composeSymmetryOps A (.sub S) f.1 g.1) 3 S (fun R _ x => f.2 R x * g.2 R (x * f.2 R x)) ∧
    LeastOp A (do completeOp A (.sub S) (.op (← composeSymmetryOps A (.sub S) f.1 g.1))) 4 S
      (fun R _ x => x * (f.2 R x * g.2 R (x * f.2 R x))) := by
  have hf := unaries_un hA f hf
  have hg := unaries_un hA g hg
  have hq : DiagSem A (composeSymmetryOps A (.sub S) f.1 g.1) 3 S (fun R _ x => f.2 R x * g.2 R (x * f.2 R x)) := by
    refine ((diagArg_sub hS).un hf).bind (P := fun r => DiagSem A r 3 S _) fun p _ hp => ?_
    refine ((diagArg_sub hS).bin (product_bin hA) hp).bind (P := fun r => DiagSem A r 3 S _) fun p2 h2 _ => ?_
    have h3 := ((diagArg_sub hS).bin (product_bin hA) hp).symmetry hA (by omega)
    rw [h2] at h3
    refine h3.bind (P := fun r => DiagSem A r 3 S _) fun p3 _ hp3 => ?_
    refine ((diagArg_sub hS).un hf).bind (P := fun r => DiagSem A r 3 S _) fun p4 _ hp4 => ?_
    refine (hp3.un hg).bind (P := fun r => DiagSem A r 3 S _) fun p5 _ hp5 => ?_
    exact (hp4.bin (product_bin hA) hp5).symmetry hA (k := 3) (by omega)
  constructor
  · refine ((diagArg_sub hS).un hf).bindL fun p _ hp => ?_
    refine ((diagArg_sub hS).bin (product_bin hA) hp).bindL fun p2 h2 _ => ?_
    have h3 := ((diagArg_sub hS).bin (product_bin hA) hp).symmetry hA (by omega)
    rw [h2] at h3
    refine h3.bindL fun p3 _ hp3 => ?_
    refine ((diagArg_sub hS).un hf).bindL fun p4 _ hp4 => ?_
    refine (hp3.un hg).bindL fun p5 _ hp5 => ?_
    exact (hp4.bin (product_bin hA) hp5).least hA (k := 3) (by omega) hS
  · refine hq.bindL fun o _ ho => ?_
    have hl := ((diagArg_sub hS).bin (product_bin hA) ho).least hA (k := 4) (by omega) hS
    have hc := (diagArg_sub hS).bin (product_bin hA) ho
    obtain ⟨_, _, ⟨c, c1, _, c3, _⟩, _⟩ := hc
    rw [completeOp, c1]
    rw [c1] at hl
    simp only [Option.bind_eq_bind, Option.bind_some] at hl ⊢
    have : c.arity = 4 := by rw [Operator.arity, c3]; rfl
    rwa [this]

/-- C72: `symmetric_alt_product()` is the least subspace for `p * neg(p)`, `p = x * ~x`, and `is_alt_n_simple(2)` holds exactly when
that is a number for all `x` of the subspace; `is_alt_n_simple(n + 2)` is sound. -/
theorem C72_alt (hA : WfAlg A) {S : SubSpace} (hS : WfSub A S) :
    (∃ T, S.symmetricAlt A = some T ∧ LeastSpace A S T fun R _ x => x * CliffordAlgebra.reverse x *
      (2 • gradePart A R 0 (x * CliffordAlgebra.reverse x) - x * CliffordAlgebra.reverse x)) ∧
    (∃ r, S.isAltSimple A 0 = some r ∧ (r = true ↔ ∀ x : Cl A ℤ, Within A S x → IsScalar (x * CliffordAlgebra.reverse x *
      (2 • gradePart A ℤ 0 (x * CliffordAlgebra.reverse x) - x * CliffordAlgebra.reverse x)))) ∧
    ∀ n, ∃ r, S.isAltSimple A n = some r ∧ (r = true → ∃ Ls : List (LinMap A), Ls.length = n ∧ (∀ L ∈ Ls, L ∈ involutions A) ∧
      ∀ (R : Type) [CommRing R] (x : Cl A R), Within A S x →
        IsScalar (Ls.foldl (fun y L => y * L R y) (x * CliffordAlgebra.reverse x *
          (2 • gradePart A R 0 (x * CliffordAlgebra.reverse x) - x * CliffordAlgebra.reverse x)))) := by
  obtain ⟨o, o1, o2, o3, o4, o5⟩ := (C72_inverse_factors hA hS).2.2.2
  have e : S.symmetricAlt A = some o.output := by rw [SubSpace.symmetricAlt, o1]; rfl
  refine ⟨⟨o.output, e, o4⟩, ?_, fun n => ?_⟩
  · obtain ⟨sc, hsc⟩ := scalar_eq hA
    refine ⟨_, by rw [SubSpace.isAltSimple, e]; simp only [Option.bind_eq_bind, Option.bind_some, SubSpace.isNSimple, sc]; rfl, ?_⟩
    rw [contains_iff]
    constructor
    · intro h x hx
      exact (within_scalar hA).1 ((o4.2.1 ℤ x hx).mono o4.1 hsc h)
    · intro h
      exact o4.2.2 _ hsc fun x hx => (within_scalar hA).2 (h x hx)
  · obtain ⟨r, h1, h2⟩ := isNSimple_spec hA n o4.1
    refine ⟨r, by rw [SubSpace.isAltSimple, e]; exact h1, fun hr => ?_⟩
    obtain ⟨Ls, l1, l2, l3⟩ := h2 hr
    exact ⟨Ls, l1, l2, fun R _ x hx => l3 R _ (o4.2.1 R x hx)⟩

/-! ## The hypotheses are met -/

/-- The plane with one null direction. -/
def pga2s : Alg := ⟨⟨["x".toList, "y".toList, "w".toList], [1, 1, 0]⟩, 1, 1⟩
theorem wf_pga2s : WfAlg pga2s := by constructor <;> decide

example : WfSub pga2s ⟨[1, 4]⟩ ∧ WfSub pga2s ⟨[2, 5]⟩ ∧ (⟨[1, 4]⟩ : SubSpace).wedge pga2s ⟨[2, 5]⟩ = some ⟨[3, 6]⟩ ∧
    (⟨[1, 4]⟩ : SubSpace).inner pga2s ⟨[2, 5]⟩ = some ⟨[4]⟩ ∧ (⟨[1, 4]⟩ : SubSpace).reject pga2s ⟨[2, 5]⟩ = some ⟨[1, 4]⟩ ∧
    InnerBlade pga2s 1 5 4 ∧ ¬ InnerBlade pga2s 4 5 1 ∧ (⟨[1, 4, 5]⟩ : SubSpace).scalarDegenerate pga2s = some ⟨[0, 4, 5]⟩ :=
  ⟨wfSub_of_B (by decide +kernel), wfSub_of_B (by decide +kernel), by decide +kernel, by decide +kernel, by decide +kernel,
    by unfold InnerBlade; decide +kernel, by unfold InnerBlade; decide +kernel, by decide +kernel⟩
example : (⟨[3, 5]⟩ : SubSpace).grade pga2s = some 2 ∧ (⟨[1, 3]⟩ : SubSpace).grade pga2s = none ∧ (⟨[]⟩ : SubSpace).grade pga2s = none ∧
    IsGrade pga2s.n (-2) 2 ∧ (pga2s.kVector (-2)).map (·.len) = some 3 :=
  ⟨by decide +kernel, by decide +kernel, by decide +kernel, ⟨by decide, Or.inr (by decide)⟩, by decide +kernel⟩

/-- Two operators with the same axes that differ, and their sum: reverse and conjugate on the rotors. -/
example : ∃ a b, reverse pga2s (.sub ⟨[0, 3]⟩) = some a ∧ involute pga2s (.sub ⟨[0, 3]⟩) = some b ∧ WfOp pga2s a ∧ WfOp pga2s b ∧
    a.axes = b.axes ∧ a.apply ℤ [[5, 7]] = [5, -7] ∧ b.apply ℤ [[5, 7]] = [5, 7] ∧ (a.add b).map (·.apply ℤ [[5, 7]]) = some [10, 0] ∧
    (a.sub b).map (·.apply ℤ [[5, 7]]) = some [0, -14] ∧ (a.mul 3).apply ℤ [[5, 7]] = [15, -21] ∧ Fits [[(5 : ℤ), 7]] a.inputs ∧
    0 < a.arity := by
  have hS : WfSub pga2s ⟨[0, 3]⟩ := wfSub_of_B (by decide +kernel)
  obtain ⟨a, a1, a2, -⟩ := reverse_un wf_pga2s (argSem_sub hS)
  obtain ⟨b, b1, b2, -⟩ := involute_un wf_pga2s (argSem_sub hS)
  have k : ((reverse pga2s (.sub ⟨[0, 3]⟩)).bind fun a => (involute pga2s (.sub ⟨[0, 3]⟩)).map fun b =>
      decide (a.axes = b.axes ∧ a.apply ℤ [[5, 7]] = [5, -7] ∧ b.apply ℤ [[5, 7]] = [5, 7] ∧
        (a.add b).map (·.apply ℤ [[5, 7]]) = some [10, 0] ∧ (a.sub b).map (·.apply ℤ [[5, 7]]) = some [0, -14] ∧
        (a.mul 3).apply ℤ [[5, 7]] = [15, -21] ∧ a.inputs = [⟨[0, 3]⟩] ∧ 0 < a.arity)) = some true := by decide +kernel
  rw [a1, b1] at k
  simp only [Option.bind_some, Option.map_some, Option.some_inj, decide_eq_true_eq] at k
  obtain ⟨k1, k2, k3, k4, k5, k6, k7, k8⟩ := k
  exact ⟨a, b, a1, b1, a2, b2, k1, k2, k3, k4, k5, k6, by rw [k7]; exact .cons rfl .nil, k8⟩

/-- Summing the product over its left input is the product with the sum of the blades. -/
example : ((product pga2s (.sub ⟨[0, 3]⟩) (.sub ⟨[1, 2]⟩)).bind (·.sum pga2s 0)).map (fun c => (c.axes, c.apply ℤ [[10, 1]])) =
    some ([⟨[1, 2]⟩, ⟨[1, 2]⟩], [11, -9]) := by decide +kernel

/-- The cube and the factors are smaller than the products they come from: the cube of a vector is a vector. -/
example : WfSub pga2s ⟨[1, 2]⟩ ∧ (⟨[1, 2]⟩ : SubSpace).cubed pga2s = some ⟨[1, 2]⟩ ∧
    (inverseFactor pga2s (.sub ⟨[1, 2]⟩)).map (·.output) = some ⟨[1, 2]⟩ ∧
    (inverseFactorCompleted pga2s (.sub ⟨[1, 2]⟩)).map (·.output) = some ⟨[0]⟩ ∧
    (⟨[1, 2]⟩ : SubSpace).isAltSimple pga2s 0 = some true :=
  ⟨wfSub_of_B (by decide +kernel), by decide +kernel, by decide +kernel, by decide +kernel, by decide +kernel⟩

end Verif.Props
