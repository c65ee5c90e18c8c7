import Verif.Proofs.Exterior
/-! # Sandwich products -/
namespace Verif
open Model Spec Model.Factory

variable {A : Alg}

/-- Selection by the grade of the output. -/
theorem Sem.outSelect (hA : WfAlg A) {r : Option (Operator Int)} {ins : List SubSpace} {C : Cond A} {F : Fn A}
    (h : Sem A r ins C F) (f : Int → Bool) {n : Nat} (hn : ins.length = n) :
    Sem A (r.bind fun s => s.gradeSelection A fun gs => f (gs.getD n 0)) ins C
      (fun R _ ds => proj A R (fun b => f (popcount b) = true) (F R ds)) := by
  obtain ⟨op, rfl, h2, rfl, h4⟩ := h
  subst hn
  rw [Option.bind_some, Operator.gradeSelection]
  set m : Operator Int := ⟨{ shape := op.kernel.shape, get := _ }, op.axes⟩ with hm
  have hwf : WfOp A m := ⟨h2.ne, h2.shape, h2.sub⟩
  have hin : m.inputs = op.inputs := rfl
  have hout : m.output = op.output := rfl
  have hterm : ∀ (R : Type) [CommRing R] idx, Valid idx (op.inputs.map (·.blades.length)) →
      term A R m idx = proj A R (fun b => f (popcount b) = true) (term A R op idx) := by
    intro R _ idx hidx
    rw [term, term, map_sum]
    apply Finset.sum_congr rfl
    intro o ho
    have ho' : o < op.output.blades.length := Finset.mem_range.1 ho
    rw [map_smul, proj_blade _ (h2.wf_output.lt _ (getD_mem ho')), hout]
    have e : (List.zipWith (fun (a : SubSpace) i => ((a.grades A).getD i 0 : Int)) op.axes (idx ++ [o])).getD op.inputs.length 0 =
        (popcount (op.output.blades.getD o 0) : Int) := by
      have hl : idx.length = op.inputs.length := by simpa using hidx.length
      rw [h2.axes_eq, List.zipWith_append (by rw [hl]), getD_lt _ _ (by simp [hl]), List.getElem_append_right (by simp [hl])]
      simp only [List.zipWith_cons_cons, List.zipWith_nil_left, List.length_zipWith, hl, min_self, Nat.sub_self, List.getElem_cons_zero]
      rw [grades_getD hA h2.wf_output ho']
    have e2 : m.kernel.get (idx ++ [o]) = op.kernel.get (idx ++ [o]) * if f (popcount (op.output.blades.getD o 0)) then 1 else 0 := by
      rw [← e]
    rw [e2]
    split_ifs <;> simp
  have hcomp : Computes A m C (fun R _ ds => proj A R (fun b => f (popcount b) = true) (F R ds)) := by
    intro R _ xs hx hC
    rw [hin] at hx hC ⊢
    have e := h4 R xs hx hC
    rw [denote_apply_term R h2] at e
    change _ = (proj A R fun b => f (popcount b) = true) (F R (den A R op.inputs xs))
    rw [denote_apply_term R hwf, hin, ← e, sumIdx_eq, sumIdx_eq, map_sum, ← sumIdx_eq, ← sumIdx_eq]
    apply sumIdx_congr
    intro idx hidx
    rw [hterm R idx hidx, map_smul]
  have := Sem.squeeze hA (r := some m) ⟨m, rfl, hwf, hin, hcomp⟩
  exact this

theorem fullSandwich_arg (hA : WfAlg A) {a : Arg Int} {S V : SubSpace} {L : ∀ (R : Type) [CommRing R], Cl A R → Cl A R}
    (ha : ArgSem A a [S] (Cond.triv A) (fun R _ ds => L R (ds.headD 0))) (hV : WfSub A V) :
    Sem A (fullSandwich A a (.sub V)) [S, V, S] (Cond.eqOn A [0, 2])
      (fun R _ ds => L R (ds.getD 0 0) * ds.getD 1 0 * CliffordAlgebra.reverse (L R (ds.getD 0 0))) := by
  refine ((product_bin hA ha (argSem_sub hV)).bind_arg fun p _ hp => (reverse_un hA ha).bind_arg fun r _ hr =>
    (product_bin hA hp hr).symmetry hA (axes := [0, 2]) (by simp) (by simp) (T := S) (by simp)).congr ?_
  intro R _ ds hl hC
  match ds, hl with
  | [x, y, z], _ =>
    have := hC 0 (by simp) 2 (by simp)
    simp at this
    subst this
    exact ⟨⟨⟨⟨trivial, trivial⟩, trivial⟩, hC⟩, rfl⟩

/-- The projection on the grades that occur in a subspace. -/
noncomputable def gradesOf (A : Alg) (R : Type) [CommRing R] (V : SubSpace) : Cl A R →ₗ[R] Cl A R :=
  proj A R fun b => ∃ c ∈ V.blades, popcount c = popcount b

theorem sandwich_arg (hA : WfAlg A) {a : Arg Int} {S V : SubSpace} {L : ∀ (R : Type) [CommRing R], Cl A R → Cl A R}
    (ha : ArgSem A a [S] (Cond.triv A) (fun R _ ds => L R (ds.headD 0))) (hV : WfSub A V) :
    Sem A (sandwich A a V) [S, V, S] (Cond.eqOn A [0, 2])
      (fun R _ ds => gradesOf A R V (L R (ds.getD 0 0) * ds.getD 1 0 * CliffordAlgebra.reverse (L R (ds.getD 0 0)))) := by
  have h := fullSandwich_arg hA ha hV
  have h2 := h.outSelect hA (n := 3) (fun g => (V.grades A).any fun k => decide (g = (k : Int))) rfl
  obtain ⟨op, o1, o2, o3, o4⟩ := h
  have hlen : op.axes.length = 4 := by rw [o2.axes_eq, o3]; rfl
  rw [sandwich]
  rw [o1, Option.bind_some] at h2
  rw [o1, Option.bind_eq_bind, Option.bind_some, if_pos hlen]
  refine h2.congr ?_
  intro R _ ds _ hC
  refine ⟨hC, ?_⟩
  rw [gradesOf]
  congr 1
  unfold proj
  congr 1
  funext b
  have : ((V.grades A).any fun k => decide ((popcount b : Int) = (k : Int))) = true ↔ ∃ c ∈ V.blades, popcount c = popcount b := by
    simp only [SubSpace.grades, List.any_map, List.any_eq_true, Function.comp, decide_eq_true_eq, Nat.cast_inj]
    constructor
    · rintro ⟨c, hc, h⟩; exact ⟨c, hc, by rw [h, grade_popcount hA (hV.lt c hc)]⟩
    · rintro ⟨c, hc, h⟩; exact ⟨c, hc, by rw [← h, grade_popcount hA (hV.lt c hc)]⟩
  simp only [this]

theorem sandwich_sem (hA : WfAlg A) {S V : SubSpace} (hS : WfSub A S) (hV : WfSub A V) :
    Sem A (sandwich A (.sub S) V) [S, V, S] (Cond.eqOn A [0, 2])
      (fun R _ ds => gradesOf A R V (ds.getD 0 0 * ds.getD 1 0 * CliffordAlgebra.reverse (ds.getD 0 0))) :=
  sandwich_arg hA (L := fun _ _ x => x) (argSem_sub hS) hV

theorem reverseSandwich_sem (hA : WfAlg A) {S V : SubSpace} (hS : WfSub A S) (hV : WfSub A V) :
    Sem A (reverseSandwich A S V) [S, V, S] (Cond.eqOn A [0, 2])
      (fun R _ ds => gradesOf A R V (CliffordAlgebra.reverse (ds.getD 0 0) * ds.getD 1 0 * ds.getD 0 0)) := by
  have h := reverse_un hA (argSem_sub hS)
  obtain ⟨op, o1, o2, o3, o4⟩ := h
  have ha := Sem.arg (op := op) (ins := [S]) (C := Cond.triv A) (F := fun R _ ds => CliffordAlgebra.reverse (ds.headD 0)) ⟨op, rfl, o2, o3, o4⟩
  rw [reverseSandwich, o1, Option.bind_eq_bind, Option.bind_some]
  refine (sandwich_arg hA (L := fun _ _ x => CliffordAlgebra.reverse x) ha hV).congr ?_
  intro R _ ds _ hC
  exact ⟨hC, by rw [CliffordAlgebra.reverse_reverse]⟩

/-! ### versors preserve grade -/

section versor
variable {R : Type} [CommRing R]

theorem alternating_sum {ι : Type*} [DecidableEq ι] {M : Type*} [AddCommGroup M] [Module R M] (s : Finset ι) (u : ι → R) (T : ι → ι → M)
    (h0 : ∀ i, T i i = 0) (h1 : ∀ i j, T i j + T j i = 0) : ∑ i ∈ s, ∑ j ∈ s, (u i * u j) • T i j = 0 := by
  induction s using Finset.induction_on with
  | empty => simp
  | insert a s ha ih =>
    simp only [Finset.sum_insert ha]
    rw [h0, smul_zero, zero_add, Finset.sum_add_distrib, ih, add_zero, ← Finset.sum_add_distrib]
    apply Finset.sum_eq_zero
    intro j _
    rw [mul_comm (u j), ← smul_add, h1, smul_zero]

theorem ι_eq_sum (v : Fin A.n → R) : CliffordAlgebra.ι (Q A R) v = ∑ i, v i • gen A R i := by
  conv_lhs => rw [pi_eq_sum_univ' v]
  rw [map_sum]
  apply Finset.sum_congr rfl
  intro i _
  rw [map_smul, gen]

theorem testBit_two_pow_pc (k i : Nat) : pc k (2 ^ i) = if i < k then 1 else 0 := by
  induction k with
  | zero => simp
  | succ k ih =>
    rw [pc_succ, ih, Nat.testBit_two_pow]
    by_cases h : i < k
    · have : ¬ i = k := by omega
      simp [h, this]; omega
    · by_cases h2 : i = k
      · subst h2; simp
      · simp [h, h2]; omega

theorem popcount_two_pow (hA : WfAlg A) {i : Nat} (hi : i < A.n) : popcount (2 ^ i) = 1 := by
  rw [popcount_eq, testBit_two_pow_pc, if_pos (by have := hA.le32; omega)]

theorem and_two_pow (b i : Nat) : b &&& 2 ^ i = if b.testBit i then 2 ^ i else 0 := by
  apply Nat.eq_of_testBit_eq
  intro j
  rw [Nat.testBit_and, Nat.testBit_two_pow]
  by_cases hj : i = j
  · subst hj
    by_cases h : b.testBit i <;> simp [h]
  · by_cases h : b.testBit i <;> simp [h, hj, Nat.testBit_two_pow]

/-- Exchanging a generator and a blade. -/
theorem gen_comm (hA : WfAlg A) (i : Fin A.n) {b : Nat} (hb : b < 2 ^ A.n) :
    gen A R i * blade A R b = ((-1 : R) ^ (popcount b + if b.testBit i then 1 else 0)) • (blade A R b * gen A R i) := by
  have hi : 2 ^ (i : ℕ) < 2 ^ A.n := Nat.pow_lt_pow_right (by norm_num) i.2
  rw [← blade_two_pow, blade_mul hA, blade_mul hA, smul_smul, Nat.xor_comm]
  congr 1
  rw [sgn_cast hA, sgn_cast hA]
  have hm : mprod (metric A R) A.n (2 ^ (i : ℕ)) b = mprod (metric A R) A.n b (2 ^ (i : ℕ)) := by
    apply Finset.prod_congr rfl; intro j _; rw [Bool.and_comm]
  rw [hm, ← mul_assoc, ← pow_add]
  congr 1
  apply neg_one_pow_congr
  have h := inv_add A.n (2 ^ (i : ℕ)) b
  rw [testBit_two_pow_pc, if_pos i.2, one_mul, Nat.and_comm, and_two_pow] at h
  rw [popcount_of_lt hA.le32 hb, ← h]
  by_cases hbit : b.testBit i
  · simp only [hbit, if_true]
    rw [testBit_two_pow_pc, if_pos i.2]
    simp only [Nat.even_add]
    tauto
  · simp only [hbit, Bool.false_eq_true, if_false]
    rw [pc_zero_right]
    simp only [Nat.even_add, Even.zero, iff_true]
    tauto

/-- A vector sandwiched around a `k`-vector gives a `k`-vector. -/
theorem vector_sandwich_blade (hA : WfAlg A) (v : Fin A.n → R) {b : Nat} (hb : b < 2 ^ A.n) :
    gradePart A R (popcount b) (CliffordAlgebra.ι (Q A R) v * blade A R b * CliffordAlgebra.ι (Q A R) v) =
      CliffordAlgebra.ι (Q A R) v * blade A R b * CliffordAlgebra.ι (Q A R) v := by
  let N : Cl A R →ₗ[R] Cl A R := LinearMap.id - gradePart A R (popcount b)
  suffices h : N (CliffordAlgebra.ι (Q A R) v * blade A R b * CliffordAlgebra.ι (Q A R) v) = 0 by
    simp only [N, LinearMap.sub_apply, LinearMap.id_apply] at h
    exact (sub_eq_zero.1 h).symm
  rw [ι_eq_sum, Finset.sum_mul, Finset.sum_mul, map_sum]
  simp only [Finset.mul_sum, map_sum, smul_mul_assoc, mul_smul_comm, smul_smul, map_smul]
  have hi : ∀ i : Fin A.n, 2 ^ (i : ℕ) < 2 ^ A.n := fun i => Nat.pow_lt_pow_right (by norm_num) i.2
  have key : ∀ i j : Fin A.n, popcount (2 ^ (i : ℕ) ^^^ b ^^^ 2 ^ (j : ℕ)) = popcount b → N (gen A R i * blade A R b * gen A R j) = 0 := by
    intro i j h
    rw [← blade_two_pow, ← blade_two_pow, blade_mul hA, smul_mul_assoc, blade_mul hA, map_smul, map_smul]
    simp only [N, LinearMap.sub_apply, LinearMap.id_apply]
    rw [gradePart_blade _ (xor_lt (xor_lt (hi i) hb) (hi j)), if_pos h, sub_self, smul_zero, smul_zero]
  have := alternating_sum Finset.univ v (fun i j => N (gen A R i * blade A R b * gen A R j)) ?_ ?_
  · rw [← this]
    exact Finset.sum_congr rfl fun i _ => Finset.sum_congr rfl fun j _ => by rw [mul_comm]
  · intro i
    apply key
    rw [Nat.xor_comm (2 ^ (i : ℕ)) b, xor_cancel]
  · intro i j
    by_cases hij : i = j
    · subst hij
      have : N (gen A R i * blade A R b * gen A R i) = 0 := key i i (by rw [Nat.xor_comm (2 ^ (i : ℕ)) b, xor_cancel])
      rw [this, add_zero]
    · have hij' : (i : ℕ) ≠ j := fun h => hij (Fin.ext h)
      by_cases hbit : b.testBit i = b.testBit j
      · -- the two terms cancel
        rw [← map_add]
        have e1 := gen_comm (R := R) hA i hb
        have e2 := gen_comm (R := R) hA j hb
        rw [hbit] at e1
        rw [e1, e2, smul_mul_assoc, smul_mul_assoc, mul_assoc, mul_assoc, ← smul_add, ← mul_add, gen_anti A R i j hij, neg_add_cancel,
          mul_zero, smul_zero, map_zero]
      · have hcount : ∀ i j : Fin A.n, (i : ℕ) ≠ j → b.testBit i = true → b.testBit j = false →
            popcount (2 ^ (i : ℕ) ^^^ b ^^^ 2 ^ (j : ℕ)) = popcount b ∧ popcount (2 ^ (j : ℕ) ^^^ b ^^^ 2 ^ (i : ℕ)) = popcount b := by
          intro i j hne hi1 hj0
          have p1 := popcount_xor b (2 ^ (i : ℕ))
          rw [and_two_pow, if_pos hi1, popcount_two_pow hA i.2] at p1
          have p2 := popcount_xor (b ^^^ 2 ^ (i : ℕ)) (2 ^ (j : ℕ))
          rw [and_two_pow, testBit_xor_ne _ _ _ hne, hj0, popcount_two_pow hA j.2] at p2
          have p0 : popcount 0 = 0 := by rw [popcount_eq]; simp
          simp only [Bool.false_eq_true, if_false, p0] at p2
          have e1 : 2 ^ (i : ℕ) ^^^ b ^^^ 2 ^ (j : ℕ) = b ^^^ 2 ^ (i : ℕ) ^^^ 2 ^ (j : ℕ) := by rw [Nat.xor_comm (2 ^ (i : ℕ)) b]
          have e2 : 2 ^ (j : ℕ) ^^^ b ^^^ 2 ^ (i : ℕ) = b ^^^ 2 ^ (i : ℕ) ^^^ 2 ^ (j : ℕ) := by
            rw [Nat.xor_comm (2 ^ (j : ℕ)) b, xor_right_comm]
          rw [e1, e2]; omega
        have : popcount (2 ^ (i : ℕ) ^^^ b ^^^ 2 ^ (j : ℕ)) = popcount b ∧ popcount (2 ^ (j : ℕ) ^^^ b ^^^ 2 ^ (i : ℕ)) = popcount b := by
          cases h1 : b.testBit i <;> cases h2 : b.testBit j
          · rw [h1, h2] at hbit; exact absurd rfl hbit
          · exact (hcount j i (Ne.symm hij') h2 h1).symm
          · exact hcount i j hij' h1 h2
          · rw [h1, h2] at hbit; exact absurd rfl hbit
        rw [key i j this.1, key j i this.2, add_zero]

theorem vector_sandwich (hA : WfAlg A) (v : Fin A.n → R) (k : Nat) {x : Cl A R} (hx : gradePart A R k x = x) :
    gradePart A R k (CliffordAlgebra.ι (Q A R) v * x * CliffordAlgebra.ι (Q A R) v) =
      CliffordAlgebra.ι (Q A R) v * x * CliffordAlgebra.ι (Q A R) v := by
  have : (gradePart A R k).comp ((LinearMap.mulRight R (CliffordAlgebra.ι (Q A R) v)).comp
        ((LinearMap.mulLeft R (CliffordAlgebra.ι (Q A R) v)).comp (gradePart A R k))) =
      (LinearMap.mulRight R (CliffordAlgebra.ι (Q A R) v)).comp ((LinearMap.mulLeft R (CliffordAlgebra.ι (Q A R) v)).comp (gradePart A R k)) := by
    apply lin_ext
    intro b hb
    simp only [LinearMap.comp_apply, gradePart_blade _ hb, LinearMap.mulLeft_apply, LinearMap.mulRight_apply]
    by_cases h : popcount b = k
    · subst h; rw [if_pos rfl]; exact vector_sandwich_blade hA v hb
    · rw [if_neg h]; simp
  have h := congrArg (fun f => f x) this
  simpa only [LinearMap.comp_apply, hx, LinearMap.mulLeft_apply, LinearMap.mulRight_apply] using h

/-- A product of vectors sandwiched around a `k`-vector gives a `k`-vector. -/
theorem versor_sandwich (hA : WfAlg A) (vs : List (Fin A.n → R)) (k : Nat) {x : Cl A R} (hx : gradePart A R k x = x) :
    gradePart A R k ((vs.map (CliffordAlgebra.ι (Q A R))).prod * x * CliffordAlgebra.reverse (vs.map (CliffordAlgebra.ι (Q A R))).prod) =
      (vs.map (CliffordAlgebra.ι (Q A R))).prod * x * CliffordAlgebra.reverse (vs.map (CliffordAlgebra.ι (Q A R))).prod := by
  induction vs with
  | nil => simpa using hx
  | cons v vs ih =>
    rw [List.map_cons, List.prod_cons, CliffordAlgebra.reverse.map_mul, CliffordAlgebra.reverse_ι]
    have := vector_sandwich hA v k ih
    simpa only [mul_assoc] using this

theorem gradePart_gradePart (i j : Nat) (x : Cl A R) : gradePart A R i (gradePart A R j x) = if i = j then gradePart A R j x else 0 := by
  have : (gradePart A R i).comp (gradePart A R j) = if i = j then gradePart A R j else 0 := by
    apply lin_ext
    intro b hb
    rw [LinearMap.comp_apply, gradePart_blade _ hb]
    by_cases h : popcount b = j
    · rw [if_pos h, gradePart_blade _ hb]
      by_cases h2 : i = j
      · rw [if_pos (by omega), if_pos h2, gradePart_blade _ hb, if_pos h]
      · rw [if_neg (by omega), if_neg h2]; rfl
    · rw [if_neg h, map_zero]
      by_cases h2 : i = j
      · rw [if_pos h2, gradePart_blade _ hb, if_neg h]
      · rw [if_neg h2]; rfl
  have h := congrArg (fun f => f x) this
  simp only [LinearMap.comp_apply] at h
  rw [h]
  split_ifs <;> rfl

theorem gradesOf_gradePart {V : SubSpace} {k : Nat} (hk : ∃ c ∈ V.blades, popcount c = k) (x : Cl A R) :
    gradesOf A R V (gradePart A R k x) = gradePart A R k x := by
  have : (gradesOf A R V).comp (gradePart A R k) = gradePart A R k := by
    apply lin_ext
    intro b hb
    rw [LinearMap.comp_apply, gradePart_blade _ hb]
    by_cases h : popcount b = k
    · rw [if_pos h, gradesOf, proj_blade _ hb, if_pos (by rw [h]; exact hk)]
    · rw [if_neg h, map_zero]
  exact congrArg (fun f => f x) this

theorem gradesOf_versor (hA : WfAlg A) (vs : List (Fin A.n → R)) {V : SubSpace} (hV : WfSub A V) (v : List R) :
    gradesOf A R V ((vs.map (CliffordAlgebra.ι (Q A R))).prod * denote A R V v * CliffordAlgebra.reverse (vs.map (CliffordAlgebra.ι (Q A R))).prod) =
      (vs.map (CliffordAlgebra.ι (Q A R))).prod * denote A R V v * CliffordAlgebra.reverse (vs.map (CliffordAlgebra.ι (Q A R))).prod := by
  have hden : denote A R V v ∈ Submodule.span R (Set.range fun b : {b // b ∈ V.blades} => blade A R b.1) := by
    rw [denote]
    apply list_sum_mem
    intro y hy
    rw [List.mem_iff_getElem] at hy
    obtain ⟨i, hi, rfl⟩ := hy
    rw [List.getElem_zipWith]
    apply Submodule.smul_mem
    apply Submodule.subset_span
    exact ⟨⟨V.blades[i]'(by simp at hi; omega), List.getElem_mem _⟩, rfl⟩
  generalize denote A R V v = w at hden ⊢
  induction hden using Submodule.span_induction with
  | mem y hy =>
    obtain ⟨⟨b, hb⟩, rfl⟩ := hy
    have hx : gradePart A R (popcount b) (blade A R b) = blade A R b := by rw [gradePart_blade _ (hV.lt b hb), if_pos rfl]
    have := versor_sandwich hA vs (popcount b) hx
    simp only
    rw [← this, gradesOf_gradePart ⟨b, hb, rfl⟩]
  | zero => simp
  | add y z _ _ hy hz => rw [mul_add, add_mul, map_add, hy, hz]
  | smul r y _ hy => rw [mul_smul_comm, smul_mul_assoc, map_smul, hy]

end versor

/-! ### output grades modulo four -/

theorem coef_reverse (hA : WfAlg A) (R : Type) [CommRing R] {b : Nat} (hb : b < 2 ^ A.n) (x : Cl A R) :
    coef A R b (CliffordAlgebra.reverse x) = (-1 : R) ^ (popcount b / 2) * coef A R b x := by
  have : (coef A R b).comp (CliffordAlgebra.reverse (Q := Q A R)) = ((-1 : R) ^ (popcount b / 2)) • coef A R b := by
    apply lin_ext
    intro a ha
    rw [LinearMap.comp_apply, reverse_blade, map_smul, LinearMap.smul_apply, coef_blade _ _ ha]
    by_cases h : b = a
    · subst h; rw [popcount_of_lt hA.le32 hb]
    · simp [h]
  exact congrArg (fun f => f x) this

theorem coef_involute (hA : WfAlg A) (R : Type) [CommRing R] {b : Nat} (hb : b < 2 ^ A.n) (x : Cl A R) :
    coef A R b (CliffordAlgebra.involute x) = (-1 : R) ^ popcount b * coef A R b x := by
  have : (coef A R b).comp (CliffordAlgebra.involute (Q := Q A R)).toLinearMap = ((-1 : R) ^ popcount b) • coef A R b := by
    apply lin_ext
    intro a ha
    rw [LinearMap.comp_apply, AlgHom.toLinearMap_apply, involute_blade, map_smul, LinearMap.smul_apply, coef_blade _ _ ha]
    by_cases h : b = a
    · subst h; rw [popcount_of_lt hA.le32 hb]
    · simp [h]
  exact congrArg (fun f => f x) this

/-- Output blades of a symmetrised binary operator. -/
theorem self2_output (hA : WfAlg A) {f : Arg Int → Arg Int → Option (Operator Int)}
    {B : ∀ (R : Type) [CommRing R], Cl A R → Cl A R → Cl A R} (h : BinSem A f B) {S : SubSpace} (hS : WfSub A S) {s : Operator Int}
    (hs : (f (.sub S) (.sub S)).bind (·.symmetry A [0, 1]) = some s) {b : Nat} (hb : b ∈ s.output.blades) :
    b < 2 ^ A.n ∧ ∃ a ∈ S.blades, ∃ c ∈ S.blades,
      coef A ℤ b (B ℤ (blade A ℤ a) (blade A ℤ c) + B ℤ (blade A ℤ c) (blade A ℤ a)) ≠ 0 := by
  obtain ⟨op, o1, o2, o3, o4⟩ := h (argSem_sub hS) (argSem_sub hS)
  replace o3 : op.inputs = [S, S] := o3
  have o5 : Computes A op (Cond.triv A) (fun R _ ds => B R ((ds.take 1).headD 0) ((ds.drop 1).headD 0)) :=
    fun R _ xs hx _ => o4 R xs hx ⟨trivial, trivial⟩
  obtain ⟨s', s1, s2, s3, s4, _⟩ := symmetry_spec hA o2 (axes := [0, 1]) (by simp) (by simp) (by simp [o3]) (T := S) (by simp [o3])
  rw [o1, Option.bind_some, s1] at hs
  cases hs
  refine ⟨s2.wf_output.lt b hb, ?_⟩
  obtain ⟨o, ho, rfl, idx, hidx, hnz⟩ := s4 b hb
  rw [o3] at hidx hnz
  cases hidx with
  | @cons i _ _ _ h1 h' =>
    cases h' with
    | @cons j _ _ _ h2 h' =>
      cases h'
      refine ⟨_, getD_mem h1, _, getD_mem h2, ?_⟩
      have v1 : Valid [i, j] (op.inputs.map (·.blades.length)) := by
        rw [o3]; exact List.Forall₂.cons h1 (List.Forall₂.cons h2 List.Forall₂.nil)
      have v2 : Valid [j, i] (op.inputs.map (·.blades.length)) := by
        rw [o3]; exact List.Forall₂.cons h2 (List.Forall₂.cons h1 List.Forall₂.nil)
      have e1 := Computes.entry o2 o5 v1 ho
      have e2 := Computes.entry o2 o5 v2 ho
      have e : ([0, 1].permutations'.map fun p => op.kernel.get (permIdx [0, 1] p [S, S].length [i, j] ++ [o])).sum =
          op.kernel.get ([i, j] ++ [o]) + op.kernel.get ([j, i] ++ [o]) := by
        have : ([0, 1] : List Nat).permutations' = [[0, 1], [1, 0]] := by decide
        rw [this]
        simp [permIdx, permPos, List.range_succ]
      rw [e, e1, e2, o3, ← map_add] at hnz
      exact hnz

theorem neg_one_pow_eq_iff {i j : Nat} : (-1 : ℤ) ^ i = (-1) ^ j ↔ i % 2 = j % 2 := by
  rcases Nat.even_or_odd i with hi | hi <;> rcases Nat.even_or_odd j with hj | hj <;> rw [hi.neg_one_pow, hj.neg_one_pow]
  · simp [Nat.even_iff.1 hi, Nat.even_iff.1 hj]
  · simp [Nat.even_iff.1 hi, Nat.odd_iff.1 hj]
  · simp [Nat.odd_iff.1 hi, Nat.even_iff.1 hj]
  · simp [Nat.odd_iff.1 hi, Nat.odd_iff.1 hj]

/-- Grades of `x * ~x`. -/
theorem symmetricReverse_output (hA : WfAlg A) {S : SubSpace} (hS : WfSub A S) {s : Operator Int}
    (hs : symmetricReverse A (.sub S) = some s) {b : Nat} (hb : b ∈ s.output.blades) : popcount b % 4 = 0 ∨ popcount b % 4 = 1 := by
  obtain ⟨hlt, a, ha, c, hc, hnz⟩ := self2_output hA (reverseProduct_bin hA) hS hs hb
  have h := coef_reverse hA ℤ hlt (blade A ℤ a * CliffordAlgebra.reverse (blade A ℤ c) + blade A ℤ c * CliffordAlgebra.reverse (blade A ℤ a))
  rw [map_add, CliffordAlgebra.reverse.map_mul, CliffordAlgebra.reverse.map_mul, CliffordAlgebra.reverse_reverse,
    CliffordAlgebra.reverse_reverse, add_comm] at h
  have h1 : (-1 : ℤ) ^ (popcount b / 2) = (-1) ^ 0 := by
    rw [pow_zero]
    exact (mul_eq_right₀ hnz).1 h.symm
  rw [neg_one_pow_eq_iff] at h1
  omega

/-- Output blades of the full sandwich. -/
theorem fullSandwich_output (hA : WfAlg A) {S V : SubSpace} (hS : WfSub A S) (hV : WfSub A V) {s : Operator Int}
    (hs : fullSandwich A (.sub S) (.sub V) = some s) {b : Nat} (hb : b ∈ s.output.blades) :
    b < 2 ^ A.n ∧ ∃ a ∈ S.blades, ∃ v ∈ V.blades, ∃ c ∈ S.blades,
      coef A ℤ b (blade A ℤ a * blade A ℤ v * CliffordAlgebra.reverse (blade A ℤ c) +
        blade A ℤ c * blade A ℤ v * CliffordAlgebra.reverse (blade A ℤ a)) ≠ 0 := by
  have hq : Sem A ((product A (.sub S) (.sub V)).bind fun p => (reverse A (.sub S)).bind fun r => product A (.op p) (.op r)) _ _ _ :=
    (product_bin hA (argSem_sub hS) (argSem_sub hV)).bind_arg fun p _ hp => (reverse_un hA (argSem_sub hS)).bind_arg fun r _ hr =>
      product_bin hA hp hr
  obtain ⟨op, o1, o2, o3, o4⟩ := hq
  replace o3 : op.inputs = [S, V, S] := o3
  have o5 : Computes A op (Cond.triv A) (fun R _ ds => (((ds.take 2).take 1).headD 0) * (((ds.take 2).drop 1).headD 0) *
      CliffordAlgebra.reverse ((ds.drop 2).headD 0)) :=
    fun R _ xs hx _ => o4 R xs hx ⟨⟨trivial, trivial⟩, trivial⟩
  obtain ⟨s', s1, s2, s3, s4, _⟩ := symmetry_spec hA o2 (axes := [0, 2]) (by simp) (by simp) (by simp [o3]) (T := S) (by simp [o3])
  have hs' : (((product A (.sub S) (.sub V)).bind fun p => (reverse A (.sub S)).bind fun r => product A (.op p) (.op r)).bind
      (·.symmetry A [0, 2])) = some s := by
    simp only [Option.bind_assoc]; exact hs
  rw [o1, Option.bind_some, s1] at hs'
  cases hs'
  refine ⟨s2.wf_output.lt b hb, ?_⟩
  obtain ⟨o, ho, rfl, idx, hidx, hnz⟩ := s4 b hb
  rw [o3] at hidx hnz
  cases hidx with
  | @cons i _ _ _ h1 h' =>
    cases h' with
    | @cons j _ _ _ h2 h' =>
      cases h' with
      | @cons k _ _ _ h3 h' =>
        cases h'
        refine ⟨_, getD_mem h1, _, getD_mem h2, _, getD_mem h3, ?_⟩
        have v1 : Valid [i, j, k] (op.inputs.map (·.blades.length)) := by
          rw [o3]; exact List.Forall₂.cons h1 (List.Forall₂.cons h2 (List.Forall₂.cons h3 List.Forall₂.nil))
        have v2 : Valid [k, j, i] (op.inputs.map (·.blades.length)) := by
          rw [o3]; exact List.Forall₂.cons h3 (List.Forall₂.cons h2 (List.Forall₂.cons h1 List.Forall₂.nil))
        have e1 := Computes.entry o2 o5 v1 ho
        have e2 := Computes.entry o2 o5 v2 ho
        have e : ([0, 2].permutations'.map fun p => op.kernel.get (permIdx [0, 2] p [S, V, S].length [i, j, k] ++ [o])).sum =
            op.kernel.get ([i, j, k] ++ [o]) + op.kernel.get ([k, j, i] ++ [o]) := by
          have : ([0, 2] : List Nat).permutations' = [[0, 2], [2, 0]] := by decide
          rw [this]
          simp [permIdx, permPos, List.range_succ]
        rw [e, e1, e2, o3, ← map_add] at hnz
        exact hnz

/-- Blades of a product of blades have the parity of the sum. -/
theorem involute_eigen {x y : Cl A ℤ} {i j : Nat} (hx : CliffordAlgebra.involute x = ((-1 : ℤ) ^ i) • x)
    (hy : CliffordAlgebra.involute y = ((-1 : ℤ) ^ j) • y) : CliffordAlgebra.involute (x * y) = ((-1 : ℤ) ^ (i + j)) • (x * y) := by
  rw [map_mul, hx, hy, smul_mul_smul_comm, pow_add]

theorem fullSandwich_mod4 (hA : WfAlg A) {S V : SubSpace} (hS : WfSub A S) (hV : WfSub A V) {k p : Nat}
    (hp : ∀ a ∈ S.blades, popcount a % 2 = p) (hk : ∀ v ∈ V.blades, popcount v = k) {s : Operator Int}
    (hs : fullSandwich A (.sub S) (.sub V) = some s) {b : Nat} (hb : b ∈ s.output.blades) : popcount b % 4 = k % 4 := by
  obtain ⟨hlt, a, ha, v, hv, c, hc, hnz⟩ := fullSandwich_output hA hS hV hs hb
  set T := blade A ℤ a * blade A ℤ v * CliffordAlgebra.reverse (blade A ℤ c) + blade A ℤ c * blade A ℤ v * CliffordAlgebra.reverse (blade A ℤ a) with hT
  have hpa := hp a ha
  have hpc := hp c hc
  have hkv := hk v hv
  have inv : ∀ {d}, d < 2 ^ A.n → CliffordAlgebra.involute (blade A ℤ d) = ((-1 : ℤ) ^ popcount d) • blade A ℤ d := by
    intro d hd; rw [involute_blade, popcount_of_lt hA.le32 hd]
  have invr : ∀ {d}, d < 2 ^ A.n → CliffordAlgebra.involute (CliffordAlgebra.reverse (blade A ℤ d)) =
      ((-1 : ℤ) ^ popcount d) • CliffordAlgebra.reverse (blade A ℤ d) := by
    intro d hd
    rw [← CliffordAlgebra.reverse_involute, inv hd, map_smul]
  have h1 : CliffordAlgebra.reverse T = ((-1 : ℤ) ^ (k / 2)) • T := by
    have hr : CliffordAlgebra.reverse (blade A ℤ v) = ((-1 : ℤ) ^ (k / 2)) • blade A ℤ v := by
      rw [reverse_blade, ← popcount_of_lt hA.le32 (hV.lt v hv), hkv]
    rw [hT, map_add]
    simp only [CliffordAlgebra.reverse.map_mul, CliffordAlgebra.reverse_reverse]
    rw [hr, smul_mul_assoc, smul_mul_assoc, mul_smul_comm, mul_smul_comm, ← smul_add, ← mul_assoc, ← mul_assoc, add_comm]
  have h2 : CliffordAlgebra.involute T = ((-1 : ℤ) ^ k) • T := by
    have e1 := involute_eigen (involute_eigen (inv (hS.lt a ha)) (inv (hV.lt v hv))) (invr (hS.lt c hc))
    have e2 := involute_eigen (involute_eigen (inv (hS.lt c hc)) (inv (hV.lt v hv))) (invr (hS.lt a ha))
    have p1 : (-1 : ℤ) ^ (popcount a + popcount v + popcount c) = (-1) ^ k := by rw [neg_one_pow_eq_iff]; omega
    have p2 : (-1 : ℤ) ^ (popcount c + popcount v + popcount a) = (-1) ^ k := by rw [neg_one_pow_eq_iff]; omega
    rw [p1] at e1
    rw [p2] at e2
    rw [hT, map_add, e1, e2, smul_add]
  have c1 := coef_reverse hA ℤ hlt T
  have c2 := coef_involute hA ℤ hlt T
  rw [h1, map_smul, smul_eq_mul] at c1
  rw [h2, map_smul, smul_eq_mul] at c2
  have d1 := mul_right_cancel₀ hnz c1
  have d2 := mul_right_cancel₀ hnz c2
  rw [neg_one_pow_eq_iff] at d1 d2
  omega

/-- `sandwich` only drops blades from the full sandwich. -/
theorem sandwich_output {a : Arg Int} {V : SubSpace} {t : Operator Int} (ht : sandwich A a V = some t) (hA : WfAlg A)
    {s : Operator Int} (hs : fullSandwich A a (.sub V) = some s) (hwf : WfOp A s) {b : Nat} (hb : b ∈ t.output.blades) : b ∈ s.output.blades := by
  rw [sandwich, hs, Option.bind_eq_bind, Option.bind_some] at ht
  split at ht
  · rw [Operator.gradeSelection] at ht
    obtain ⟨t', t1, _, _, t4, _⟩ := squeeze_spec hA (op := ⟨{ shape := s.kernel.shape, get := fun idx => s.kernel.get idx *
      (if (fun gs : List Int => (V.grades A).any fun g => decide (gs.getD 3 0 = (g : Int)))
        (List.zipWith (fun (a : SubSpace) i => ((a.grades A).getD i 0 : Int)) s.axes idx) then 1 else 0) }, s.axes⟩) ⟨hwf.ne, hwf.shape, hwf.sub⟩
    cases t1.symm.trans ht
    rw [t4, List.mem_map] at hb
    obtain ⟨o, ho, rfl⟩ := hb
    rw [List.mem_filter, List.mem_range] at ho
    exact getD_mem ho.1
  · cases ht

/-- The output of `sandwich` only has grades that occur in `V`. -/
theorem sandwich_grades (hA : WfAlg A) {a : Arg Int} {V : SubSpace} (hV : WfSub A V) {t : Operator Int} (ht : sandwich A a V = some t)
    {s : Operator Int} (hs : fullSandwich A a (.sub V) = some s) (hwf : WfOp A s) {b : Nat} (hb : b ∈ t.output.blades) :
    ∃ c ∈ V.blades, popcount c = popcount b := by
  rw [sandwich, hs, Option.bind_eq_bind, Option.bind_some] at ht
  split at ht
  case isFalse => cases ht
  case isTrue h4 =>
  rw [Operator.gradeSelection] at ht
  obtain ⟨t', t1, _, _, t4, _⟩ := squeeze_spec hA (op := ⟨{ shape := s.kernel.shape, get := fun idx => s.kernel.get idx *
    (if (fun gs : List Int => (V.grades A).any fun g => decide (gs.getD 3 0 = (g : Int)))
      (List.zipWith (fun (a : SubSpace) i => ((a.grades A).getD i 0 : Int)) s.axes idx) then 1 else 0) }, s.axes⟩) ⟨hwf.ne, hwf.shape, hwf.sub⟩
  cases t1.symm.trans ht
  rw [t4, List.mem_map] at hb
  obtain ⟨o, ho, rfl⟩ := hb
  rw [List.mem_filter, List.mem_range, anyInputs_iff] at ho
  obtain ⟨ho, idx, hidx, hnz⟩ := ho
  replace ho : o < s.output.blades.length := ho
  change ∃ c ∈ V.blades, popcount c = popcount (s.output.blades.getD o 0)
  have hin : s.inputs.length = 3 := by
    have := congrArg List.length hwf.axes_eq
    rw [h4, List.length_append] at this
    simpa using this.symm
  have hl : idx.length = s.inputs.length := by
    have := hidx.length
    simp only [hwf.shape_eq] at this
    simpa using this
  have e : (List.zipWith (fun (a : SubSpace) i => ((a.grades A).getD i 0 : Int)) s.axes (idx ++ [o])).getD 3 0 =
      (popcount (s.output.blades.getD o 0) : Int) := by
    rw [← hin, hwf.axes_eq, List.zipWith_append (by rw [hl]), getD_lt _ _ (by simp [hl]), List.getElem_append_right (by simp [hl])]
    simp only [List.zipWith_cons_cons, List.zipWith_nil_left, List.length_zipWith, hl, min_self, Nat.sub_self, List.getElem_cons_zero]
    rw [grades_getD hA hwf.wf_output ho]
  simp only [e] at hnz
  by_contra hne
  apply hnz
  rw [if_neg, mul_zero]
  simp only [SubSpace.grades, List.any_map, List.any_eq_true, Function.comp, decide_eq_true_eq, Nat.cast_inj]
  rintro ⟨c, hc, h⟩
  exact hne ⟨c, hc, by rw [h, grade_popcount hA (hV.lt c hc)]⟩

end Verif
