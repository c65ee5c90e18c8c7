import Verif.Proofs.Sandwich
import Verif.Proofs.Values
import Mathlib.Tactic.LinearCombination
/-! # The full sandwich product at different first and last arguments -/
namespace Verif
open Model Spec Factory
variable {A : Alg}

theorem two_dvd_sandwich (hA : WfAlg A) {a v c b : Nat} (hb : b < 2 ^ A.n) :
    (2 : ℤ) ∣ coef A ℤ b (blade A ℤ a * blade A ℤ v * CliffordAlgebra.reverse (blade A ℤ c) +
        blade A ℤ c * blade A ℤ v * CliffordAlgebra.reverse (blade A ℤ a)) := by
  obtain ⟨T, hT⟩ : ∃ T, T = blade A ℤ a * blade A ℤ v * CliffordAlgebra.reverse (blade A ℤ c) := ⟨_, rfl⟩
  have h : blade A ℤ c * blade A ℤ v * CliffordAlgebra.reverse (blade A ℤ a) = ((-1 : ℤ) ^ (pc A.n v / 2)) • CliffordAlgebra.reverse T := by
    rw [hT, CliffordAlgebra.reverse.map_mul, CliffordAlgebra.reverse.map_mul, CliffordAlgebra.reverse_reverse, reverse_blade A ℤ v, smul_mul_assoc,
      mul_smul_comm, smul_smul, ← mul_pow, neg_one_mul, neg_neg, one_pow, one_smul, mul_assoc]
  rw [← hT, h, map_add, map_smul, coef_reverse hA ℤ hb, smul_eq_mul]
  rcases neg_one_pow_eq_or ℤ (pc A.n v / 2) with h1 | h1 <;> rcases neg_one_pow_eq_or ℤ (popcount b / 2) with h2 | h2 <;> rw [h1, h2] <;> omega

/-- The full sandwich is the symmetric part of `x v ~y`. -/
theorem fullSandwich_polar (hA : WfAlg A) {S V : SubSpace} (hS : WfSub A S) (hV : WfSub A V) :
    ∃ op, fullSandwich A (.sub S) (.sub V) = some op ∧ WfOp A op ∧ op.inputs = [S, V, S] ∧
      ∀ (R : Type) [CommRing R] (x v y : List R), x.length = S.blades.length → v.length = V.blades.length → y.length = S.blades.length →
        (2 : R) • denote A R op.output (op.apply R [x, v, y]) =
          denote A R S x * denote A R V v * CliffordAlgebra.reverse (denote A R S y) +
            denote A R S y * denote A R V v * CliffordAlgebra.reverse (denote A R S x) := by
  have hq : Sem A ((product A (.sub S) (.sub V)).bind fun p => (reverse A (.sub S)).bind fun r => product A (.op p) (.op r)) _ _ _ :=
    (product_bin hA (argSem_sub hS) (argSem_sub hV)).bind_arg fun p _ hp => (reverse_un hA (argSem_sub hS)).bind_arg fun r _ hr =>
      product_bin hA hp hr
  obtain ⟨op, o1, o2, o3, o4⟩ := hq
  replace o3 : op.inputs = [S, V, S] := o3
  have o5 : Computes A op (Cond.triv A) (fun R _ ds => (((ds.take 2).take 1).headD 0) * (((ds.take 2).drop 1).headD 0) *
      CliffordAlgebra.reverse ((ds.drop 2).headD 0)) :=
    fun R _ xs hx _ => o4 R xs hx ⟨⟨trivial, trivial⟩, trivial⟩
  have hperm : ([0, 2] : List Nat).permutations' = [[0, 2], [2, 0]] := by decide
  have hax : ∀ a ∈ ([0, 2] : List Nat), a < op.inputs.length := by simp [o3]
  obtain ⟨s, s1, s2, s3, s4, -⟩ := symmetry_pre o2 (axes := [0, 2]) (by simp) (by simp) hax (T := S) (by simp [o3])
  have hnd : op.kernel.ndim = 4 := by rw [Tensor.ndim, o2.shape_eq, o3]; rfl
  have hsum : ∀ i j k o : Nat, (([0, 2] : List Nat).permutations'.map fun p => op.kernel.get (permIdx [0, 2] p op.kernel.ndim [i, j, k, o])).sum =
      op.kernel.get ([i, j, k] ++ [o]) + op.kernel.get ([k, j, i] ++ [o]) := by
    intro i j k o
    rw [hperm, hnd]
    simp [permIdx, permPos, List.range_succ]
  have hshape : op.kernel.shape = [S.blades.length, V.blades.length, S.blades.length, op.output.blades.length] := by rw [o2.shape_eq, o3]; rfl
  have hval4 : ∀ idx, Valid idx op.kernel.shape → ∃ i j k o, idx = [i, j, k, o] ∧ i < S.blades.length ∧ j < V.blades.length ∧ k < S.blades.length ∧
      o < op.output.blades.length := by
    intro idx h
    rw [hshape] at h
    cases h with
    | cons h1 h => cases h with
      | cons h2 h => cases h with
        | cons h3 h => cases h with
          | cons h4 h => cases h; exact ⟨_, _, _, _, rfl, h1, h2, h3, h4⟩
  have hdvd : ∀ i j k o, i < S.blades.length → j < V.blades.length → k < S.blades.length → o < op.output.blades.length →
      (2 : ℤ) ∣ op.kernel.get ([i, j, k] ++ [o]) + op.kernel.get ([k, j, i] ++ [o]) := by
    intro i j k o h1 h2 h3 ho
    have v1 : Valid [i, j, k] (op.inputs.map (·.blades.length)) := by
      rw [o3]; exact List.Forall₂.cons h1 (List.Forall₂.cons h2 (List.Forall₂.cons h3 List.Forall₂.nil))
    have v2 : Valid [k, j, i] (op.inputs.map (·.blades.length)) := by
      rw [o3]; exact List.Forall₂.cons h3 (List.Forall₂.cons h2 (List.Forall₂.cons h1 List.Forall₂.nil))
    have e1 := Computes.entry o2 o5 v1 ho
    have e2 := Computes.entry o2 o5 v2 ho
    rw [e1, e2, o3, ← map_add]
    exact two_dvd_sandwich hA (o2.wf_output.lt _ (getD_mem ho))
  have hk : ∀ i j k o, i < S.blades.length → j < V.blades.length → k < S.blades.length → o < op.output.blades.length →
      s.kernel.get ([i, j, k] ++ [o]) * 2 = op.kernel.get ([i, j, k] ++ [o]) + op.kernel.get ([k, j, i] ++ [o]) := by
    intro i j k o h1 h2 h3 ho
    rcases s4 with h | ⟨⟨idx, hi, hd⟩, -⟩
    · have := h [i, j, k, o] (by rw [hshape]; exact .cons h1 (.cons h2 (.cons h3 (.cons ho .nil))))
      rw [hsum, hperm] at this
      exact this
    · obtain ⟨i, j, k, o, rfl, h1, h2, h3, h4⟩ := hval4 idx hi
      rw [hsum, hperm] at hd
      exact absurd (hdvd i j k o h1 h2 h3 h4) hd
  obtain ⟨q, q1, q2, q3, -, -, q6⟩ := squeeze_spec hA s2
  have hsi : s.inputs = op.inputs := by rw [Operator.inputs, s3]; rfl
  have hso : s.output = op.output := by rw [Operator.output, s3]; rfl
  refine ⟨q, ?_, q2, by rw [q3, hsi, o3], ?_⟩
  · have : fullSandwich A (.sub S) (.sub V) = (((product A (.sub S) (.sub V)).bind fun p => (reverse A (.sub S)).bind fun r =>
        product A (.op p) (.op r)).bind (·.symmetry A [0, 2])) := by
      simp only [Option.bind_assoc]; rfl
    rw [this, o1, Option.bind_some, s1, q1]
  intro R _ x v y hx hv hy
  have ev : ∀ o < op.output.blades.length, (2 : R) * (s.cast R).evalAt [x, v, y] o = (op.cast R).evalAt [x, v, y] o + (op.cast R).evalAt [y, v, x] o := by
    intro o ho
    have sh1 : (s.cast R).kernel.shape.dropLast = [S.blades.length, V.blades.length, S.blades.length] := by
      rw [cast_shape, s2.shape_in, hsi, o3]; rfl
    have sh2 : (op.cast R).kernel.shape.dropLast = [S.blades.length, V.blades.length, S.blades.length] := by
      rw [cast_shape, o2.shape_in, o3]; rfl
    rw [evalAt_eq, evalAt_eq, evalAt_eq, sh1, sh2]
    have p := sumIdx_perm (M := R) (axes := [0, 2]) (p := [2, 0]) (by decide) (by simp) (shape := [S.blades.length, V.blades.length, S.blades.length])
      (by simp) (by simp) (fun idx => (op.cast R).kernel.get (idx ++ [o]) * prodAt [y, v, x] idx)
    rw [← p, ← sumIdx_mul_left, ← sumIdx_add]
    refine sumIdx_congr fun idx h => ?_
    cases h with
    | @cons i _ _ _ h1 h => cases h with
      | @cons j _ _ _ h2 h => cases h with
        | @cons k _ _ _ h3 h =>
          cases h
          have e : permIdx [0, 2] [2, 0] [S.blades.length, V.blades.length, S.blades.length].length [i, j, k] = [k, j, i] := by
            simp [permIdx, permPos, List.range_succ]
          rw [e, cast_get, cast_get, cast_get]
          have := congrArg (Int.cast : ℤ → R) (hk i j k o h1 h2 h3 ho)
          push_cast at this
          simp only [prodAt, List.zipWith_cons_cons, List.zipWith_nil_left, List.prod_cons, List.prod_nil]
          simp only [List.cons_append, List.nil_append] at this ⊢
          linear_combination x.getD i 0 * v.getD j 0 * y.getD k 0 * this
  rw [q6, denote_apply R s2, hso, Finset.smul_sum]
  have e : ∀ x y : List R, x.length = S.blades.length → y.length = S.blades.length → denote A R op.output (op.apply R [x, v, y]) =
      denote A R S x * denote A R V v * CliffordAlgebra.reverse (denote A R S y) := by
    intro x y hx hy
    rw [o5 R [x, v, y] (by rw [o3]; exact .cons hx (.cons hv (.cons hy .nil))) trivial, o3]
    rfl
  rw [← e x y hx hy, ← e y x hy hx, denote_apply R o2, denote_apply R o2, ← Finset.sum_add_distrib]
  refine Finset.sum_congr rfl fun o ho => ?_
  rw [smul_smul, ev o (Finset.mem_range.1 ho), add_smul]

/-- The output of the full sandwich of a subspace containing the scalar is that subspace, if no further blade arises. -/
theorem fullSandwich_same (hA : WfAlg A) {S : SubSpace} (hS : WfSub A S) (h0 : 0 ∈ S.blades) {op : Operator Int}
    (ho : fullSandwich A (.sub S) (.sub S) = some op) :
    op.output = S ↔ ∀ b ∈ op.output.blades, b ∈ S.blades := by
  constructor
  · intro h b hb; rwa [h] at hb
  intro h
  obtain ⟨q, q1, q2, q3, q4⟩ := fullSandwich_polar hA hS hS
  rw [ho] at q1
  cases q1
  refine q2.wf_output.ext hS fun b => ⟨h b, fun hb => ?_⟩
  by_contra hn
  obtain ⟨i, hi, rfl⟩ : ∃ i < S.blades.length, S.blades.getD i 0 = b := by
    obtain ⟨i, hi, e⟩ := List.mem_iff_getElem.1 hb
    exact ⟨i, hi, by rw [getD_lt _ _ hi, e]⟩
  obtain ⟨z, hz, hz0⟩ : ∃ i < S.blades.length, S.blades.getD i 0 = 0 := by
    obtain ⟨i, hi, e⟩ := List.mem_iff_getElem.1 h0
    exact ⟨i, hi, by rw [getD_lt _ _ hi, e]⟩
  have e := q4 ℤ (unitVec ℤ S.blades.length z) (unitVec ℤ S.blades.length i) (unitVec ℤ S.blades.length z) (unitVec_length ..) (unitVec_length ..)
    (unitVec_length ..)
  rw [denote_unitVec hz, denote_unitVec hi, hz0, blade_zero, CliffordAlgebra.reverse.map_one, one_mul, mul_one] at e
  have c := congrArg (coef A ℤ (S.blades.getD i 0)) e
  have val' : ∀ u, val A (⟨op.output, u⟩ : MV ℤ) = denote A ℤ op.output u := fun _ => rfl
  rw [map_smul, map_add, ← val', ← coeff_eq ⟨q2.wf_output, apply_length ℤ q2 _⟩, coeff_notMem hn, coef_blade A ℤ (hS.lt _ hb), if_pos rfl] at c
  norm_num at c

end Verif
