import Verif.Model.LeastSquares
import Verif.Proofs.Polar
import Verif.Proofs.SubspaceOps
import Verif.Proofs.Backend
import Mathlib.Algebra.Order.Field.Basic
import Mathlib.Data.List.GetD
import Mathlib.Algebra.BigOperators.Field
import Mathlib.LinearAlgebra.Matrix.NonsingularInverse
import Mathlib.LinearAlgebra.Matrix.ToLinearEquiv
/-! # Least squares, and the matrix of a left multiplication -/
namespace Verif
open Model Spec Finset

section Matrix
variable {R : Type} [Field R] [DecidableEq R]

theorem linalgSolve_none {n : Nat} {m : Nat → Nat → R} {b : Nat → R} :
    linalgSolve n m b = none ↔ ∃ v : List R, v.length = n ∧ (∃ j < n, v.getD j 0 ≠ 0) ∧ ∀ i < n, ∑ j ∈ range n, m i j * v.getD j 0 = 0 := by
  have e : linalgSolve n m b = none ↔ (Matrix.of fun (i j : Fin n) => m i j).det = 0 := by
    rw [linalgSolve]
    split <;> simp_all
  rw [e, ← Matrix.exists_mulVec_eq_zero_iff]
  constructor
  · rintro ⟨v, hv, hz⟩
    obtain ⟨j, hj⟩ := Function.ne_iff.1 hv
    have hg : ∀ j : Fin n, (List.ofFn v).getD j 0 = v j := by
      intro j
      rw [List.getD_eq_getElem _ _ (by simp)]
      simp
    refine ⟨List.ofFn v, by simp, ⟨j, j.2, by rw [hg]; exact hj⟩, fun i hi => ?_⟩
    have := congrFun hz ⟨i, hi⟩
    rw [Finset.sum_range]
    simpa [Matrix.mulVec, dotProduct, hg] using this
  · rintro ⟨v, hl, ⟨j, hj, hv⟩, hz⟩
    refine ⟨fun i => v.getD i 0, Function.ne_iff.2 ⟨⟨j, hj⟩, hv⟩, ?_⟩
    funext i
    have := hz i i.2
    rw [Finset.sum_range] at this
    simpa [Matrix.mulVec, dotProduct] using this

theorem linalgSolve_some {n : Nat} {m : Nat → Nat → R} {b : Nat → R} {v : List R} (h : linalgSolve n m b = some v) :
    v.length = n ∧ ∀ i < n, ∑ j ∈ range n, m i j * v.getD j 0 = b i := by
  rw [linalgSolve] at h
  split at h
  · cases h
  · rename_i hd
    cases h
    refine ⟨by simp, fun i hi => ?_⟩
    rw [Finset.sum_range]
    have hg : ∀ w : Fin n → R, ∀ j : Fin n, (List.ofFn w).getD j 0 = w j := by
      intro w j
      rw [List.getD_eq_getElem _ _ (by simp)]
      simp
    simp only [hg]
    have := congrFun (Matrix.mulVec_cramer (Matrix.of fun (i j : Fin n) => m i j) (fun i => b i)) ⟨i, hi⟩
    simp only [Matrix.mulVec, dotProduct, Matrix.of_apply, Pi.smul_apply, smul_eq_mul] at this
    have e : ∀ j : Fin n, m i j * (Matrix.cramer (Matrix.of fun (i j : Fin n) => m i j) (fun i => b i) j / (Matrix.of fun (i j : Fin n) => m i j).det) =
        (m i j * Matrix.cramer (Matrix.of fun (i j : Fin n) => m i j) (fun i => b i) j) / (Matrix.of fun (i j : Fin n) => m i j).det := by
      intro j; ring
    rw [Finset.sum_congr rfl fun j _ => e j, ← Finset.sum_div, this, mul_div_cancel_left₀ _ hd]
end Matrix

section LeastSquares
variable {R : Type} [Field R] {m N : Nat} {K : Nat → Nat → R}

/-- The normal equations are singular only if the map is. -/
theorem gram_kernel [LinearOrder R] [IsStrictOrderedRing R] {v : Nat → R} (h : ∀ j < m, ∑ l ∈ range m, (∑ i ∈ range N, K j i * K l i) * v l = 0) {i : Nat} (hi : i < N) :
    ∑ l ∈ range m, K l i * v l = 0 := by
  have h0 : ∑ i ∈ range N, (∑ l ∈ range m, K l i * v l) * (∑ l ∈ range m, K l i * v l) = 0 := by
    calc ∑ i ∈ range N, (∑ l ∈ range m, K l i * v l) * (∑ l ∈ range m, K l i * v l)
        = ∑ i ∈ range N, ∑ j ∈ range m, ∑ l ∈ range m, v j * (K j i * K l i * v l) := by
          refine sum_congr rfl fun i _ => ?_
          rw [sum_mul_sum]
          exact sum_congr rfl fun j _ => sum_congr rfl fun l _ => by ring
      _ = ∑ j ∈ range m, v j * ∑ l ∈ range m, (∑ i ∈ range N, K j i * K l i) * v l := by
          rw [sum_comm]
          refine sum_congr rfl fun j _ => ?_
          rw [sum_comm, mul_sum]
          refine sum_congr rfl fun l _ => ?_
          rw [sum_mul, mul_sum]
      _ = 0 := sum_eq_zero fun j hj => by rw [h j (mem_range.1 hj), mul_zero]
  have := (sum_eq_zero_iff_of_nonneg fun i _ => mul_self_nonneg _).1 h0 i (mem_range.2 hi)
  exact mul_self_eq_zero.1 this

/-- A solution of the normal equations is the minimum. -/
theorem gram_least {y z e : Nat → R} (h : ∀ j < m, ∑ l ∈ range m, (∑ i ∈ range N, K j i * K l i) * y l = ∑ i ∈ range N, K j i * e i) :
    ∑ i ∈ range N, (∑ l ∈ range m, K l i * z l - e i) ^ 2 =
      ∑ i ∈ range N, (∑ l ∈ range m, K l i * y l - e i) ^ 2 + ∑ i ∈ range N, (∑ l ∈ range m, K l i * (z l - y l)) ^ 2 := by
  have hx : ∑ i ∈ range N, (∑ l ∈ range m, K l i * (z l - y l)) * (∑ l ∈ range m, K l i * y l - e i) = 0 := by
    calc ∑ i ∈ range N, (∑ l ∈ range m, K l i * (z l - y l)) * (∑ l ∈ range m, K l i * y l - e i)
        = ∑ i ∈ range N, ∑ j ∈ range m, (z j - y j) * (∑ l ∈ range m, K j i * K l i * y l - K j i * e i) := by
          refine sum_congr rfl fun i _ => ?_
          rw [sum_mul]
          refine sum_congr rfl fun j _ => ?_
          rw [mul_comm (K j i), mul_assoc, mul_sub, mul_sum]
          simp only [mul_assoc]
      _ = ∑ j ∈ range m, (z j - y j) * (∑ l ∈ range m, (∑ i ∈ range N, K j i * K l i) * y l - ∑ i ∈ range N, K j i * e i) := by
          rw [sum_comm]
          refine sum_congr rfl fun j _ => ?_
          rw [← mul_sum, sum_sub_distrib, sum_comm]
          simp only [sum_mul]
      _ = 0 := sum_eq_zero fun j hj => by rw [h j (mem_range.1 hj), sub_self, mul_zero]
  rw [← sum_add_distrib]
  have e1 : ∀ i ∈ range N, (∑ l ∈ range m, K l i * z l - e i) ^ 2 =
      ((∑ l ∈ range m, K l i * y l - e i) ^ 2 + (∑ l ∈ range m, K l i * (z l - y l)) ^ 2) +
        2 * ((∑ l ∈ range m, K l i * (z l - y l)) * (∑ l ∈ range m, K l i * y l - e i)) := by
    intro i _
    have : ∑ l ∈ range m, K l i * (z l - y l) = ∑ l ∈ range m, K l i * z l - ∑ l ∈ range m, K l i * y l := by
      rw [← sum_sub_distrib]; exact sum_congr rfl fun l _ => by ring
    rw [this]; ring
  rw [sum_congr rfl e1, sum_add_distrib, ← mul_sum, hx, mul_zero, add_zero]
end LeastSquares

variable {A : Alg} {R : Type} [CommRing R]

/-- The kernel of the product with its first argument bound is the matrix of the left multiplication. -/
theorem left_matrix (hA : WfAlg A) {x : MV R} (hx : WfMV A x) {S : SubSpace} (hS : WfSub A S) :
    ∃ op q, Factory.product A (.sub x.sub) (.sub S) = some op ∧ (op.cast R).partialApply [(0, x)] = some q ∧ WfSub A op.output ∧
      (∀ b, b ∈ op.output.blades ↔ ∃ a ∈ x.sub.blades, ∃ c ∈ S.blades, a ^^^ c = b ∧ sgn A a c ≠ 0) ∧
      ∀ v : List R, v.length = S.blades.length → Within A op.output (val A x * denote A R S v) ∧
        ∀ i < op.output.blades.length, coef A R (op.output.blades.getD i 0) (val A x * denote A R S v) =
          ∑ j ∈ range S.blades.length, q.kernel.get [j, i] * v.getD j 0 := by
  obtain ⟨op, o1, o2, o3, o4⟩ := product_bin hA (argSem_sub hx.sub) (argSem_sub hS)
  replace o3 : op.inputs = [x.sub, S] := o3
  obtain ⟨U, u1, u2, u3⟩ := product_space hA hx.sub hS
  rw [SubSpace.product, o1] at u1
  cases u1
  replace u2 : WfSub A op.output := u2
  replace u3 : ∀ b, b ∈ op.output.blades ↔ ∃ a ∈ x.sub.blades, ∃ c ∈ S.blades, a ^^^ c = b ∧ sgn A a c ≠ 0 := u3
  have ha : (op.cast R).arity = 2 := by
    change op.inputs.length = 2
    rw [o3]; rfl
  have hi : (op.cast R).inputs = [x.sub, S] := o3
  have key : ∀ v : List R, v.length = S.blades.length → ∃ q, (op.cast R).partialApply [(0, x)] = some q ∧ WfOp A q ∧ q.axes = [S, op.output] ∧
      q.eval [v] = op.apply R [x.vals, v] := by
    intro v hv
    obtain ⟨q, q1, q2, q3, q4⟩ := partial_eval (wf_cast R o2) (keys := [0]) (by omega) (by simp) (by simp [ha]) (by simp)
      (fun c => if c = 0 then x else ⟨S, v⟩) (by
        intro c hc
        rw [ha] at hc
        rw [hi]
        have : c = 0 ∨ c = 1 := by omega
        rcases this with rfl | rfl
        · exact hx.len
        · exact hv)
    rw [ha] at q3 q4
    have hf : ((List.range 2).filter fun i => ! [0].contains i) = [1] := by decide
    rw [hf, hi] at q3
    rw [hf] at q4
    exact ⟨q, q1, q2, q3, q4⟩
  obtain ⟨q, q1, q2, q3, -⟩ := key (List.replicate S.blades.length 0) (by simp)
  refine ⟨op, q, o1, q1, u2, u3, fun v hv => ?_⟩
  obtain ⟨q', q1', -, -, q4⟩ := key v hv
  rw [q1] at q1'
  cases q1'
  have hfit : Fits [x.vals, v] op.inputs := by
    rw [o3]
    exact .cons hx.len (.cons hv .nil)
  have hval : denote A R op.output (op.apply R [x.vals, v]) = val A x * denote A R S v := by
    have := o4 R [x.vals, v] hfit ⟨trivial, trivial⟩
    rw [this, o3]
    rfl
  have hshape : q.kernel.shape = [S.blades.length, op.output.blades.length] := by rw [q2.shape, q3]; rfl
  have hlen : (op.apply R [x.vals, v]).length = op.output.blades.length := by
    rw [← q4, Operator.eval, hshape]; simp
  refine ⟨⟨⟨op.output, op.apply R [x.vals, v]⟩, ⟨u2, hlen⟩, rfl, hval⟩, fun i hi => ?_⟩
  rw [← hval, coef_denote_getD u2 hlen hi, ← q4, Operator.eval, hshape]
  have : i < ((List.range ([S.blades.length, op.output.blades.length].getLastD 0)).map (q.evalAt [v])).length := by simpa using hi
  rw [List.getD_eq_getElem _ _ this, List.getElem_map, List.getElem_range, Operator.evalAt, hshape]
  have hidx : allIdx ([S.blades.length, op.output.blades.length].dropLast) = (List.range S.blades.length).map fun j => [j] := by
    simp [allIdx]
    rw [← List.map_eq_flatMap]
  rw [hidx, List.map_map]
  rw [← lsum_range]
  refine congrArg List.sum (List.map_congr_left fun j _ => ?_)
  simp

/-- Sum of a function over the blades of a subspace. -/
theorem sum_space {S : SubSpace} (hS : WfSub A S) {f : Nat → R} (h : ∀ b < 2 ^ A.n, b ∉ S.blades → f b = 0) :
    ∑ b ∈ range (2 ^ A.n), f b = ∑ i ∈ range S.blades.length, f (S.blades.getD i 0) := by
  have e : ∑ b ∈ S.blades.toFinset, f b = ∑ b ∈ range (2 ^ A.n), f b :=
    sum_subset (fun b hb => mem_range.2 (hS.lt b (List.mem_toFinset.1 hb))) fun b hb hn => h b (mem_range.1 hb) (by simpa using hn)
  rw [← e, List.sum_toFinset _ hS.nodup]
  rw [← lsum_range]
  refine congrArg List.sum (List.ext_getElem (by simp) fun i h1 h2 => ?_)
  have : i < S.blades.length := by simpa using h1
  simp [List.getElem?_eq_getElem this]

end Verif
