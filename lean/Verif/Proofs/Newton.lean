import Verif.Model.NumericalNormalize
import Verif.Proofs.SandwichSym
import Verif.Proofs.LeastSquares
import Verif.Proofs.Inverse2
/-! # The Newton step of the sandwich equation -/
namespace Verif
open Model Spec Finset

variable {A : Alg} {R : Type} [CommRing R]

theorem partial_mid {op : Operator R} (h : WfOp A op) {S T U : SubSpace} (hi : op.inputs = [S, T, U]) {x : MV R} (hx : x.vals.length = T.blades.length) :
    ∃ q, op.partialApply [(1, x)] = some q ∧ WfOp A q ∧ q.axes = [S, U, op.output] ∧
      ∀ u v : List R, u.length = S.blades.length → v.length = U.blades.length → q.eval [u, v] = op.eval [u, x.vals, v] := by
  have ha : op.arity = 3 := by rw [Operator.arity, hi]; rfl
  have key : ∀ u v : List R, u.length = S.blades.length → v.length = U.blades.length → ∃ q, op.partialApply [(1, x)] = some q ∧ WfOp A q ∧
      q.axes = [S, U, op.output] ∧ q.eval [u, v] = op.eval [u, x.vals, v] := by
    intro u v hu hv
    obtain ⟨q, q1, q2, q3, q4⟩ := partial_eval h (keys := [1]) (by omega) (by simp) (by simp [ha]) (by simp)
      (fun c => if c = 0 then ⟨S, u⟩ else if c = 1 then x else ⟨U, v⟩) (by
        intro c hc
        rw [ha] at hc
        rw [hi]
        have : c = 0 ∨ c = 1 ∨ c = 2 := by omega
        rcases this with rfl | rfl | rfl
        · exact hu
        · exact hx
        · exact hv)
    have hf : ((List.range 3).filter fun i => ! [1].contains i) = [0, 2] := by decide
    rw [ha, hf] at q3 q4
    rw [hi] at q3
    exact ⟨q, q1, q2, q3, q4⟩
  obtain ⟨q, q1, q2, q3, -⟩ := key (List.replicate S.blades.length 0) (List.replicate U.blades.length 0) (by simp) (by simp)
  refine ⟨q, q1, q2, q3, fun u v hu hv => ?_⟩
  obtain ⟨q', q1', -, -, q4⟩ := key u v hu hv
  rw [q1] at q1'
  cases q1'
  exact q4

theorem partial_first {op : Operator R} (h : WfOp A op) {S U : SubSpace} (hi : op.inputs = [S, U]) {x : MV R} (hx : x.vals.length = S.blades.length) :
    ∃ q, op.partialApply [(0, x)] = some q ∧ WfOp A q ∧ q.axes = [U, op.output] ∧
      ∀ v : List R, v.length = U.blades.length → q.eval [v] = op.eval [x.vals, v] := by
  have ha : op.arity = 2 := by rw [Operator.arity, hi]; rfl
  have key : ∀ v : List R, v.length = U.blades.length → ∃ q, op.partialApply [(0, x)] = some q ∧ WfOp A q ∧
      q.axes = [U, op.output] ∧ q.eval [v] = op.eval [x.vals, v] := by
    intro v hv
    obtain ⟨q, q1, q2, q3, q4⟩ := partial_eval h (keys := [0]) (by omega) (by simp) (by simp [ha]) (by simp)
      (fun c => if c = 0 then x else ⟨U, v⟩) (by
        intro c hc
        rw [ha] at hc
        rw [hi]
        have : c = 0 ∨ c = 1 := by omega
        rcases this with rfl | rfl
        · exact hx
        · exact hv)
    have hf : ((List.range 2).filter fun i => ! [0].contains i) = [1] := by decide
    rw [ha, hf] at q3 q4
    rw [hi] at q3
    exact ⟨q, q1, q2, q3, q4⟩
  obtain ⟨q, q1, q2, q3, -⟩ := key (List.replicate U.blades.length 0) (by simp)
  refine ⟨q, q1, q2, q3, fun v hv => ?_⟩
  obtain ⟨q', q1', -, -, q4⟩ := key v hv
  rw [q1] at q1'
  cases q1'
  exact q4

theorem partial_only {op : Operator R} (h : WfOp A op) {S : SubSpace} (hi : op.inputs = [S]) {x : MV R} (hx : x.vals.length = S.blades.length) :
    ∃ q, op.partialApply [(0, x)] = some q ∧ WfOp A q ∧ q.axes = [op.output] ∧ q.eval [] = op.eval [x.vals] := by
  have ha : op.arity = 1 := by rw [Operator.arity, hi]; rfl
  obtain ⟨q, q1, q2, q3, q4⟩ := partial_eval h (keys := [0]) (by omega) (by simp) (by simp [ha]) (by simp) (fun _ => x) (by
    intro c hc
    rw [ha] at hc
    rw [hi]
    have : c = 0 := by omega
    subst this
    exact hx)
  have hf : ((List.range 1).filter fun i => ! [0].contains i) = [] := by decide
  rw [ha, hf] at q3 q4
  exact ⟨q, q1, q2, q3, q4⟩

theorem eval_one {q : Operator R} (h : WfOp A q) {U O : SubSpace} (hq : q.axes = [U, O]) (v : List R) {i : Nat} (hi : i < O.blades.length) :
    (q.eval [v]).getD i 0 = ∑ j ∈ range U.blades.length, q.kernel.get [j, i] * v.getD j 0 := by
  have hshape : q.kernel.shape = [U.blades.length, O.blades.length] := by rw [h.shape, hq]; rfl
  rw [Operator.eval, hshape]
  have : i < ((List.range ([U.blades.length, O.blades.length].getLastD 0)).map (q.evalAt [v])).length := by simpa using hi
  rw [List.getD_eq_getElem _ _ this, List.getElem_map, List.getElem_range, Operator.evalAt, hshape]
  have hidx : allIdx ([U.blades.length, O.blades.length].dropLast) = (List.range U.blades.length).map fun j => [j] := by
    simp [allIdx]
    rw [← List.map_eq_flatMap]
  rw [hidx, List.map_map]
  rw [← lsum_range]
  refine congrArg List.sum (List.map_congr_left fun j _ => ?_)
  simp

theorem eval_none {q : Operator R} (h : WfOp A q) {O : SubSpace} (hq : q.axes = [O]) {i : Nat} (hi : i < O.blades.length) :
    (q.eval []).getD i 0 = q.kernel.get [i] := by
  have hshape : q.kernel.shape = [O.blades.length] := by rw [h.shape, hq]; rfl
  rw [Operator.eval, hshape]
  have : i < ((List.range ([O.blades.length].getLastD 0)).map (q.evalAt [])).length := by simpa using hi
  rw [List.getD_eq_getElem _ _ this, List.getElem_map, List.getElem_range, Operator.evalAt, hshape]
  simp [allIdx, prodAt]

/-- The kernels of the Newton step: `J` is the matrix of `y ↦ (x s ~y + y s ~x) / 2`. -/
theorem newton_kernels (hA : WfAlg A) {s : MV R} (hs : WfMV A s) {op : Operator Int} (hop : Factory.fullSandwich A (.sub s.sub) (.sub s.sub) = some op)
    (hout : op.output = s.sub) :
    ∃ q, (op.cast R).partialApply [(1, s)] = some q ∧ ∀ x : MV R, WfMV A x → x.sub = s.sub →
      ∃ J l, q.partialApply [(0, x)] = some J ∧ J.partialApply [(0, x)] = some l ∧ J.kernel.shape = [s.sub.blades.length, s.sub.blades.length] ∧
        (∀ y : MV R, WfMV A y → y.sub = s.sub → Within A s.sub (val A x * val A s * CliffordAlgebra.reverse (val A y) + val A y * val A s * CliffordAlgebra.reverse (val A x)) ∧
          ∀ i < s.sub.blades.length, 2 * ∑ j ∈ range s.sub.blades.length, J.kernel.get [j, i] * y.vals.getD j 0 =
            coef A R (s.sub.blades.getD i 0) (val A x * val A s * CliffordAlgebra.reverse (val A y) + val A y * val A s * CliffordAlgebra.reverse (val A x))) ∧
        ∀ i < s.sub.blades.length, l.kernel.get [i] = ∑ j ∈ range s.sub.blades.length, J.kernel.get [j, i] * x.vals.getD j 0 := by
  obtain ⟨op', o1, o2, o3, o4⟩ := fullSandwich_polar hA hs.sub hs.sub
  rw [hop] at o1
  cases o1
  have wc := wf_cast R o2
  obtain ⟨q, q1, q2, q3, q4⟩ := partial_mid wc (S := s.sub) (T := s.sub) (U := s.sub) o3 hs.len
  have hco : (op.cast R).output = s.sub := hout
  rw [hco] at q3
  have qi : q.inputs = [s.sub, s.sub] := by rw [Operator.inputs, q3]; rfl
  have qo : q.output = s.sub := by rw [Operator.output, q3]; rfl
  refine ⟨q, q1, fun x hx hxs => ?_⟩
  obtain ⟨J, j1, j2, j3, j4⟩ := partial_first q2 qi (x := x) (by rw [hx.len, hxs])
  rw [qo] at j3
  have ji : J.inputs = [s.sub] := by rw [Operator.inputs, j3]; rfl
  have jo : J.output = s.sub := by rw [Operator.output, j3]; rfl
  obtain ⟨l, l1, l2, l3, l4⟩ := partial_only j2 ji (x := x) (by rw [hx.len, hxs])
  rw [jo] at l3
  have hxl : x.vals.length = s.sub.blades.length := by rw [hx.len, hxs]
  refine ⟨J, l, j1, l1, by rw [j2.shape, j3]; rfl, fun y hy hys => ?_, fun i hi => ?_⟩
  · have hyl : y.vals.length = s.sub.blades.length := by rw [hy.len, hys]
    have e := o4 R x.vals s.vals y.vals hxl hs.len hyl
    have vx : denote A R s.sub x.vals = val A x := by rw [Spec.val, hxs]
    have vy : denote A R s.sub y.vals = val A y := by rw [Spec.val, hys]
    have vs : denote A R s.sub s.vals = val A s := rfl
    rw [vx, vy, vs, hout] at e
    have hl : (op.apply R [x.vals, s.vals, y.vals]).length = s.sub.blades.length := by rw [apply_length R o2, hout]
    have ev : op.apply R [x.vals, s.vals, y.vals] = J.eval [y.vals] := by
      rw [j4 _ hyl, q4 _ _ hxl hyl]; rfl
    constructor
    · rw [within_iff hs.sub]
      intro b hb hn
      rw [← e, map_smul]
      have : coef A R b (denote A R s.sub (op.apply R [x.vals, s.vals, y.vals])) = 0 := by
        have := coeff_notMem (x := (⟨s.sub, op.apply R [x.vals, s.vals, y.vals]⟩ : MV R)) hn
        rwa [coeff_eq (A := A) (x := (⟨s.sub, op.apply R [x.vals, s.vals, y.vals]⟩ : MV R)) ⟨hs.sub, hl⟩] at this
      rw [this, smul_zero]
    · intro i hi
      rw [← e, map_smul, coef_denote_getD hs.sub hl hi, ev, eval_one j2 j3 _ hi, smul_eq_mul]
  · rw [← eval_none l2 l3 hi, l4, eval_one j2 j3 _ hi]

section
variable {F : Type} [Field F] [LinearOrder F] [IsStrictOrderedRing F]

theorem transpose_kernel {n : Nat} {K : Nat → Nat → F} (h : ∃ v : List F, v.length = n ∧ (∃ j < n, v.getD j 0 ≠ 0) ∧ ∀ i < n, ∑ j ∈ range n, K i j * v.getD j 0 = 0) :
    ∃ v : List F, v.length = n ∧ (∃ j < n, v.getD j 0 ≠ 0) ∧ ∀ i < n, ∑ j ∈ range n, K j i * v.getD j 0 = 0 := by
  rw [← linalgSolve_none (b := fun _ => 0)] at h ⊢
  simp only [linalgSolve] at h ⊢
  have e : (Matrix.of fun (i j : Fin n) => K j i).det = (Matrix.of fun (i j : Fin n) => K i j).det := by
    rw [← Matrix.det_transpose]; rfl
  split at h
  · rename_i hd
    rw [if_pos]
    exact e.trans hd
  · cases h

theorem solveNewton_none {J : Tensor F} {n : Nat} (hJ : J.shape = [n, n]) {r : List F} (hr : r.length = n) :
    solveNewtonDirect J r = none ↔ ∃ y : List F, y.length = n ∧ (∃ j < n, y.getD j 0 ≠ 0) ∧ ∀ i < n, ∑ j ∈ range n, J.get [j, i] * y.getD j 0 = 0 := by
  have e : solveNewtonDirect J r = none ↔ linalgSolve n (fun i k => ((List.range n).map fun j => J.get [j, i] * J.get [j, k]).sum) (fun i => r.getD i 0) = none := by
    simp only [solveNewtonDirect, hJ, hr, if_true]
    cases linalgSolve n (fun i k => ((List.range n).map fun j => J.get [j, i] * J.get [j, k]).sum) (fun i => r.getD i 0) <;> simp
  rw [e, linalgSolve_none]
  simp only [lsum_range]
  constructor
  · rintro ⟨v, v1, v2, v3⟩
    refine transpose_kernel (K := fun i j => J.get [i, j]) ⟨v, v1, v2, fun i hi => ?_⟩
    exact gram_kernel (m := n) (N := n) (K := fun j i => J.get [i, j]) (v := fun l => v.getD l 0) v3 hi
  · intro h
    obtain ⟨v, v1, v2, v3⟩ := transpose_kernel (K := fun i j => J.get [j, i]) h
    refine ⟨v, v1, v2, fun i _ => ?_⟩
    simp only [sum_mul]
    rw [sum_comm]
    refine sum_eq_zero fun j hj => ?_
    have := v3 j (mem_range.1 hj)
    calc ∑ k ∈ range n, J.get [j, i] * J.get [j, k] * v.getD k 0 = J.get [j, i] * ∑ k ∈ range n, J.get [j, k] * v.getD k 0 := by
          rw [mul_sum]; exact sum_congr rfl fun _ _ => by ring
      _ = 0 := by rw [this, mul_zero]

theorem solveNewton_some {J : Tensor F} {n : Nat} (hJ : J.shape = [n, n]) {r d : List F} (hr : r.length = n) (h : solveNewtonDirect J r = some d) :
    d.length = n ∧ ∀ i < n, ∑ j ∈ range n, J.get [j, i] * d.getD j 0 = r.getD i 0 := by
  simp only [solveNewtonDirect, hJ, hr, if_true] at h
  cases hc : linalgSolve n (fun i k => ((List.range n).map fun j => J.get [j, i] * J.get [j, k]).sum) (fun i => r.getD i 0) with
  | none => rw [hc] at h; cases h
  | some c =>
    rw [hc] at h
    obtain ⟨-, c2⟩ := linalgSolve_some hc
    simp only [lsum_range] at c2
    simp only [Option.bind_eq_bind, Option.bind_some, Option.some.injEq] at h
    subst h
    refine ⟨by simp, fun i hi => ?_⟩
    rw [← c2 i hi]
    simp only [sum_mul]
    rw [sum_comm]
    refine sum_congr rfl fun j hj => ?_
    rw [List.getD_eq_getElem _ _ (by simpa using mem_range.1 hj), List.getElem_map, List.getElem_range, lsum_range, mul_sum]
    exact sum_congr rfl fun _ _ => by ring

theorem exists_idx {l : List Nat} {b : Nat} (h : b ∈ l) : ∃ i < l.length, l.getD i 0 = b := by
  obtain ⟨i, hi, e⟩ := List.mem_iff_getElem.1 h
  exact ⟨i, hi, by rw [getD_lt _ _ hi, e]⟩

/-- One Newton step: it fails exactly if the derivative of `x s ~x` is singular, and otherwise solves the linearised equation. -/
theorem newton_step (hA : WfAlg A) {s : MV F} (hs : WfMV A s) {op : Operator Int} (hop : Factory.fullSandwich A (.sub s.sub) (.sub s.sub) = some op)
    (hout : op.output = s.sub) :
    ∃ q, (op.cast F).partialApply [(1, s)] = some q ∧ ∀ x rhs : MV F, WfMV A x → x.sub = s.sub → WfMV A rhs → rhs.sub = s.sub →
      (newtonStep A q s.sub rhs x = none ↔ ∃ y : MV F, WfMV A y ∧ y.sub = s.sub ∧ Spec.val A y ≠ 0 ∧
        Spec.val A x * Spec.val A s * CliffordAlgebra.reverse (Spec.val A y) + Spec.val A y * Spec.val A s * CliffordAlgebra.reverse (Spec.val A x) = 0) ∧
      ∀ x', newtonStep A q s.sub rhs x = some x' → WfMV A x' ∧ x'.sub = s.sub ∧
        Spec.val A x * Spec.val A s * CliffordAlgebra.reverse (Spec.val A x') + Spec.val A x' * Spec.val A s * CliffordAlgebra.reverse (Spec.val A x) =
          Spec.val A x * Spec.val A s * CliffordAlgebra.reverse (Spec.val A x) + Spec.val A rhs := by
  obtain ⟨q, q1, q2⟩ := newton_kernels (R := F) hA hs hop hout
  refine ⟨q, q1, fun x rhs hx hxs hr hrs => ?_⟩
  obtain ⟨J, l, j1, l1, j2, j3, l2⟩ := q2 x hx hxs
  obtain ⟨n, hn⟩ : ∃ n, n = s.sub.blades.length := ⟨_, rfl⟩
  rw [← hn] at j2 j3 l2
  obtain ⟨r, hrr⟩ : ∃ r, r = (List.range n).map fun i => l.kernel.get [i] - rhs.vals.getD i 0 := ⟨_, rfl⟩
  have rl : r.length = n := by simp [hrr]
  have rg : ∀ i < n, r.getD i 0 = l.kernel.get [i] - rhs.vals.getD i 0 := by
    intro i hi
    rw [hrr, List.getD_eq_getElem _ _ (by simpa using hi), List.getElem_map, List.getElem_range]
  have e1 : newtonStep A q s.sub rhs x = (solveNewtonDirect J.kernel r).bind fun d => x.add A (.mv ⟨s.sub, d.map fun a => -a / 2⟩) := by
    rw [newtonStep, j1]
    simp only [Option.bind_eq_bind, Option.bind_some]
    rw [l1]
    simp only [Option.bind_some]
    rw [← hn, ← hrr]
    cases hd : solveNewtonDirect J.kernel r with
    | none => rfl
    | some d =>
      simp only [Option.bind_some, MVFactory.multivector]
      have : MV.construct (d.map fun a => -a / 2) s.sub = some ⟨s.sub, d.map fun a => -a / 2⟩ := by
        rw [MV.construct, if_pos]
        rw [List.length_map, (solveNewton_some j2 rl hd).1, hn]
      show ((MV.construct (d.map fun a => -a / 2) s.sub).bind _) = _
      rw [this]
      rfl
  have hadd : ∀ d : List F, d.length = n → ∃ x', x.add A (.mv ⟨s.sub, d.map fun a => -a / 2⟩) = some x' ∧ WfMV A x' ∧ x'.sub = s.sub ∧
      Spec.val A x' = Spec.val A x - (2 : F)⁻¹ • denote A F s.sub d := by
    intro d hd
    have wd : WfMV A (⟨s.sub, d.map fun a => -a / 2⟩ : MV F) := ⟨hs.sub, by simp [hd, hn]⟩
    have wd' : Spec.val A (⟨s.sub, d.map fun a => -a / 2⟩ : MV F) = - ((2 : F)⁻¹ • denote A F s.sub d) := by
      have : (d.map fun a => -a / 2) = (d.map (- ·)).map (· / 2) := by simp [List.map_map, Function.comp_def]
      rw [Spec.val, this, denote_div, denote_neg, smul_neg]
    refine ⟨⟨s.sub, List.zipWith (fun a b => a + b * 1) x.vals (d.map fun a => -a / 2)⟩, ?_, ⟨hs.sub, ?_⟩, rfl, ?_⟩
    · rw [MV.add, MV.upcast]
      simp only [Option.bind_eq_bind, Option.bind_some]
      rw [MV.combine, if_pos hxs, MV.copy, MV.construct, if_pos, hxs]
      simp [hx.len, hxs, hd, hn]
    · simp [hx.len, hxs, hd, hn]
    · rw [Spec.val, denote_linear (by rw [hx.len, hxs]) (by simp [hd, hn]), one_smul, sub_eq_add_neg, ← wd', Spec.val, Spec.val, hxs]
  constructor
  · have e2 : newtonStep A q s.sub rhs x = none ↔ solveNewtonDirect J.kernel r = none := by
      rw [e1]
      cases hd : solveNewtonDirect J.kernel r with
      | none => simp
      | some d =>
        obtain ⟨x', x1, -⟩ := hadd d (solveNewton_some j2 rl hd).1
        rw [Option.bind_some, x1]
        simp
    rw [e2, solveNewton_none j2 rl]
    constructor
    · rintro ⟨y, y1, ⟨j, hj, hy⟩, y3⟩
      have wy : WfMV A (⟨s.sub, y⟩ : MV F) := ⟨hs.sub, by rw [y1, hn]⟩
      obtain ⟨b1, b2⟩ := j3 ⟨s.sub, y⟩ wy rfl
      refine ⟨⟨s.sub, y⟩, wy, rfl, fun h0 => hy ?_, ?_⟩
      · have := coef_denote_getD hs.sub wy.len (hn ▸ hj)
        rw [← this]
        exact (congrArg _ h0).trans (map_zero _)
      · refine ext_coef A F fun b hb => ?_
        rw [map_zero]
        by_cases hm : b ∈ s.sub.blades
        · obtain ⟨i, hi, e⟩ := List.mem_iff_getElem.1 hm
          have := b2 i (hn ▸ hi)
          rw [y3 i (hn ▸ hi), mul_zero, getD_lt _ _ hi, e] at this
          exact this.symm
        · exact (within_iff hs.sub).1 b1 b hb hm
    · rintro ⟨y, wy, ys, y0, y1⟩
      obtain ⟨b1, b2⟩ := j3 y wy ys
      have yl : y.vals.length = n := by rw [wy.len, ys, hn]
      refine ⟨y.vals, yl, ?_, fun i hi => ?_⟩
      · by_contra hc
        push Not at hc
        apply y0
        rw [Spec.val, denote_eq_sum A F wy.len]
        refine sum_eq_zero fun i hi => ?_
        rw [hc i (by rw [hn, ← ys]; exact mem_range.1 hi), zero_smul]
      · have := b2 i hi
        rw [y1, map_zero] at this
        exact (mul_eq_zero.1 this).resolve_left two_ne_zero
  · intro x' hx'
    rw [e1] at hx'
    cases hd : solveNewtonDirect J.kernel r with
    | none => rw [hd] at hx'; cases hx'
    | some d =>
      rw [hd, Option.bind_some] at hx'
      obtain ⟨d1, d2⟩ := solveNewton_some j2 rl hd
      obtain ⟨x'', x1, x2, x3, x4⟩ := hadd d d1
      rw [x1] at hx'
      cases hx'
      refine ⟨x2, x3, ?_⟩
      have wd : WfMV A (⟨s.sub, d⟩ : MV F) := ⟨hs.sub, by rw [d1, hn]⟩
      obtain ⟨b1, b2⟩ := j3 ⟨s.sub, d⟩ wd rfl
      obtain ⟨a1, a2⟩ := j3 x hx hxs
      have vd : Spec.val A (⟨s.sub, d⟩ : MV F) = denote A F s.sub d := rfl
      rw [vd] at b1 b2
      obtain ⟨D, hD⟩ : ∃ D, D = denote A F s.sub d := ⟨_, rfl⟩
      rw [← hD] at b1 b2 x4
      have key : Spec.val A x * Spec.val A s * CliffordAlgebra.reverse D + D * Spec.val A s * CliffordAlgebra.reverse (Spec.val A x) =
          (2 : F) • (Spec.val A x * Spec.val A s * CliffordAlgebra.reverse (Spec.val A x) - Spec.val A rhs) := by
        have c1 := (within_iff hs.sub).1 b1
        have c2 := (within_iff hs.sub).1 a1
        have c3 := (within_iff hs.sub).1 (hrs ▸ hr.within)
        refine ext_coef A F fun b hb => ?_
        by_cases hm : b ∈ s.sub.blades
        · obtain ⟨i, hi, rfl⟩ := exists_idx hm
          have hi' : i < n := hn ▸ hi
          have hrv : coef A F (s.sub.blades.getD i 0) (Spec.val A rhs) = rhs.vals.getD i 0 := by
            rw [Spec.val, hrs, coef_denote_getD hs.sub (by rw [hr.len, hrs]) hi]
          have a3 := a2 i hi'
          rw [← b2 i hi', d2 i hi', rg i hi', l2 i hi', map_smul, map_sub, hrv, smul_eq_mul]
          rw [map_add] at a3
          linear_combination a3
        · have h1 := c1 b hb hm
          have h2 := c2 b hb hm
          have h3 := c3 b hb hm
          rw [map_add] at h2
          rw [h1, map_smul, map_sub, h3, smul_eq_mul]
          linear_combination -h2
      rw [x4, map_sub, map_smul]
      simp only [mul_sub, sub_mul, smul_mul_assoc, mul_smul_comm]
      rw [sub_add_sub_comm, ← smul_add, key, smul_smul, inv_mul_cancel₀ two_ne_zero, one_smul]
      abel

end

end Verif
