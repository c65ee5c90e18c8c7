import Verif.Proofs.Backend
import Verif.Proofs.Outputs
import Verif.Props.Slice
/-! # Properties C40 – C43 and C62: execution strategies, partial application, multilinearity, batches -/
namespace Verif.Props
open Model Spec
variable {R : Type} [CommRing R]

theorem contract_eq (xs : List (List R)) (k : List Nat → R) : sumIdx (xs.map (·.length)) (fun idx => k idx * prodAt xs idx) = contract xs k := by
  induction xs generalizing k with
  | nil => simp [sumIdx, allIdx, contract]
  | cons x xs ih =>
    rw [List.map_cons, sumIdx_cons, contract]
    refine Finset.sum_congr rfl fun i _ => ?_
    rw [← ih, ← sumIdx_mul_left]
    refine sumIdx_congr fun idx _ => ?_
    rw [prodAt_cons]
    ring

theorem call_eq_construct {A : Alg} {op : Operator Int} (h : WfOp A op) {args : List (MV R)}
    (hx : args.map (·.vals.length) = op.inputs.map (·.blades.length)) :
    MV.call (some op) args = some ⟨op.output, op.apply R (args.map (·.vals))⟩ := by
  rw [MV.call, Option.bind_eq_bind, Option.bind_some, if_pos hx.symm, MV.construct, if_pos (apply_length R h _)]

/-! ## C40 -/

/-- C40: called with arrays that fit its inputs, an operator gives the same multivector with each execution strategy:
einsum (numpy, jax, torch), unrolled over the nonzero kernel entries (numpy; jax and torch), and dense broadcasting
(jax, torch).  Its components are the contractions of the kernel with the inputs. -/
theorem C40_agree {A : Alg} {op : Operator Int} (h : WfOp A op) (h1 : 1 ≤ op.arity) (h2 : op.arity ≤ 25) {args : List (MV R)}
    (hx : args.map (·.vals.length) = op.inputs.map (·.blades.length)) :
    ∃ z, einsumCallMV (op.cast R) args = some z ∧ numpySparseCall op args = some z ∧ sparseCall op args = some z ∧
      denseCall (op.cast R) args = some z ∧ MV.call (some op) args = some z ∧ WfMV A z ∧ z.sub = op.output ∧
      ∀ o < op.output.blades.length, z.vals.getD o 0 = contract (args.map (·.vals)) fun idx => ((op.kernel.get (idx ++ [o]) : Int) : R) := by
  have hx' : (args.map (·.vals)).map (·.length) = op.inputs.map (·.blades.length) := by rw [List.map_map]; exact hx
  have hl : (args.map (·.vals)).length = op.arity := by simpa [Operator.arity] using congrArg List.length hx'
  have hcon : MV.construct (op.apply R (args.map (·.vals))) op.output = some ⟨op.output, op.apply R (args.map (·.vals))⟩ := by
    rw [MV.construct, if_pos (apply_length R h _)]
  refine ⟨⟨op.output, op.apply R (args.map (·.vals))⟩, ?_, ?_, ?_, ?_, call_eq_construct h hx, ⟨h.wf_output, apply_length R h _⟩, rfl, fun o ho => ?_⟩
  · rw [einsumCallMV, einsumCall_eq (wf_cast R h) h1 h2 hx', Option.bind_eq_bind, Option.bind_some]
    exact hcon
  · rw [numpySparseCall, sparse_fill_zero h hx' fun idx s hv => termProdEinsum_eq hv hl s, Option.bind_eq_bind, Option.bind_some, hcon]
  · rw [sparseCall, sparse_fill_zero h hx' fun idx s hv => termProd_eq hv s, Option.bind_eq_bind, Option.bind_some, hcon]
  · obtain ⟨t, t1, t2, t3⟩ := dense_fold (wf_cast R h) hx'
    rw [denseCall, t1, Option.bind_eq_bind, Option.bind_some, ← hcon]
    change MV.construct _ op.output = _
    congr 1
    rw [Operator.apply, Operator.eval, t2]
    apply List.map_congr_left
    intro o ho
    rw [evalAt_eq]
    refine sumIdx_congr fun idx hidx => t3 idx o ?_
    rw [(wf_cast R h).shape_out] at ho
    rw [(wf_cast R h).shape_in] at hidx
    rw [(wf_cast R h).shape_eq]
    exact hidx.append (.cons (List.mem_range.1 ho) .nil)
  · simp only
    rw [Operator.apply, eval_getD (wf_cast R h) _ (o := o) ho, evalAt_eq, (wf_cast R h).shape_in]
    change sumIdx (op.inputs.map (·.blades.length)) _ = _
    rw [← hx', ← contract_eq]
    rfl

/-- C40: a kernel without inputs cannot be executed by einsum: the expression then has a superfluous empty term. -/
theorem C40_nullary {op : Operator R} (h : op.arity = 0) (xs : List (List R)) (hx : xs = []) : einsumCall op xs = none := by
  subst hx
  simp [einsumCall, precomputeEinsumPartial, h, einsum]

/-- Product of two vectors of `pga3`. -/
def exOp : Operator Int := (Factory.product pga3 (.sub ⟨[1, 2, 4, 8]⟩) (.sub ⟨[1, 2, 4, 8]⟩)).getD exF

theorem exOp_eq : Factory.product pga3 (.sub ⟨[1, 2, 4, 8]⟩) (.sub ⟨[1, 2, 4, 8]⟩) = some exOp := by
  obtain ⟨op, h, -⟩ := product_bin wf_pga3 (argSem_sub wf_exV.sub) (argSem_sub wf_exV.sub)
  have h' : Factory.product pga3 (.sub ⟨[1, 2, 4, 8]⟩) (.sub ⟨[1, 2, 4, 8]⟩) = some op := h
  rw [exOp, h']; rfl

theorem wf_exOp : WfOp pga3 exOp ∧ exOp.inputs = [⟨[1, 2, 4, 8]⟩, ⟨[1, 2, 4, 8]⟩] := by
  obtain ⟨op, h, h2, h3, -⟩ := product_bin wf_pga3 (argSem_sub wf_exV.sub) (argSem_sub wf_exV.sub)
  have h' : Factory.product pga3 (.sub ⟨[1, 2, 4, 8]⟩) (.sub ⟨[1, 2, 4, 8]⟩) = some op := h
  cases exOp_eq.symm.trans h'
  exact ⟨h2, h3⟩

example : ∃ z, einsumCallMV (exOp.cast ℤ) [exV, exV] = some z ∧ numpySparseCall exOp [exV, exV] = some z ∧ denseCall (exOp.cast ℤ) [exV, exV] = some z := by
  obtain ⟨z, h1, h2, -, h3, -⟩ := C40_agree (R := ℤ) wf_exOp.1 (by simp [Operator.arity, wf_exOp.2]) (by simp [Operator.arity, wf_exOp.2])
    (args := [exV, exV]) (by rw [wf_exOp.2]; rfl)
  exact ⟨z, h1, h2, h3⟩

/-- C40: with an argument missing the strategies differ: numpy raises, but the unrolled jax and torch loops silently leave
out the missing factor.  Witness: `(s, x) ↦ 2 * s * x_1` called with one argument. -/
theorem C40_missing_argument : numpySparseCall exG [(⟨⟨[0]⟩, [5]⟩ : MV ℤ)] = none ∧ einsumCallMV (exG.cast ℤ) [(⟨⟨[0]⟩, [5]⟩ : MV ℤ)] = none ∧
    sparseCall exG [(⟨⟨[0]⟩, [5]⟩ : MV ℤ)] = some ⟨⟨[0]⟩, [10]⟩ := by
  decide +kernel

/-! ## C41 -/

/-- C41: the python backend computes the same as the others, except that the scalar component of the result is one where it
is part of the output but no kernel entry contributes to it. -/
theorem C41_python {A : Alg} {op : Operator Int} (h : WfOp A op) {args : List (MV R)}
    (hx : args.map (·.vals.length) = op.inputs.map (·.blades.length)) :
    ∃ z w, pythonSparseCall op args = some z ∧ MV.call (some op) args = some w ∧ z.sub = w.sub ∧
      ∀ b, coeff z b = if b = 0 ∧ 0 ∈ op.output.blades ∧ (∀ idx ∈ allIdx op.kernel.shape.dropLast, op.kernel.get (idx ++ [op.output.blades.idxOf 0]) = 0)
        then 1 else coeff w b := by
  have hx' : (args.map (·.vals)).map (·.length) = op.inputs.map (·.blades.length) := by rw [List.map_map]; exact hx
  obtain ⟨out, o1, o2, o3, o4⟩ := sparse_fill h hx' (fun idx s hv => termProd_eq hv s) (MV.default op.output : MV R).vals (by simp [MV.default])
  have hw := call_eq_construct (R := R) h hx
  have hz' : WfMV A (⟨op.output, out⟩ : MV R) := ⟨h.wf_output, o2⟩
  have hw' : WfMV A (⟨op.output, op.apply R (args.map (·.vals))⟩ : MV R) := ⟨h.wf_output, apply_length R h _⟩
  refine ⟨⟨op.output, out⟩, _, ?_, hw, rfl, fun b => ?_⟩
  · rw [pythonSparseCall, o1, Option.bind_eq_bind, Option.bind_some, MV.construct, if_pos o2]
  · by_cases hb : b ∈ op.output.blades
    · have ho := List.idxOf_lt_length_of_mem hb
      rw [coeff_idxOf hz' hb, coeff_idxOf hw' hb]
      simp only
      rw [Operator.apply, eval_getD (wf_cast R h) _ (o := op.output.blades.idxOf b) ho]
      by_cases hr : RowWritten op (op.output.blades.idxOf b)
      · rw [o3 _ ho hr, if_neg]
        rintro ⟨rfl, -, h0⟩
        obtain ⟨idx, hv, hne⟩ := hr
        exact hne (h0 idx ((mem_allIdx _ _).2 hv))
      · rw [o4 _ ho hr, evalAt_unwritten hr, getD_lt _ _ (by simpa [MV.default] using ho)]
        simp only [MV.default, List.getElem_map, List.getElem_idxOf]
        by_cases h0 : b = 0
        · subst h0
          rw [if_pos rfl, if_pos ⟨rfl, hb, fun idx hm => by_contra fun hne => hr ⟨idx, (mem_allIdx _ _).1 hm, hne⟩⟩]
        · rw [if_neg h0, if_neg fun h => h0 h.1]
    · rw [coeff_notMem (x := ⟨op.output, out⟩) hb, coeff_notMem (x := ⟨op.output, op.apply R (args.map (·.vals))⟩) hb, if_neg]
      rintro ⟨rfl, hb', -⟩
      exact hb hb'

/-- C41: so they agree exactly if the scalar is not part of the output, or some kernel entry contributes to it. -/
theorem C41_agree_iff [Nontrivial R] {A : Alg} {op : Operator Int} (h : WfOp A op) {args : List (MV R)}
    (hx : args.map (·.vals.length) = op.inputs.map (·.blades.length)) :
    pythonSparseCall op args = MV.call (some op) args ↔
      (0 ∈ op.output.blades → ∃ idx ∈ allIdx op.kernel.shape.dropLast, op.kernel.get (idx ++ [op.output.blades.idxOf 0]) ≠ 0) := by
  obtain ⟨z, w, h1, h2, h3, h4⟩ := C41_python (R := R) h hx
  have hx' : (args.map (·.vals)).map (·.length) = op.inputs.map (·.blades.length) := by rw [List.map_map]; exact hx
  have hw2 := call_eq_construct (R := R) h hx
  rw [h2] at hw2
  cases hw2
  have hw' : WfMV A (⟨op.output, op.apply R (args.map (·.vals))⟩ : MV R) := ⟨h.wf_output, apply_length R h _⟩
  constructor
  · intro he hs
    rw [h1, h2] at he
    cases he
    by_contra hc
    have hn : ¬ RowWritten op (op.output.blades.idxOf 0) := fun ⟨idx, hv, hne⟩ => hc ⟨idx, (mem_allIdx _ _).2 hv, hne⟩
    have := h4 0
    rw [if_pos ⟨rfl, hs, fun idx hm => by_contra fun hne => hc ⟨idx, hm, hne⟩⟩, coeff_idxOf hw' hs] at this
    simp only at this
    rw [Operator.apply, eval_getD (wf_cast R h) _ (o := op.output.blades.idxOf 0) (List.idxOf_lt_length_of_mem hs), evalAt_unwritten hn] at this
    exact zero_ne_one this
  · intro hs
    have hz : WfMV A z := by
      obtain ⟨out, o1, o2, -⟩ := sparse_fill (R := R) h hx' (fun idx s hv => termProd_eq hv s) (MV.default op.output : MV R).vals (by simp [MV.default])
      rw [pythonSparseCall, o1, Option.bind_eq_bind, Option.bind_some, MV.construct, if_pos o2] at h1
      cases h1
      exact ⟨h.wf_output, o2⟩
    rw [h1, h2]
    congr 1
    refine MV.ext_val hz hw' h3 (ext_coef A R fun b _ => ?_)
    rw [← coeff_eq hz, ← coeff_eq hw', h4, if_neg]
    rintro ⟨-, h0, hc⟩
    obtain ⟨idx, hm, hne⟩ := hs h0
    exact hne (hc idx hm)

/-- C41: witness of the disagreement: selecting the scalar part of a vector gives one with the python backend. -/
theorem C41_disagree : (do pythonSparseCall (← Factory.select pga3 (.sub exV.sub) ⟨[0]⟩) [exV]) = some ⟨⟨[0]⟩, [1]⟩ ∧
    (do numpySparseCall (← Factory.select pga3 (.sub exV.sub) ⟨[0]⟩) [exV]) = some (⟨⟨[0]⟩, [0]⟩ : MV ℤ) ∧
    exV.selectSubspace pga3 ⟨[0]⟩ = some ⟨⟨[0]⟩, [0]⟩ := by
  decide +kernel

/-! ## C42 -/

/-- C42: binding the arguments at any positions `keys` (a nonempty dict, in any order), then calling with the other arguments
in order, is calling with all arguments.  When all positions are bound, the result cannot be called any more. -/
theorem C42_partial {A : Alg} {op : Operator R} (h : WfOp A op) (h2 : op.arity ≤ 25) {keys : List Nat} (hn : keys.Nodup) (hlt : ∀ c ∈ keys, c < op.arity)
    (hne : keys ≠ []) {args : List (MV R)} (hx : args.map (·.vals.length) = op.inputs.map (·.blades.length)) :
    ∃ q, op.partialApply (keys.map fun c => (c, args.getD c ⟨⟨[]⟩, []⟩)) = some q ∧ WfOp A q ∧ q.output = op.output ∧
      q.inputs = ((List.range op.arity).filter (· ∉ keys)).map (fun i => op.inputs.getD i ⟨[]⟩) ∧
      (keys.length < op.arity → einsumCallMV q (((List.range op.arity).filter (· ∉ keys)).map fun i => args.getD i ⟨⟨[]⟩, []⟩) = einsumCallMV op args) ∧
      (keys.length = op.arity → einsumCallMV q [] = none) := by
  have hf : ((List.range op.arity).filter fun i => ! keys.contains i) = (List.range op.arity).filter (· ∉ keys) := by
    apply List.filter_congr
    intro c _
    by_cases hc : c ∈ keys <;> simp [hc]
  have hal : args.length = op.arity := by simpa [Operator.arity] using congrArg List.length hx
  have hxi : ∀ c < op.arity, (args.getD c ⟨⟨[]⟩, []⟩).vals.length = (op.inputs.getD c ⟨[]⟩).blades.length := by
    intro c hc
    rw [getD_lt _ _ (by omega), getD_lt _ _ hc]
    have : (args.map (·.vals.length))[c]'(by simp; omega) = (op.inputs.map (·.blades.length))[c]'(by rw [List.length_map]; exact hc) := by simp only [hx]
    rw [List.getElem_map, List.getElem_map] at this
    exact this
  obtain ⟨q, q1, q2, q3, q4⟩ := partial_eval h h2 hn hlt hne (fun c => args.getD c ⟨⟨[]⟩, []⟩) hxi
  rw [hf] at q3 q4
  have hqo : q.output = op.output := by rw [Operator.output, q3]; simp
  have hqi : q.inputs = ((List.range op.arity).filter (· ∉ keys)).map (fun i => op.inputs.getD i ⟨[]⟩) := by rw [Operator.inputs, q3]; simp
  have hqa : q.arity + keys.length = op.arity := by
    rw [Operator.arity, hqi, List.length_map]
    have hp : ((List.range op.arity).filter (· ∈ keys)).Perm keys := by
      rw [List.perm_ext_iff_of_nodup (List.nodup_range.filter _) hn]
      intro c
      simp only [List.mem_filter, List.mem_range, decide_eq_true_eq]
      exact ⟨fun h => h.2, fun h => ⟨hlt c h, h⟩⟩
    have := List.length_eq_length_filter_add (l := List.range op.arity) (fun c => decide (c ∈ keys))
    rw [List.length_range, hp.length_eq] at this
    have e : ((List.range op.arity).filter fun c => ! decide (c ∈ keys)) = (List.range op.arity).filter (· ∉ keys) := by
      apply List.filter_congr; intro c _; simp
    rw [e] at this
    omega
  refine ⟨q, q1, q2, hqo, hqi, fun hk => ?_, fun hk => ?_⟩
  · have hargs : (List.range op.arity).map (fun c => (args.getD c ⟨⟨[]⟩, []⟩).vals) = args.map (·.vals) := by
      conv_rhs => rw [← map_getD_range args ⟨⟨[]⟩, []⟩]
      rw [hal, List.map_map]; rfl
    rw [hargs] at q4
    rw [einsumCallMV, einsumCallMV, einsumCall_eq h (by omega) h2 (by rw [List.map_map]; exact hx), List.map_map, ]
    change (do MV.construct (← einsumCall q (((List.range op.arity).filter (· ∉ keys)).map fun i => (args.getD i ⟨⟨[]⟩, []⟩).vals)) q.output) = _
    rw [einsumCall_eq q2 (by omega) (by omega), q4, hqo]
    rw [hqi, List.map_map, List.map_map]
    apply List.map_congr_left
    intro c hc
    exact hxi c (List.mem_range.1 (List.mem_filter.1 hc).1)
  · rw [einsumCallMV, List.map_nil, C40_nullary (by omega) _ rfl]
    rfl

/-- C42: calling an operator with subspaces in place of some arguments binds the others, at their positions.  (The subspaces
only mark the positions: which ones are given does not matter.) -/
theorem C42_mixed {A : Alg} {op : Operator R} (h : WfOp A op) (h2 : op.arity ≤ 25) (S : Nat → SubSpace) (p : Nat → Bool)
    {args : List (MV R)} (hx : args.map (·.vals.length) = op.inputs.map (·.blades.length))
    (hp : ∃ i < op.arity, p i = true) (hp' : ∃ i < op.arity, p i = false) :
    ∃ q, op.callMixed (args.mapIdx fun i x => if p i then .inl (S i) else .inr x) = some (.inl q) ∧
      einsumCallMV q (((List.range op.arity).filter p).map fun i => args.getD i ⟨⟨[]⟩, []⟩) = einsumCallMV op args := by
  have hal : args.length = op.arity := by simpa [Operator.arity] using congrArg List.length hx
  obtain ⟨i, hi, hpi⟩ := hp
  obtain ⟨j, hj, hpj⟩ := hp'
  have hkeys : ((List.range op.arity).filter fun i => ! p i).Nodup := List.nodup_range.filter _
  obtain ⟨q, q1, -, -, -, q2, -⟩ := C42_partial h h2 (keys := (List.range op.arity).filter fun i => ! p i) hkeys
    (fun c hc => List.mem_range.1 (List.mem_filter.1 hc).1)
    (List.ne_nil_of_mem (List.mem_filter.2 ⟨List.mem_range.2 hj, by simp [hpj]⟩)) hx
  have hany : (args.mapIdx fun i x => if p i then (.inl (S i) : SubSpace ⊕ MV R) else .inr x).any Sum.isLeft = true := by
    rw [List.any_eq_true]
    refine ⟨.inl (S i), ?_, rfl⟩
    rw [List.mem_mapIdx]
    exact ⟨i, by omega, by simp [hpi]⟩
  have hitems : (args.mapIdx fun i x => if p i then (.inl (S i) : SubSpace ⊕ MV R) else .inr x).zipIdx.filterMap (fun r => r.1.getRight?.map fun x => (r.2, x)) =
      ((List.range op.arity).filter fun i => ! p i).map fun c => (c, args.getD c ⟨⟨[]⟩, []⟩) := by
    have e : (args.mapIdx fun i x => if p i then (.inl (S i) : SubSpace ⊕ MV R) else .inr x).zipIdx =
        (List.range op.arity).map fun i => ((if p i then .inl (S i) else .inr (args.getD i ⟨⟨[]⟩, []⟩) : SubSpace ⊕ MV R), i) := by
      apply List.ext_getElem (by simp [hal])
      intro m h1 h2
      simp only [List.length_map, List.length_range] at h2
      simp [List.getElem?_eq_getElem (show m < args.length by omega)]
    rw [e, List.filterMap_map]
    induction List.range op.arity with
    | nil => rfl
    | cons a l ih =>
      rw [List.filterMap_cons]
      cases hpa : p a
      · rw [List.filter_cons_of_pos (by simp [hpa]), List.map_cons, ← ih]
        simp [hpa]
      · rw [List.filter_cons_of_neg (by simp [hpa]), ← ih]
        simp [hpa]
  refine ⟨q, ?_, ?_⟩
  · rw [Operator.callMixed, if_pos hany, hitems, q1]
    rfl
  · rw [← q2]
    · congr 2
      apply List.filter_congr
      intro c hc
      cases hpc : p c <;> simp [hpc, List.mem_range.1 hc]
    · have : ((List.range op.arity).filter fun i => ! p i).length < (List.range op.arity).length := by
        rw [List.length_filter_lt_length_iff_exists]
        exact ⟨i, List.mem_range.2 hi, by simp [hpi]⟩
      simpa using this

/-- The call of an operator through the numpy context, as einsum. -/
theorem call_eq_einsum {A : Alg} {op : Operator Int} (h : WfOp A op) (h1 : 1 ≤ op.arity) (h2 : op.arity ≤ 25) {args : List (MV R)}
    (hx : args.map (·.vals.length) = op.inputs.map (·.blades.length)) : einsumCallMV (op.cast R) args = MV.call (some op) args := by
  obtain ⟨z, e1, -, -, -, e2, -⟩ := C40_agree (R := R) h h1 h2 hx
  rw [e1, e2]

/-- C42: the linear map `x.sandwich_map(V)` applied to `v` is `x.sandwich(v)`. -/
theorem C42_sandwich_map {A : Alg} (hA : WfAlg A) {x v : MV R} (hx : WfMV A x) (hv : WfMV A v) :
    ∃ q, x.sandwichMap A v.sub = some q ∧ q.inputs = [v.sub] ∧ einsumCallMV q [v] = x.sandwich A v := by
  obtain ⟨op, o1, o2, o3, -⟩ := sandwich_sem hA hx.sub hv.sub
  have ha : (op.cast R).arity = 3 := by
    change op.inputs.length = 3
    rw [o3]; rfl
  have hi : (op.cast R).inputs = [x.sub, v.sub, x.sub] := o3
  have hfit : [x, v, x].map (·.vals.length) = (op.cast R).inputs.map (·.blades.length) := by
    rw [hi]; simp [hx.len, hv.len]
  obtain ⟨q, q1, -, -, q2, q3, -⟩ := C42_partial (wf_cast R o2) (keys := [0, 2]) (args := [x, v, x]) (by omega) (by simp) (by simp [ha]) (by simp) hfit
  have hf : (List.range 3).filter (· ∉ [0, 2]) = [1] := by decide
  rw [ha, hf] at q2 q3
  refine ⟨q, ?_, ?_, ?_⟩
  · rw [MV.sandwichMap, o1, Option.bind_eq_bind, Option.bind_some]
    exact q1
  · rw [q2, hi]; rfl
  · rw [MV.sandwich, o1, ← call_eq_einsum o2 (by change 1 ≤ (op.cast R).arity; omega) (by change (op.cast R).arity ≤ 25; omega) hfit, ← q3 (by simp)]
    rfl

theorem inertia_sem {A : Alg} (hA : WfAlg A) {S B : SubSpace} (hS : WfSub A S) (hB : WfSub A B) :
    Sem A (Factory.inertia A (.sub S) (.sub B)) [S, S, B] (Cond.eqOn A [0, 1])
      (fun R _ ds => rhInv A R (gradedProduct A R (fun i j k => i + j = k) (rhMap A R (ds.getD 0 0))
        (rhMap A R (bil A R (halfSign (sgn A) (-1)) (· ^^^ ·) (ds.getD 1 0) (ds.getD 2 0))))) := by
  refine ((commutator_sem hA hS hB).bind_arg fun c _ hc => (regressive_bin hA (argSem_sub hS) hc).symmetry hA (axes := [0, 1]) (by simp) (by simp)
    (T := S) (by simp)).congr ?_
  intro R _ ds hl hC
  match ds, hl with
  | [x, y, z], _ => exact ⟨⟨⟨trivial, trivial⟩, hC⟩, rfl⟩

/-- C42: the linear map `p.inertia_map(B)` applied to `b` is `p & (p x b)`. -/
theorem C42_inertia_map {A : Alg} (hA : WfAlg A) {p b : MV R} (hp : WfMV A p) (hb : WfMV A b) :
    ∃ q, p.inertiaMap A b.sub = some q ∧ q.inputs = [b.sub] ∧ Agree A (einsumCallMV q [b]) (do p.regressive A (← p.commutator A b)) := by
  have hsem := inertia_sem hA hp.sub hb.sub
  obtain ⟨op, o1, o2, o3, -⟩ := id hsem
  have ha : (op.cast R).arity = 3 := by
    change op.inputs.length = 3
    rw [o3]; rfl
  have hi : (op.cast R).inputs = [p.sub, p.sub, b.sub] := o3
  have hfit : [p, p, b].map (·.vals.length) = (op.cast R).inputs.map (·.blades.length) := by
    rw [hi]; simp [hp.len, hb.len]
  obtain ⟨q, q1, -, -, q2, q3, -⟩ := C42_partial (wf_cast R o2) (keys := [0, 1]) (args := [p, p, b]) (by omega) (by simp) (by simp [ha]) (by simp) hfit
  have hf : (List.range 3).filter (· ∉ [0, 1]) = [2] := by decide
  rw [ha, hf] at q2 q3
  refine ⟨q, ?_, ?_, ?_⟩
  · rw [MV.inertiaMap, o1, Option.bind_eq_bind, Option.bind_some]
    exact q1
  · rw [q2, hi]; rfl
  · have e : einsumCallMV q [b] = MV.call (Factory.inertia A (.sub p.sub) (.sub b.sub)) [p, p, b] := by
      rw [o1, ← call_eq_einsum o2 (by change 1 ≤ (op.cast R).arity; omega) (by change (op.cast R).arity ≤ 25; omega) hfit, ← q3 (by simp)]
      rfl
    have h1 := call_gives3 hsem hp hp hb (by intro i hi j hj; simp at hi hj; rcases hi with rfl | rfl <;> rcases hj with rfl | rfl <;> rfl)
    have h2 : Gives A (do p.regressive A (← p.commutator A b)) (rhInv A R (gradedProduct A R (fun i j k => i + j = k) (rhMap A R (val A p))
        (rhMap A R (bil A R (halfSign (sgn A) (-1)) (· ^^^ ·) (val A p) (val A b))))) :=
      (call_gives2 (commutator_sem hA hp.sub hb.sub) hp hb trivial).bind fun z hz hzv => (bin_gives (regressive_bin hA) hp hz).congr (by rw [hzv]; rfl)
    rw [e]
    exact ⟨_, h1, h2⟩

example : ∃ q, exE.sandwichMap pga3 exV.sub = some q ∧ q.inputs = [exV.sub] ∧ einsumCallMV q [exV] = exE.sandwich pga3 exV :=
  C42_sandwich_map wf_pga3 wf_exE wf_exV

/-! ## C43 -/

/-- C43: operator application is linear in each argument: if the argument at position `i` is the combination `r * u + s * v`,
then so is the result. -/
theorem C43_multilinear {A : Alg} {op : Operator Int} (h : WfOp A op) {args : List (MV R)} (hs : args.map (·.sub) = op.inputs)
    (hw : ∀ x ∈ args, WfMV A x) {i : Nat} (hi : i < args.length) {u v : MV R} (hu : WfMV A u) (hv : WfMV A v)
    (hus : u.sub = args[i].sub) (hvs : v.sub = args[i].sub) {r s : R} (hc : ∀ b, coeff args[i] b = r * coeff u b + s * coeff v b) :
    ∃ z zu zv, MV.call (some op) args = some z ∧ MV.call (some op) (args.set i u) = some zu ∧ MV.call (some op) (args.set i v) = some zv ∧
      z.sub = op.output ∧ zu.sub = op.output ∧ zv.sub = op.output ∧ ∀ b, coeff z b = r * coeff zu b + s * coeff zv b := by
  have hset : ∀ w : MV R, w.sub = args[i].sub → (args.set i w).map (·.sub) = op.inputs := by
    intro w hw
    rw [List.map_set, hw, ← hs]
    apply List.ext_getElem (by simp)
    intro j h1 h2
    rw [List.getElem_set]
    split
    · rename_i hij; subst hij; simp
    · rfl
  have hws : ∀ w : MV R, WfMV A w → ∀ x ∈ args.set i w, WfMV A x := by
    intro w hw' x hx
    rcases List.mem_or_eq_of_mem_set hx with hx | rfl
    · exact hw x hx
    · exact hw'
  obtain ⟨z, z1, -, z2, z3⟩ := call_coeff h hs hw
  obtain ⟨zu, u1, -, u2, u3⟩ := call_coeff h (hset u hus) (hws u hu)
  obtain ⟨zv, v1, -, v2, v3⟩ := call_coeff h (hset v hvs) (hws v hv)
  refine ⟨z, zu, zv, z1, u1, v1, z2, u2, v2, fun b => ?_⟩
  have key : ∀ (xs : List (MV R)) (j : Nat) (hj : j < xs.length) (u v : MV R) (hc : ∀ b, coeff xs[j] b = r * coeff u b + s * coeff v b) (bs : List Nat),
      xs.length = bs.length →
      (List.zipWith (fun c b => c b) (xs.map coeff) bs).prod = r * (List.zipWith (fun c b => c b) ((xs.set j u).map coeff) bs).prod +
        s * (List.zipWith (fun c b => c b) ((xs.set j v).map coeff) bs).prod := by
    intro xs
    induction xs with
    | nil => intro j hj; simp at hj
    | cons x xs ih =>
      intro j hj u v hc bs hl
      cases bs with
      | nil => simp at hl
      | cons b bs =>
        cases j with
        | zero =>
          simp only [List.getElem_cons_zero] at hc
          simp only [List.set_cons_zero, List.map_cons, List.zipWith_cons_cons, List.prod_cons, hc b]
          ring
        | succ j =>
          simp only [List.set_cons_succ, List.map_cons, List.zipWith_cons_cons, List.prod_cons]
          rw [ih j (by simpa using hj) u v (by simpa using hc) bs (by simpa using hl)]
          ring
  rw [z3, u3, v3, ← sumB_mul, ← sumB_mul]
  have hadd : ∀ (Ss : List (Finset Nat)) (f g : List Nat → R), sumB Ss (fun bs => f bs + g bs) = sumB Ss f + sumB Ss g := by
    intro Ss
    induction Ss with
    | nil => intro f g; simp [sumB]
    | cons S Ss ih => intro f g; simp [sumB, ih, Finset.sum_add_distrib]
  rw [← hadd]
  refine sumB_congr fun bs hbs => ?_
  have hl : args.length = bs.length := by
    rw [hbs.length_eq, List.length_map, ← hs, List.length_map]
  rw [key args i hi u v hc bs hl]
  ring

example : ∃ z zu zv : MV ℤ, MV.call (some exOp) [exV, exV] = some z ∧ MV.call (some exOp) [exV, ⟨exV.sub, [1, 1, 0, 2]⟩] = some zu ∧
    MV.call (some exOp) [exV, ⟨exV.sub, [1, -1, -2, 0]⟩] = some zv ∧ ∀ b, coeff z b = 2 * coeff zu b + 1 * coeff zv b := by
  obtain ⟨z, zu, zv, h1, h2, h3, -, -, -, h4⟩ := C43_multilinear (R := ℤ) wf_exOp.1 (args := [exV, exV]) (by rw [wf_exOp.2]; rfl)
    (by intro x hx; simp at hx; subst hx; exact wf_exV) (i := 1) (by simp) (u := ⟨exV.sub, [1, 1, 0, 2]⟩) (v := ⟨exV.sub, [1, -1, -2, 0]⟩)
    ⟨wf_exV.sub, rfl⟩ ⟨wf_exV.sub, rfl⟩ rfl rfl (r := 2) (s := 1) (fun b => by
      by_cases h : b ∈ [1, 2, 4, 8]
      · revert b; decide +kernel
      · rw [coeff_notMem (x := [exV, exV][1]) h, coeff_notMem (x := ⟨exV.sub, [1, 1, 0, 2]⟩) h, coeff_notMem (x := ⟨exV.sub, [1, -1, -2, 0]⟩) h]; rfl)
  exact ⟨z, zu, zv, h1, h2, h3, h4⟩

/-! ## C62 -/

/-- The multivector with every component mapped by `φ`. -/
def mapMV {S : Type} (φ : R → S) (x : MV R) : MV S := ⟨x.sub, x.vals.map φ⟩

/-- C62: applying an operator commutes with every ring homomorphism of the coefficients. -/
theorem C62_natural {S : Type} [CommRing S] (φ : R →+* S) (op : Option (Operator Int)) (args : List (MV R)) :
    MV.call op (args.map (mapMV φ)) = (MV.call op args).map (mapMV φ) := by
  cases op with
  | none => rfl
  | some op =>
    rw [MV.call, MV.call, Option.bind_eq_bind, Option.bind_eq_bind, Option.bind_some, Option.bind_some]
    have e : (args.map (mapMV φ)).map (·.vals.length) = args.map (·.vals.length) := by simp [mapMV, Function.comp_def]
    have e2 : op.apply S ((args.map (mapMV φ)).map (·.vals)) = (op.apply R (args.map (·.vals))).map φ := by
      have e3 : (args.map (mapMV φ)).map (·.vals) = (args.map (·.vals)).map (·.map φ) := by simp [mapMV, Function.comp_def]
      rw [e3, Operator.apply, Operator.apply, Operator.eval, Operator.eval]
      refine Eq.trans (List.map_congr_left fun o _ => evalAt_hom φ op _ o) ?_
      rw [List.map_map]
      rfl
    rw [e, e2]
    split
    · rw [MV.construct, MV.construct, List.length_map]
      split <;> rfl
    · rfl

/-- C62: on arrays of multivectors (coefficients in the ring of functions on the index set of the array), an operator acts at each index
as on the single multivectors at that index. -/
theorem C62_batch {ι : Type} (op : Option (Operator Int)) (args : List (MV (ι → R))) (i : ι) :
    (MV.call op args).map (mapMV fun f => f i) = MV.call op (args.map (mapMV fun f => f i)) :=
  (C62_natural (Pi.evalRingHom (fun _ : ι => R) i) op args).symm

example : (MV.call (some exOp) [(⟨exV.sub, [![3, 0], ![1, 1], ![-2, 5], ![4, 7]]⟩ : MV (Fin 2 → ℤ)), ⟨exV.sub, [![1, 1], ![1, 1], ![0, 2], ![0, 0]]⟩]).map (mapMV fun f => f 0) =
    MV.call (some exOp) [exV, ⟨exV.sub, [1, 1, 0, 0]⟩] :=
  (C62_batch (some exOp) [(⟨exV.sub, [![3, 0], ![1, 1], ![-2, 5], ![4, 7]]⟩ : MV (Fin 2 → ℤ)), ⟨exV.sub, [![1, 1], ![1, 1], ![0, 2], ![0, 0]]⟩] 0).trans
    (congrArg (MV.call (some exOp)) (by simp [mapMV, exV]))

end Verif.Props
