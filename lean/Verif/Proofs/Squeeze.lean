import Verif.Proofs.Build
/-! # Lemmas about `squeeze` -/
namespace Verif
open Model Spec

section
variable {A : Alg}

theorem getD_lt {α : Type*} (l : List α) (d : α) {i : Nat} (h : i < l.length) : l.getD i d = l[i] := by
  simp [List.getD_eq_getElem?_getD, h]

theorem map_getD_range {α : Type*} (l : List α) (d : α) : (List.range l.length).map (l.getD · d) = l := by
  apply List.ext_getElem (by simp)
  intro i h1 h2
  simp [List.getD_eq_getElem?_getD, h2]

theorem map_getD_filter_sublist {α : Type*} (l : List α) (d : α) (p : Nat → Bool) :
    (((List.range l.length).filter p).map (l.getD · d)).Sublist l := by
  conv_rhs => rw [← map_getD_range l d]
  exact (List.filter_sublist).map _

theorem Spec.WfSub.sublist {S : SubSpace} (h : WfSub A S) {l : List Nat} (hl : l.Sublist S.blades) : WfSub A ⟨l⟩ :=
  ⟨fun b hb => h.lt b (hl.subset hb), h.sorted.sublist hl⟩

theorem mapM_getElem? {α : Type*} (l : List α) (d : α) (idx : List Nat) (h : ∀ i ∈ idx, i < l.length) :
    idx.mapM (l[·]?) = some (idx.map (l.getD · d)) := by
  induction idx with
  | nil => rfl
  | cons i idx ih =>
    rw [List.mapM_cons, ih fun j hj => h j (by simp [hj])]
    have hi := h i (by simp)
    simp [List.getElem?_eq_getElem hi]

theorem denote_apply (R : Type) [CommRing R] {op : Operator Int} (h : WfOp A op) (xs : List (List R)) :
    denote A R op.output (op.apply R xs) =
      ∑ o ∈ Finset.range op.output.blades.length, (op.cast R).evalAt xs o • blade A R (op.output.blades.getD o 0) := by
  rw [denote_eq_sum A R (apply_length R h xs)]
  apply Finset.sum_congr rfl
  intro o ho
  rw [Operator.apply, eval_getD (wf_cast R h) xs (Finset.mem_range.1 ho)]

theorem anyInputs_iff {K : Type} [Zero K] [DecidableEq K] (t : Tensor K) (o : Nat) :
    t.anyInputs o = true ↔ ∃ i, Valid i t.shape.dropLast ∧ t.get (i ++ [o]) ≠ 0 := by
  simp [Tensor.anyInputs, List.any_eq_true, mem_allIdx]

theorem squeeze_spec (hA : WfAlg A) {op : Operator Int} (h : WfOp A op) :
    ∃ s, op.squeeze A = some s ∧ WfOp A s ∧ s.inputs = op.inputs ∧
      (s.output.blades = ((List.range op.output.blades.length).filter op.kernel.anyInputs).map (op.output.blades.getD · 0)) ∧
      (∀ idx : List Nat, idx.length = op.inputs.length → ∀ o, s.kernel.get (idx ++ [o]) =
        op.kernel.get (idx ++ [((List.range op.output.blades.length).filter op.kernel.anyInputs).getD o 0])) ∧
      ∀ (R : Type) [CommRing R] (xs : List (List R)), denote A R s.output (s.apply R xs) =
        denote A R op.output (op.apply R xs) := by
  set indices := (List.range op.output.blades.length).filter op.kernel.anyInputs with hind
  have hout : op.output? = some op.output := by
    rw [Operator.output?, h.axes_eq]; simp
  have hnd : op.kernel.ndim = op.inputs.length + 1 := by rw [Tensor.ndim, h.shape_eq]; simp
  have hlt : ∀ i ∈ indices, i < op.output.blades.length := by
    intro i hi; rw [hind, List.mem_filter, List.mem_range] at hi; exact hi.1
  have hslice : op.output.slice A indices = some ⟨indices.map (op.output.blades.getD · 0)⟩ := by
    rw [SubSpace.slice, mapM_getElem? _ 0 _ hlt, Option.bind_some]
    exact fromBlades_self hA (S := ⟨_⟩) (h.wf_output.sublist (map_getD_filter_sublist _ _ _))
  have hsub : WfSub A ⟨indices.map (op.output.blades.getD · 0)⟩ :=
    h.wf_output.sublist (map_getD_filter_sublist _ _ _)
  have hsh : op.kernel.shape.getD (op.kernel.ndim - 1) 0 = op.output.blades.length := by
    rw [hnd, h.shape_eq]; simp [List.getD_eq_getElem?_getD]
  have hgl : op.kernel.shape.getLastD 0 = op.output.blades.length := h.shape_out
  have htake : op.kernel.take indices (op.kernel.ndim - 1) = some
      { shape := op.kernel.shape.set (op.kernel.ndim - 1) indices.length
        get := fun i => op.kernel.get (i.set (op.kernel.ndim - 1) (indices.getD (i.getD (op.kernel.ndim - 1) 0) 0)) } := by
    rw [Tensor.take, if_pos]
    refine ⟨by omega, ?_⟩
    intro i hi; rw [hsh]; exact hlt i hi
  let s : Operator Int := ⟨
      { shape := op.kernel.shape.set (op.kernel.ndim - 1) indices.length
        get := fun i => op.kernel.get (i.set (op.kernel.ndim - 1) (indices.getD (i.getD (op.kernel.ndim - 1) 0) 0)) },
      op.axes.dropLast ++ [⟨indices.map (op.output.blades.getD · 0)⟩]⟩
  have hswf : WfOp A s := by
    refine ⟨by simp [s], ?_, ?_⟩
    · simp only [s, hnd]
      rw [h.shape_eq, h.axes_eq]
      simp
    · intro S hS
      rcases List.mem_append.1 hS with hS | hS
      · exact h.wf_inputs S hS
      · rw [List.mem_singleton] at hS; subst hS; exact hsub
  have hget : ∀ idx : List Nat, idx.length = op.inputs.length → ∀ o, s.kernel.get (idx ++ [o]) =
        op.kernel.get (idx ++ [indices.getD o 0]) := by
    intro idx hidx o
    simp only [s, hnd]
    congr 1
    simp [hidx, List.set_append, List.getD_eq_getElem?_getD]
  refine ⟨s, ?_, hswf, ?_, ?_, hget, ?_⟩
  · simp only [Operator.squeeze, hout, hgl, ← hind, Option.bind_eq_bind, Option.bind_some, hslice, htake]; rfl
  · simp [s, Operator.inputs]
  · simp [s, Operator.output]
  · intro R _ xs
    have hso : s.output = ⟨indices.map (op.output.blades.getD · 0)⟩ := by simp [s, Operator.output]
    have hsi : s.inputs = op.inputs := by simp [s, Operator.inputs]
    have hev : ∀ o, (s.cast R).evalAt xs o = (op.cast R).evalAt xs (indices.getD o 0) := by
      intro o
      rw [evalAt_eq, evalAt_eq, (wf_cast R hswf).shape_in, (wf_cast R h).shape_in, cast_inputs, cast_inputs, hsi]
      apply sumIdx_congr
      intro idx hidx
      have hl : idx.length = op.inputs.length := by simpa using hidx.length
      rw [cast_get, cast_get, hget idx hl]
    rw [denote_apply R hswf, denote_apply R h, hso]
    simp only [hev]
    have e1 : ∀ o ∈ Finset.range (indices.map (op.output.blades.getD · 0)).length,
        (op.cast R).evalAt xs (indices.getD o 0) • blade A R ((indices.map (op.output.blades.getD · 0)).getD o 0)
        = (fun i => (op.cast R).evalAt xs i • blade A R (op.output.blades.getD i 0)) (indices.getD o 0) := by
      intro o ho
      have ho' : o < indices.length := by simpa using ho
      simp only
      congr 2
      rw [getD_lt _ _ (by simpa using ho'), getD_lt _ _ ho', List.getElem_map]
    rw [Finset.sum_congr rfl e1, List.length_map, ← lsum_range,
      show (List.range indices.length).map (fun o => (fun i => (op.cast R).evalAt xs i • blade A R (op.output.blades.getD i 0)) (indices.getD o 0))
        = indices.map (fun i => (op.cast R).evalAt xs i • blade A R (op.output.blades.getD i 0)) by
        conv_rhs => rw [← map_getD_range indices 0]
        rw [List.map_map]; rfl]
    rw [← List.sum_toFinset _ (List.nodup_range.filter _)]
    apply Finset.sum_subset
    · intro i hi
      rw [List.mem_toFinset] at hi
      exact Finset.mem_range.2 (hlt i hi)
    · intro i hi hni
      have hi' := Finset.mem_range.1 hi
      have hz : ¬ (op.kernel.anyInputs i = true) := by
        intro hc
        apply hni
        rw [List.mem_toFinset, List.mem_filter]
        exact ⟨List.mem_range.2 hi', hc⟩
      rw [anyInputs_iff] at hz
      push Not at hz
      have : (op.cast R).evalAt xs i = 0 := by
        rw [evalAt_eq]
        refine Eq.trans (sumIdx_congr fun idx hidx => ?_) (sumIdx_zero op.kernel.shape.dropLast)
        rw [cast_get, hz idx hidx]; simp
      rw [this, zero_smul]

end
end Verif
