import Verif.Proofs.BatchDense
import Verif.Proofs.Int8
import Verif.Props.Backend
/-! # Property C86: arrays of multivectors -/
namespace Verif.Props
open Model Spec
variable {R : Type} [CommRing R] {A : Alg}

/-- C86: `np.broadcast_shapes` gives the smallest common shape, and raises if there is no common shape. -/
theorem C86_shapes (l : List (List Nat)) :
    (∀ t, broadcastShapes l = some t ↔ Common l t) ∧ (broadcastShapes l = none ↔ ¬ ∃ t, ∀ s ∈ l, Repeats s t) :=
  ⟨fun _ => broadcastShapes_iff, broadcastShapes_none⟩

example : Common [[5, 1, 3], [4, 1], []] [5, 4, 3] := (C86_shapes _).1 _ |>.1 (by decide)
example : ¬ ∃ t, ∀ s ∈ [[2, 3], [2]], Repeats s t := (C86_shapes _).2.1 (by decide)

theorem slices_eq {args : List (BMV R)} {b : List Nat} {ys : List (MV R)} (h : List.Forall₂ (IsSlice b) args ys) (hl : ∀ x ∈ args, x.shape.length ≤ b.length) :
    ys = args.map fun x => x.at (bcIdx x.shape b) := by
  induction h with
  | nil => rfl
  | cons h _ ih =>
    obtain ⟨i, hi, rfl⟩ := h
    rw [List.map_cons, ← ih fun x hx => hl x (by simp [hx]), readAt_unique (hl _ (by simp)) hi]

theorem fit_cast {op : Operator Int} : (op.cast R).inputs = op.inputs ∧ (op.cast R).output = op.output ∧ (op.cast R).arity = op.arity := ⟨rfl, rfl, rfl⟩

theorem common_nil {l : List (List Nat)} {B : List Nat} : Common ([] :: l) B ↔ Common l B := by
  constructor
  · exact fun h => ⟨fun s hs => h.1 s (by simp [hs]), fun u hu => h.2 u fun s hs => by
      rcases List.mem_cons.1 hs with rfl | hs
      · exact Repeats.nil _
      · exact hu s hs⟩
  · exact fun h => ⟨fun s hs => by
      rcases List.mem_cons.1 hs with rfl | hs
      · exact Repeats.nil _
      · exact h.1 s hs, fun u hu => h.2 u fun s hs => hu s (by simp [hs])⟩

theorem at_eq_of_get {op : Operator Int} {ys : List (MV R)} {z : BMV R} {b : List Nat} (h : WfOp A op) (hs : z.sub = op.output)
    (hy : ys.map (·.vals.length) = op.inputs.map (·.blades.length))
    (hz : ∀ o < op.output.blades.length, z.vals.get (b ++ [o]) = (op.cast R).evalAt (ys.map (·.vals)) o) :
    MV.call (some op) ys = some (z.at b) := by
  rw [call_eq_construct h hy, BMV.at, hs]
  congr 2
  rw [Operator.apply, Operator.eval, (wf_cast R h).shape_out]
  apply List.map_congr_left
  intro o ho
  exact (hz o (List.mem_range.1 ho)).symm

/-- C86: an operator called with arrays of multivectors, whose axes other than the last have a common shape, gives with every execution strategy
(einsum in numpy, or jax and torch; unrolled in numpy, or jax and torch; dense in jax) an array of that shape, which contains at each index the
operator's value for the multivectors at that index. -/
theorem C86_calls {op : Operator Int} (h : WfOp A op) (h1 : 1 ≤ op.arity) (h2 : op.arity ≤ 25) {args : List (BMV R)} (hx : List.Forall₂ FitsB args op.inputs)
    {B : List Nat} (hB : Common (args.map BMV.shape) B) :
    ∀ call ∈ [einsumCallB (op.cast R), einsumCallJB (op.cast R), numpySparseCallB op, sparseCallB op, denseCallB (op.cast R)],
      ∃ z, call args = some z ∧ z.sub = op.output ∧ z.vals.shape = B ++ [op.output.blades.length] ∧
        ∀ b ys, Inside b B → List.Forall₂ (IsSlice b) args ys → MV.call (some op) ys = some (z.at b) := by
  obtain ⟨hw, hwb⟩ := wfBOp_of (wf_cast R h)
  have hr : ∀ x ∈ args, Repeats x.shape B := fun x hx => hB.1 _ (List.mem_map.2 ⟨x, hx, rfl⟩)
  have hsl : ∀ {b : List Nat} {ys : List (MV R)}, Inside b B → List.Forall₂ (IsSlice b) args ys → ys = args.map fun x => x.at (bcIdx x.shape b) := by
    intro b ys hb hy
    exact slices_eq hy fun x hx => by rw [(inside_iff.1 hb).length]; exact (hr x hx).1
  have hgen : ∀ {z : BMV R}, z.sub = op.output →
      (∀ b o, Valid b B → o < op.output.blades.length → z.vals.get (b ++ [o]) = (op.cast R).evalAt ((args.map fun x => x.at (bcIdx x.shape b)).map (·.vals)) o) →
      ∀ b ys, Inside b B → List.Forall₂ (IsSlice b) args ys → MV.call (some op) ys = some (z.at b) := by
    intro z hz hg b ys hb hy
    rw [hsl hb hy]
    exact at_eq_of_get h hz (slices_fit (op := op.cast R) hx _) fun o ho => hg b o (inside_iff.1 hb) ho
  have hall : broadcastAllocate (op.cast R) args = some ⟨op.output, Tensor.zeros (B ++ [op.output.blades.length])⟩ := by
    rw [broadcastAllocate, hwb, broadcastShapes_iff.2 (common_nil.2 hB), Option.bind_eq_bind, Option.bind_some, BMV.construct]
    rw [if_pos (by simp [Tensor.zeros])]
    rfl
  have hein := (einsumCallB_eq hw h1 h2 hx).2 B (by rw [hwb]; exact common_nil.2 hB)
  obtain ⟨z, z1, z2, z3, z4, z5⟩ := hein
  have hsz : ∀ b ys, Inside b B → List.Forall₂ (IsSlice b) args ys → MV.call (some op) ys = some (z.at b) := by
    intro b ys hb hy
    rw [hsl hb hy, ← z5 b (inside_iff.1 hb).length, hwb]
    have : (op.cast R).at (bcIdx [] b) = op.cast R := by
      rw [Operator.at, bcIdx, clipIdx, List.zipWith_nil_left, lead_nil]
    rw [this]
    obtain ⟨w, w1, -, -, -, w2, -⟩ := C40_agree (R := R) h h1 h2 (slices_fit (op := op.cast R) hx fun x => bcIdx x.shape b)
    rw [w1, w2]
  simp only [List.forall_mem_cons, List.not_mem_nil, false_imp_iff, implies_true, and_true]
  refine ⟨⟨z, z1, z3, z4, hsz⟩, ⟨z, z2, z3, z4, hsz⟩, ?_, ?_, ?_⟩
  · obtain ⟨out, o1, o2, o3⟩ := sparseB_eq h hx hr (f := termProdEinsumB op.arity (args.map (·.vals))) (by
      intro idx s hv
      obtain ⟨T, T1, T2⟩ := termProdB_holds hx hr hv s
      refine ⟨T, ?_, T2⟩
      rw [termProdEinsumB, if_pos, T1]
      have l1 := hx.length_eq
      have l2 := hv.length
      rw [List.length_map] at l2
      rw [List.length_zip, List.length_map, l1, l2, Nat.min_self]; rfl)
    refine ⟨⟨op.output, out⟩, ?_, rfl, o2, hgen rfl fun b o hb ho => o3 b o hb ho⟩
    rw [numpySparseCallB, hall, Option.bind_eq_bind, Option.bind_some, o1]
    rfl
  · obtain ⟨out, o1, o2, o3⟩ := sparseB_eq h hx hr (f := termProdB (args.map (·.vals))) (fun idx s hv => termProdB_holds hx hr hv s)
    refine ⟨⟨op.output, out⟩, ?_, rfl, o2, hgen rfl fun b o hb ho => o3 b o hb ho⟩
    rw [sparseCallB, hall, Option.bind_eq_bind, Option.bind_some, o1]
    rfl
  · obtain ⟨w, w1, w2, w3, w4⟩ := denseB_eq (wf_cast R h) hx hB
    exact ⟨w, w1, w2, w3, hgen w2 w4⟩

omit [CommRing R] in
theorem bin_repeats {f : R → R → R} {S T U : Tensor R} (h : Tensor.bin f S T = some U) : Repeats S.shape U.shape ∧ Repeats T.shape U.shape := by
  obtain ⟨s, hs, rfl⟩ := Option.map_eq_some_iff.1 h
  have := (broadcastShapes_iff.1 hs).1
  exact ⟨this _ (by simp), this _ (by simp)⟩

/-- C86: without a common shape every strategy raises. -/
theorem C86_raises {op : Operator Int} (h : WfOp A op) (h1 : 1 ≤ op.arity) (h2 : op.arity ≤ 25) {args : List (BMV R)} (hx : List.Forall₂ FitsB args op.inputs)
    (hB : ¬ ∃ t, ∀ x ∈ args, Repeats x.shape t) :
    ∀ call ∈ [einsumCallB (op.cast R), einsumCallJB (op.cast R), numpySparseCallB op, sparseCallB op, denseCallB (op.cast R)], call args = none := by
  obtain ⟨hw, hwb⟩ := wfBOp_of (wf_cast R h)
  have hn : broadcastShapes ((op.cast R).batch :: args.map BMV.shape) = none := by
    rw [broadcastShapes_none]
    rintro ⟨t, ht⟩
    exact hB ⟨t, fun x hx => ht _ (by simp only [List.mem_cons, List.mem_map]; exact .inr ⟨x, hx, rfl⟩)⟩
  have hall : broadcastAllocate (op.cast R) args = none := by rw [broadcastAllocate, hn]; rfl
  obtain ⟨e1, e2⟩ := (einsumCallB_eq hw h1 h2 hx).1 hn
  simp only [List.forall_mem_cons, List.not_mem_nil, false_imp_iff, implies_true, and_true]
  refine ⟨e1, e2, by rw [numpySparseCallB, hall]; rfl, by rw [sparseCallB, hall]; rfl, ?_⟩
  rw [denseCallB]
  cases hf : (args.zip (broadcastingShapes (op.cast R))).foldlM (fun acc p => do Tensor.bin (· * ·) acc (← p.1.vals.reshape (p.1.shape ++ p.2))) (op.cast R).kernel with
  | none => rfl
  | some T =>
    exfalso
    have key : ∀ (l : List (BMV R × List Nat)) (acc T : Tensor R), l.foldlM (fun acc p => do Tensor.bin (· * ·) acc (← p.1.vals.reshape (p.1.shape ++ p.2))) acc = some T →
        Repeats acc.shape T.shape ∧ ∀ p ∈ l, Repeats (p.1.shape ++ p.2) T.shape := by
      intro l
      induction l with
      | nil => intro acc T h; cases h; exact ⟨Repeats.refl _, by simp⟩
      | cons p l ih =>
        intro acc T h
        rw [List.foldlM_cons, Option.bind_eq_bind, Option.bind_eq_some_iff] at h
        obtain ⟨U, hU, h⟩ := h
        rw [Option.bind_eq_some_iff] at hU
        obtain ⟨V, hV, hU⟩ := hU
        obtain ⟨i1, i2⟩ := ih U T h
        obtain ⟨b1, b2⟩ := bin_repeats hU
        refine ⟨Repeats.trans b1 i1, fun q hq => ?_⟩
        rcases List.mem_cons.1 hq with rfl | hq
        · rw [Tensor.reshape] at hV
          split at hV
          · cases hV; exact Repeats.trans b2 i1
          · cases hV
        · exact i2 q hq
    have hk := (key _ _ _ hf).2
    have hnd : (op.cast R).kernel.ndim = op.arity + 1 := shape_length (wf_cast R h)
    refine hB ⟨T.shape.take (T.shape.length - (op.arity + 1)), fun x hxm => ?_⟩
    obtain ⟨i, hi, rfl⟩ := List.getElem_of_mem hxm
    have hl : args.length = op.arity := hx.length_eq
    have hil : i < (args.zip (broadcastingShapes (op.cast R))).length := by
      rw [List.length_zip, broadcastingShapes, List.length_map, List.length_range]; exact lt_min hi (by rw [hl] at hi; exact hi)
    have := (Repeats.split (hk _ (List.getElem_mem hil))).1
    simp only [List.getElem_zip, broadcastingShapes, List.getElem_map, List.length_set, List.length_replicate, hnd] at this
    exact this

theorem eval_same {p q : Operator R} (h : Same p.kernel q.kernel) (xs : List (List R)) (hp : WfOp A p) : p.eval xs = q.eval xs := by
  rw [Operator.eval, Operator.eval, ← h.1]
  apply List.map_congr_left
  intro o ho
  rw [evalAt_eq, evalAt_eq, ← h.1]
  refine sumIdx_congr fun i hi => ?_
  rw [h.2]
  rw [hp.shape_out] at ho
  rw [hp.shape_in] at hi
  rw [hp.shape_eq]
  exact hi.append (.cons (List.mem_range.1 ho) .nil)

/-- C86: arguments bound first (at any positions, in any order), then the others: the same as all at once, with the common shape of all. -/
theorem C86_bind {op : Operator Int} (h : WfOp A op) (h2 : op.arity ≤ 25) {keys : List Nat} (hn : keys.Nodup) (hlt : ∀ c ∈ keys, c < op.arity)
    (hne : keys ≠ []) (hk : keys.length < op.arity) {args : List (BMV R)} (hx : List.Forall₂ FitsB args op.inputs) {B : List Nat} (hB : Common (args.map BMV.shape) B) :
    ∃ q, (op.cast R).partialApplyB (keys.map fun c => (c, args.getD c ⟨⟨[]⟩, ⟨[], fun _ => 0⟩⟩)) = some q ∧ WfBOp A q ∧ q.output = op.output ∧
      Common (keys.map fun c => (args.getD c ⟨⟨[]⟩, ⟨[], fun _ => 0⟩⟩).shape) q.batch ∧
      ∃ z, einsumCallB q (((List.range op.arity).filter (· ∉ keys)).map fun c => args.getD c ⟨⟨[]⟩, ⟨[], fun _ => 0⟩⟩) = some z ∧ z.sub = op.output ∧
        z.vals.shape = B ++ [op.output.blades.length] ∧
        ∀ b ys, Inside b B → List.Forall₂ (IsSlice b) args ys → MV.call (some op) ys = some (z.at b) := by
  obtain ⟨hw, hwb⟩ := wfBOp_of (wf_cast R h)
  obtain ⟨hal, hxi⟩ := fitsB_args (op := op.cast R) hx
  have hal : args.length = op.arity := hal
  obtain ⟨x, hxdef⟩ : ∃ x : Nat → BMV R, x = fun c => args.getD c ⟨⟨[]⟩, ⟨[], fun _ => 0⟩⟩ := ⟨_, rfl⟩
  have hxc : ∀ c, args.getD c ⟨⟨[]⟩, ⟨[], fun _ => 0⟩⟩ = x c := fun c => by rw [hxdef]
  simp only [hxc] at hxi ⊢
  have hxB : ∀ c < op.arity, Repeats (x c).shape B := by
    intro c hc
    refine hB.1 _ (List.mem_map.2 ⟨x c, ?_, rfl⟩)
    rw [← hxc, getD_lt _ _ (by omega)]
    exact List.getElem_mem _
  obtain ⟨Bk, hbk, hBk, hBkB⟩ := common_upper (l := keys.map fun c => (x c).shape) (v := B) (by
    intro s hs
    obtain ⟨c, hc, rfl⟩ := List.mem_map.1 hs
    exact hxB c (hlt c hc))
  obtain ⟨e, e1, -, e3⟩ := einsumB_keys hw h2 hn hlt hne (x := x) (fun c hc => hxi c (hlt c hc))
  obtain ⟨T, T1, T2, T3⟩ := e3 Bk (by rw [hwb]; exact common_nil.2 hBk)
  have haxes := filter_range_axes (wf_cast R h) (keys := keys) hlt
  obtain ⟨ax, hax⟩ : ∃ ax, ax = ((List.range op.arity).filter fun i => ! keys.contains i).map (fun i => op.inputs.getD i ⟨[]⟩) ++ [op.output] := ⟨_, rfl⟩
  have hqo : (⟨T, ax⟩ : Operator R).output = op.output := by rw [Operator.output, hax]; simp
  have hqi : (⟨T, ax⟩ : Operator R).inputs = ((List.range op.arity).filter fun i => ! keys.contains i).map (fun i => op.inputs.getD i ⟨[]⟩) := by rw [Operator.inputs, hax]; simp
  have hTs : T.shape = Bk ++ ax.map (·.blades.length) := by
    rw [T2, hax, List.map_append, List.map_map]; rfl
  have hqb : (⟨T, ax⟩ : Operator R).batch = Bk := by
    have : (⟨T, ax⟩ : Operator R).arity + 1 = ax.length := by rw [Operator.arity, hqi, hax]; simp
    rw [Operator.batch, this, Tensor.ndim, hTs, List.length_append, List.length_map, Nat.add_sub_cancel, List.take_left' rfl]
  have hqw : WfBOp A (⟨T, ax⟩ : Operator R) := by
    refine ⟨by rw [hax]; simp, by rw [hqb]; exact hTs, fun S hS => ?_⟩
    rw [hax] at hS
    rcases List.mem_append.1 hS with hS | hS
    · obtain ⟨c, hc, rfl⟩ := List.mem_map.1 hS
      have hca : c < op.inputs.length := List.mem_range.1 (List.mem_filter.1 hc).1
      rw [getD_lt _ _ hca]
      exact h.wf_inputs _ (List.getElem_mem hca)
    · rw [List.mem_singleton.1 hS]
      exact h.wf_output
  have hf : ((List.range op.arity).filter fun i => ! keys.contains i) = (List.range op.arity).filter (· ∉ keys) := by
    apply List.filter_congr
    intro c _
    by_cases hc : c ∈ keys <;> simp [hc]
  rw [hf] at hqi
  have hrest : List.Forall₂ FitsB (((List.range op.arity).filter (· ∉ keys)).map x) (⟨T, ax⟩ : Operator R).inputs := by
    rw [hqi, List.forall₂_map_left_iff, List.forall₂_map_right_iff, List.forall₂_same]
    exact fun c hc => hxi c (List.mem_range.1 (List.mem_filter.1 hc).1)
  have hqa : (⟨T, ax⟩ : Operator R).arity + keys.length = op.arity := by
    rw [Operator.arity, hqi, List.length_map]
    have hp : ((List.range op.arity).filter (· ∈ keys)).Perm keys := by
      rw [List.perm_ext_iff_of_nodup (List.nodup_range.filter _) hn]
      intro c
      simp only [List.mem_filter, List.mem_range, decide_eq_true_eq]
      exact ⟨fun h => h.2, fun h => ⟨hlt c h, h⟩⟩
    have := List.length_eq_length_filter_add (l := List.range op.arity) (fun c => decide (c ∈ keys))
    rw [List.length_range, hp.length_eq] at this
    have e : ((List.range op.arity).filter fun c => ! decide (c ∈ keys)) = (List.range op.arity).filter (· ∉ keys) := by
      apply List.filter_congr; intro c _; simp
    rw [e] at this
    omega
  have hCB : Common ((⟨T, ax⟩ : Operator R).batch :: (((List.range op.arity).filter (· ∉ keys)).map x).map BMV.shape) B := by
    rw [hqb]
    constructor
    · intro s hs
      rcases List.mem_cons.1 hs with rfl | hs
      · exact hBkB
      · obtain ⟨y, hy, rfl⟩ := List.mem_map.1 hs
        obtain ⟨c, hc, rfl⟩ := List.mem_map.1 hy
        exact hxB c (List.mem_range.1 (List.mem_filter.1 hc).1)
    · intro u hu
      refine hB.2 u fun s hs => ?_
      obtain ⟨y, hy, rfl⟩ := List.mem_map.1 hs
      obtain ⟨c, hc, rfl⟩ := List.getElem_of_mem hy
      have hyc : args[c] = x c := by rw [← hxc, getD_lt _ _ hc]
      rw [hyc]
      by_cases hck : c ∈ keys
      · exact Repeats.trans (hBk.1 _ (List.mem_map.2 ⟨c, hck, rfl⟩)) (hu _ (by simp))
      · exact hu _ (List.mem_cons_of_mem _ (List.mem_map.2 ⟨x c, List.mem_map.2 ⟨c, List.mem_filter.2 ⟨List.mem_range.2 (by omega), by simpa using hck⟩, rfl⟩, rfl⟩))
  obtain ⟨z, z1, -, z2, z3, z4⟩ := (einsumCallB_eq hqw (by omega) (by omega) hrest).2 B hCB
  refine ⟨⟨T, ax⟩, ?_, hqw, hqo, by rw [hqb]; exact hBk, z, z1, by rw [z2, hqo], by rw [z3, hqo], fun b ys hb hy => ?_⟩
  · have hk1 : (keys.map fun c => (c, x c)).map (·.1) = keys := by simp [Function.comp_def]
    have hk2 : (keys.map fun c => (c, x c)).map (fun p => p.2.vals) = keys.map fun c => (x c).vals := by simp [Function.comp_def]
    rw [Operator.partialApplyB, hk1, hk2, e1, Option.bind_eq_bind, Option.bind_some, T1, Option.bind_eq_bind, Option.bind_some, haxes, hax]
    rfl
  · have hbl : b.length = B.length := (inside_iff.1 hb).length
    rw [slices_eq hy fun y hy => by rw [hbl]; exact (hB.1 _ (List.mem_map.2 ⟨y, hy, rfl⟩)).1]
    have hfit := slices_fit (op := op.cast R) hx fun x => bcIdx x.shape b
    obtain ⟨ys', hys⟩ : ∃ ys', ys' = args.map fun x => x.at (bcIdx x.shape b) := ⟨_, rfl⟩
    rw [← hys] at hfit ⊢
    have hyc : ∀ c < op.arity, ys'.getD c ⟨⟨[]⟩, []⟩ = (x c).at (bcIdx (x c).shape b) := by
      intro c hc
      rw [getD_lt _ _ (by rw [hys]; simp; omega)]
      simp only [hys, List.getElem_map]
      rw [← hxc, getD_lt _ _ (by omega)]
    obtain ⟨q', q1, q2, q3, q4, q5, -⟩ := C42_partial (wf_cast R h) h2 hn hlt hne hfit
    obtain ⟨w, w1, -, -, -, w2, -⟩ := C40_agree (R := R) h (by omega) h2 hfit
    rw [w2, ← w1, ← q5 hk, ← z4 b hbl, hqb]
    -- the kernel of the unbatched operator
    obtain ⟨t, t1, t2⟩ := T3 (bcIdx Bk b) ((bcIdx_readAt (by rw [hbl]; exact hBkB.1)).1)
    have hkl : (op.cast R).kernel.lead (bcIdx (op.cast R).batch (bcIdx Bk b)) = (op.cast R).kernel := by
      rw [hwb, bcIdx, clipIdx, List.zipWith_nil_left, lead_nil]
    have hq' : q' = ⟨t, ax⟩ := by
      have hk1 : (keys.map fun c => (c, ys'.getD c ⟨⟨[]⟩, []⟩)).map (·.1) = keys := by simp [Function.comp_def]
      have hk2 : (keys.map fun c => (c, ys'.getD c ⟨⟨[]⟩, []⟩)).map (fun p => vecTensor p.2.vals) = keys.map fun c => vecTensor ((x c).at (bcIdx (x c).shape (bcIdx Bk b))).vals := by
        rw [List.map_map]
        apply List.map_congr_left
        intro c hc
        simp only [Function.comp]
        rw [hyc c (hlt c hc), bcIdx_bcIdx (hBk.1 _ (List.mem_map.2 ⟨c, hc, rfl⟩)) hBkB hbl]
      rw [Operator.partialApply, hk1, hk2] at q1
      change (do let e ← precomputeEinsumPartial op.arity keys; _) = _ at q1
      rw [hkl] at t1
      change precomputeEinsumPartial op.arity keys = some e at e1
      rw [e1, Option.bind_eq_bind, Option.bind_some, t1, Option.bind_eq_bind, Option.bind_some, haxes] at q1
      rw [← Option.some_inj.1 q1, hax]
      rfl
    have hrl : (((List.range op.arity).filter (· ∉ keys)).map x).map (fun x => x.at (bcIdx x.shape b)) = ((List.range op.arity).filter (· ∉ keys)).map fun i => ys'.getD i ⟨⟨[]⟩, []⟩ := by
      rw [List.map_map]
      apply List.map_congr_left
      intro c hc
      rw [hyc c (List.mem_range.1 (List.mem_filter.1 hc).1)]; rfl
    change einsumCallMV q' (((List.range op.arity).filter (· ∉ keys)).map fun i => ys'.getD i ⟨⟨[]⟩, []⟩) = _
    rw [← hrl]
    have hf1 := slices_fit hrest fun x => bcIdx x.shape b
    have hq2w : WfOp A ((⟨T, ax⟩ : Operator R).at (bcIdx Bk b)) := hqw.at (by rw [hqb]; exact (bcIdx_readAt (by rw [hbl]; exact hBkB.1)).1)
    rw [einsumCallMV, einsumCallMV]
    rw [einsumCall_eq q2 (by rw [hq']; change 1 ≤ (⟨T, ax⟩ : Operator R).arity; omega) (by rw [hq']; change (⟨T, ax⟩ : Operator R).arity ≤ 25; omega) (by rw [List.map_map, hq']; exact hf1)]
    rw [einsumCall_eq hq2w (by change 1 ≤ (⟨T, ax⟩ : Operator R).arity; omega) (by change (⟨T, ax⟩ : Operator R).arity ≤ 25; omega) (by rw [List.map_map]; exact hf1)]
    rw [eval_same (q := (⟨T, ax⟩ : Operator R).at (bcIdx Bk b)) (by rw [hq']; exact t2) _ q2, hq']
    rfl

/-- Example arrays, of shapes `[2, 1]` and `[3]`. -/
def exXB : BMV ℤ := ⟨⟨[1, 2, 4, 8]⟩, ⟨[2, 1, 4], fun i => 2 * i.getD 0 0 + i.getD 2 0⟩⟩
def exYB : BMV ℤ := ⟨⟨[1, 2, 4, 8]⟩, ⟨[3, 4], fun i => i.getD 0 0 - i.getD 1 0⟩⟩

theorem fits_ex : List.Forall₂ FitsB [exXB, exYB] exOp.inputs := by
  rw [wf_exOp.2]
  exact .cons ⟨rfl, rfl⟩ (.cons ⟨rfl, rfl⟩ .nil)

theorem common_ex : Common ([exXB, exYB].map BMV.shape) [2, 3] := (C86_shapes _).1 _ |>.1 (by decide)

example : ∃ z, einsumCallB (exOp.cast ℤ) [exXB, exYB] = some z ∧ z.vals.shape = [2, 3, exOp.output.blades.length] ∧
    MV.call (some exOp) [exXB.at [1, 0], exYB.at [2]] = some (z.at [1, 2]) := by
  obtain ⟨z, h1, -, h2, h3⟩ := C86_calls (R := ℤ) wf_exOp.1 (by simp [Operator.arity, wf_exOp.2]) (by simp [Operator.arity, wf_exOp.2]) fits_ex common_ex _
    (List.mem_cons_self ..)
  exact ⟨z, h1, h2, h3 [1, 2] _ (.cons (by decide) (.cons (by decide) .nil)) (.cons ⟨[1, 0], ⟨rfl, by decide⟩, rfl⟩ (.cons ⟨[2], ⟨rfl, by decide⟩, rfl⟩ .nil))⟩

example : denseCallB (exOp.cast ℤ) [exXB.concatenate exXB 1 |>.getD exXB, ⟨exXB.sub, ⟨[3, 4], exXB.vals.get⟩⟩] = none := by
  refine C86_raises (R := ℤ) wf_exOp.1 (by simp [Operator.arity, wf_exOp.2]) (by simp [Operator.arity, wf_exOp.2]) ?_ ?_ _ (by simp)
  · rw [wf_exOp.2]
    exact .cons ⟨rfl, rfl⟩ (.cons ⟨rfl, rfl⟩ .nil)
  · have := (C86_shapes [[2, 2], [3]]).2.1 (by decide)
    rintro ⟨t, ht⟩
    refine this ⟨t, fun s hs => ?_⟩
    simp only [List.mem_cons, List.not_mem_nil, or_false] at hs
    rcases hs with rfl | rfl
    · exact ht _ (List.mem_cons_self ..)
    · exact ht _ (List.mem_cons_of_mem _ (List.mem_cons_self ..))

example : ∃ q z, (exOp.cast ℤ).partialApplyB [(1, exYB)] = some q ∧ q.batch = [3] ∧ einsumCallB q [exXB] = some z ∧
    MV.call (some exOp) [exXB.at [1, 0], exYB.at [2]] = some (z.at [1, 2]) := by
  have ha : exOp.arity = 2 := by simp [Operator.arity, wf_exOp.2]
  obtain ⟨q, q1, -, -, q2, z, z1, -, -, z2⟩ := C86_bind (R := ℤ) wf_exOp.1 (by omega) (keys := [1]) (by simp) (by simp [ha]) (by simp) (by simp [ha]) fits_ex common_ex
  refine ⟨q, z, q1, ?_, ?_, z2 [1, 2] _ (.cons (by decide) (.cons (by decide) .nil)) (.cons ⟨[1, 0], ⟨rfl, by decide⟩, rfl⟩ (.cons ⟨[2], ⟨rfl, by decide⟩, rfl⟩ .nil))⟩
  · exact (Option.some_inj.1 (((C86_shapes _).1 _).2 q2)).symm
  · rw [ha] at z1
    exact z1

/-- C86: the dense operator of the torch backend does not reshape the broadcasting axes: it raises for all inputs with other than one multivector. -/
theorem C86_torch_dense {op : Operator R} (h : WfOp A op) {args : List (BMV R)} (hx : List.Forall₂ FitsB args op.inputs)
    (hb : ∃ x ∈ args, x.shape.prod ≠ 1 ∧ x.sub.blades ≠ []) : torchDenseCallB op args = none := by
  obtain ⟨x, hxm, hp, hne⟩ := hb
  rw [torchDenseCallB]
  cases hf : (args.zip (broadcastingShapes op)).foldlM (fun acc p => do Tensor.bin (· * ·) acc (← p.1.vals.reshape p.2)) op.kernel with
  | none => rfl
  | some T =>
    exfalso
    have key : ∀ (l : List (BMV R × List Nat)) (acc T : Tensor R), l.foldlM (fun acc p => do Tensor.bin (· * ·) acc (← p.1.vals.reshape p.2)) acc = some T →
        ∀ p ∈ l, p.1.vals.shape.prod = p.2.prod := by
      intro l
      induction l with
      | nil => simp
      | cons p l ih =>
        intro acc T h
        rw [List.foldlM_cons, Option.bind_eq_bind, Option.bind_eq_some_iff] at h
        obtain ⟨U, hU, h⟩ := h
        rw [Option.bind_eq_some_iff] at hU
        obtain ⟨V, hV, hU⟩ := hU
        intro q hq
        rcases List.mem_cons.1 hq with rfl | hq
        · rw [Tensor.reshape] at hV
          split at hV
          · assumption
          · cases hV
        · exact ih U T h q hq
    obtain ⟨i, hi, rfl⟩ := List.getElem_of_mem hxm
    have hl : args.length = op.arity := hx.length_eq
    have hil : i < (args.zip (broadcastingShapes op)).length := by
      rw [List.length_zip, broadcastingShapes, List.length_map, List.length_range]; omega
    have hk := key _ _ _ hf _ (List.getElem_mem hil)
    have hfit := (List.forall₂_iff_get.1 hx).2 i hi (by rw [← hx.length_eq]; exact hi)
    simp only [List.get_eq_getElem] at hfit
    simp only [List.getElem_zip, broadcastingShapes, List.getElem_map, List.getElem_range] at hk
    have hnd : op.kernel.ndim = op.arity + 1 := shape_length h
    have hii : i < op.inputs.length := by rw [← hx.length_eq]; exact hi
    rw [List.prod_set, hfit.2, List.prod_append, sz_eq h (show i < op.arity by omega), getD_lt _ _ (show i < op.inputs.length by rw [← hx.length_eq]; exact hi)] at hk
    have hlen : op.inputs[i].blades.length ≠ 0 := by
      rw [← hfit.1]; simpa using hne
    simp only [List.prod_singleton, List.take_replicate, List.prod_replicate, one_pow, one_mul, List.drop_replicate, List.length_replicate, mul_one] at hk
    rw [if_pos (by omega)] at hk
    exact hp (by
      have : args[i].shape.prod * op.inputs[i].blades.length = 1 * op.inputs[i].blades.length := by rw [hk, one_mul]
      exact Nat.eq_of_mul_eq_mul_right (by omega) this)

example : torchDenseCallB (exOp.cast ℤ) [exXB, exYB] = none :=
  C86_torch_dense (wf_cast ℤ wf_exOp.1) fits_ex ⟨exXB, by simp, by decide, by decide⟩

/-- C86: and with one multivector it loses the axes of length one.  Witness: selecting two components of an array of shape `[1]`. -/
theorem C86_torch_dense_axes : ((torchDenseCallB (exF.cast ℤ) [⟨⟨[1, 2, 4, 8]⟩, ⟨[1, 4], fun i => i.getD 1 0⟩⟩]).map fun z => z.vals.shape) = some [2] ∧
    ((einsumCallJB (exF.cast ℤ) [⟨⟨[1, 2, 4, 8]⟩, ⟨[1, 4], fun i => i.getD 1 0⟩⟩]).map fun z => z.vals.shape) = some [1, 2] := by
  decide +kernel

/-! ### Reductions and indexing -/

theorem coeff_at {x : BMV R} (hw : WfSub A x.sub) (b : List Nat) (c : Nat) :
    coeff (x.at b) c = if c ∈ x.sub.blades then x.vals.get (b ++ [x.sub.blades.idxOf c]) else 0 := by
  have hx : WfMV A (x.at b) := ⟨hw, at_length x b⟩
  split
  · rename_i hc
    have := List.idxOf_lt_length_of_mem hc
    rw [coeff_idxOf hx (show c ∈ (x.at b).sub.blades from hc)]
    simp [BMV.at, this]
  · rename_i hc
    rw [coeff_notMem (show c ∉ (x.at b).sub.blades from hc)]

theorem insertIdx_append {α : Type} {l t : List α} {v : α} {i : Nat} (h : i ≤ l.length) : (l ++ t).insertIdx i v = l.insertIdx i v ++ t := by
  induction l generalizing i with
  | nil => obtain rfl : i = 0 := by simpa using h
           simp
  | cons c l ih =>
    cases i with
    | zero => simp
    | succ i => simp [ih (by simpa using h)]

/-- C86: the sum over an axis, counted from the front, or from the end with the axis of components included, adds the multivectors along it. -/
theorem C86_sum {x : BMV R} (hw : WfSub A x.sub) (hx : FitsB x x.sub) {a : Nat} (ha : a < x.shape.length) :
    ∃ z, x.sum a = some z ∧ x.sum (a - (x.shape.length + 1)) = some z ∧ z.sub = x.sub ∧ z.shape = x.shape.eraseIdx a ∧ FitsB z z.sub ∧
      ∀ b c, b.length + 1 = x.shape.length → coeff (z.at b) c = ∑ k ∈ Finset.range (x.shape.getD a 0), coeff (x.at (b.insertIdx a k)) c := by
  have hnd : x.vals.ndim = x.shape.length + 1 := by rw [Tensor.ndim, hx.2]; simp
  have hsh : x.vals.shape.eraseIdx a = x.shape.eraseIdx a ++ [x.sub.blades.length] := by
    rw [hx.2, List.eraseIdx_append_of_lt_length ha]
  have hgd : x.vals.shape.getD a 0 = x.shape.getD a 0 := by
    rw [hx.2, List.getD_eq_getElem?_getD, List.getElem?_append_left ha, List.getD_eq_getElem?_getD]
  have key : ∀ i : Int, (if i < 0 then i + (x.vals.ndim : Int) else i) = a → x.sum i =
      some ⟨x.sub, ⟨x.shape.eraseIdx a ++ [x.sub.blades.length], fun idx => ((List.range (x.shape.getD a 0)).map fun k => x.vals.get (idx.insertIdx a k)).sum⟩⟩ := by
    intro i hi
    rw [BMV.sum]
    simp only [hi]
    rw [if_pos (by rw [hnd]; omega), Int.toNat_natCast, hsh, hgd, BMV.construct, if_pos (by simp)]
  refine ⟨_, key a (by rw [if_neg (by omega)]), key _ (by rw [hnd, if_pos (by omega)]; omega), rfl, by simp [BMV.shape], ⟨rfl, by simp [BMV.shape]⟩, fun b c hb => ?_⟩
  have h1 := fun v : Tensor R => coeff_at (A := A) (x := ⟨x.sub, v⟩) hw b c
  rw [h1, Finset.sum_congr rfl fun k _ => coeff_at hw (b.insertIdx a k) c]
  simp only
  split
  · rw [← List.toFinset_range, List.sum_toFinset _ List.nodup_range]
    refine congrArg List.sum (List.map_congr_left fun k _ => ?_)
    rw [insertIdx_append (by omega)]
  · simp

/-- C86: the sum over the last axis sums the components, and is rejected unless the last axis of the array is as long as the subspace. -/
theorem C86_sum_last {x : BMV R} (hx : FitsB x x.sub) :
    (x.shape.getLast? ≠ some x.sub.blades.length → x.sum (-1) = none) ∧
    ∀ z, x.sum (-1) = some z → z.sub = x.sub ∧ z.vals.shape = x.shape ∧ ∀ b, b.length = x.shape.length → z.vals.get b = (x.at b).vals.sum := by
  have hnd : x.vals.ndim = x.shape.length + 1 := by rw [Tensor.ndim, hx.2]; simp
  have hsh : x.vals.shape.eraseIdx x.shape.length = x.shape := by
    rw [hx.2, List.eraseIdx_append_of_length_le le_rfl]; simp
  have hgd : x.vals.shape.getD x.shape.length 0 = x.sub.blades.length := by
    rw [hx.2, List.getD_eq_getElem?_getD, List.getElem?_append_right le_rfl]; simp
  have key : x.sum (-1) = BMV.construct ⟨x.shape, fun idx => ((List.range x.sub.blades.length).map fun k => x.vals.get (idx.insertIdx x.shape.length k)).sum⟩ x.sub := by
    rw [BMV.sum]
    have hi : (if (-1 : Int) < 0 then (-1 : Int) + (x.vals.ndim : Int) else -1) = (x.shape.length : Nat) := by
      rw [if_pos (by omega), hnd]; omega
    simp only [hi]
    rw [if_pos (by rw [hnd]; omega), Int.toNat_natCast, hsh, hgd]
  rw [key, BMV.construct]
  constructor
  · intro hn
    rw [if_neg hn]
  · intro z hz
    split at hz
    · cases hz
      refine ⟨rfl, rfl, fun b hb => ?_⟩
      refine congrArg List.sum (List.map_congr_left fun k _ => ?_)
      rw [← hb, List.insertIdx_length_self]
    · cases hz

/-- C86: arrays of multivectors are joined along an axis if their other axes agree. -/
theorem C86_concat {x y : BMV R} (hx : FitsB x x.sub) (hy : FitsB y y.sub) {a : Nat} (ha : a < x.shape.length) (hs : x.sub = y.sub)
    (hl : x.shape.length = y.shape.length) (he : x.shape.eraseIdx a = y.shape.eraseIdx a) :
    ∃ z, x.concatenate y a = some z ∧ z.sub = x.sub ∧ z.shape = x.shape.set a (x.shape.getD a 0 + y.shape.getD a 0) ∧ FitsB z z.sub ∧
      ∀ b, b.length = x.shape.length → z.at b =
        if b.getD a 0 < x.shape.getD a 0 then x.at b else y.at (b.set a (b.getD a 0 - x.shape.getD a 0)) := by
  have e1 : x.vals.shape.eraseIdx a = x.shape.eraseIdx a ++ [x.sub.blades.length] := by
    rw [hx.2, List.eraseIdx_append_of_lt_length ha]
  have e2 : y.vals.shape.eraseIdx a = y.shape.eraseIdx a ++ [y.sub.blades.length] := by
    rw [hy.2, List.eraseIdx_append_of_lt_length (hl ▸ ha)]
  have g1 : x.vals.shape.getD a 0 = x.shape.getD a 0 := by
    rw [hx.2, List.getD_eq_getElem?_getD, List.getElem?_append_left ha, List.getD_eq_getElem?_getD]
  have g2 : y.vals.shape.getD a 0 = y.shape.getD a 0 := by
    rw [hy.2, List.getD_eq_getElem?_getD, List.getElem?_append_left (hl ▸ ha), List.getD_eq_getElem?_getD]
  have n1 : x.vals.ndim = x.shape.length + 1 := by rw [Tensor.ndim, hx.2]; simp
  have n2 : y.vals.ndim = y.shape.length + 1 := by rw [Tensor.ndim, hy.2]; simp
  have s1 : ∀ d, x.vals.shape.set a d = x.shape.set a d ++ [x.sub.blades.length] := fun d => by
    rw [hx.2, List.set_append_left _ _ ha]
  rw [BMV.concatenate, if_pos ⟨hs, by omega, by rw [e1, e2, he, hs], by omega⟩, g1, g2]
  simp only [s1]
  rw [BMV.construct, if_pos (by simp)]
  refine ⟨_, rfl, rfl, by simp [BMV.shape], ⟨rfl, by simp [BMV.shape]⟩, fun b hb => ?_⟩
  have hd : ∀ j, (b ++ [j]).getD a 0 = b.getD a 0 := fun j => by
    rw [List.getD_eq_getElem?_getD, List.getElem?_append_left (by omega), List.getD_eq_getElem?_getD]
  simp only [BMV.at, hd]
  split
  · rfl
  · rw [← hs]
    refine congrArg _ (List.map_congr_left fun j _ => ?_)
    rw [List.set_append_left _ _ (by omega)]

/-- C86: arrays of different subspaces are not joined, nor are arrays joined along the axis of components. -/
theorem C86_concat_raises {x y : BMV R} (hx : FitsB x x.sub) (hy : FitsB y y.sub) :
    (x.sub ≠ y.sub → ∀ a, x.concatenate y a = none) ∧ (x.sub.blades ≠ [] → x.concatenate y x.shape.length = none) := by
  constructor
  · intro h a
    rw [BMV.concatenate, if_neg fun h' => h h'.1]
  · intro h
    rw [BMV.concatenate]
    split
    · rename_i h'
      have n2 : y.vals.ndim = y.shape.length + 1 := by rw [Tensor.ndim, hy.2]; simp
      have n1 : x.vals.ndim = x.shape.length + 1 := by rw [Tensor.ndim, hx.2]; simp
      have hl : x.shape.length = y.shape.length := by omega
      have g1 : x.vals.shape.getD x.shape.length 0 = x.sub.blades.length := by
        rw [hx.2, List.getD_eq_getElem?_getD, List.getElem?_append_right le_rfl]; simp
      have g2 : y.vals.shape.getD x.shape.length 0 = y.sub.blades.length := by
        rw [hy.2, hl, List.getD_eq_getElem?_getD, List.getElem?_append_right le_rfl]; simp
      have s1 : ∀ d, x.vals.shape.set x.shape.length d = x.shape ++ [d] := fun d => by
        rw [hx.2, List.set_append_right _ _ le_rfl]; simp
      have : 0 < x.sub.blades.length := List.length_pos_iff.2 h
      rw [g1, g2]
      simp only [s1]
      rw [← h'.1, BMV.construct, if_neg (by simp; omega)]
    · rfl

/-- C86: an index takes the multivectors of one entry of the first axis; an index past its end is rejected, as is every index into a single
multivector of more than zero components. -/
theorem C86_index {x : BMV R} (hx : FitsB x x.sub) {d : Nat} {s : List Nat} (hs : x.shape = d :: s) (i : Nat) :
    (d ≤ i → x.getItem i = none) ∧
    (i < d → ∃ z, x.getItem i = some z ∧ z.sub = x.sub ∧ z.shape = s ∧ FitsB z z.sub ∧ ∀ b, z.at b = x.at (i :: b)) := by
  have h0 : x.vals.shape = d :: (s ++ [x.sub.blades.length]) := by rw [hx.2, hs]; rfl
  rw [BMV.getItem, h0]
  constructor
  · intro h
    exact if_neg (by simpa using h)
  · intro h
    rw [if_pos (by simpa using h), BMV.construct, Tensor.lead, h0, if_pos (by simp)]
    exact ⟨_, rfl, rfl, by simp [BMV.shape], ⟨rfl, by simp [BMV.shape]⟩, fun b => rfl⟩

/-- C86: `x.at[i].set(y)` is an array that holds `y`, repeated as far as needed, at `i`, and is equal to `x` elsewhere. -/
theorem C86_set {x y : BMV R} (hx : FitsB x x.sub) (hy : FitsB y y.sub) (hsub : y.sub = x.sub) {d : Nat} {s : List Nat} (hs : x.shape = d :: s) {i : Nat}
    (hi : i < d) (hr : Repeats y.shape s) :
    ∃ z, x.atSet i y = some z ∧ z.sub = x.sub ∧ z.shape = x.shape ∧ FitsB z z.sub ∧
      (∀ j b, j ≠ i → z.at (j :: b) = x.at (j :: b)) ∧ ∀ b, b.length = s.length → IsSlice b y (z.at (i :: b)) := by
  have h0 : x.vals.shape = d :: (s ++ [x.sub.blades.length]) := by rw [hx.2, hs]; rfl
  have h1 : y.vals.shape = y.shape ++ [x.sub.blades.length] := by rw [hy.2, hsub]
  have h2 : Repeats y.vals.shape (x.vals.shape.drop 1) := by
    rw [h0, h1]
    exact Repeats.append hr (Repeats.refl _) rfl
  rw [BMV.atSet, if_pos ⟨by rw [h0]; simpa using hi, common_pair h2⟩, BMV.construct, if_pos (by show x.vals.shape.getLast? = _; rw [h0, ← List.cons_append, List.getLast?_concat])]
  refine ⟨_, rfl, rfl, rfl, ⟨rfl, hx.2⟩, fun j b hj => ?_, fun b hb => ⟨bcIdx y.shape b, bcIdx_readAt (by rw [hb]; exact hr.1), ?_⟩⟩
  · simp [BMV.at, hj]
  · have : ∀ j < x.sub.blades.length, bcIdx y.vals.shape (b ++ [j]) = bcIdx y.shape b ++ [j] := fun j hj => by
      rw [h1, bcIdx_append (t := [x.sub.blades.length]) (k := [j]) rfl (by rw [hb]; exact hr.1), clipIdx]
      simp
      omega
    simp only [BMV.at, hsub]
    refine congrArg _ (List.map_congr_left fun j hj => ?_)
    simp [this j (List.mem_range.1 hj)]

/-- Two by three multivectors of `e₁`, `e₂`. -/
def exArr : BMV Int := ⟨⟨[1, 2]⟩, ⟨[2, 3, 2], fun | [i, j, k] => 100 * (i + 1) + 10 * j + k | _ => 0⟩⟩

/-- One multivector of `e₁`, `e₂`. -/
def exOne : BMV Int := ⟨⟨[1, 2]⟩, ⟨[2], fun | [k] => k + 5 | _ => 0⟩⟩

/-- One bivector of the plane. -/
def exScalar : BMV Int := ⟨⟨[3]⟩, ⟨[1], fun _ => 7⟩⟩

/-- Two multivectors of `e₁`, `e₂`. -/
def exSquare : BMV Int := ⟨⟨[1, 2]⟩, ⟨[2, 2], fun | [j, k] => 10 * j + k + 1 | _ => 0⟩⟩

example : WfSub pga3 exArr.sub ∧ FitsB exArr exArr.sub ∧ FitsB exOne exOne.sub ∧ exArr.shape = [2, 3] ∧ Repeats exOne.shape [3] ∧
    (exArr.sum 1).map (fun z => (z.at [1]).vals) = some [630, 633] ∧ (exArr.sum (-2)).map (fun z => (z.at [1]).vals) = some [630, 633] ∧
    (exArr.concatenate exArr 0).map (fun z => (z.at [3, 1]).vals) = some [210, 211] ∧ (exArr.getItem 1).map (fun z => (z.at [2]).vals) = some [220, 221] ∧
    (exArr.atSet 1 exOne).map (fun z => ((z.at [1, 2]).vals, (z.at [0, 2]).vals)) = some ([5, 6], [120, 121]) :=
  ⟨wfSub_of_B (by decide +kernel), ⟨rfl, rfl⟩, ⟨rfl, rfl⟩, rfl, by constructor <;> decide, by decide +kernel⟩

/-- C86: the sum over the last axis of a square array silently adds up the components of each multivector. -/
theorem C86_sum_silent : (exSquare.sum (-1)).map (fun z => (z.shape, (z.at []).vals)) = some ([], [3, 23]) ∧
    ((exSquare.sum 0).map fun z => (z.shape, (z.at []).vals)) = some ([], [12, 14]) := by decide +kernel

/-- C86: the subspace of the value of an assignment is not compared, and a single component is repeated for all of them. -/
theorem C86_set_unchecked : (exArr.atSet 0 exScalar).map (fun z => (z.sub, (z.at [0, 1]).vals)) = some (⟨[1, 2]⟩, [7, 7]) ∧ exScalar.sub ≠ exArr.sub := by
  decide +kernel

end Verif.Props
