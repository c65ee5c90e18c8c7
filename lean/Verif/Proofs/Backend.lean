import Verif.Model.Backend
import Verif.Proofs.Slice
/-! # Execution strategies: einsum, sparse, dense and partial application (C40 – C43) -/
namespace Verif
open Model Spec
variable {R : Type} [CommRing R] {A : Alg}

/-! ### assembling an index from the indices of two groups of labels -/

/-- The value of a label: taken from `t` if `p` holds, else from `r`. -/
def env2 (p : Nat → Bool) (l t r : List Nat) (c : Nat) : Nat :=
  if p c then t.getD ((l.filter p).idxOf c) 0 else r.getD ((l.filter fun c => ! p c).idxOf c) 0

theorem env2_cons (p : Nat → Bool) (a : Nat) (l t r : List Nat) (hn : a ∉ l) {c : Nat} (hc : c ∈ l) :
    env2 p (a :: l) t r c = if p a then env2 p l t.tail r c else env2 p l t r.tail c := by
  have hac : a ≠ c := fun h => hn (h ▸ hc)
  have h1 : ∀ (u : List Nat) (k : Nat), u.getD (k + 1) 0 = u.tail.getD k 0 := by
    intro u k; cases u <;> simp
  cases hpa : p a <;> cases hpc : p c <;> simp [env2, hpa, hpc, List.idxOf_cons, hac, h1]

theorem env2_head (p : Nat → Bool) (a : Nat) (l t r : List Nat) :
    env2 p (a :: l) t r a = if p a then t.headD 0 else r.headD 0 := by
  cases hpa : p a
  · cases r <;> simp [env2, hpa]
  · cases t <;> simp [env2, hpa]

theorem sumIdx_env2 (p : Nat → Bool) (l : List Nat) (hn : l.Nodup) (sz : Nat → Nat) (f : List Nat → R) :
    sumIdx (l.map sz) f = sumIdx ((l.filter p).map sz) fun t => sumIdx ((l.filter fun c => ! p c).map sz) fun r => f (l.map (env2 p l t r)) := by
  induction l generalizing f with
  | nil => simp [sumIdx, allIdx]
  | cons a l ih =>
    rw [List.map_cons, sumIdx_cons]
    have hn' := (List.nodup_cons.1 hn).2
    have ha := (List.nodup_cons.1 hn).1
    have e : ∀ t r, (a :: l).map (env2 p (a :: l) t r) = (if p a then t.headD 0 else r.headD 0) :: l.map (fun c => if p a then env2 p l t.tail r c else env2 p l t r.tail c) := by
      intro t r
      rw [List.map_cons, env2_head]
      congr 1
      exact List.map_congr_left fun c hc => env2_cons p a l t r ha hc
    cases hpa : p a
    · rw [List.filter_cons_of_neg (by simp [hpa]), List.filter_cons_of_pos (by simp [hpa]), List.map_cons]
      simp only [sumIdx_cons, e, hpa, Bool.false_eq_true, if_false, List.headD_cons, List.tail_cons]
      rw [sumIdx_sum]
      exact Finset.sum_congr rfl fun i _ => ih hn' _
    · rw [List.filter_cons_of_pos hpa, List.filter_cons_of_neg (by simp [hpa]), List.map_cons]
      simp only [sumIdx_cons, e, hpa, if_true, List.headD_cons, List.tail_cons]
      exact Finset.sum_congr rfl fun i _ => ih hn' _

theorem env2_lt {p : Nat → Bool} {l t r : List Nat} {sz : Nat → Nat} (ht : Valid t ((l.filter p).map sz))
    (hr : Valid r ((l.filter fun c => ! p c).map sz)) {c : Nat} (hc : c ∈ l) : env2 p l t r c < sz c := by
  rw [env2]
  split
  · rename_i hp
    have hm : c ∈ l.filter p := List.mem_filter.2 ⟨hc, hp⟩
    have := ht.get (i := (l.filter p).idxOf c) (by simpa using List.idxOf_lt_length_of_mem hm)
    rw [getD_lt (List.map sz _) _ (by simpa using List.idxOf_lt_length_of_mem hm)] at this
    simpa using this
  · rename_i hp
    have hm : c ∈ l.filter fun c => ! p c := List.mem_filter.2 ⟨hc, by simpa using hp⟩
    have := hr.get (i := (l.filter fun c => ! p c).idxOf c) (by simpa using List.idxOf_lt_length_of_mem hm)
    rw [getD_lt (List.map sz _) _ (by simpa using List.idxOf_lt_length_of_mem hm)] at this
    simpa using this

theorem map_idxOf {l r : List Nat} (hn : l.Nodup) (hl : r.length = l.length) : l.map (fun c => r.getD (l.idxOf c) 0) = r := by
  apply List.ext_getElem (by simp [hl])
  intro i h1 h2
  rw [List.getElem_map, hn.idxOf_getElem, getD_lt _ _ h2]

theorem clip_eq {e : Nat → Nat} {l shape : List Nat} (h : Valid (l.map e) shape) :
    List.zipWith (fun c d => if d = 1 then 0 else e c) l shape = l.map e := by
  induction l generalizing shape with
  | nil => rfl
  | cons c l ih =>
    cases h with
    | @cons _ d _ ds h1 h2 =>
      rw [List.zipWith_cons_cons, ih h2, List.map_cons]
      congr 1
      split <;> omega

theorem einsumSize_eq {L : List (Nat × Nat)} {c s : Nat} (h1 : ∀ p ∈ L, p.1 = c → p.2 = s) (h2 : ∃ p ∈ L, p.1 = c) : einsumSize L c = s := by
  rw [einsumSize]
  cases hf : L.filter (fun p => p.1 == c && p.2 != 1) with
  | nil =>
    obtain ⟨p, hp, hpc⟩ := h2
    have := List.filter_eq_nil_iff.1 hf p hp
    simp only [hpc, h1 p hp hpc] at this
    simp at this
    simp [this]
  | cons q qs =>
    have hq : q ∈ L.filter (fun p => p.1 == c && p.2 != 1) := by rw [hf]; simp
    rw [List.mem_filter] at hq
    simp only [Bool.and_eq_true, beq_iff_eq] at hq
    simp [h1 q hq.1 hq.2.1]

theorem prod_filter_mul (p : Nat → Bool) (l : List Nat) (g : Nat → R) :
    (l.map g).prod = ((l.filter p).map g).prod * ((l.filter fun c => ! p c).map g).prod := by
  induction l with
  | nil => simp
  | cons a l ih =>
    cases hp : p a
    · rw [List.filter_cons_of_neg (by simp [hp]), List.filter_cons_of_pos (by simp [hp]), List.map_cons, List.prod_cons, ih, List.map_cons, List.prod_cons]
      ring
    · rw [List.filter_cons_of_pos hp, List.filter_cons_of_neg (by simp [hp]), List.map_cons, List.prod_cons, ih, List.map_cons, List.prod_cons]
      ring

theorem prodAt_map (l : List Nat) (x : Nat → List R) (e : Nat → Nat) : prodAt (l.map x) (l.map e) = (l.map fun c => (x c).getD (e c) 0).prod := by
  rw [prodAt, List.zipWith_map]
  congr 1
  induction l with
  | nil => rfl
  | cons a l ih => simp [ih]

section Einsum
variable {k : Tensor R} {a : Nat} {keys : List Nat}

theorem einsum_partial (ha : a ≤ 25) (hk : k.shape.length = a + 1) (hn : keys.Nodup) (hlt : ∀ c ∈ keys, c < a) (hne : keys ≠ [])
    (x : Nat → List R) (hx : ∀ c ∈ keys, (x c).length = k.shape.getD c 0) :
    ∃ e t, precomputeEinsumPartial a keys = some e ∧ einsum e (k :: keys.map fun c => vecTensor (x c)) = some t ∧
      t.shape = ((List.range a).filter fun c => ! keys.contains c).map (k.shape.getD · 0) ++ [k.shape.getD a 0] ∧
      ∀ r o, Valid r (((List.range a).filter fun c => ! keys.contains c).map (k.shape.getD · 0)) → o < k.shape.getD a 0 →
        t.get (r ++ [o]) = sumIdx (((List.range a).filter keys.contains).map (k.shape.getD · 0)) fun t =>
          k.get ((List.range a).map (env2 keys.contains (List.range a) t r) ++ [o]) *
            (keys.map fun c => (x c).getD (env2 keys.contains (List.range a) t r c) 0).prod := by
  have hak : a ∉ keys := fun h => absurd (hlt a h) (by omega)
  let sz := fun c => k.shape.getD c 0
  have hout : (List.range (a + 1)).filter (fun c => ! keys.contains c) = ((List.range a).filter fun c => ! keys.contains c) ++ [a] := by
    rw [List.range_succ, List.filter_append]
    simp [hak]
  have he : precomputeEinsumPartial a keys = some ⟨List.range (a + 1) :: keys.map fun c => [c], ((List.range a).filter fun c => ! keys.contains c) ++ [a]⟩ := by
    rw [precomputeEinsumPartial]
    simp only
    rw [if_pos ⟨by omega, fun c hc => by have := hlt c hc; omega⟩, if_neg hne, hout]
  -- labels and their sizes
  have hL : ((List.range (a + 1) :: keys.map fun c => [c]).zip (k :: keys.map fun c => vecTensor (x c))).flatMap (fun p => p.1.zip p.2.shape) =
      (List.range (a + 1)).zip k.shape ++ keys.map fun c => (c, sz c) := by
    rw [List.zip_cons_cons, List.flatMap_cons]
    congr 1
    clear hne hlt hak hout he hn
    induction keys with
    | nil => rfl
    | cons c keys ih =>
      rw [List.map_cons, List.map_cons, List.zip_cons_cons, List.flatMap_cons, ih fun c hc => hx c (by simp [hc]), List.map_cons]
      simp [vecTensor, hx c (by simp), sz]
  have hmem : ∀ p ∈ (List.range (a + 1)).zip k.shape ++ keys.map (fun c => (c, sz c)), p.2 = sz p.1 := by
    intro p hp
    rcases List.mem_append.1 hp with hp | hp
    · obtain ⟨i, hi, rfl⟩ := List.getElem_of_mem hp
      simp only [List.length_zip, List.length_range, hk, Nat.min_self] at hi
      simp [sz, List.getElem?_eq_getElem (show i < k.shape.length by omega)]
    · obtain ⟨c, -, rfl⟩ := List.mem_map.1 hp
      rfl
  have hsize : ∀ c, c ≤ a → einsumSize ((List.range (a + 1)).zip k.shape ++ keys.map fun c => (c, sz c)) c = sz c := by
    intro c hc
    refine einsumSize_eq (fun p hp hpc => by rw [hmem p hp, hpc]) ⟨(c, sz c), ?_, rfl⟩
    apply List.mem_append_left
    rw [List.mem_iff_getElem]
    refine ⟨c, by simp [hk]; omega, ?_⟩
    simp [sz, List.getElem?_eq_getElem (show c < k.shape.length by omega)]
  have hsummed : (List.range 26).filter (fun c => decide (c ∈ (List.range (a + 1) :: keys.map fun c => [c]).flatten ∧
      c ∉ ((List.range a).filter fun c => ! keys.contains c) ++ [a])) = (List.range a).filter keys.contains := by
    have h26 : List.range 26 = List.range a ++ List.range' a (26 - a) := by
      have := List.range'_append_1 (s := 0) (m := a) (n := 26 - a)
      rw [show a + (26 - a) = 26 by omega, Nat.zero_add] at this
      rw [List.range_eq_range', List.range_eq_range', this]
    rw [h26, List.filter_append]
    have h2 : (List.range' a (26 - a)).filter (fun c => decide (c ∈ (List.range (a + 1) :: keys.map fun c => [c]).flatten ∧
      c ∉ ((List.range a).filter fun c => ! keys.contains c) ++ [a])) = [] := by
      rw [List.filter_eq_nil_iff]
      intro c hc
      simp only [List.mem_range'_1] at hc
      simp only [decide_eq_true_eq, not_and, not_not]
      intro h
      have : c ≤ a := by
        simp only [List.flatten_cons, List.mem_append, List.mem_range, List.mem_flatten, List.mem_map] at h
        rcases h with h | ⟨_, ⟨d, hd, rfl⟩, h⟩
        · omega
        · have := hlt d hd
          simp at h
          omega
      have : c = a := by omega
      simp [this]
    rw [h2, List.append_nil]
    apply List.filter_congr
    intro c hc
    have hc := List.mem_range.1 hc
    have hca : c ≠ a := by omega
    by_cases hcon : c ∈ keys
    · simp [hcon, hca]
    · simp [hcon, hc]
  have hshape : (((List.range a).filter fun c => ! keys.contains c) ++ [a]).map (einsumSize ((List.range (a + 1)).zip k.shape ++ keys.map fun c => (c, sz c))) =
      ((List.range a).filter fun c => ! keys.contains c).map sz ++ [sz a] := by
    rw [List.map_append, List.map_singleton, hsize a (Nat.le_refl a)]
    congr 1
    exact List.map_congr_left fun c hc => hsize c (by have := List.mem_range.1 (List.mem_filter.1 hc).1; omega)
  have hshape2 : ((List.range a).filter keys.contains).map (einsumSize ((List.range (a + 1)).zip k.shape ++ keys.map fun c => (c, sz c))) =
      ((List.range a).filter keys.contains).map sz :=
    List.map_congr_left fun c hc => hsize c (by have := List.mem_range.1 (List.mem_filter.1 hc).1; omega)
  have hE : einsum ⟨List.range (a + 1) :: keys.map fun c => [c], ((List.range a).filter fun c => ! keys.contains c) ++ [a]⟩
      (k :: keys.map fun c => vecTensor (x c)) = some ⟨((List.range a).filter fun c => ! keys.contains c).map sz ++ [sz a], fun idx =>
        ((allIdx (((List.range a).filter keys.contains).map sz)).map fun t =>
          (((List.range (a + 1) :: keys.map fun c => [c]).zip (k :: keys.map fun c => vecTensor (x c))).map fun p => p.2.get
            (List.zipWith (fun c d => if d = 1 then 0 else einsumEnv (((List.range a).filter fun c => ! keys.contains c) ++ [a]) idx
              ((List.range a).filter keys.contains) t c) p.1 p.2.shape)).prod).sum⟩ := by
    rw [einsum]
    simp only [hL, hsummed, hshape, hshape2]
    rw [if_pos]
    constructor
    · simp [Tensor.ndim, hk, vecTensor, Function.comp_def]
    · intro p hp
      right
      rw [hsize _ ?_, hmem p hp]
      rcases List.mem_append.1 hp with hp | hp
      · have := List.mem_range.1 (List.of_mem_zip (a := p.1) (b := p.2) hp).1
        omega
      · obtain ⟨c, hc, rfl⟩ := List.mem_map.1 hp
        exact (hlt c hc).le
  refine ⟨_, _, he, hE, rfl, fun r o hr ho => ?_⟩
  simp only
  change sumIdx _ _ = _
  refine sumIdx_congr fun t ht => ?_
  have hrl : r.length = ((List.range a).filter fun c => ! keys.contains c).length := by simpa using hr.length
  have henv : ∀ c < a, einsumEnv (((List.range a).filter fun c => ! keys.contains c) ++ [a]) (r ++ [o]) ((List.range a).filter keys.contains) t c =
      env2 keys.contains (List.range a) t r c := by
    intro c hc
    rw [einsumEnv, env2]
    cases hcon : keys.contains c
    · have hm : c ∈ (List.range a).filter fun c => ! keys.contains c := List.mem_filter.2 ⟨List.mem_range.2 hc, by simpa using hcon⟩
      rw [if_pos (List.mem_append_left _ hm), List.idxOf_append_of_mem hm]
      have := List.idxOf_lt_length_of_mem hm
      simp only [Bool.false_eq_true, if_false]
      rw [List.getD_eq_getElem?_getD, List.getElem?_append_left (by omega), ← List.getD_eq_getElem?_getD]
    · rw [if_neg]
      · simp
      · have hca : c ≠ a := by omega
        have : c ∈ keys := by simpa using hcon
        simp [this, hca]
  have henva : einsumEnv (((List.range a).filter fun c => ! keys.contains c) ++ [a]) (r ++ [o]) ((List.range a).filter keys.contains) t a = o := by
    rw [einsumEnv, if_pos (by simp), List.idxOf_append_of_notMem (by simp)]
    simp [hrl]
  have hval : Valid ((List.range a).map (env2 keys.contains (List.range a) t r)) ((List.range a).map sz) := by
    rw [Valid, List.forall₂_map_left_iff, List.forall₂_map_right_iff, List.forall₂_same]
    exact fun c hc => env2_lt ht hr hc
  have hks : k.shape = (List.range a).map sz ++ [sz a] := by
    have := map_getD_range k.shape 0
    rw [hk, List.range_succ, List.map_append, List.map_singleton] at this
    exact this.symm
  rw [List.zip_cons_cons, List.map_cons, List.prod_cons]
  have hidx : (List.range (a + 1)).map (einsumEnv (((List.range a).filter fun c => ! keys.contains c) ++ [a]) (r ++ [o]) ((List.range a).filter keys.contains) t) =
      (List.range a).map (env2 keys.contains (List.range a) t r) ++ [o] := by
    rw [List.range_succ, List.map_append, List.map_singleton, henva]
    congr 1
    exact List.map_congr_left fun c hc => henv c (List.mem_range.1 hc)
  congr 1
  · simp only
    rw [clip_eq, hidx]
    rw [hidx, hks]
    exact hval.append (.cons ho .nil)
  · congr 1
    rw [List.zip_map', List.map_map]
    apply List.map_congr_left
    intro c hc
    have hca := hlt c hc
    have hlt' := env2_lt ht hr (List.mem_range.2 hca)
    simp only [Function.comp_apply, vecTensor, List.zipWith_cons_cons, List.zipWith_nil_right, List.getD_cons_zero, henv c hca, hx c hc]
    split
    · rename_i h1
      rw [show env2 keys.contains (List.range a) t r c = 0 by simp only [sz, h1] at hlt'; omega]
    · rfl

end Einsum

theorem sz_eq {op : Operator R} (h : WfOp A op) {i : Nat} (hi : i < op.inputs.length) :
    op.kernel.shape.getD i 0 = (op.inputs.getD i ⟨[]⟩).blades.length := by
  rw [h.shape_eq, List.getD_eq_getElem?_getD, List.getElem?_append_left (by simpa using hi), getD_lt _ _ hi]
  simp [List.getElem?_eq_getElem hi]

theorem sz_out {op : Operator R} (h : WfOp A op) : op.kernel.shape.getD op.arity 0 = op.output.blades.length := by
  rw [h.shape_eq, List.getD_eq_getElem?_getD, List.getElem?_append_right (by simp [Operator.arity])]
  simp [Operator.arity]

theorem shape_length {op : Operator R} (h : WfOp A op) : op.kernel.shape.length = op.arity + 1 := by
  rw [h.shape_eq]; simp [Operator.arity]

theorem shape_in_range {op : Operator R} (h : WfOp A op) :
    op.kernel.shape.dropLast = (List.range op.arity).map (op.kernel.shape.getD · 0) := by
  have := map_getD_range op.kernel.shape 0
  rw [shape_length h, List.range_succ, List.map_append, List.map_singleton] at this
  conv_lhs => rw [← this]
  simp

/-- Calling an einsum operator evaluates the multilinear map of its kernel. -/
theorem einsumCall_eq {op : Operator R} (h : WfOp A op) (h1 : 1 ≤ op.arity) (h2 : op.arity ≤ 25) {xs : List (List R)}
    (hx : xs.map (·.length) = op.inputs.map (·.blades.length)) : einsumCall op xs = some (op.eval xs) := by
  have hxl : xs.length = op.arity := by simpa [Operator.arity] using congrArg List.length hx
  have hxi : ∀ c < op.arity, (xs.getD c []).length = op.kernel.shape.getD c 0 := by
    intro c hc
    rw [sz_eq h hc, getD_lt _ _ (by omega), getD_lt _ _ hc]
    have : (xs.map (·.length))[c]'(by simp; omega) = (op.inputs.map (·.blades.length))[c]'(by rw [List.length_map]; exact hc) := by simp only [hx]
    rw [List.getElem_map, List.getElem_map] at this
    exact this
  obtain ⟨e, t, e1, t1, t2, t3⟩ := einsum_partial (k := op.kernel) (a := op.arity) (keys := List.range op.arity) h2 (shape_length h)
    List.nodup_range (fun c hc => List.mem_range.1 hc) (by simp; omega) (fun c => xs.getD c []) (fun c hc => hxi c (List.mem_range.1 hc))
  have hxs : (List.range op.arity).map (fun c => vecTensor (xs.getD c [])) = xs.map vecTensor := by
    conv_rhs => rw [← map_getD_range xs []]
    rw [hxl, List.map_map]; rfl
  have hrest : (List.range op.arity).filter (fun c => ! (List.range op.arity).contains c) = [] := by
    rw [List.filter_eq_nil_iff]; intro c hc; simp; simpa using hc
  have hall : (List.range op.arity).filter (List.range op.arity).contains = List.range op.arity := by
    rw [List.filter_eq_self]; intro c hc; simpa using hc
  rw [hrest] at t2 t3
  rw [hxs] at t1
  rw [sz_out h] at t2 t3
  rw [einsumCall, e1, Option.bind_eq_bind, Option.bind_some, t1, Option.bind_eq_bind, Option.bind_some, if_pos (by simpa using t2), Operator.eval, h.shape_out]
  congr 1
  apply List.map_congr_left
  intro o ho
  have := t3 [] o (by simp [Valid]) (List.mem_range.1 ho)
  rw [List.nil_append] at this
  rw [this, evalAt_eq, shape_in_range h, hall]
  refine sumIdx_congr fun i hi => ?_
  have hil : i.length = op.arity := by simpa using hi.length
  have e2 : (List.range op.arity).map (env2 (List.range op.arity).contains (List.range op.arity) i []) = i := by
    refine Eq.trans ?_ (map_idxOf (l := List.range op.arity) (r := i) List.nodup_range (by simpa using hil))
    apply List.map_congr_left
    intro c hc
    rw [env2, if_pos (by simpa using hc), hall]
  rw [e2, ← prodAt_map, e2]
  congr 2
  rw [← hxl]
  exact map_getD_range xs []

theorem filter_range_axes {op : Operator R} (h : WfOp A op) {keys : List Nat} (hlt : ∀ c ∈ keys, c < op.arity) :
    ((List.range op.axes.length).filter fun i => ! keys.contains i).map (fun i => op.axes.getD i ⟨[]⟩) =
      ((List.range op.arity).filter fun i => ! keys.contains i).map (fun i => op.inputs.getD i ⟨[]⟩) ++ [op.output] := by
  have hl : op.axes.length = op.arity + 1 := by rw [h.axes_eq]; simp [Operator.arity]
  have hk : op.arity ∉ keys := fun hc => absurd (hlt _ hc) (by omega)
  rw [hl, List.range_succ, List.filter_append, List.map_append]
  congr 1
  · apply List.map_congr_left
    intro i hi
    have := List.mem_range.1 (List.mem_filter.1 hi).1
    rw [h.axes_eq, List.getD_eq_getElem?_getD, List.getElem?_append_left (by simpa [Operator.arity] using this), ← List.getD_eq_getElem?_getD]
  · rw [List.filter_cons_of_pos (by simpa using hk)]
    simp only [List.filter_nil, List.map_cons, List.map_nil]
    rw [h.axes_eq, List.getD_eq_getElem?_getD, List.getElem?_append_right (by simp [Operator.arity])]
    simp [Operator.arity]

/-- Partial application, then evaluation at the remaining arguments, is evaluation at all arguments. -/
theorem partial_eval {op : Operator R} (h : WfOp A op) (h2 : op.arity ≤ 25) {keys : List Nat} (hn : keys.Nodup) (hlt : ∀ c ∈ keys, c < op.arity)
    (hne : keys ≠ []) (x : Nat → MV R) (hx : ∀ c < op.arity, (x c).vals.length = (op.inputs.getD c ⟨[]⟩).blades.length) :
    ∃ q, op.partialApply (keys.map fun c => (c, x c)) = some q ∧ WfOp A q ∧
      q.axes = ((List.range op.arity).filter fun i => ! keys.contains i).map (fun i => op.inputs.getD i ⟨[]⟩) ++ [op.output] ∧
      q.eval (((List.range op.arity).filter fun i => ! keys.contains i).map fun c => (x c).vals) = op.eval ((List.range op.arity).map fun c => (x c).vals) := by
  obtain ⟨e, t, e1, t1, t2, t3⟩ := einsum_partial (k := op.kernel) (a := op.arity) (keys := keys) h2 (shape_length h) hn hlt hne
    (fun c => (x c).vals) (fun c hc => by rw [hx c (hlt c hc), sz_eq h (hlt c hc)])
  have hk1 : (keys.map fun c => (c, x c)).map (·.1) = keys := by simp [Function.comp_def]
  have hk2 : (keys.map fun c => (c, x c)).map (fun p => vecTensor p.2.vals) = keys.map fun c => vecTensor (x c).vals := by simp [Function.comp_def]
  have hshape : t.shape = (((List.range op.arity).filter fun i => ! keys.contains i).map (fun i => op.inputs.getD i ⟨[]⟩) ++ [op.output]).map (·.blades.length) := by
    rw [t2, List.map_append, List.map_map, List.map_singleton, sz_out h]
    congr 1
    apply List.map_congr_left
    intro c hc
    exact sz_eq h (List.mem_range.1 (List.mem_filter.1 hc).1)
  have hq : WfOp A (⟨t, ((List.range op.arity).filter fun i => ! keys.contains i).map (fun i => op.inputs.getD i ⟨[]⟩) ++ [op.output]⟩ : Operator R) := by
    refine ⟨by simp, hshape, fun S hS => ?_⟩
    rcases List.mem_append.1 hS with hS | hS
    · obtain ⟨c, hc, rfl⟩ := List.mem_map.1 hS
      have hca : c < op.inputs.length := List.mem_range.1 (List.mem_filter.1 hc).1
      rw [getD_lt _ _ hca]
      exact h.wf_inputs _ (List.getElem_mem hca)
    · rw [List.mem_singleton.1 hS]
      exact h.wf_output
  refine ⟨_, ?_, hq, rfl, ?_⟩
  · rw [Operator.partialApply, hk1, hk2, e1, Option.bind_eq_bind, Option.bind_some, t1, Option.bind_eq_bind, Option.bind_some, filter_range_axes h hlt]
  · rw [Operator.eval, Operator.eval, h.shape_out, hq.shape_out]
    simp only [Operator.output, List.getLastD_concat]
    apply List.map_congr_left
    intro o ho
    have ho := List.mem_range.1 ho
    rw [evalAt_eq, evalAt_eq, shape_in_range h, sumIdx_env2 keys.contains (List.range op.arity) List.nodup_range, sumIdx_comm]
    simp only
    rw [t2, List.dropLast_concat]
    refine sumIdx_congr fun r hr => ?_
    rw [t3 r o hr (by rw [sz_out h]; exact ho), ← sumIdx_mul_right]
    refine sumIdx_congr fun i hi => ?_
    rw [mul_assoc]
    congr 1
    have hr' : ((List.range op.arity).filter fun c => ! keys.contains c).map (env2 keys.contains (List.range op.arity) i r) = r := by
      refine Eq.trans ?_ (map_idxOf (l := (List.range op.arity).filter fun c => ! keys.contains c) (r := r) (List.nodup_range.filter _) (by simpa using hr.length))
      apply List.map_congr_left
      intro c hc
      rw [env2, if_neg]
      have := (List.mem_filter.1 hc).2
      simpa using this
    have hperm : (keys.map fun c => (x c).vals.getD (env2 keys.contains (List.range op.arity) i r c) 0).prod =
        (((List.range op.arity).filter keys.contains).map fun c => (x c).vals.getD (env2 keys.contains (List.range op.arity) i r c) 0).prod := by
      apply List.Perm.prod_eq
      apply List.Perm.map
      rw [List.perm_ext_iff_of_nodup hn (List.nodup_range.filter _)]
      intro c
      simp only [List.mem_filter, List.mem_range, List.contains_iff_mem]
      exact ⟨fun hc => ⟨hlt c hc, hc⟩, fun hc => hc.2⟩
    rw [hperm, prodAt_map, prod_filter_mul keys.contains (List.range op.arity)]
    congr 1
    conv_lhs => rw [← hr']
    rw [prodAt_map]

/-! ### sparse execution -/

theorem termProd_eq {xs : List (List R)} {idx : List Nat} (h : Valid idx (xs.map (·.length))) (s : Int) :
    termProd xs idx s = some ((s : R) * prodAt xs idx) := by
  rw [termProd]
  generalize (s : R) = c
  induction xs generalizing idx c with
  | nil => cases h; simp [prodAt]
  | cons x xs ih =>
    cases h with
    | @cons i _ idx _ h1 h2 =>
      rw [List.zip_cons_cons, List.foldlM_cons, List.getElem?_eq_getElem h1, Option.map_some, Option.bind_eq_bind, Option.bind_some, ih h2, prodAt_cons,
        getD_lt _ _ h1, mul_assoc]

theorem termProdEinsum_eq {a : Nat} {xs : List (List R)} {idx : List Nat} (h : Valid idx (xs.map (·.length))) (ha : xs.length = a) (s : Int) :
    termProdEinsum a xs idx s = some ((s : R) * prodAt xs idx) := by
  have := h.length
  rw [List.length_map] at this
  rw [termProdEinsum, if_pos (by rw [List.length_zip]; omega), termProd_eq h]

theorem rowSum_eq {f : List Nat → Int → Option R} {g : List Nat × Int → R} (terms : List (List Nat × Int)) (h : ∀ t ∈ terms, f t.1 t.2 = some (g t)) :
    rowSum f terms = some (terms.map g).sum := by
  have key : ∀ acc, terms.foldlM (fun acc t => (f t.1 t.2).map (acc + ·)) acc = some (acc + (terms.map g).sum) := by
    induction terms with
    | nil => intro acc; simp
    | cons t terms ih =>
      intro acc
      rw [List.foldlM_cons, h t (by simp), Option.map_some, Option.bind_eq_bind, Option.bind_some, ih fun t ht => h t (by simp [ht])]
      simp [add_assoc]
  rw [rowSum, key 0, zero_add]

theorem fillRows_eq {f : List Nat → Int → Option R} {v : Nat → R} (rows : List (Nat × List (List Nat × Int))) (out : List R)
    (h : ∀ p ∈ rows, rowSum f p.2 = some (v p.1)) :
    ∃ out', fillRows f rows out = some out' ∧ out'.length = out.length ∧
      ∀ j < out.length, out'.getD j 0 = if j ∈ rows.map (·.1) then v j else out.getD j 0 := by
  induction rows generalizing out with
  | nil => exact ⟨out, rfl, rfl, by simp⟩
  | cons p rows ih =>
    obtain ⟨out', h1, h2, h3⟩ := ih (out.set p.1 (v p.1)) fun q hq => h q (by simp [hq])
    refine ⟨out', ?_, by simpa using h2, fun j hj => ?_⟩
    · rw [fillRows, List.foldlM_cons, h p (by simp), Option.map_some, Option.bind_eq_bind, Option.bind_some]
      exact h1
    · rw [h3 j (by simpa using hj)]
      by_cases hm : j ∈ rows.map (·.1)
      · rw [if_pos hm, if_pos (by simp only [List.map_cons, List.mem_cons]; exact .inr hm)]
      · rw [if_neg hm]
        by_cases hp : p.1 = j
        · rw [if_pos (by simp [hp]), hp, getD_lt _ _ (by simpa using hj)]
          simp
        · rw [if_neg (by simp only [List.map_cons, List.mem_cons]; rintro (h | h); exact hp h.symm; exact hm h), List.getD_eq_getElem?_getD,
            List.getElem?_set_ne hp, ← List.getD_eq_getElem?_getD]

/-- Row `o` of the kernel has a nonzero entry. -/
def RowWritten (op : Operator Int) (o : Nat) : Prop := ∃ idx, Valid idx op.kernel.shape.dropLast ∧ op.kernel.get (idx ++ [o]) ≠ 0

theorem mem_sparse {op : Operator Int} {p : Nat × List (List Nat × Int)} : p ∈ precomputeSparse op ↔
    p.1 < op.kernel.shape.getLastD 0 ∧ RowWritten op p.1 ∧
      p.2 = ((allIdx op.kernel.shape.dropLast).filter fun ii => op.kernel.get (ii ++ [p.1]) != 0).map fun ii => (ii, op.kernel.get (ii ++ [p.1])) := by
  obtain ⟨o, row⟩ := p
  simp only [precomputeSparse, List.mem_filter, List.mem_mapIdx, List.length_map, List.length_range, List.getElem_map, List.getElem_range, Prod.mk.injEq]
  have hw : (((allIdx op.kernel.shape.dropLast).filter fun ii => op.kernel.get (ii ++ [o]) != 0).map fun ii => (ii, op.kernel.get (ii ++ [o]))).length ≠ 0 ↔ RowWritten op o := by
    rw [List.length_map, ← Nat.pos_iff_ne_zero, List.length_filter_pos_iff, RowWritten]
    simp [mem_allIdx]
  constructor
  · rintro ⟨⟨i, hi, rfl, rfl⟩, h⟩
    exact ⟨hi, hw.1 (by simpa using h), rfl⟩
  · rintro ⟨h1, h2, rfl⟩
    exact ⟨⟨o, h1, rfl, rfl⟩, by simpa using hw.2 h2⟩

theorem sum_nonzero (op : Operator Int) (xs : List (List R)) (o : Nat) :
    ((((allIdx op.kernel.shape.dropLast).filter fun ii => op.kernel.get (ii ++ [o]) != 0).map fun ii => (ii, op.kernel.get (ii ++ [o]))).map
      fun t => ((t.2 : Int) : R) * prodAt xs t.1).sum = (op.cast R).evalAt xs o := by
  rw [List.map_map]
  change _ = ((allIdx op.kernel.shape.dropLast).map fun idx => ((op.kernel.get (idx ++ [o]) : Int) : R) * prodAt xs idx).sum
  induction allIdx op.kernel.shape.dropLast with
  | nil => rfl
  | cons i l ih =>
    by_cases h : op.kernel.get (i ++ [o]) = 0
    · rw [List.filter_cons_of_neg (by simpa using h), ih]
      simp [h]
    · rw [List.filter_cons_of_pos (by simpa using h), List.map_cons, List.sum_cons, ih]
      simp

theorem evalAt_unwritten {op : Operator Int} {o : Nat} (h : ¬ RowWritten op o) (xs : List (List R)) : (op.cast R).evalAt xs o = 0 := by
  rw [evalAt_eq]
  change sumIdx op.kernel.shape.dropLast (fun idx => ((op.kernel.get (idx ++ [o]) : Int) : R) * prodAt xs idx) = 0
  rw [sumIdx_congr (g := fun _ => 0), sumIdx_zero]
  intro i hi
  have : op.kernel.get (i ++ [o]) = 0 := by
    by_contra hc
    exact h ⟨i, hi, hc⟩
  simp [this]

/-- The loop over the rows of a sparse operator. -/
theorem sparse_fill {op : Operator Int} (h : WfOp A op) {xs : List (List R)} (hx : xs.map (·.length) = op.inputs.map (·.blades.length))
    {f : List Nat → Int → Option R} (hf : ∀ idx s, Valid idx (xs.map (·.length)) → f idx s = some ((s : R) * prodAt xs idx))
    (out : List R) (hout : out.length = op.output.blades.length) :
    ∃ out', fillRows f (precomputeSparse op) out = some out' ∧ out'.length = op.output.blades.length ∧
      (∀ o < op.output.blades.length, RowWritten op o → out'.getD o 0 = (op.cast R).evalAt xs o) ∧
      ∀ o < op.output.blades.length, ¬ RowWritten op o → out'.getD o 0 = out.getD o 0 := by
  obtain ⟨out', h1, h2, h3⟩ := fillRows_eq (f := f) (v := fun o => (op.cast R).evalAt xs o) (precomputeSparse op) out (by
    intro p hp
    obtain ⟨-, -, hp⟩ := mem_sparse.1 hp
    rw [hp, rowSum_eq (g := fun t => ((t.2 : Int) : R) * prodAt xs t.1), sum_nonzero]
    intro t ht
    obtain ⟨i, hi, rfl⟩ := List.mem_map.1 ht
    have := (mem_allIdx _ _).1 (List.mem_filter.1 hi).1
    rw [h.shape_in, ← hx] at this
    exact hf _ _ this)
  have hm : ∀ o < op.output.blades.length, (o ∈ (precomputeSparse op).map (·.1) ↔ RowWritten op o) := by
    intro o ho
    constructor
    · intro hm
      obtain ⟨p, hp, rfl⟩ := List.mem_map.1 hm
      exact (mem_sparse.1 hp).2.1
    · intro hw
      exact List.mem_map.2 ⟨(o, ((allIdx op.kernel.shape.dropLast).filter fun ii => op.kernel.get (ii ++ [o]) != 0).map fun ii => (ii, op.kernel.get (ii ++ [o]))),
        mem_sparse.2 ⟨by rw [h.shape_out]; exact ho, hw, rfl⟩, rfl⟩
  refine ⟨out', h1, h2.trans hout, fun o ho hw => ?_, fun o ho hw => ?_⟩
  · rw [h3 o (by omega), if_pos ((hm o ho).2 hw)]
  · rw [h3 o (by omega), if_neg fun h => hw ((hm o ho).1 h)]

/-- Filling an array of zeros gives the value of the multilinear map. -/
theorem sparse_fill_zero {op : Operator Int} (h : WfOp A op) {xs : List (List R)} (hx : xs.map (·.length) = op.inputs.map (·.blades.length))
    {f : List Nat → Int → Option R} (hf : ∀ idx s, Valid idx (xs.map (·.length)) → f idx s = some ((s : R) * prodAt xs idx)) :
    fillRows f (precomputeSparse op) (List.replicate op.output.blades.length 0) = some (op.apply R xs) := by
  obtain ⟨out', h1, h2, h3, h4⟩ := sparse_fill h hx hf (List.replicate op.output.blades.length 0) (by simp)
  rw [h1]
  congr 1
  have hl := apply_length R h xs
  apply List.ext_getElem (by omega)
  intro o ho1 ho2
  have ho : o < op.output.blades.length := by omega
  rw [← getD_lt out' 0 ho1, ← getD_lt (op.apply R xs) 0 ho2, Operator.apply, eval_getD (wf_cast R h) xs (o := o) ho]
  by_cases hw : RowWritten op o
  · exact h3 o ho hw
  · rw [h4 o ho hw, evalAt_unwritten hw]
    simp [ho]

/-! ### dense execution -/

theorem clipIdx_eq {shape idx : List Nat} (h : Valid idx shape) : clipIdx shape idx = idx := by
  induction h with
  | nil => rfl
  | @cons i d is ds h1 h2 ih =>
    rw [clipIdx, List.zipWith_cons_cons]
    congr 1
    split <;> omega

theorem ravel_ones (n : Nat) (idx : List Nat) (acc : Nat) :
    ((List.replicate n 1).zip (clipIdx (List.replicate n 1) idx)).foldl (fun acc p => acc * p.1 + p.2) acc = acc := by
  induction n generalizing idx with
  | zero => rfl
  | succ n ih =>
    cases idx with
    | nil => simp [clipIdx]
    | cons i idx =>
      rw [List.replicate_succ, clipIdx, List.zipWith_cons_cons, List.zip_cons_cons, List.foldl_cons]
      simpa [clipIdx] using ih idx

theorem ravel_axis {n i d : Nat} (hi : i < n) {idx : List Nat} (hl : idx.length = n) (hd : idx.getD i 0 < d) :
    ravelIdx ((List.replicate n 1).set i d) (clipIdx ((List.replicate n 1).set i d) idx) = idx.getD i 0 := by
  rw [ravelIdx]
  induction n generalizing i idx with
  | zero => omega
  | succ n ih =>
    cases idx with
    | nil => simp at hl
    | cons j idx =>
      cases i with
      | zero =>
        rw [List.replicate_succ, List.set_cons_zero, clipIdx, List.zipWith_cons_cons, List.zip_cons_cons, List.foldl_cons]
        have := ravel_ones n idx (if d = 1 then 0 else j)
        rw [clipIdx] at this
        simp only [Nat.zero_mul, Nat.zero_add]
        rw [this]
        simp only [List.getD_cons_zero] at hd ⊢
        split <;> omega
      | succ i =>
        rw [List.replicate_succ, List.set_cons_succ, clipIdx, List.zipWith_cons_cons, List.zip_cons_cons, List.foldl_cons]
        have := ih (i := i) (by omega) (idx := idx) (by simpa using hl) (by simpa using hd)
        rw [clipIdx] at this
        simpa using this

theorem bmul_axis {t : Tensor R} {i : Nat} (hi : i < t.ndim) {x : List R} (hx : x.length = t.shape.getD i 0) :
    ∃ u, (do t.bmul (← reshapeVec x ((List.replicate t.ndim 1).set i (t.shape.getD i 0)))) = some u ∧ u.shape = t.shape ∧
      ∀ idx, Valid idx t.shape → u.get idx = t.get idx * x.getD (idx.getD i 0) 0 := by
  have hprod : ((List.replicate t.ndim 1).set i (t.shape.getD i 0)).prod = t.shape.getD i 0 := by
    rw [List.prod_set]
    simp [hi]
  have hs : List.zipWith (fun d e => if d = 1 then e else d) t.shape ((List.replicate t.ndim 1).set i (t.shape.getD i 0)) = t.shape := by
    apply List.ext_getElem (by simp [Tensor.ndim])
    intro j h1 h2
    simp only [List.getElem_zipWith, List.getElem_set, List.getElem_replicate]
    split
    · rename_i hd
      split
      · rename_i hij
        subst hij
        rw [getD_lt _ _ h2]
      · exact hd.symm
    · rfl
  refine ⟨⟨t.shape, fun idx => t.get (clipIdx t.shape idx) * x.getD (ravelIdx ((List.replicate t.ndim 1).set i (t.shape.getD i 0))
    (clipIdx ((List.replicate t.ndim 1).set i (t.shape.getD i 0)) idx)) 0⟩, ?_, rfl, fun idx hv => ?_⟩
  · rw [reshapeVec, if_pos (by rw [hprod, hx]), Option.bind_eq_bind, Option.bind_some, Tensor.bmul, if_pos]
    · simp only [hs]
    · refine ⟨by simp [Tensor.ndim], fun p hp => ?_⟩
      obtain ⟨j, hj, rfl⟩ := List.getElem_of_mem hp
      simp only [List.getElem_zip, List.getElem_set, List.getElem_replicate]
      split
      · rename_i hij
        subst hij
        left
        exact (getD_lt _ _ _).symm
      · exact .inr (.inr rfl)
  · simp only
    rw [clipIdx_eq hv, ravel_axis hi hv.length (hv.get hi)]

/-- Dense execution evaluates the multilinear map of the kernel. -/
theorem dense_fold {op : Operator R} (h : WfOp A op) {xs : List (List R)} (hx : xs.map (·.length) = op.inputs.map (·.blades.length)) :
    ∃ t, (xs.zip (broadcastingShapes op)).foldlM (fun acc p => do acc.bmul (← reshapeVec p.1 p.2)) op.kernel = some t ∧ t.shape = op.kernel.shape ∧
      ∀ idx o, Valid (idx ++ [o]) op.kernel.shape → t.get (idx ++ [o]) = op.kernel.get (idx ++ [o]) * prodAt xs idx := by
  have hxl : xs.length = op.arity := by simpa [Operator.arity] using congrArg List.length hx
  have hxi : ∀ c, (hc : c < op.arity) → (xs[c]'(by omega)).length = op.kernel.shape.getD c 0 := by
    intro c hc
    rw [sz_eq h hc, getD_lt _ _ hc]
    have : (xs.map (·.length))[c]'(by simp; omega) = (op.inputs.map (·.blades.length))[c]'(by rw [List.length_map]; exact hc) := by simp only [hx]
    rw [List.getElem_map, List.getElem_map] at this
    exact this
  have hnd : op.kernel.ndim = op.arity + 1 := shape_length h
  have key : ∀ m ≤ op.arity, ∃ t, ((xs.zip (broadcastingShapes op)).take m).foldlM (fun acc p => do acc.bmul (← reshapeVec p.1 p.2)) op.kernel = some t ∧
      t.shape = op.kernel.shape ∧ ∀ idx, Valid idx op.kernel.shape → t.get idx = op.kernel.get idx * prodAt (xs.take m) (idx.take m) := by
    intro m
    induction m with
    | zero => intro _; exact ⟨op.kernel, rfl, rfl, fun idx _ => by simp⟩
    | succ m ih =>
      intro hm
      obtain ⟨t, t1, t2, t3⟩ := ih (by omega)
      have htn : t.ndim = op.kernel.ndim := by rw [Tensor.ndim, t2]; rfl
      obtain ⟨u, u1, u2, u3⟩ := bmul_axis (t := t) (i := m) (by omega) (x := xs[m]'(by omega)) (by rw [hxi m (by omega), t2])
      have hzl : (xs.zip (broadcastingShapes op)).length = op.arity := by simp [broadcastingShapes, hxl]
      have hz : (xs.zip (broadcastingShapes op))[m]'(by omega) = (xs[m]'(by omega), (List.replicate t.ndim 1).set m (t.shape.getD m 0)) := by
        simp [broadcastingShapes, htn, t2]
      refine ⟨u, ?_, u2.trans t2, fun idx hv => ?_⟩
      · rw [List.take_add_one, List.getElem?_eq_getElem (by omega), hz, List.foldlM_append, t1, Option.bind_eq_bind, Option.bind_some]
        simp only [Option.toList_some, List.foldlM_cons, List.foldlM_nil]
        rw [← Option.bind_eq_bind, u1]
        rfl
      · have hl := hv.length
        rw [shape_length h] at hl
        rw [u3 idx (by rw [t2]; exact hv), t3 idx hv, List.take_add_one, List.take_add_one, List.getElem?_eq_getElem (show m < xs.length by omega),
          List.getElem?_eq_getElem (show m < idx.length by omega)]
        simp only [Option.toList_some]
        rw [prodAt_append (by simp; omega), prodAt_cons, prodAt_nil, mul_one, mul_assoc, getD_lt idx _ (by omega)]
  obtain ⟨t, t1, t2, t3⟩ := key op.arity (Nat.le_refl _)
  rw [List.take_of_length_le (by simp [broadcastingShapes, hxl])] at t1
  refine ⟨t, t1, t2, fun idx o hv => ?_⟩
  have hl := hv.length
  rw [shape_length h, List.length_append, List.length_singleton] at hl
  rw [t3 _ hv, List.take_of_length_le (by omega), List.take_left' (by omega)]

end Verif
