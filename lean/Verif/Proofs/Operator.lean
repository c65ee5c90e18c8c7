import Verif.Proofs.Tensor
import Verif.Proofs.Subspace
import Verif.Spec.Multivector
/-! # Lemmas about operators: fuse, bind, squeeze, evaluation -/
namespace Verif
open Model Spec

/-! ### denotation of coefficient lists -/
section Denote
variable (A : Alg) (R : Type) [CommRing R]

theorem denote_eq_sum {S : SubSpace} {v : List R} (h : v.length = S.blades.length) :
    denote A R S v = ∑ i ∈ Finset.range S.blades.length, v.getD i 0 • blade A R (S.blades.getD i 0) := by
  obtain ⟨bs⟩ := S
  simp only at h
  unfold denote
  simp only
  induction bs generalizing v with
  | nil => simp
  | cons b bs ih =>
    cases v with
    | nil => simp at h
    | cons x v =>
      rw [List.zipWith_cons_cons, List.sum_cons, ih (by simpa using h), List.length_cons, Finset.sum_range_succ']
      simp [add_comm]

theorem denote_inj {S : SubSpace} (hS : WfSub A S) {v w : List R} (hv : v.length = S.blades.length)
    (hw : w.length = S.blades.length) (h : denote A R S v = denote A R S w) : v = w := by
  have key : ∀ {u : List R} (_ : u.length = S.blades.length) (i : Nat) (hi : i < S.blades.length),
      coef A R (S.blades.getD i 0) (denote A R S u) = u.getD i 0 := by
    intro u hu i hi
    rw [denote_eq_sum A R hu, map_sum, Finset.sum_eq_single i]
    · rw [map_smul, coef_blade A R, if_pos rfl, smul_eq_mul, mul_one]
      rw [List.getD_eq_getElem?_getD, List.getElem?_eq_getElem hi]; exact hS.lt _ (List.getElem_mem _)
    · intro j hj hji
      have hj' := Finset.mem_range.1 hj
      simp only [List.getD_eq_getElem?_getD, List.getElem?_eq_getElem hi, List.getElem?_eq_getElem hj',
        Option.getD_some]
      rw [map_smul, coef_blade A R (hS.lt _ (List.getElem_mem _)), if_neg, smul_zero]
      intro he
      exact hji ((hS.nodup.getElem_inj_iff).1 he).symm
    · intro h; exact absurd (Finset.mem_range.2 hi) h
  apply List.ext_getElem (by omega)
  intro i h1 h2
  have := key hv i (by omega)
  rw [h, key hw i (by omega)] at this
  simpa [List.getD_eq_getElem?_getD, h1, h2] using this.symm

end Denote

section Fuse
variable {K : Type} [CommRing K] {A : Alg}

theorem fuse_spec {f g : Operator K} (hf : WfOp A f) (hg : WfOp A g) {I P Q : List SubSpace} {S : SubSpace}
    (hfa : f.axes = I ++ [S]) (hga : g.axes = P ++ S :: Q) (hQ : Q ≠ []) :
    ∃ h, f.fuse g P.length = some h ∧ WfOp A h ∧ h.axes = P ++ I ++ Q ∧
      ∀ pre mid post : List Nat, pre.length = P.length → mid.length = I.length → post.length = Q.length →
        h.kernel.get (pre ++ mid ++ post) =
          ∑ m ∈ Finset.range S.blades.length, f.kernel.get (mid ++ [m]) * g.kernel.get (pre ++ m :: post) := by
  have hfs := hf.shape
  have hgs := hg.shape
  rw [hfa, List.map_append] at hfs
  rw [hga, List.map_append] at hgs
  simp only [List.map_cons, List.map_nil] at hfs hgs
  -- the two kernels contract
  have hlast : f.kernel.shape.getLast? = some S.blades.length := by rw [hfs]; simp
  have hax : g.kernel.shape[P.length]? = some S.blades.length := by
    rw [hgs, List.getElem?_append_right (by simp)]; simp
  have hnd : f.kernel.ndim - 1 = I.length := by simp [Tensor.ndim, hfs]
  have harity : f.arity = I.length := by simp [Operator.arity, Operator.inputs, hfa]
  have hout : f.output? = some S := by simp [Operator.output?, hfa]
  have hgax : g.axes[P.length]? = some S := by rw [hga, List.getElem?_append_right (by simp)]; simp
  have herase : g.kernel.shape.eraseIdx P.length = (P.map (·.blades.length)) ++ Q.map (·.blades.length) := by
    rw [hgs, List.eraseIdx_append_of_length_le (by simp)]; simp
  let T : Tensor K :=
    { shape := f.kernel.shape.dropLast ++ g.kernel.shape.eraseIdx P.length
      get := fun idx =>
        let i := idx.take (f.kernel.ndim - 1)
        let j := idx.drop (f.kernel.ndim - 1)
        ((List.range S.blades.length).map fun m => f.kernel.get (i ++ [m]) * g.kernel.get (j.take P.length ++ m :: j.drop P.length)).sum }
  have hT : f.kernel.tensordot g.kernel P.length = some T := by
    simp only [Tensor.tensordot, hlast, hax, if_true, T]
  have hTshape : T.shape = I.map (·.blades.length) ++ (P.map (·.blades.length) ++ Q.map (·.blades.length)) := by
    simp only [T, herase, hfs]; simp
  have hTn : T.ndim = I.length + (P.length + Q.length) := by
    rw [Tensor.ndim, hTshape]; simp
  let L : List Nat := List.range' I.length P.length ++ List.range' 0 I.length ++ List.range' (I.length + P.length) Q.length
  have hLmem : ∀ j, j ∈ L ↔ j < T.ndim := by
    intro j
    simp only [L, List.mem_append, List.mem_range'_1, hTn]
    omega
  have hrange : List.range T.ndim = List.range' 0 I.length ++ List.range' I.length P.length ++ List.range' (I.length + P.length) Q.length := by
    rw [hTn, List.range_eq_range']
    have e1 := List.range'_append_1 (s := 0) (m := I.length) (n := P.length)
    have e2 := List.range'_append_1 (s := 0) (m := I.length + P.length) (n := Q.length)
    simp only [Nat.zero_add] at e1 e2
    rw [e1, e2, Nat.add_assoc]
  have hL : moveOrder T.ndim (List.range' f.arity P.length) (List.range P.length) = L := by
    rw [harity]
    apply moveOrder_eq
    · simp
    · exact List.nodup_range
    · intro j a b ha hb
      have hj : j < P.length := by
        have := (List.getElem?_eq_some_iff.1 ha).1; simpa using this
      rw [List.getElem?_range hj] at hb
      rw [List.getElem?_range' hj] at ha
      cases hb; cases ha
      simp only [L]
      rw [List.append_assoc, List.getElem?_append_left (by simpa using hj), List.getElem?_range' hj]
    · rw [hrange]
      simp only [L, List.zipIdx_append, List.filter_append, List.map_append, List.length_append,
        List.length_range', Nat.zero_add]
      have f1 : ((List.range' I.length P.length).zipIdx 0).filter (fun q => decide (q.2 ∉ List.range P.length)) = [] := by
        rw [List.filter_eq_nil_iff]
        intro q hq
        have := List.snd_lt_of_mem_zipIdx hq
        simp at this ⊢; exact this
      have f2 : ∀ (l : List Nat) (k : Nat), P.length ≤ k →
          ((l.zipIdx k).filter (fun q => decide (q.2 ∉ List.range P.length))).map (·.1) = l := by
        intro l k hk
        rw [List.filter_eq_self.2, List.zipIdx_map_fst]
        intro q hq
        have := List.le_snd_of_mem_zipIdx hq
        simp; omega
      rw [f1, f2 _ _ le_rfl, f2 _ _ (by omega)]
      have g1 : (List.range' 0 I.length).filter (fun j => decide (j ∉ List.range' I.length P.length)) = List.range' 0 I.length := by
        rw [List.filter_eq_self]; intro j hj
        simp only [List.mem_range'_1] at hj
        simp; omega
      have g2 : (List.range' I.length P.length).filter (fun j => decide (j ∉ List.range' I.length P.length)) = [] := by
        rw [List.filter_eq_nil_iff]; intro j hj; simp [hj]
      have g3 : (List.range' (I.length + P.length) Q.length).filter (fun j => decide (j ∉ List.range' I.length P.length)) = List.range' (I.length + P.length) Q.length := by
        rw [List.filter_eq_self]; intro j hj
        simp only [List.mem_range'_1] at hj
        simp; omega
      rw [g1, g2, g3]; simp
  have hmove : T.moveaxis (List.range' f.arity P.length) (List.range P.length) = some (T.transpose L) := by
    rw [Tensor.moveaxis, if_pos, hL]
    refine ⟨List.nodup_range', List.nodup_range, ?_, ?_, by simp⟩
    · intro i hi; rw [List.mem_range'_1] at hi; rw [hTn]; omega
    · intro i hi; rw [List.mem_range] at hi; rw [hTn]; omega
  have hLmap : ∀ (α : Type) (d : α) (mid pre post : List α), mid.length = I.length → pre.length = P.length →
      post.length = Q.length → L.map ((mid ++ pre ++ post).getD · d) = pre ++ mid ++ post := by
    intro α d mid pre post h1 h2 h3
    have hr : ∀ (l : List α) (a b : List α), (List.range' a.length l.length).map ((a ++ l ++ b).getD · d) = l := by
      intro l a b
      apply List.ext_getElem
      · simp
      · intro i h4 h5
        simp only [List.getElem_map, List.getElem_range', List.getD_eq_getElem?_getD]
        rw [List.append_assoc, List.getElem?_append_right (by omega), List.getElem?_append_left (by omega)]
        simp [h5]
    simp only [L, List.map_append]
    rw [← h1, ← h2, ← h3]
    congr 1
    · congr 1
      · exact hr pre mid post
      · have := hr mid [] (pre ++ post)
        simpa using this
    · have := hr post (mid ++ pre) []
      simpa using this
  refine ⟨⟨T.transpose L, P ++ I ++ Q⟩, ?_, ⟨?_, ?_, ?_⟩, rfl, ?_⟩
  · simp only [Operator.fuse, hout, hgax, Option.bind_eq_bind, Option.bind_some, ne_eq, not_true_eq_false, if_false, hT, hmove]
    congr 2
    simp only [Operator.inputs, hfa, hga]
    simp
  · simp [hQ]
  · simp only [Tensor.transpose, hTshape, ← List.append_assoc]
    rw [hLmap Nat 0 _ _ _ (by simp) (by simp) (by simp)]
    simp
  · intro X hX
    simp only [List.mem_append] at hX
    rcases hX with (hX | hX) | hX
    · exact hg.sub X (by rw [hga]; simp [hX])
    · exact hf.sub X (by rw [hfa]; simp [hX])
    · exact hg.sub X (by rw [hga]; simp [hX])
  · intro pre mid post h1 h2 h3
    have := transpose_get T L (mid ++ pre ++ post) hLmem (by rw [hTn]; simp; omega)
    rw [hLmap Nat 0 mid pre post h2 h1 h3] at this
    rw [this]
    simp only [T, hnd]
    rw [← lsum_range, List.append_assoc, ← h2, List.take_left, List.drop_left, ← h1, List.take_left, List.drop_left]

end Fuse

/-! ### evaluation -/
section Eval
variable {R : Type} [CommRing R] {A : Alg}

theorem evalAt_eq (op : Operator R) (xs : List (List R)) (o : Nat) :
    op.evalAt xs o = sumIdx op.kernel.shape.dropLast fun idx => op.kernel.get (idx ++ [o]) * prodAt xs idx := rfl

theorem Spec.WfOp.axes_eq {K : Type} {op : Operator K} (h : WfOp A op) : op.axes = op.inputs ++ [op.output] := by
  have := List.dropLast_append_getLast h.ne
  rw [Operator.inputs, Operator.output, ← this]
  simp

theorem Spec.WfOp.shape_eq {K : Type} {op : Operator K} (h : WfOp A op) :
    op.kernel.shape = op.inputs.map (·.blades.length) ++ [op.output.blades.length] := by
  rw [h.shape, h.axes_eq]; simp

theorem Spec.WfOp.shape_in {K : Type} {op : Operator K} (h : WfOp A op) :
    op.kernel.shape.dropLast = op.inputs.map (·.blades.length) := by rw [h.shape_eq]; simp

theorem Spec.WfOp.shape_out {K : Type} {op : Operator K} (h : WfOp A op) :
    op.kernel.shape.getLastD 0 = op.output.blades.length := by rw [h.shape_eq]; simp

theorem Spec.WfOp.wf_output {K : Type} {op : Operator K} (h : WfOp A op) : WfSub A op.output :=
  h.sub _ (by rw [h.axes_eq]; simp)

theorem Spec.WfOp.wf_inputs {K : Type} {op : Operator K} (h : WfOp A op) : ∀ S ∈ op.inputs, WfSub A S :=
  fun S hS => h.sub _ (by rw [h.axes_eq]; simp [hS])

theorem eval_length {op : Operator R} (h : WfOp A op) (xs : List (List R)) :
    (op.eval xs).length = op.output.blades.length := by
  rw [Operator.eval, h.shape_out]; simp

theorem eval_getD {op : Operator R} (h : WfOp A op) (xs : List (List R)) {o : Nat} (ho : o < op.output.blades.length) :
    (op.eval xs).getD o 0 = op.evalAt xs o := by
  rw [Operator.eval, h.shape_out]
  simp [List.getD_eq_getElem?_getD, List.getElem?_range ho]

theorem Fits.length {xs : List (List R)} {Ss : List SubSpace} (h : Fits xs Ss) : xs.length = Ss.length :=
  List.Forall₂.length_eq h

/-- Evaluation of a fused operator, from the entries of its kernel. -/
theorem evalAt_fused {f g h : Operator R} (hf : WfOp A f) (hg : WfOp A g) (hh : WfOp A h)
    {I P Q : List SubSpace} {S O : SubSpace}
    (hfa : f.axes = I ++ [S]) (hga : g.axes = P ++ S :: (Q ++ [O])) (hha : h.axes = P ++ I ++ (Q ++ [O]))
    (hget : ∀ pre mid post : List Nat, pre.length = P.length → mid.length = I.length → post.length = (Q ++ [O]).length →
        h.kernel.get (pre ++ mid ++ post) =
          ∑ m ∈ Finset.range S.blades.length, f.kernel.get (mid ++ [m]) * g.kernel.get (pre ++ m :: post))
    {xp xm xq : List (List R)} (h1 : xp.length = P.length) (h2 : xm.length = I.length) (_h3 : xq.length = Q.length)
    (o : Nat) : h.evalAt (xp ++ xm ++ xq) o = g.evalAt (xp ++ f.eval xm :: xq) o := by
  have hfo : f.output = S := by simp [Operator.output, hfa]
  have e1 : h.kernel.shape.dropLast = P.map (·.blades.length) ++ I.map (·.blades.length) ++ Q.map (·.blades.length) := by
    rw [hh.shape, hha, show P ++ I ++ (Q ++ [O]) = (P ++ I ++ Q) ++ [O] by simp, List.map_append, List.map_singleton,
      List.dropLast_concat]
    simp
  have e2 : g.kernel.shape.dropLast = P.map (·.blades.length) ++ (S.blades.length :: Q.map (·.blades.length)) := by
    rw [hg.shape, hga]
    rw [show P ++ S :: (Q ++ [O]) = (P ++ S :: Q) ++ [O] by simp, List.map_append, List.map_singleton,
      List.dropLast_concat]
    simp
  have e3 : f.kernel.shape.dropLast = I.map (·.blades.length) := by rw [hf.shape, hfa]; simp
  rw [evalAt_eq, evalAt_eq, e1, e2]
  rw [sumIdx_append, sumIdx_append, sumIdx_append]
  apply sumIdx_congr
  intro pre hpre
  have lp : pre.length = P.length := by have := hpre.length; simpa using this
  rw [sumIdx_cons]
  -- left: Σ mid Σ post Σ m
  have step : ∀ mid, Valid mid (I.map (·.blades.length)) → ∀ post, Valid post (Q.map (·.blades.length)) →
      h.kernel.get (pre ++ mid ++ post ++ [o]) * prodAt (xp ++ xm ++ xq) (pre ++ mid ++ post) =
      ∑ m ∈ Finset.range S.blades.length, (f.kernel.get (mid ++ [m]) * prodAt xm mid) *
        (g.kernel.get (pre ++ m :: post ++ [o]) * (prodAt xp pre * prodAt xq post)) := by
    intro mid hmid post hpost
    have lm : mid.length = I.length := by have := hmid.length; simpa using this
    have lq : post.length = Q.length := by have := hpost.length; simpa using this
    rw [List.append_assoc (pre ++ mid), hget pre mid (post ++ [o]) lp lm (by simp [lq]), Finset.sum_mul,
      prodAt_append (by simp; omega), prodAt_append (by omega)]
    apply Finset.sum_congr rfl
    intro m _
    rw [List.append_assoc, List.cons_append]
    ring
  rw [sumIdx_congr fun mid hmid => sumIdx_congr fun post hpost => step mid hmid post hpost]
  rw [sumIdx_congr fun mid _ => sumIdx_sum _ _ _, sumIdx_sum]
  apply Finset.sum_congr rfl
  intro m hm
  have hm' : m < f.output.blades.length := by rw [hfo]; exact Finset.mem_range.1 hm
  simp only [sumIdx_mul_left]
  rw [sumIdx_mul_right, ← e3, ← evalAt_eq, ← sumIdx_mul_left]
  apply sumIdx_congr
  intro post hpost
  rw [prodAt_append (by omega), prodAt_cons, eval_getD hf xm hm']
  ring

end Eval

/-! ### casting integer kernels -/
section Cast
variable {A : Alg} (R : Type) [CommRing R]

@[simp] theorem cast_axes (op : Operator Int) : (op.cast R).axes = op.axes := rfl
@[simp] theorem cast_get (op : Operator Int) (i : List Nat) : (op.cast R).kernel.get i = (op.kernel.get i : R) := rfl
@[simp] theorem cast_shape (op : Operator Int) : (op.cast R).kernel.shape = op.kernel.shape := rfl
@[simp] theorem cast_output (op : Operator Int) : (op.cast R).output = op.output := rfl
@[simp] theorem cast_inputs (op : Operator Int) : (op.cast R).inputs = op.inputs := rfl

theorem wf_cast {op : Operator Int} (h : WfOp A op) : WfOp A (op.cast R) := ⟨h.ne, h.shape, h.sub⟩

theorem apply_length {op : Operator Int} (h : WfOp A op) (xs : List (List R)) :
    (op.apply R xs).length = op.output.blades.length := eval_length (wf_cast R h) xs

/-- `fuse` composes the multilinear maps. -/
theorem fuse_apply {f g : Operator Int} (hf : WfOp A f) (hg : WfOp A g) {I P Q : List SubSpace} {S O : SubSpace}
    (hfa : f.axes = I ++ [S]) (hga : g.axes = P ++ S :: (Q ++ [O])) :
    ∃ h, f.fuse g P.length = some h ∧ WfOp A h ∧ h.axes = P ++ I ++ (Q ++ [O]) ∧
      ∀ (R : Type) [CommRing R] (xp xm xq : List (List R)), xp.length = P.length → xm.length = I.length →
        xq.length = Q.length → h.apply R (xp ++ xm ++ xq) = g.apply R (xp ++ f.apply R xm :: xq) := by
  obtain ⟨h, h1, h2, h3, h4⟩ := fuse_spec hf hg hfa hga (by simp)
  refine ⟨h, h1, h2, h3, ?_⟩
  intro R _ xp xm xq l1 l2 l3
  have hsh : ((h.cast R).kernel.shape.getLastD 0) = ((g.cast R).kernel.shape.getLastD 0) := by
    rw [(wf_cast R h2).shape_out, (wf_cast R hg).shape_out]
    have e1 : h.output = O := by
      rw [Operator.output, h3, show P ++ I ++ (Q ++ [O]) = (P ++ I ++ Q) ++ [O] by simp, List.getLastD_concat]
    have e2 : g.output = O := by
      rw [Operator.output, hga, show P ++ S :: (Q ++ [O]) = (P ++ S :: Q) ++ [O] by simp, List.getLastD_concat]
    simp only [cast_output, e1, e2]
  simp only [Operator.apply, Operator.eval]
  rw [hsh]
  apply List.map_congr_left
  intro o _
  have := evalAt_fused (wf_cast R hf) (wf_cast R hg) (wf_cast R h2) hfa hga h3 (by
    intro pre mid post a b c
    simp only [cast_get, h4 pre mid post a b c]
    push_cast; rfl) l1 l2 l3 o
  exact this

end Cast
end Verif
