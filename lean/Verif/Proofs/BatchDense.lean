import Verif.Proofs.BatchCall
/-! # Dense execution on arrays of multivectors -/
namespace Verif
open Model Spec

theorem Rep.append {s t s' t' : List Nat} (h : Rep s t) (hl : s.length = t.length) (h' : Rep s' t') : Rep (s ++ s') (t ++ t') := by
  induction h with
  | nil t => cases t with
    | nil => exact h'
    | cons => simp at hl
  | one b h ih => exact .one b (ih (by simpa using hl))
  | same b h ih => exact .same b (ih (by simpa using hl))

theorem Rep.split {s s' u : List Nat} (h : Rep (s ++ s') u) : Rep s (u.take s.length) ∧ Rep s' (u.drop s.length) := by
  induction s generalizing u with
  | nil => exact ⟨.nil _, h⟩
  | cons a s ih =>
    cases h with
    | one b h => exact ⟨.one b (ih h).1, (ih h).2⟩
    | same b h => exact ⟨.same _ (ih h).1, (ih h).2⟩

theorem Repeats.append {s t s' t' : List Nat} (h : Repeats s t) (h' : Repeats s' t') (hl : s'.length = t'.length) : Repeats (s ++ s') (t ++ t') := by
  rw [repeats_iff] at *
  rw [List.reverse_append, List.reverse_append]
  exact h'.append (by simpa using hl) h

theorem Repeats.split {s s' u : List Nat} (h : Repeats (s ++ s') u) :
    Repeats s (u.take (u.length - s'.length)) ∧ Repeats s' (u.drop (u.length - s'.length)) := by
  rw [repeats_iff, List.reverse_append] at h
  have := h.split
  have hl := h.length
  rw [List.length_reverse] at this
  constructor
  · rw [repeats_iff, List.reverse_take]
    rw [show u.length - (u.length - s'.length) = s'.length by simp at hl; omega]
    exact this.2
  · rw [repeats_iff, List.reverse_drop]
    rw [show u.length - (u.length - s'.length) = s'.length by simp at hl; omega]
    exact this.1

/-- Broadcasting acts on leading and trailing axes separately. -/
theorem common_append {l : List (List Nat × List Nat)} {K : List Nat} (hl : ∀ p ∈ l, Repeats p.2 K ∧ p.2.length = K.length) {B : List Nat}
    (hB : Common ([] :: l.map (·.1)) B) : Common (K :: l.map fun p => p.1 ++ p.2) (B ++ K) := by
  have hB1 : ∀ p ∈ l, Repeats p.1 B := fun p hp => hB.1 _ (by simp only [List.mem_cons, List.mem_map]; exact .inr ⟨p, hp, rfl⟩)
  constructor
  · intro s hs
    rcases List.mem_cons.1 hs with rfl | hs
    · exact Repeats.append (Repeats.nil B) (Repeats.refl s) rfl
    · obtain ⟨p, hp, rfl⟩ := List.mem_map.1 hs
      exact Repeats.append (hB1 p hp) (hl p hp).1 (hl p hp).2
  · intro u hu
    have hK := hu K (by simp)
    have hKl := hK.1
    have h2 := (Repeats.split (s := []) hK).2
    have h1 : Repeats B (u.take (u.length - K.length)) := by
      refine hB.2 _ fun s hs => ?_
      rcases List.mem_cons.1 hs with rfl | hs
      · exact Repeats.nil _
      · obtain ⟨p, hp, rfl⟩ := List.mem_map.1 hs
        have := (Repeats.split (hu (p.1 ++ p.2) (by simp only [List.mem_cons, List.mem_map]; exact .inr ⟨p, hp, rfl⟩))).1
        rwa [(hl p hp).2] at this
    have := Repeats.append h1 h2 (by simp; omega)
    rwa [List.take_append_drop] at this

theorem bcIdx_append {s t b k : List Nat} (hk : k.length = t.length) (hs : s.length ≤ b.length) : bcIdx (s ++ t) (b ++ k) = bcIdx s b ++ clipIdx t k := by
  rw [bcIdx, bcIdx, List.length_append, List.length_append, hk, show b.length + t.length - (s.length + t.length) = b.length - s.length by omega,
    List.drop_append_of_le_length (by omega), clipIdx, clipIdx, clipIdx, List.zipWith_append]
  simp; omega

theorem ravel_foldl {t j : List Nat} (h : j.length = t.length) (acc : Nat) :
    (t.zip j).foldl (fun acc p => acc * p.1 + p.2) acc = acc * t.prod + ravelIdx t j := by
  induction t generalizing j acc with
  | nil => simp [ravelIdx]
  | cons d t ih => cases j with
    | nil => simp at h
    | cons x j =>
      have e : ravelIdx (d :: t) (x :: j) = (0 * d + x) * t.prod + ravelIdx t j := by
        rw [ravelIdx, List.zip_cons_cons, List.foldl_cons, ih (by simpa using h)]
      rw [e, List.zip_cons_cons, List.foldl_cons, ih (by simpa using h), List.prod_cons]
      ring

theorem ravel_append {s t i j : List Nat} (hi : i.length = s.length) (hj : j.length = t.length) :
    ravelIdx (s ++ t) (i ++ j) = ravelIdx s i * t.prod + ravelIdx t j := by
  rw [ravelIdx, List.zip_append hi.symm, List.foldl_append, ravel_foldl hj]
  rfl

theorem unravel_ravel {s i : List Nat} (h : Valid i s) : (unravelRev s.reverse (ravelIdx s i)).reverse = i := by
  have : ∀ (s i : List Nat), Valid i s → unravelRev s (ravelIdx s.reverse i.reverse) = i := by
    intro s i h
    induction h with
    | nil => rfl
    | @cons x d i s h1 h2 ih =>
      rw [List.reverse_cons, List.reverse_cons, ravel_append (t := [d]) (j := [x]) (by simpa using h2.length_eq) rfl, unravelRev]
      have e : ravelIdx [d] [x] = x := by simp [ravelIdx]
      simp only [List.prod_singleton]
      rw [e, show (ravelIdx s.reverse i.reverse * d + x) % d = x by rw [mul_comm, Nat.mul_add_mod, Nat.mod_eq_of_lt h1], show (ravelIdx s.reverse i.reverse * d + x) / d = ravelIdx s.reverse i.reverse by
        rw [mul_comm, Nat.mul_add_div (by omega), Nat.div_eq_of_lt h1, add_zero], ih]
  have := this s.reverse i.reverse (valid_reverse.2 h)
  rw [List.reverse_reverse, List.reverse_reverse] at this
  rw [this, List.reverse_reverse]

theorem repeats_axis {K : List Nat} {i : Nat} (hi : i < K.length) : Repeats ((List.replicate K.length 1).set i (K.getD i 0)) K := by
  obtain ⟨d, hd⟩ : ∃ d, d = K.getD i 0 := ⟨_, rfl⟩
  rw [← hd]
  refine ⟨by simp, fun k hk => ?_⟩
  have hk' : k < K.length := by simpa using hk
  rw [getD_lt _ _ (by simpa using hk), getD_lt _ _ (by simpa using hk'), List.getElem_reverse, List.getElem_reverse, List.getElem_set]
  split
  · rename_i hik
    right
    rw [hd, getD_lt _ _ hi]
    simp only [List.length_set, List.length_replicate] at hik
    simp [hik]
  · left; simp

section Dense
variable {R : Type} [CommRing R] {A : Alg}

/-- Reshaping an array of multivectors to one axis of the kernel. -/
theorem reshape_holds {x : BMV R} {S : SubSpace} (h : FitsB x S) {B K : List Nat} (hr : Repeats x.shape B) {i : Nat} (hi : i < K.length)
    (hd : K.getD i 0 = S.blades.length) :
    ∃ T, x.vals.reshape (x.shape ++ (List.replicate K.length 1).set i (K.getD i 0)) = some T ∧
      T.shape = x.shape ++ (List.replicate K.length 1).set i (K.getD i 0) ∧
      Holds T (B ++ K) fun idx => (x.at (bcIdx x.shape (idx.take B.length))).vals.getD ((idx.drop B.length).getD i 0) 0 := by
  have hprod : ((List.replicate K.length 1).set i (K.getD i 0)).prod = K.getD i 0 := by
    rw [List.prod_set]
    simp [hi]
  have hrep := repeats_axis hi
  refine ⟨⟨x.shape ++ (List.replicate K.length 1).set i (K.getD i 0), fun idx => x.vals.get (unravelRev x.vals.shape.reverse
      (ravelIdx (x.shape ++ (List.replicate K.length 1).set i (K.getD i 0)) idx)).reverse⟩, ?_, rfl, Repeats.append hr hrep (by simp), fun idx hidx => ?_⟩
  · rw [Tensor.reshape, if_pos (by rw [h.2, List.prod_append, List.prod_append, hprod, hd]; simp)]
  · obtain ⟨hb, hk⟩ := hidx.take_drop
    obtain ⟨b, hbe⟩ : ∃ b, b = idx.take B.length := ⟨_, rfl⟩
    obtain ⟨k, hke⟩ : ∃ k, k = idx.drop B.length := ⟨_, rfl⟩
    simp only
    rw [← hbe] at hb ⊢
    rw [← hke] at hk ⊢
    have hidx' : idx = b ++ k := by rw [hbe, hke, List.take_append_drop]
    have hv := bcIdx_valid hr hb
    have hj := hk.get hi
    rw [hidx', bcIdx_append (by simpa using hk.length) (by rw [hb.length]; exact hr.1),
      ravel_append hv.length (by simp [clipIdx, hk.length]), hprod, ravel_axis hi hk.length hj]
    have := unravel_ravel (s := x.shape ++ [K.getD i 0]) (i := bcIdx x.shape b ++ [k.getD i 0]) (hv.append (.cons hj .nil))
    rw [ravel_append (t := [K.getD i 0]) (j := [k.getD i 0]) hv.length rfl, show ravelIdx [K.getD i 0] [k.getD i 0] = k.getD i 0 by simp [ravelIdx], List.prod_singleton] at this
    rw [h.2, ← hd, this]
    rw [hd] at hj
    rw [BMV.at]
    simp only
    clear this
    generalize k.getD i 0 = m at hj ⊢
    simp [h.1, hj]

theorem denseFold_holds {op : Operator R} (h : WfOp A op) {args : List (BMV R)} (hx : List.Forall₂ FitsB args op.inputs) {B : List Nat}
    (hr : ∀ x ∈ args, Repeats x.shape B) :
    ∃ T, (args.zip (broadcastingShapes op)).foldlM (fun acc p => do Tensor.bin (· * ·) acc (← p.1.vals.reshape (p.1.shape ++ p.2))) op.kernel = some T ∧
      Common (op.kernel.shape :: (args.zip (broadcastingShapes op)).map fun p => p.1.shape ++ p.2) T.shape ∧
      Holds T (B ++ op.kernel.shape) fun idx => op.kernel.get (idx.drop B.length) *
        prodAt ((args.map fun x => x.at (bcIdx x.shape (idx.take B.length))).map (·.vals)) ((idx.drop B.length).take op.arity) := by
  obtain ⟨hal, hxi⟩ := fitsB_args hx
  have hzl : (args.zip (broadcastingShapes op)).length = op.arity := by simp [broadcastingShapes, hal]
  have hnd : op.kernel.shape.length = op.arity + 1 := shape_length h
  have key : ∀ m ≤ op.arity, ∃ T, ((args.zip (broadcastingShapes op)).take m).foldlM (fun acc p => do Tensor.bin (· * ·) acc (← p.1.vals.reshape (p.1.shape ++ p.2))) op.kernel = some T ∧
      Common (op.kernel.shape :: ((args.zip (broadcastingShapes op)).take m).map fun p => p.1.shape ++ p.2) T.shape ∧
      Holds T (B ++ op.kernel.shape) fun idx => op.kernel.get (idx.drop B.length) *
        prodAt (((args.take m).map fun x => x.at (bcIdx x.shape (idx.take B.length))).map (·.vals)) ((idx.drop B.length).take m) := by
    intro m
    induction m with
    | zero =>
      intro _
      refine ⟨op.kernel, rfl, ⟨by simp [Repeats.refl], fun u hu => hu _ (by simp)⟩, Repeats.append (Repeats.nil B) (Repeats.refl _) rfl, fun idx hidx => ?_⟩
      obtain ⟨hb, hk⟩ := hidx.take_drop
      simp only [List.take_zero, List.map_nil, prodAt_nil, mul_one]
      congr 1
      have := bcIdx_append (s := []) (t := op.kernel.shape) (b := idx.take B.length) (k := idx.drop B.length) hk.length (by simp)
      rw [List.take_append_drop, List.nil_append] at this
      rw [this, clipIdx_eq hk]
      rfl
    | succ m ih =>
      intro hm
      obtain ⟨T, T1, T2, T3⟩ := ih (by omega)
      have hfm := (List.forall₂_iff_get.1 hx).2 m (by omega) hm
      simp only [List.get_eq_getElem] at hfm
      obtain ⟨U, U1, U1', U2⟩ := reshape_holds (K := op.kernel.shape) (i := m) hfm (hr _ (List.getElem_mem _)) (by omega) (by rw [sz_eq h hm, getD_lt _ _ hm]; rfl)
      obtain ⟨W, W1, W2, W3⟩ := T3.bin (· * ·) U2
      have hz : (args.zip (broadcastingShapes op))[m]'(by omega) = (args[m]'(by omega), (List.replicate op.kernel.shape.length 1).set m (op.kernel.shape.getD m 0)) := by
        simp [broadcastingShapes, Tensor.ndim]
      have htk : (args.zip (broadcastingShapes op)).take (m + 1) = (args.zip (broadcastingShapes op)).take m ++
          [(args[m]'(by omega), (List.replicate op.kernel.shape.length 1).set m (op.kernel.shape.getD m 0))] := by
        rw [List.take_add_one, List.getElem?_eq_getElem (by omega), hz]; rfl
      refine ⟨W, ?_, ?_, W3.congr fun idx hidx => ?_⟩
      · rw [htk, List.foldlM_append, T1]
        simp only [Option.bind_eq_bind, Option.bind_some, List.foldlM_cons, List.foldlM_nil, U1, W1]
        rfl
      · rw [htk, List.map_append, List.map_singleton]
        rw [U1'] at W2
        constructor
        · intro s hs
          rw [← List.cons_append, List.mem_append, List.mem_singleton] at hs
          rcases hs with hs | rfl
          · exact Repeats.trans (T2.1 s hs) (W2.1 _ (by simp))
          · exact W2.1 _ (by simp)
        · intro u hu
          refine W2.2 u fun s hs => ?_
          simp only [List.mem_cons, List.not_mem_nil, or_false] at hs
          rcases hs with rfl | rfl
          · exact T2.2 u fun s hs => hu s (by rw [← List.cons_append]; exact List.mem_append_left _ hs)
          · exact hu _ (by simp)
      · obtain ⟨hb, hk⟩ := hidx.take_drop
        have hl := hk.length
        rw [List.take_add_one, List.take_add_one, List.getElem?_eq_getElem (show m < args.length by omega),
          List.getElem?_eq_getElem (show m < (idx.drop B.length).length by omega)]
        simp only [Option.toList_some, List.map_append, List.map_cons, List.map_nil]
        rw [prodAt_append (by rw [List.length_map, List.length_map, List.length_take, List.length_take]; omega), prodAt_cons, prodAt_nil, mul_one, mul_assoc, getD_lt (idx.drop B.length) _ (by omega)]
  obtain ⟨T, T1, T2, T3⟩ := key op.arity (Nat.le_refl _)
  rw [List.take_of_length_le (by omega)] at T1 T2
  exact ⟨T, T1, T2, T3.congr fun idx _ => by rw [List.take_of_length_le (l := args) (by omega)]⟩

theorem denseB_eq {op : Operator R} (h : WfOp A op) {args : List (BMV R)} (hx : List.Forall₂ FitsB args op.inputs) {B : List Nat}
    (hB : Common (args.map BMV.shape) B) : ∃ z, denseCallB op args = some z ∧ z.sub = op.output ∧ z.vals.shape = B ++ [op.output.blades.length] ∧
      ∀ b o, Valid b B → o < op.output.blades.length → z.vals.get (b ++ [o]) = op.evalAt ((args.map fun x => x.at (bcIdx x.shape b)).map (·.vals)) o := by
  obtain ⟨hal, -⟩ := fitsB_args hx
  have hr : ∀ x ∈ args, Repeats x.shape B := fun x hx => hB.1 _ (List.mem_map.2 ⟨x, hx, rfl⟩)
  obtain ⟨T, T1, T2, T3⟩ := denseFold_holds h hx hr
  have hnd : op.kernel.shape.length = op.arity + 1 := shape_length h
  have hTs : T.shape = B ++ op.kernel.shape := by
    have hc := common_append (l := (args.zip (broadcastingShapes op)).map fun p => (p.1.shape, p.2)) (K := op.kernel.shape) (B := B) (by
      intro p hp
      obtain ⟨q, hq, rfl⟩ := List.mem_map.1 hp
      obtain ⟨i, hi, hie⟩ := List.mem_map.1 (List.of_mem_zip hq).2
      simp only
      rw [← hie]
      have hi := List.mem_range.1 hi
      exact ⟨repeats_axis (by omega), by simp [Tensor.ndim]⟩) (by
      rw [List.map_map, show ((fun p : List Nat × List Nat => p.1) ∘ fun p : BMV R × List Nat => (p.1.shape, p.2)) = BMV.shape ∘ Prod.fst from rfl, ← List.map_map,
        List.map_fst_zip (by simp [broadcastingShapes, hal])]
      exact ⟨fun s hs => by
        rcases List.mem_cons.1 hs with rfl | hs
        · exact Repeats.nil _
        · exact hB.1 s hs, fun u hu => hB.2 u fun s hs => hu s (by simp only [List.mem_cons]; exact .inr hs)⟩)
    rw [List.map_map] at hc
    exact Repeats.antisymm (T2.2 _ hc.1) (hc.2 _ T2.1)
  have hk1 : T.ndim - (op.arity + 1) = B.length := by rw [Tensor.ndim, hTs, List.length_append, hnd]; omega
  have hlast : T.shape.getLastD 0 = op.output.blades.length := by
    rw [hTs, h.shape_eq, ← List.append_assoc, List.getLastD_concat]
  refine ⟨⟨op.output, ⟨T.shape.take B.length ++ [T.shape.getLastD 0], fun idx =>
    ((allIdx ((T.shape.drop B.length).dropLast)).map fun i => T.get (idx.take B.length ++ i ++ idx.drop B.length)).sum⟩⟩, ?_, rfl, ?_, fun b o hb ho => ?_⟩
  · rw [denseCallB, T1, Option.bind_eq_bind, Option.bind_some]
    simp only [hk1]
    rw [BMV.construct, if_pos (by simp only [List.getLast?_concat, hlast])]
  · simp only
    rw [hlast, hTs, List.take_left' rfl]
  · simp only
    rw [hTs, List.drop_left' rfl, List.take_left' hb.length, List.drop_left' hb.length, evalAt_eq]
    refine sumIdx_congr fun i hi => ?_
    have hv : Valid (i ++ [o]) op.kernel.shape := by
      rw [h.shape_eq]
      rw [h.shape_in] at hi
      exact hi.append (.cons ho .nil)
    have hv' : Valid (b ++ (i ++ [o])) (B ++ op.kernel.shape) := hb.append hv
    have := T3.2 _ hv'
    rw [hTs, bcIdx_self hv'] at this
    rw [List.append_assoc, this]
    simp only
    rw [List.drop_left' hb.length, List.take_left' hb.length, List.take_left' ]
    rw [hi.length, List.length_dropLast, hnd]; rfl

end Dense
end Verif
