import Verif.Proofs.Slice
import Verif.Props.Unary
/-! # Property C26: slicing operators -/
namespace Verif.Props
open Model Spec
variable {R : Type} [CommRing R]

/-- C26: `op.slice(Ss)` succeeds exactly if there are not more spaces than axes and each space is contained in the axis it
replaces; other axes are kept (in particular the output, if only inputs are given). -/
theorem C26_slice_axes {A : Alg} {op : Operator Int} (h : WfOp A op) {Ss : List SubSpace} (hw : ∀ S ∈ Ss, WfSub A S) :
    ((op.slice Ss).isSome ↔ Ss.length ≤ op.axes.length ∧
      ∀ j < Ss.length, ∀ b ∈ (Ss.getD j ⟨[]⟩).blades, b ∈ (op.axes.getD j ⟨[]⟩).blades) ∧
    ∀ s, op.slice Ss = some s → WfOp A s ∧ s.axes = Ss ++ op.axes.drop Ss.length ∧ (Ss.length ≤ op.arity → s.output = op.output) := by
  constructor
  · constructor
    · intro hs
      obtain ⟨s, hs⟩ := Option.isSome_iff_exists.1 hs
      simpa using sliceLoop_some Ss op 0 hs (Nat.zero_le _)
    · rintro ⟨h1, h2⟩
      obtain ⟨s, s1, -⟩ := sliceLoop_spec Ss op 0 h.shape (by omega) (by simpa using h2)
      rw [Operator.slice, s1]; rfl
  · intro s hs
    have hc := sliceLoop_some Ss op 0 hs (Nat.zero_le _)
    obtain ⟨s', s1, s2, s3, -⟩ := sliceLoop_spec Ss op 0 h.shape hc.1 hc.2
    obtain rfl : s' = s := by rw [Operator.slice, s1] at hs; exact Option.some.inj hs
    replace s2 : s'.axes = Ss ++ op.axes.drop Ss.length := by simpa using s2
    have hne : s'.axes ≠ [] := by
      intro h0
      have hl := congrArg List.length (s2.symm.trans h0)
      have := List.length_pos_iff.2 h.ne
      rw [List.length_append, List.length_drop, List.length_nil] at hl
      omega
    refine ⟨⟨hne, s3, ?_⟩, s2, fun hl => ?_⟩
    · intro S hS
      rw [s2] at hS
      rcases List.mem_append.1 hS with hS | hS
      · exact hw S hS
      · exact h.sub S (List.mem_of_mem_drop hS)
    · have hlt : Ss.length < op.axes.length := by
        have := List.length_pos_iff.2 h.ne
        simp only [Operator.arity, Operator.inputs, List.length_dropLast] at hl
        omega
      simp only [Operator.output, s2]
      rw [List.getLastD_eq_getLast?, List.getLastD_eq_getLast?, List.getLast?_append_of_ne_nil _ (by simpa using hlt), List.getLast?_drop,
        if_neg (by omega)]

/-- C26: a sliced operator gives on multivectors of the smaller spaces what the operator gives on the same
multivectors, embedded in the larger spaces: the same coefficient at each blade of its output. -/
theorem C26_slice {A : Alg} {op s : Operator Int} (h : WfOp A op) {Ss : List SubSpace} (hw : ∀ S ∈ Ss, WfSub A S) (hs : op.slice Ss = some s)
    {xs ys : List (MV R)} (hx : xs.map (·.sub) = s.inputs) (hy : ys.map (·.sub) = op.inputs) (hxw : ∀ x ∈ xs, WfMV A x) (hyw : ∀ y ∈ ys, WfMV A y)
    (he : List.Forall₂ (fun x y => ∀ b, coeff y b = coeff x b) xs ys) :
    ∃ z w, MV.call (some s) xs = some z ∧ MV.call (some op) ys = some w ∧ z.sub = s.output ∧ w.sub = op.output ∧
      ∀ b ∈ s.output.blades, coeff z b = coeff w b := by
  have hc := sliceLoop_some Ss op 0 hs (Nat.zero_le _)
  obtain ⟨s', s1, s2, s3, s4⟩ := sliceLoop_spec Ss op 0 h.shape hc.1 hc.2
  obtain rfl : s' = s := by rw [Operator.slice, s1] at hs; exact Option.some.inj hs
  have hws := ((C26_slice_axes h hw).2 s' hs).1
  replace s2 : s'.axes = Ss ++ op.axes.drop Ss.length := by simpa using s2
  have hlen : s'.axes.length = op.axes.length := by rw [s2]; simp; omega
  have hin : s'.inputs.length = op.inputs.length := by simp [Operator.inputs, hlen]
  have hkb : ∀ bs, InAxes bs s'.axes → kb s' bs = kb op bs := by
    intro bs hbs
    rw [kb, if_pos hbs, kb, if_pos, s4 bs hbs]
    rw [InAxes, List.forall₂_iff_get] at hbs ⊢
    refine ⟨hbs.1.trans hlen, fun i h1 h2 => ?_⟩
    have := hbs.2 i h1 (by omega)
    simp only [List.get_eq_getElem, s2] at this ⊢
    by_cases hi : i < Ss.length
    · rw [List.getElem_append_left hi] at this
      have hb := hc.2 i hi _ (by rw [getD_lt _ _ hi]; exact this)
      rwa [Nat.zero_add, getD_lt _ _ h2] at hb
    · rw [List.getElem_append_right (by omega)] at this
      simp only [List.getElem_drop] at this
      simpa [Nat.add_sub_cancel' (Nat.le_of_not_lt hi)] using this
  obtain ⟨z, w, h1, h2, -, -, h3, h4, h5⟩ := call_transfer hws h hin hkb hx hy hxw hyw (he.imp fun _ _ h b _ => h b)
  exact ⟨z, w, h1, h2, h3, h4, h5⟩

/-- C26: `op.deslice(axes)` succeeds for every list of as many axes as the operator has, and gives what the operator gives
on multivectors that agree on the blades of its inputs: components of blades unknown to the operator are ignored in the
inputs, and zero in the output. -/
theorem C26_deslice {A : Alg} {op : Operator Int} (h : WfOp A op) {axes : List SubSpace} (hl : axes.length = op.axes.length)
    (hw : ∀ S ∈ axes, WfSub A S) :
    ∃ s, op.deslice axes = some s ∧ WfOp A s ∧ s.axes = axes ∧
      ∀ {xs ys : List (MV R)}, xs.map (·.sub) = s.inputs → ys.map (·.sub) = op.inputs → (∀ x ∈ xs, WfMV A x) → (∀ y ∈ ys, WfMV A y) →
        List.Forall₂ (fun x y => ∀ b ∈ y.sub.blades, coeff y b = coeff x b) xs ys →
        ∃ z w, MV.call (some s) xs = some z ∧ MV.call (some op) ys = some w ∧ z.sub = s.output ∧ w.sub = op.output ∧
          ∀ b ∈ s.output.blades, coeff z b = if b ∈ op.output.blades then coeff w b else 0 := by
  obtain ⟨s, s1, s2, s3, s4⟩ := deslice_kernel h hl hw
  refine ⟨s, s1, s2, s3, fun {xs ys} hx hy hxw hyw he => ?_⟩
  obtain ⟨z, w, h1, h2, -, -, h3, h4, h5⟩ := call_transfer s2 h (by simp [Operator.inputs, s3, hl]) (by rwa [s3]) hx hy hxw hyw he
  refine ⟨z, w, h1, h2, h3, h4, fun b hb => ?_⟩
  rw [h5 b hb]
  split
  · rfl
  · rename_i hb'
    exact coeff_notMem (by rw [h4]; exact hb')

/-- C26: with more axes than the operator has, `deslice` raises. -/
theorem C26_deslice_raises {op : Operator Int} {axes : List SubSpace} (hl : op.axes.length < axes.length) : op.deslice axes = none := by
  have key : ∀ (Ss : List SubSpace) (i : Nat) (k : Tensor Int), op.axes.length < i + Ss.length → i ≤ op.axes.length →
      desliceLoop op.kernel.shape op.axes i Ss k = none := by
    intro Ss
    induction Ss with
    | nil => intro i k h1 h2; simp at h1; omega
    | cons S Ss ih =>
      intro i k h1 h2
      rw [desliceLoop]
      cases ho : op.axes[i]? with
      | none => rfl
      | some T =>
        obtain ⟨hi, -⟩ := List.getElem?_eq_some_iff.1 ho
        rw [Option.bind_eq_bind, Option.bind_some]
        change (k.take (S.blades.map fun b => if b ∈ T.blades then T.blades.idxOf b else op.kernel.shape.getD i 0) i).bind _ = _
        cases k.take (S.blades.map fun b => if b ∈ T.blades then T.blades.idxOf b else op.kernel.shape.getD i 0) i with
        | none => rfl
        | some k => exact ih (i + 1) k (by simp at h1; omega) (by omega)
  rw [Operator.deslice, key axes 0 _ (by simpa using hl) (Nat.zero_le _)]
  rfl

/-- The product of the even and the vector space of `pga3`, sliced to the rotors `1, e12` and the vectors `e1, e2`. -/
example : ((exF.slice [⟨[2, 8]⟩]).map fun s => (s.axes.map (·.blades), s.kernel.shape, s.apply Int [[5, 7]])) = some ([[2, 8], [1, 2]], [2, 2], [0, 15]) := by
  decide +kernel
example : exF.slice [⟨[2, 3]⟩] = none := by
  have := (C26_slice_axes wf_exF (Ss := [⟨[2, 3]⟩]) (by intro S hS; simp at hS; subst hS; exact wfSub_of_B (by decide +kernel))).1
  rw [← Option.not_isSome_iff_eq_none, this]
  decide +kernel
example : ((exF.deslice [⟨[2, 3]⟩, ⟨[1, 2, 5]⟩]).map fun s => s.apply Int [[5, 7]]) = some [0, 15, 0] := by decide +kernel
example : ∃ z w : MV Int, MV.call (exF.slice [⟨[2, 8]⟩]) [⟨⟨[2, 8]⟩, [5, 7]⟩] = some z ∧ MV.call (some exF) [⟨⟨[1, 2, 4, 8]⟩, [0, 5, 0, 7]⟩] = some w ∧
    ∀ b ∈ [1, 2], coeff z b = coeff w b := by
  have hw : ∀ S ∈ [(⟨[2, 8]⟩ : SubSpace)], WfSub pga3 S := by intro S hS; simp at hS; subst hS; exact wfSub_of_B (by decide +kernel)
  obtain ⟨s, hs⟩ := Option.isSome_iff_exists.1 (show (exF.slice [⟨[2, 8]⟩]).isSome by decide +kernel)
  have hax := ((C26_slice_axes wf_exF hw).2 s hs).2
  have hin : s.inputs = [⟨[2, 8]⟩] := by rw [Operator.inputs, hax.1]; rfl
  have hout : s.output = exF.output := hax.2 (by decide)
  obtain ⟨z, w, h1, h2, -, -, h3⟩ := C26_slice (R := Int) wf_exF hw hs (xs := [⟨⟨[2, 8]⟩, [5, 7]⟩]) (ys := [⟨⟨[1, 2, 4, 8]⟩, [0, 5, 0, 7]⟩]) (by rw [hin]; rfl) rfl
    (by intro x hx; simp at hx; subst hx; exact ⟨hw _ (by simp), rfl⟩) (by intro x hx; simp at hx; subst hx; exact ⟨wf_exF.sub _ (by decide), rfl⟩)
    (.cons (fun b => by
      by_cases h : b ∈ [1, 2, 4, 8]
      · revert b; decide +kernel
      · rw [coeff_notMem h, coeff_notMem (fun h' => h (by simp at h' ⊢; tauto))]) .nil)
  rw [hout] at h3
  exact ⟨z, w, by rw [hs]; exact h1, h2, h3⟩

end Verif.Props
