import Verif.Proofs.Int8
import Verif.Props.Transform
/-! # C27: kernels stay small -/
namespace Verif.Props
open Model Spec Model.Factory

variable {A : Alg}

theorem small_of_tidy {c : Nat} {op : Operator Int} (h : Tidy A c op) : SmallKernel op.kernel := by
  refine ⟨?_, ?_⟩
  · intro idx hv
    have := h.val hv
    omega
  · intro ins o o' h1 h2 n1 n2
    have e1 := (h.entry _ h1 n1).2
    have e2 := (h.entry _ h2 n2).2
    have hs := h.wf.shape_eq
    rw [inside_iff] at h1 h2
    rw [hs] at h1 h2
    have l : ins.length = op.inputs.length := by
      have := h1.length
      simpa using this
    rw [h.wf.axes_eq, xorAt_append _ _ l] at e1 e2
    simp only [xorAt_cons, xorAt_nil, Nat.xor_zero] at e1 e2
    have ll : ins.length = (op.inputs.map (fun S : SubSpace => S.blades.length)).length := by simpa using l
    have d1 := h1.take_drop.2
    have d2 := h2.take_drop.2
    rw [← ll, List.drop_left] at d1 d2
    cases d1 with
    | cons i1 _ =>
      cases d2 with
      | cons i2 _ => exact blade_inj h.wf.wf_output i1 i2 (xor_left_inj (e1.trans e2.symm))

/-- C27: every operator that can be built from subspaces with the functions of the factory and the methods of operators
has entries -1, 0 and 1 only, and every combination of input blades feeds at most one output blade. -/
theorem C27_kernel (hA : WfAlg A) {op : Operator Int} (h : Built A (.op op)) : SmallKernel op.kernel := by
  obtain ⟨c, hc⟩ := built_good hA h
  exact small_of_tidy hc

/-- C27: also the operator of `transform`, although its mask may be aligned with the wrong axis (C58). -/
theorem C27_transform (hA : WfAlg A) {R v : SubSpace} (hR : WfSub A R) (hv : WfSub A v) {op : Operator Int}
    (h : transform A R v = some op) : SmallKernel op.kernel := by
  rw [transform] at h
  simp only [Option.bind_eq_bind] at h
  obtain ⟨p, hp, h⟩ := Option.bind_eq_some_iff.1 h
  obtain ⟨S, hS, h⟩ := Option.bind_eq_some_iff.1 h
  obtain ⟨k, hk, h⟩ := Option.bind_eq_some_iff.1 h
  cases h
  obtain ⟨s1, s2⟩ := C27_kernel hA (Built.sandwich (Built.sub hR) hv hS)
  have hm : ∀ i, ((v.grades A).map fun g => parityToSign ((g * p : Nat) : Int)).getD i 0 = 1 ∨
      ((v.grades A).map fun g => parityToSign ((g * p : Nat) : Int)).getD i 0 = -1 ∨
      ((v.grades A).map fun g => parityToSign ((g * p : Nat) : Int)).getD i 0 = 0 := by
    intro i
    by_cases hi : i < ((v.grades A).map fun g => parityToSign ((g * p : Nat) : Int)).length
    · rw [getD_lt _ _ hi]
      rcases sign_mem (l := v.grades A) (fun g => ((g * p : Nat) : Int)) _ (List.getElem_mem hi) with e | e
      · exact Or.inl e
      · exact Or.inr (Or.inl e)
    · right; right
      simp only [List.length_map, not_lt] at hi
      simp [List.getD_eq_getElem?_getD, hi]
  generalize ((v.grades A).map fun g => parityToSign ((g * p : Nat) : Int)) = mask at hk hm
  rw [broadcastMask] at hk
  split at hk
  · rename_i a b c d hsh
    split at hk
    · cases hk
      rw [hsh] at s1 s2
      refine ⟨fun idx hi => ?_, fun ins o o' h1 h2 n1 n2 => s2 ins o o' h1 h2 (left_ne_zero_of_mul n1) (left_ne_zero_of_mul n2)⟩
      have := s1 idx hi
      have := hm (if mask.length = 1 then 0 else idx.getD 2 0)
      simp only
      rcases s1 idx hi with e | e | e <;> rcases hm (if mask.length = 1 then 0 else idx.getD 2 0) with e' | e' | e' <;>
        rw [e, e'] <;> simp
    · split at hk
      · rename_i hc
        cases hk
        rw [hsh, hc] at s1 s2
        have hin : ∀ idx, Inside idx [a, b, mask.length, d] → Inside (idx.set 2 0) [a, b, 1, d] := by
          intro idx hi
          cases hi with
          | cons h1 hi => cases hi with
            | cons h2 hi => cases hi with
              | cons h3 hi =>
                exact .cons h1 (.cons h2 (.cons Nat.one_pos hi))
        refine ⟨fun idx hi => ?_, fun ins o o' h1 h2 n1 n2 => ?_⟩
        · simp only
          rcases s1 _ (hin idx hi) with e | e | e <;> rcases hm (idx.getD 2 0) with e' | e' | e' <;>
            rw [e, e'] <;> simp
        · have l : ins.length = 3 := by
            have := List.Forall₂.length_eq h1
            simpa using this
          have e : ∀ x, (ins ++ [x]).set 2 0 = ins.set 2 0 ++ [x] := by
            intro x
            rw [List.set_append_left _ _ (by omega)]
          have i1 := hin _ h1
          have i2 := hin _ h2
          have m1 := left_ne_zero_of_mul n1
          have m2 := left_ne_zero_of_mul n2
          rw [e] at i1 i2 m1 m2
          exact s2 _ o o' i1 i2 m1 m2
      · cases hk
  · cases hk

/-- C27: the `int8` array that stores such a kernel holds its entries unchanged. -/
theorem C27_store (hA : WfAlg A) {op : Operator Int} (h : Built A (.op op)) :
    Reads8 ⟨op.kernel.map (BitVec.ofInt 8), op.axes⟩ op := by
  refine ⟨rfl, rfl, fun idx hi => ?_⟩
  simp only [Tensor.map]
  rcases (C27_kernel hA h).entries idx hi with e | e | e <;> rw [e] <;> rfl

/-- C27: composing two operators in `int8` arithmetic never overflows; all sums of products are exact. -/
theorem C27_fuse8 (hA : WfAlg A) {f g : Operator Int} (hf : Built A (.op f)) (hg : Built A (.op g))
    {f8 g8 : Operator (BitVec 8)} (h1 : Reads8 f8 f) (h2 : Reads8 g8 g) {axis : Nat} (hx : axis < g.arity) :
    Reads8Res (f8.fuse g8 axis) (f.fuse g axis) := by
  obtain ⟨c, hc⟩ := built_good hA hf
  obtain ⟨d, hd⟩ := built_good hA hg
  exact reads8_fuse h1 h2 hc hd hx

/-- C27: symmetrising over at most five axes in `int8` arithmetic never overflows: not in the sum over all permutations,
the division by their number, or the test for exactness.  (The factory symmetrises over at most four.) -/
theorem C27_symmetry8 (hA : WfAlg A) {op : Operator Int} (h : Built A (.op op)) {op8 : Operator (BitVec 8)} (h8 : Reads8 op8 op)
    {axes : List Nat} (h5 : axes.length ≤ 5) : Reads8Res (op8.symmetry8 A axes) (op.symmetry A axes) := by
  obtain ⟨c, hc⟩ := built_good hA h
  exact reads8_symmetry h8 hc h5

/-- C27: the sum and the halving in the commutator products are exact in `int8` arithmetic. -/
theorem C27_add8 (hA : WfAlg A) {a b : Operator Int} (ha : Built A (.op a)) (hb : Built A (.op b))
    {a8 b8 : Operator (BitVec 8)} (h1 : Reads8 a8 a) (h2 : Reads8 b8 b) :
    Reads8Res (a8.add b8) (a.add b) ∧ Reads8Res ((a8.add b8).map (·.div8 2)) ((a.add b).map (·.div 2)) := by
  obtain ⟨c, hc⟩ := built_good hA ha
  obtain ⟨d, hd⟩ := built_good hA hb
  exact reads8_add_half h1 h2 hc hd

/-- C27: squeezing away zero outputs drops the same outputs for the stored array. -/
theorem C27_squeeze8 (hA : WfAlg A) {op : Operator Int} (h : Built A (.op op)) {op8 : Operator (BitVec 8)} (h8 : Reads8 op8 op) :
    Reads8Res (op8.squeeze A) (op.squeeze A) := by
  obtain ⟨c, hc⟩ := built_good hA h
  exact reads8_squeeze h8 hc.wf

/-- The hypothesis `Built` is met, e.g. by the cube of a vector in the plane (an operator of three arguments),
composed from two products and symmetrised. -/
example : ∃ op, Built euc2 (.op op) ∧ op.arity = 3 ∧ op.kernel.get [0, 0, 0, 0] = 1 ∧ SmallKernel op.kernel := by
  have h : WfSub euc2 ⟨[1, 2]⟩ := wfSub_of_B (by decide +kernel)
  have hs : (cubed euc2 (.sub ⟨[1, 2]⟩)).isSome = true := by decide +kernel
  obtain ⟨op, e⟩ := Option.isSome_iff_exists.1 hs
  have hb : Built euc2 (.op op) := Built.un (f := cubed euc2) (by simp [unaryFunctions]) (Built.sub h) e
  refine ⟨op, hb, ?_, ?_, C27_kernel wf_euc2 hb⟩
  · have : (cubed euc2 (.sub ⟨[1, 2]⟩)).map (·.arity) = some 3 := by decide +kernel
    rw [e] at this
    exact Option.some.inj this
  · have : (cubed euc2 (.sub ⟨[1, 2]⟩)).map (·.kernel.get [0, 0, 0, 0]) = some 1 := by decide +kernel
    rw [e] at this
    exact Option.some.inj this

end Verif.Props
