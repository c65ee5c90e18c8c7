import Verif.Proofs.Multivector
import Verif.Proofs.Sandwich
/-! # Output subspaces of unary operators, and equality of multivectors -/
namespace Verif
open Model Spec Model.Factory

variable {A : Alg} {R : Type} [CommRing R]

/-- Multivectors of the same subspace with the same value are equal. -/
theorem MV.ext_val {x y : MV R} (hx : WfMV A x) (hy : WfMV A y) (hs : x.sub = y.sub) (hv : val A x = val A y) : x = y := by
  cases x; cases y
  simp only at hs
  subst hs
  congr 1
  exact denote_inj A R hx.sub hx.len hy.len hv

theorem Spec.GivesIn.gives {r : Option (MV R)} {S : SubSpace} {v : Cl A R} (h : GivesIn A r S v) : Gives A r v := by
  obtain ⟨z, h1, _, h3, h4⟩ := h; exact ⟨z, h1, h3, h4⟩

theorem Spec.GivesIn.eq {r : Option (MV R)} {x : MV R} (hx : WfMV A x) (h : GivesIn A r x.sub (val A x)) : r = some x := by
  obtain ⟨z, rfl, h2, h3, h4⟩ := h
  rw [MV.ext_val h3 hx h2 h4]

theorem call_sub {op : Operator Int} {args : List (MV R)} {z : MV R} (h : MV.call (some op) args = some z) : z.sub = op.output := by
  rw [MV.call, Option.bind_eq_bind, Option.bind_some] at h
  split at h
  · rw [MV.construct] at h
    split at h
    · cases h; rfl
    · cases h
  · cases h

theorem Spec.GivesIn.of_call {r : Option (Operator Int)} {args : List (MV R)} {S : SubSpace} {v : Cl A R} (h : Gives A (MV.call r args) v)
    (hS : ∀ op, r = some op → op.output = S) : GivesIn A (MV.call r args) S v := by
  obtain ⟨z, h1, h2, h3⟩ := h
  refine ⟨z, h1, ?_, h2, h3⟩
  cases r with
  | none => cases h1
  | some op => rw [call_sub h1, hS op rfl]

theorem build1_output {k : Tensor Int} {v : Arg Int} {O : SubSpace} (hv : WfArg A v) (hO : WfSub A O)
    (hk : k.shape = [v.subspace.blades.length, O.blades.length]) {op : Operator Int} (h : Operator.build k [v, .sub O] = some op) : op.output = O := by
  rw [build1_eq] at h
  obtain ⟨h', e1, _, e3, _⟩ := build_apply [v] (by simpa using hv)
    (⟨k, [v.subspace, O]⟩ : Operator Int)
    ⟨by simp, by simp [hk], by intro T hT; simp at hT; rcases hT with rfl | rfl; exacts [args_ins_subspace hv, hO]⟩ (Q := []) (O := O) (by simp)
  cases e1.symm.trans h
  simp [Operator.output, e3]

theorem diagonal_output {v : Arg Int} (hv : WfArg A v) {w : List Int} (hw : w.length = v.subspace.blades.length) {op : Operator Int}
    (h : diagonal v w = some op) : op.output = v.subspace :=
  build1_output hv (args_ins_subspace hv) (by simp [diagKernel, hw]) h

theorem reverse_output {v : Arg Int} (hv : WfArg A v) {op : Operator Int} (h : reverse A v = some op) : op.output = v.subspace :=
  diagonal_output hv (by simp) h
theorem involute_output {v : Arg Int} (hv : WfArg A v) {op : Operator Int} (h : involute A v = some op) : op.output = v.subspace :=
  diagonal_output hv (by simp) h
theorem conjugate_output (hA : WfAlg A) {v : Arg Int} {I : List SubSpace} {C : Cond A} {F : Fn A} (hv : ArgSem A v I C F)
    {op : Operator Int} (h : conjugate A v = some op) : op.output = v.subspace := by
  rw [conjugate, Option.bind_eq_bind, Option.bind_eq_some_iff] at h
  obtain ⟨r, r1, r2⟩ := h
  obtain ⟨r', q1, q2, _⟩ := reverse_un hA hv
  cases q1.symm.trans r1
  rw [involute_output (v := .op r) q2 r2, Arg.subspace, reverse_output hv.1 r1]
theorem scalarNegation_output {v : Arg Int} (hv : WfArg A v) {op : Operator Int} (h : scalarNegation A v = some op) : op.output = v.subspace :=
  diagonal_output hv (by simp [SubSpace.grades]) h
theorem pseudoscalarNegation_output {v : Arg Int} (hv : WfArg A v) {op : Operator Int} (h : pseudoscalarNegation A v = some op) :
    op.output = v.subspace :=
  diagonal_output hv (by simp [SubSpace.grades]) h
theorem select_output {i o : SubSpace} (hi : WfSub A i) (ho : WfSub A o) {op : Operator Int} (h : select A (.sub i) o = some op) : op.output = o := by
  obtain ⟨op', h1, _, h3, _⟩ := select_sem hi ho (v := .sub i) rfl (· ∈ o.blades) (fun _ _ => Iff.rfl)
  cases h1.symm.trans h
  rw [Operator.output, h3]; rfl

theorem complement_complement (hA : WfAlg A) {S : SubSpace} (hS : WfSub A S) {T : SubSpace} (h : S.complement A = some T) :
    T.complement A = some S ∧ WfSub A T := by
  obtain ⟨T', t1, t2, t3⟩ := complement_spec hA hS
  cases t1.symm.trans h
  obtain ⟨U, u1, u2, u3⟩ := complement_spec hA t2
  refine ⟨?_, t2⟩
  rw [u1]
  congr 1
  apply WfSub.ext u2 hS
  intro b
  rw [u3]
  change b < 2 ^ A.n ∧ b ^^^ A.pss ∈ T.blades ↔ _
  rw [t3]
  change b < 2 ^ A.n ∧ b ^^^ A.pss < 2 ^ A.n ∧ b ^^^ A.pss ^^^ A.pss ∈ S.blades ↔ _
  rw [xor_cancel]
  exact ⟨fun h => h.2.2, fun h => ⟨hS.lt _ h, xor_lt (hS.lt _ h) (pss_lt A), h⟩⟩

theorem rightHodgeInverse_output (hA : WfAlg A) {S : SubSpace} {op : Operator Int} (hS : WfSub A S) (h : rightHodgeInverse A (.sub S) = some op) :
    S.complement A = some op.output := by
  obtain ⟨c, c1, c2, c3⟩ := complement_spec hA hS
  have hcc := complement_complement hA hS c1
  rw [rightHodgeInverse] at h
  simp only [Arg.subspace, c1, Option.bind_eq_bind, Option.bind_some, Option.bind_eq_some_iff] at h
  obtain ⟨d, d1, t, t1, t2⟩ := h
  have ho := rightHodge_output hA c2 d1
  obtain ⟨d', e1, e2, e3, _⟩ := rightHodge_un hA (argSem_sub c2)
  cases e1.symm.trans d1
  rw [hcc.1, Option.some_inj] at ho
  have hax : d.axes = [c, S] := by rw [e2.axes_eq, e3, ← ho]; rfl
  have htax : t.axes = [S, c] ∧ WfOp A t := by
    rw [unaryInverse] at t1
    split at t1
    · rw [Option.bind_eq_bind, Option.bind_eq_some_iff] at t1
      obtain ⟨k, k1, k2⟩ := t1
      rw [hax] at k2
      simp only [List.reverse_cons, List.reverse_nil, List.nil_append, List.cons_append, List.map_cons, List.map_nil] at k2
      rw [build1_eq] at k2
      have hsh : k.shape = [S.blades.length, c.blades.length] := by
        have hd : d.kernel.shape = [c.blades.length, S.blades.length] := by rw [e2.shape, hax]; rfl
        rw [linalgInv, hd] at k1
        simp only at k1
        split at k1
        · rename_i hh
          cases k1
          simp [hh.1]
        · cases k1
      obtain ⟨h', g1, g2, g3, _⟩ := build_apply [Arg.sub S] (by simpa [WfArg] using hS)
        (⟨k, [S, c]⟩ : Operator Int)
        ⟨by simp, by simp [hsh], by simp [hS, c2]⟩ (Q := []) (O := c) (by simp [Arg.subspace])
      cases g1.symm.trans k2
      exact ⟨g3, g2⟩
    · cases t1
  obtain ⟨h', g1, g2, g3, _⟩ := build_apply [Arg.sub S] (by simpa [WfArg] using hS) t htax.2 (Q := []) (O := c) (by simp [Arg.subspace, htax.1])
  cases g1.symm.trans t2
  rw [c1, Operator.output, g3]
  simp

end Verif
