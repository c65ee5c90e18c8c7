import Verif.Proofs.Sem
import Verif.Props.Subspace
/-! # Properties C21 – C24: fuse, bind, squeeze, symmetry -/
namespace Verif.Props
open Model Spec

/-- Decision helper for the examples: a concrete operator is well formed. -/
def wfOpB (A : Alg) (op : Operator Int) : Bool :=
  op.axes != [] && op.kernel.shape == op.axes.map (·.blades.length) && op.axes.all (wfSubB A)

theorem wfOp_of_B {A : Alg} {op : Operator Int} (h : wfOpB A op = true) : WfOp A op := by
  simp only [wfOpB, Bool.and_eq_true, List.all_eq_true, bne_iff_ne, ne_eq, beq_iff_eq] at h
  exact ⟨h.1.1, h.1.2, fun S hS => wfSub_of_B (h.2 S hS)⟩

/-- Example operator: `x ↦ 3 * x_1 e1 - x_w ew` from vectors of `pga3` to the span of `ew, e1`. -/
def exF : Operator Int :=
  ⟨{ shape := [4, 2], get := fun idx => if idx = [0, 0] then -1 else if idx = [1, 1] then 3 else 0 }, [⟨[1, 2, 4, 8]⟩, ⟨[1, 2]⟩]⟩
/-- Example operator: `(s, x) ↦ 2 * s * x_1` from (scalar, span of `ew, e1`) to scalars. -/
def exG : Operator Int :=
  ⟨{ shape := [1, 2, 1], get := fun idx => if idx = [0, 1, 0] then 2 else 0 }, [⟨[0]⟩, ⟨[1, 2]⟩, ⟨[0]⟩]⟩

theorem wf_exF : WfOp pga3 exF := wfOp_of_B (by decide +kernel)
theorem wf_exG : WfOp pga3 exG := wfOp_of_B (by decide +kernel)

/-! ## C21 -/

/-- C21: `f.fuse(g, axis)` succeeds exactly if the output space of `f` is the space of input `axis` of `g`; the result
takes the inputs of `f` at that place, and evaluates to `g` with the value of `f` plugged in. -/
theorem C21_fuse {A : Alg} {f g : Operator Int} (hf : WfOp A f) (hg : WfOp A g) {axis : Nat} (hax : axis < g.arity) :
    ((f.fuse g axis).isSome ↔ g.inputs[axis]? = some f.output) ∧
    ∀ h, f.fuse g axis = some h →
      WfOp A h ∧ h.output = g.output ∧ h.inputs = g.inputs.take axis ++ f.inputs ++ g.inputs.drop (axis + 1) ∧
      ∀ (R : Type) [CommRing R] (xs ys zs : List (List R)), Fits xs (g.inputs.take axis) → Fits ys f.inputs →
        Fits zs (g.inputs.drop (axis + 1)) →
        h.apply R (xs ++ ys ++ zs) = g.apply R (xs ++ [f.apply R ys] ++ zs) := by
  rw [Operator.arity] at hax
  have hgi : g.inputs = g.inputs.take axis ++ g.inputs[axis] :: g.inputs.drop (axis + 1) := by
    conv_lhs => rw [← List.take_append_drop axis g.inputs, List.drop_eq_getElem_cons hax]
  have hga : ∀ S, g.inputs[axis] = S → g.axes = g.inputs.take axis ++ S :: (g.inputs.drop (axis + 1) ++ [g.output]) := by
    rintro S rfl
    rw [hg.axes_eq]
    exact (congrArg (· ++ [g.output]) hgi).trans (by simp only [List.append_assoc, List.cons_append])
  have hlen : (g.inputs.take axis).length = axis := by simp; omega
  have hax? : g.axes[axis]? = some g.inputs[axis] := by
    rw [hg.axes_eq, List.getElem?_append_left hax, List.getElem?_eq_getElem hax]
  have hout? : f.output? = some f.output := by rw [Operator.output?, hf.axes_eq]; simp
  rw [List.getElem?_eq_getElem hax, Option.some_inj]
  by_cases heq : g.inputs[axis] = f.output
  · obtain ⟨h, h1, h2, h3, h4⟩ := fuse_apply hf hg hf.axes_eq (hga _ heq)
    rw [hlen] at h1
    refine ⟨by simp [h1, heq], ?_⟩
    intro h' hh
    rw [h1, Option.some_inj] at hh
    subst hh
    have e : h.axes = (g.inputs.take axis ++ f.inputs ++ g.inputs.drop (axis + 1)) ++ [g.output] := by rw [h3]; simp
    refine ⟨h2, by rw [Operator.output, e, List.getLastD_concat], by rw [Operator.inputs, e, List.dropLast_concat], ?_⟩
    intro R _ xs ys zs hx hy hz
    rw [h4 R xs ys zs (Fits.length hx) (Fits.length hy) (Fits.length hz)]
    simp
  · have hnone : f.fuse g axis = none := by
      rw [Operator.fuse, hout?, hax?]
      simp only [Option.bind_eq_bind, Option.bind_some]
      rw [if_pos (Ne.symm heq)]
    simp [hnone, heq]

example : (1 : Nat) < exG.arity ∧ exG.inputs[1]? = some exF.output ∧ exG.inputs[0]? ≠ some exF.output := by decide

/-! ## C22 -/

/-- The inputs that take the place of input `i` (of space `S`) after binding the dict `d`. -/
def boundInputs (d : List (Nat × Operator Int)) (S : SubSpace) (i : Nat) : List SubSpace :=
  match d.lookup i with
  | some f => f.inputs
  | none => [S]

/-- The value plugged into input `i`. -/
def boundValue (R : Type) [CommRing R] (d : List (Nat × Operator Int)) (i : Nat) (xs : List (List R)) : List R :=
  match d.lookup i with
  | some f => f.apply R xs
  | none => xs.headD []

theorem operatorsOf_mem {K : Type} (args : List (Arg K)) (s : Nat) (i : Nat) (O : Operator K) :
    (i, O) ∈ operatorsOf args s ↔ s ≤ i ∧ args[i - s]? = some (.op O) := by
  induction args generalizing s with
  | nil => simp [operatorsOf]
  | cons a args ih =>
    cases a with
    | sub S =>
      rw [operatorsOf, ih]
      constructor
      · rintro ⟨h1, h2⟩
        refine ⟨by omega, ?_⟩
        rw [show i - s = (i - (s + 1)) + 1 by omega]; simpa using h2
      · rintro ⟨h1, h2⟩
        rcases Nat.eq_or_lt_of_le h1 with h | h
        · subst h; simp at h2
        · refine ⟨h, ?_⟩
          rw [show i - s = (i - (s + 1)) + 1 by omega] at h2; simpa using h2
    | op P =>
      rw [operatorsOf, List.mem_cons, ih]
      constructor
      · rintro (h | ⟨h1, h2⟩)
        · obtain ⟨rfl, rfl⟩ := Prod.mk.inj h
          simp
        · refine ⟨by omega, ?_⟩
          rw [show i - s = (i - (s + 1)) + 1 by omega]; simpa using h2
      · rintro ⟨h1, h2⟩
        rcases Nat.eq_or_lt_of_le h1 with h | h
        · subst h
          left
          simpa using h2.symm
        · right
          refine ⟨h, ?_⟩
          rw [show i - s = (i - (s + 1)) + 1 by omega] at h2; simpa using h2

theorem lookup_mem_iff {d : List (Nat × Operator Int)} (hk : (d.map (·.1)).Nodup) (i : Nat) (f : Operator Int) :
    d.lookup i = some f ↔ (i, f) ∈ d := by
  induction d with
  | nil => simp
  | cons p d ih =>
    obtain ⟨j, g⟩ := p
    rw [List.map_cons, List.nodup_cons] at hk
    rw [List.lookup_cons]
    by_cases h : i = j
    · subst h
      simp only [beq_self_eq_true, Option.some_inj, List.mem_cons, Prod.mk.injEq, true_and]
      constructor
      · rintro rfl; left; rfl
      · rintro (rfl | h)
        · rfl
        · exact absurd (List.mem_map.2 ⟨_, h, rfl⟩) hk.1
    · have : (i == j) = false := by simpa using h
      rw [this]
      simp only [List.mem_cons, Prod.mk.injEq, h, false_and, false_or]
      exact ih hk.2

/-- C22: binding any dict of operators to distinct inputs whose spaces they produce, in any order: the result takes the
inputs of the bound operators at their places, and evaluates to the operator with all their values plugged in. -/
theorem C22_bind {A : Alg} {op : Operator Int} (h : WfOp A op) {d : List (Nat × Operator Int)}
    (hk : (d.map (·.1)).Nodup) (hd : ∀ p ∈ d, WfOp A p.2 ∧ op.inputs[p.1]? = some p.2.output) :
    ∃ r, op.bind d = some r ∧ WfOp A r ∧ r.output = op.output ∧
      r.inputs = (op.inputs.zipIdx.flatMap fun p => boundInputs d p.1 p.2) ∧
      ∀ (R : Type) [CommRing R] (xss : List (List (List R))),
        List.Forall₂ (fun xs (p : SubSpace × Nat) => Fits xs (boundInputs d p.1 p.2)) xss op.inputs.zipIdx →
        r.apply R xss.flatten = op.apply R (xss.zipIdx.map fun p => boundValue R d p.2 p.1) := by
  let mk : SubSpace × Nat → Arg Int := fun p => match d.lookup p.2 with
    | some f => .op f
    | none => .sub p.1
  let args : List (Arg Int) := op.inputs.zipIdx.map mk
  have hlk := lookup_mem_iff hk
  have hargs : ∀ a ∈ args, WfArg A a := by
    intro a ha
    obtain ⟨p, hp, rfl⟩ := List.mem_map.1 ha
    simp only [mk]
    cases hl : d.lookup p.2 with
    | none => exact h.wf_inputs _ (List.fst_mem_of_mem_zipIdx hp)
    | some f => exact (hd _ ((hlk _ _).1 hl)).1
  have hsub : args.map Arg.subspace = op.inputs := by
    simp only [args, List.map_map]
    conv_rhs => rw [← List.zipIdx_map_fst 0 op.inputs]
    apply List.map_congr_left
    intro p hp
    simp only [Function.comp, mk]
    cases hl : d.lookup p.2 with
    | none => rfl
    | some f =>
      have h1 := (hd _ ((hlk _ _).1 hl)).2
      have h2 := List.mem_zipIdx_iff_getElem?.1 hp
      simp only at h1
      rw [h2, Option.some_inj] at h1
      exact h1.symm
  have hperm : d.Perm (operatorsOf args) := by
    rw [List.perm_ext_iff_of_nodup (List.Nodup.of_map _ hk)
      ((operatorsOf_sorted args 0).imp fun {p q} hpq => by rintro rfl; exact absurd hpq (lt_irrefl _))]
    rintro ⟨i, f⟩
    rw [← hlk, operatorsOf_mem]
    simp only [Nat.sub_zero, Nat.zero_le, true_and, args, List.getElem?_map]
    constructor
    · intro hl
      have h1 := (hd _ ((hlk _ _).1 hl)).2
      simp only at h1
      rw [List.getElem?_zipIdx, h1]
      simp [mk, hl]
    · intro hm
      rw [List.getElem?_zipIdx] at hm
      cases hi : op.inputs[i]? with
      | none => simp [hi] at hm
      | some S =>
        simp only [hi, Option.map_some, Nat.zero_add, Option.some_inj, mk] at hm
        cases hl : d.lookup i with
        | none => simp [hl] at hm
        | some g =>
          simp only [hl, Arg.op.injEq] at hm
          rw [hm]
  have hbind : op.bind d = op.build_ args := by
    rw [build_eq_foldl, Operator.bind, insertionSort_desc hperm (operatorsOf_sorted args 0)]
  obtain ⟨r, r1, r2, r3, r4⟩ := build_apply args hargs op h (Q := []) (O := op.output) (by
    rw [hsub, List.nil_append]; exact h.axes_eq)
  have hins : args.flatMap Arg.ins = op.inputs.zipIdx.flatMap fun p => boundInputs d p.1 p.2 := by
    rw [List.flatMap_map]
    congr 1
    funext p
    simp only [mk, boundInputs]
    cases d.lookup p.2 <;> rfl
  have r3' : r.axes = (op.inputs.zipIdx.flatMap fun p => boundInputs d p.1 p.2) ++ [op.output] := by rw [r3, hins]; simp
  refine ⟨r, by rw [hbind, r1], r2, by rw [Operator.output, r3', List.getLastD_concat],
    by rw [Operator.inputs, r3', List.dropLast_concat], ?_⟩
  intro R _ xss hx
  have hx' : List.Forall₂ (fun (a : Arg Int) xs => xs.length = (Arg.ins a).length) args xss := by
    apply List.Forall₂.flip
    rw [List.forall₂_map_right_iff]
    refine hx.imp ?_
    intro xs p hp
    change xs.length = (Arg.ins (mk p)).length
    rw [Fits.length hp]
    simp only [Arg.ins, mk, boundInputs]
    cases d.lookup p.2 <;> rfl
  have e := r4 R xss [] hx' rfl
  rw [List.append_nil, List.append_nil] at e
  rw [e]
  congr 1
  have hlen := hx.length_eq
  apply List.ext_getElem
  · simp [args] at hlen ⊢; omega
  · intro i h1 h2
    simp only [List.getElem_zipWith, args, List.getElem_map, List.getElem_zipIdx, Nat.zero_add, mk, boundValue]
    cases d.lookup i <;> rfl

example : (([(1, exF), (0, exG)] : List (Nat × Operator Int)).map (·.1)).Nodup ∧
    (∀ p ∈ [(1, exF), (0, exG)], WfOp pga3 p.2 ∧ exG.inputs[p.1]? = some p.2.output) := by
  refine ⟨by decide, ?_⟩
  intro p hp
  simp only [List.mem_cons, List.not_mem_nil, or_false] at hp
  rcases hp with rfl | rfl
  · exact ⟨wf_exF, by decide⟩
  · exact ⟨wf_exG, by decide⟩

/-! ## C23 -/

/-- C23: `squeeze` never fails, keeps the inputs, keeps exactly the output blades that some kernel entry reaches, and the
multivector computed is the same for all inputs over all coefficient rings. -/
theorem C23_squeeze {A : Alg} (hA : WfAlg A) {op : Operator Int} (h : WfOp A op) :
    ∃ s, op.squeeze A = some s ∧ WfOp A s ∧ s.inputs = op.inputs ∧
      (∀ b, b ∈ s.output.blades ↔ ∃ o, op.output.blades[o]? = some b ∧
        ∃ idx, Valid idx (op.inputs.map (·.blades.length)) ∧ op.kernel.get (idx ++ [o]) ≠ 0) ∧
      (∀ o < s.output.blades.length, ∃ idx, Valid idx (op.inputs.map (·.blades.length)) ∧ s.kernel.get (idx ++ [o]) ≠ 0) ∧
      ∀ (R : Type) [CommRing R] (xs : List (List R)),
        denote A R s.output (s.apply R xs) = denote A R op.output (op.apply R xs) := by
  obtain ⟨s, s1, s2, s3, s4, s5, s6⟩ := squeeze_spec hA h
  refine ⟨s, s1, s2, s3, ?_, ?_, s6⟩
  · intro b
    rw [s4, List.mem_map]
    constructor
    · rintro ⟨o, ho, rfl⟩
      rw [List.mem_filter, List.mem_range, anyInputs_iff, h.shape_in] at ho
      exact ⟨o, by rw [List.getElem?_eq_getElem ho.1, getD_lt _ _ ho.1], ho.2⟩
    · rintro ⟨o, ho, hi⟩
      obtain ⟨ho1, ho2⟩ := List.getElem?_eq_some_iff.1 ho
      refine ⟨o, ?_, by rw [getD_lt _ _ ho1, ho2]⟩
      rw [List.mem_filter, List.mem_range, anyInputs_iff, h.shape_in]
      exact ⟨ho1, hi⟩
  · intro o ho
    rw [s4, List.length_map] at ho
    have hm : ((List.range op.output.blades.length).filter op.kernel.anyInputs).getD o 0 ∈
        (List.range op.output.blades.length).filter op.kernel.anyInputs := by
      rw [getD_lt _ _ ho]; exact List.getElem_mem _
    have hm' := hm
    rw [List.mem_filter, List.mem_range, anyInputs_iff, h.shape_in] at hm
    obtain ⟨_, idx, hidx, hnz⟩ := hm
    refine ⟨idx, hidx, ?_⟩
    rwa [s5 idx (by simpa using hidx.length)]

example : WfOp pga3 exF ∧ exF.squeeze pga3 ≠ none := by
  refine ⟨wf_exF, ?_⟩
  obtain ⟨s, hs, _⟩ := C23_squeeze wf_pga3 wf_exF
  rw [hs]; simp

/-! ## C24 -/

/-- C24: `symmetry` over any set of input axes of equal space succeeds; it does not change the multivector whenever the
arguments at those axes are equal (over every commutative coefficient ring).  When every sum over permutations of the
axes is divisible by their number, the kernel is the average over the permutations of the axes: see
`C24_exact_invariant`. -/
theorem C24_symmetry {A : Alg} (hA : WfAlg A) {op : Operator Int} (h : WfOp A op) {axes : List Nat} (hne : axes ≠ [])
    (hnd : axes.Nodup) {T : SubSpace} (hT : ∀ a ∈ axes, op.inputs[a]? = some T) :
    ∃ s, op.symmetry A axes = some s ∧ WfOp A s ∧ s.inputs = op.inputs ∧
      ∀ (R : Type) [CommRing R] (xs : List (List R)), Fits xs op.inputs →
        (∀ a ∈ axes, ∀ b ∈ axes, xs[a]? = xs[b]?) →
        denote A R s.output (s.apply R xs) = denote A R op.output (op.apply R xs) := by
  obtain ⟨s, s1, s2, s3, _, s5⟩ := symmetry_spec hA h hne hnd
    (fun a ha => (List.getElem?_eq_some_iff.1 (hT a ha)).1) hT
  refine ⟨s, s1, s2, s3, ?_⟩
  intro R _ xs hx heq
  apply s5 R xs (Fits.length hx)
  intro a ha b hb
  rw [List.getD_eq_getElem?_getD, List.getD_eq_getElem?_getD, heq a ha b hb]

/-- C24, kernel: when all sums over the permutations of the axes are divisible by the number of permutations, the result
is exactly the average of the kernel over the permutations of those axes, and hence invariant under them.
(`permIdx axes p n idx` is `idx` with the entries at `axes` rearranged by `p`.) -/
theorem C24_exact_invariant {A : Alg} (hA : WfAlg A) {op : Operator Int} (h : WfOp A op) {axes : List Nat} (hne : axes ≠ [])
    (hnd : axes.Nodup) {T : SubSpace} (hT : ∀ a ∈ axes, op.inputs[a]? = some T)
    (hdiv : ∀ idx, Valid idx (op.axes.map (·.blades.length)) → (axes.length.factorial : Int) ∣
      (axes.permutations'.map fun p => op.kernel.get (permIdx axes p op.axes.length idx)).sum) :
    ∃ s, op.symmetry A axes = some s ∧ ∀ idx, Valid idx (op.inputs.map (·.blades.length)) → ∀ o < s.output.blades.length,
      (∀ q, q.Perm axes → s.kernel.get (permIdx axes q op.arity idx ++ [o]) = s.kernel.get (idx ++ [o])) ∧
      ∃ o', op.output.blades[o']? = s.output.blades[o]? ∧ s.kernel.get (idx ++ [o]) * (axes.length.factorial : Int) =
        (axes.permutations'.map fun p => op.kernel.get (permIdx axes p op.arity idx ++ [o'])).sum := by
  have hlt : ∀ a ∈ axes, a < op.inputs.length := fun a ha => (List.getElem?_eq_some_iff.1 (hT a ha)).1
  obtain ⟨s0, e1, e2, e3, e4, _⟩ := symmetry_pre h hne hnd hlt hT
  obtain ⟨s, s1, s2, s3, s4, s5, _⟩ := squeeze_spec hA e2
  have hndim : op.kernel.ndim = op.inputs.length + 1 := by rw [Tensor.ndim, h.shape_eq]; simp
  have hin : s0.inputs = op.inputs := by rw [Operator.inputs, e3, Operator.inputs]
  have hout : s0.output = op.output := by rw [Operator.output, e3, Operator.output]
  rw [← h.shape] at hdiv
  have hnd' : op.axes.length = op.kernel.ndim := by rw [Tensor.ndim, h.shape]; simp
  rw [hnd', ← length_permutations'] at hdiv
  have e4' := e4.resolve_right fun hr => by
    obtain ⟨⟨idx, hv, hn⟩, _⟩ := hr
    exact hn (hdiv idx hv)
  refine ⟨s, by rw [e1, s1], ?_⟩
  intro idx hidx o ho
  have hlen : idx.length = op.inputs.length := by simpa using hidx.length
  set inds := (List.range s0.output.blades.length).filter s0.kernel.anyInputs with hinds
  have ho' : o < inds.length := by rw [s4, List.length_map] at ho; exact ho
  have hmem : inds.getD o 0 < op.output.blades.length := by
    have : inds.getD o 0 ∈ inds := by rw [getD_lt _ _ ho']; exact List.getElem_mem _
    have h' := (List.mem_filter.1 this).1
    rwa [List.mem_range, hout] at h'
  have key : ∀ idx, Valid idx (op.inputs.map (·.blades.length)) → s.kernel.get (idx ++ [o]) * (axes.length.factorial : Int) =
      (axes.permutations'.map fun p => op.kernel.get (permIdx axes p op.arity idx ++ [inds.getD o 0])).sum := by
    intro idx hidx
    have hlen : idx.length = op.inputs.length := by simpa using hidx.length
    rw [s5 idx (by rw [hin, hlen]), ← length_permutations', e4']
    · congr 1
      apply List.map_congr_left
      intro p hp
      rw [hndim, permIdx_append (List.mem_permutations'.1 hp) hlt hlen]; rfl
    · rw [h.shape_eq]
      exact hidx.append (List.Forall₂.cons hmem List.Forall₂.nil)
  refine ⟨?_, inds.getD o 0, ?_, key idx hidx⟩
  · intro q hq
    have hv : Valid (permIdx axes q op.arity idx) (op.inputs.map (·.blades.length)) := by
      have := permIdx_valid hq (shape := op.inputs.map (·.blades.length)) (by simpa using hlt) (by
        intro i hi j hj
        have e : ∀ a ∈ axes, (op.inputs.map (·.blades.length)).getD a 0 = T.blades.length := by
          intro a ha
          rw [List.getD_eq_getElem?_getD, List.getElem?_map, hT a ha]; rfl
        rw [e i hi, e j hj]) hidx
      rw [List.length_map] at this
      exact this
    apply mul_right_cancel₀ (b := (axes.length.factorial : Int)) (by exact_mod_cast (Nat.factorial_pos _).ne')
    rw [key _ hv, key _ hidx]
    exact sum_perms_invariant (fun i => op.kernel.get (i ++ [inds.getD o 0])) hq hnd hlt idx
  · rw [List.getElem?_eq_getElem hmem, List.getElem?_eq_getElem ho, Option.some_inj]
    have : s.output.blades[o] = s.output.blades.getD o 0 := (getD_lt _ _ ho).symm
    have h2 : op.output.blades[inds.getD o 0] = op.output.blades.getD (inds.getD o 0) 0 := (getD_lt _ _ hmem).symm
    rw [this, h2, s4, getD_lt (List.map _ inds) _ (by simpa using ho'), List.getElem_map, hout, ← getD_lt _ 0 ho']

/-- Example operator: `(x, y) ↦ x_w y_1 e1 + (x_w y_w + ...)`, not symmetric. -/
def exH : Operator Int :=
  ⟨{ shape := [2, 2, 2], get := fun idx => if idx = [0, 1, 1] then 2 else if idx = [0, 0, 0] then 5 else
      if idx = [1, 0, 0] then 7 else 0 }, [⟨[1, 2]⟩, ⟨[1, 2]⟩, ⟨[1, 2]⟩]⟩

/-- Example operator: `(x, y) ↦ 2 x_w y_1 e1`, whose symmetrisation is exact. -/
def exH2 : Operator Int :=
  ⟨{ shape := [2, 2, 2], get := fun idx => if idx = [0, 1, 1] then 2 else 0 }, [⟨[1, 2]⟩, ⟨[1, 2]⟩, ⟨[1, 2]⟩]⟩

example : WfOp pga3 exH ∧ ([0, 1] : List Nat).Nodup ∧ ∀ a ∈ [0, 1], exH.inputs[a]? = some ⟨[1, 2]⟩ := by
  refine ⟨wfOp_of_B (by decide +kernel), by decide, by decide⟩

example : ∀ idx, Valid idx (exH2.axes.map (·.blades.length)) → (([0, 1] : List Nat).length.factorial : Int) ∣
    (([0, 1] : List Nat).permutations'.map fun p => exH2.kernel.get (permIdx [0, 1] p exH2.axes.length idx)).sum := by
  intro idx hidx
  rw [← mem_allIdx] at hidx
  revert idx
  decide +kernel

end Verif.Props
