import Verif.Proofs.Tidy2
import Verif.Spec.Int8
/-! # Arithmetic in `int8` on small kernels -/
namespace Verif
open Model Spec Model.Factory

variable {A : Alg}

theorem cast8_eq_ofInt (n : Int) : ((n : Int) : BitVec 8) = BitVec.ofInt 8 n := rfl

theorem toInt_cast8 {n : Int} (h1 : -128 ≤ n) (h2 : n < 128) : ((n : BitVec 8)).toInt = n := by
  rw [cast8_eq_ofInt, BitVec.toInt_ofInt]
  rw [Int.bmod_eq_of_le] <;> simp <;> omega

theorem eq_cast8 {x : BitVec 8} {n : Int} (h : x.toInt = n) : x = (n : BitVec 8) := by
  rw [cast8_eq_ofInt, ← h, BitVec.ofInt_toInt]

theorem inside_iff {idx shape : List Nat} : Inside idx shape ↔ Valid idx shape := Iff.rfl

theorem Spec.Reads8.wf {a : Operator (BitVec 8)} {b : Operator Int} (h : Reads8 a b) (hb : WfOp A b) : WfOp A a :=
  ⟨by rw [h.axes]; exact hb.ne, by rw [h.shape, h.axes, hb.shape], by rw [h.axes]; exact hb.sub⟩

theorem Spec.Reads8.zero {a : Operator (BitVec 8)} {b : Operator Int} (h : Reads8 a b) {idx : List Nat}
    (hv : Valid idx b.kernel.shape) : a.kernel.get idx = 0 ↔ b.kernel.get idx = 0 := by
  rw [← h.entry idx hv]
  constructor
  · intro e; rw [e]; rfl
  · intro e; exact BitVec.eq_of_toInt_eq e

theorem reads8_fuse {f8 g8 : Operator (BitVec 8)} {f g : Operator Int} (hf8 : Reads8 f8 f) (hg8 : Reads8 g8 g)
    {c d : Nat} (hf : Tidy A c f) (hg : Tidy A d g) {axis : Nat} (hx : axis < g.arity) :
    Reads8Res (f8.fuse g8 axis) (f.fuse g axis) := by
  have hlen : g.axes.length = g.arity + 1 := by rw [hg.wf.axes_eq]; simp [Operator.arity]
  have hax : axis < g.axes.length := by omega
  have hax8 : g8.axes[axis]? = some g.axes[axis] := by rw [hg8.axes, List.getElem?_eq_getElem hax]
  have ho8 : f8.output? = some f.output := by rw [Operator.output?, hf8.axes, hf.wf.axes_eq]; simp
  have ho : f.output? = some f.output := by rw [Operator.output?, hf.wf.axes_eq]; simp
  by_cases hS : f.output = g.axes[axis]
  · have hga : g.axes = g.axes.take axis ++ f.output :: g.axes.drop (axis + 1) := by
      rw [hS]; simp
    have hQ : g.axes.drop (axis + 1) ≠ [] := by
      intro h0
      have := congrArg List.length h0
      simp at this; omega
    have hP : (g.axes.take axis).length = axis := by simp; omega
    obtain ⟨h, e, w, ax, hget⟩ := fuse_spec hf.wf hg.wf hf.wf.axes_eq hga hQ
    obtain ⟨h', e', w', ax', hget'⟩ := fuse_spec (hf8.wf hf.wf) (hg8.wf hg.wf) (hf8.axes.trans hf.wf.axes_eq) (hg8.axes.trans hga) hQ
    rw [hP] at e e'
    rw [e, e']
    have hax2 : h'.axes = h.axes := by rw [ax, ax']
    refine ⟨hax2, by rw [w.shape, w'.shape, hax2], ?_⟩
    intro idx hv
    have hsmall := (Tidy.fuse hf hg hx h e).entry idx hv
    have hv0 := inside_iff.1 hv
    rw [w.shape, ax, List.map_append, List.map_append] at hv0
    obtain ⟨v12, v3⟩ := hv0.take_drop
    obtain ⟨v1, v2⟩ := v12.take_drop
    generalize hpre : List.take (List.map (fun x : SubSpace => x.blades.length) (g.axes.take axis)).length (List.take (List.map (fun x : SubSpace => x.blades.length) (g.axes.take axis) ++ List.map (fun x => x.blades.length) f.inputs).length idx) = pre at v1
    generalize hmid : List.drop (List.map (fun x : SubSpace => x.blades.length) (g.axes.take axis)).length (List.take (List.map (fun x : SubSpace => x.blades.length) (g.axes.take axis) ++ List.map (fun x => x.blades.length) f.inputs).length idx) = mid at v2
    generalize hpost : List.drop (List.map (fun x : SubSpace => x.blades.length) (g.axes.take axis) ++ List.map (fun x => x.blades.length) f.inputs).length idx = post at v3
    have hidx : idx = pre ++ mid ++ post := by rw [← hpre, ← hmid, List.take_append_drop, ← hpost, List.take_append_drop]
    have l1 : pre.length = (g.axes.take axis).length := by simpa using v1.length
    have l2 : mid.length = f.inputs.length := by simpa using v2.length
    have l3 : post.length = (g.axes.drop (axis + 1)).length := by simpa using v3.length
    have key : h'.kernel.get idx = ((h.kernel.get idx : Int) : BitVec 8) := by
      rw [hidx, hget' pre mid post l1 l2 l3, hget pre mid post l1 l2 l3, Int.cast_sum]
      apply Finset.sum_congr rfl
      intro m hm
      rw [Finset.mem_range] at hm
      rw [Int.cast_mul, ← eq_cast8 (hf8.entry (mid ++ [m]) (by
        rw [inside_iff, hf.wf.shape_eq]; exact v2.append (.cons hm .nil))),
        ← eq_cast8 (hg8.entry (pre ++ m :: post) (by
        rw [inside_iff, hg.wf.shape, hga, List.map_append, List.map_cons]; exact v1.append (.cons hm v3)))]
    rw [key]
    by_cases h0 : h.kernel.get idx = 0
    · rw [h0]; rfl
    · rcases (hsmall h0).1 with e1 | e1 <;> rw [e1] <;> rfl
  · have e1 : f.fuse g axis = none := by
      rw [Operator.fuse, ho]
      simp only [Option.bind_eq_bind, Option.bind_some]
      rw [List.getElem?_eq_getElem hax, Option.bind_some, if_pos hS]
    have e2 : f8.fuse g8 axis = none := by
      rw [Operator.fuse, ho8]
      simp only [Option.bind_eq_bind, Option.bind_some]
      rw [hax8, Option.bind_some, if_pos hS]
    rw [e1, e2]
    trivial

theorem all_congr' {α : Type*} {l : List α} {p q : α → Bool} (h : ∀ x ∈ l, p x = q x) : l.all p = l.all q := by
  induction l with
  | nil => rfl
  | cons a l ih => simp only [List.all_cons, h a (by simp), ih fun x hx => h x (by simp [hx])]

theorem any_congr' {α : Type*} {l : List α} {p q : α → Bool} (h : ∀ x ∈ l, p x = q x) : l.any p = l.any q := by
  induction l with
  | nil => rfl
  | cons a l ih => simp only [List.any_cons, h a (by simp), ih fun x hx => h x (by simp [hx])]

/-- Squeezing looks at nothing but which entries are zero. -/
theorem reads8_anyInputs {k8 : Tensor (BitVec 8)} {k : Tensor Int} (hs : k8.shape = k.shape) {m : Nat} {I : List Nat}
    (hsh : k.shape = I ++ [m])
    (hz : ∀ idx, Valid idx k.shape → (k8.get idx = 0 ↔ k.get idx = 0)) {o : Nat} (ho : o < m) :
    k8.anyInputs o = k.anyInputs o := by
  rw [Tensor.anyInputs, Tensor.anyInputs, hs]
  apply any_congr'
  intro i hi
  rw [mem_allIdx, hsh, List.dropLast_concat] at hi
  have := hz (i ++ [o]) (by rw [hsh]; exact hi.append (.cons ho .nil))
  exact decide_eq_decide.2 (not_congr this)

theorem reads8_squeeze {a : Operator (BitVec 8)} {b : Operator Int} (h : Reads8 a b) (hb : WfOp A b) :
    Reads8Res (a.squeeze A) (b.squeeze A) := by
  have ho8 : a.output? = some b.output := by rw [Operator.output?, h.axes, hb.axes_eq]; simp
  have ho : b.output? = some b.output := by rw [Operator.output?, hb.axes_eq]; simp
  have hgl : b.kernel.shape.getLastD 0 = b.output.blades.length := hb.shape_out
  have hnd : b.kernel.ndim = b.inputs.length + 1 := by rw [Tensor.ndim, hb.shape_eq]; simp
  have hnd8 : a.kernel.ndim = b.kernel.ndim := by rw [Tensor.ndim, Tensor.ndim, h.shape]
  have hflt : (List.range (a.kernel.shape.getLastD 0)).filter a.kernel.anyInputs =
      (List.range (b.kernel.shape.getLastD 0)).filter b.kernel.anyInputs := by
    rw [h.shape, hgl]
    apply List.filter_congr
    intro o hoo
    exact reads8_anyInputs h.shape hb.shape_eq (fun idx hv => h.zero hv) (List.mem_range.1 hoo)
  rw [Operator.squeeze, Operator.squeeze, ho8, ho]
  simp only [Option.bind_eq_bind, Option.bind_some, hflt]
  generalize hind : (List.range (b.kernel.shape.getLastD 0)).filter b.kernel.anyInputs = indices
  have hlt : ∀ i ∈ indices, i < b.output.blades.length := by
    intro i hi
    rw [← hind, List.mem_filter, List.mem_range, hgl] at hi
    exact hi.1
  cases b.output.slice A indices with
  | none => trivial
  | some out =>
    simp only [Option.bind_some, Tensor.take, hnd8, h.shape]
    split
    · refine ⟨by rw [h.axes], rfl, ?_⟩
      intro idx hv
      refine h.entry _ ?_
      rw [inside_iff] at hv ⊢
      simp only at hv
      rw [hnd, hb.shape_eq] at hv
      rw [hnd, hb.shape_eq]
      simp only [Nat.add_sub_cancel] at hv ⊢
      have hl : b.inputs.length = (b.inputs.map (fun S : SubSpace => S.blades.length)).length := by simp
      rw [hl, List.set_append_right _ _ (le_refl _)] at hv
      simp only [Nat.sub_self, List.set_cons_zero] at hv
      obtain ⟨v1, v2⟩ := hv.take_drop
      have e := List.take_append_drop (b.inputs.map (fun S : SubSpace => S.blades.length)).length idx
      generalize List.take (b.inputs.map (fun S : SubSpace => S.blades.length)).length idx = pre at *
      generalize List.drop (b.inputs.map (fun S : SubSpace => S.blades.length)).length idx = post at *
      subst e
      cases v2 with
      | cons h1 h2 =>
        cases h2
        have hpl : b.inputs.length = pre.length := by rw [hl]; exact v1.length.symm
        rw [hpl, List.set_append_right _ _ (le_refl _)]
        simp only [Nat.sub_self, List.set_cons_zero]
        refine v1.append (.cons ?_ .nil)
        rename_i i
        have : (pre ++ [i]).getD pre.length 0 = i := by simp [List.getD_eq_getElem?_getD]
        rw [this, getD_lt _ _ h1]
        exact hlt _ (List.getElem_mem _)
    · trivial

theorem reads8_add_half {a8 b8 : Operator (BitVec 8)} {a b : Operator Int} (ha8 : Reads8 a8 a) (hb8 : Reads8 b8 b)
    {c d : Nat} (ha : Tidy A c a) (hb : Tidy A d b) :
    Reads8Res (a8.add b8) (a.add b) ∧
      Reads8Res ((a8.add b8).map (·.div8 2)) ((a.add b).map (·.div 2)) := by
  rw [Operator.add, Operator.add, Tensor.add, Tensor.add, ha8.axes, hb8.axes, ha8.shape, hb8.shape]
  by_cases h1 : a.axes = b.axes
  · have h2 : a.kernel.shape = b.kernel.shape := by rw [ha.wf.shape, hb.wf.shape, h1]
    rw [if_pos h1, if_pos h1, if_pos h2, if_pos h2]
    have key : ∀ idx, Inside idx a.kernel.shape →
        (a8.kernel.get idx + b8.kernel.get idx).toInt = a.kernel.get idx + b.kernel.get idx ∧
        -2 ≤ a.kernel.get idx + b.kernel.get idx ∧ a.kernel.get idx + b.kernel.get idx ≤ 2 := by
      intro idx hv
      have va := ha.val hv
      have vb := hb.val (idx := idx) (by rw [← h2]; exact hv)
      have hr : -2 ≤ a.kernel.get idx + b.kernel.get idx ∧ a.kernel.get idx + b.kernel.get idx ≤ 2 := by omega
      refine ⟨?_, hr⟩
      rw [eq_cast8 (ha8.entry idx hv), eq_cast8 (hb8.entry idx (by rw [← h2]; exact hv)), ← Int.cast_add]
      exact toInt_cast8 (by omega) (by omega)
    refine ⟨⟨rfl, rfl, fun idx hv => (key idx hv).1⟩, ⟨rfl, rfl, ?_⟩⟩
    intro idx hv
    obtain ⟨k1, k2, k3⟩ := key idx hv
    simp only [Operator.div8, Operator.div, Tensor.map]
    rw [k1, ← cast8_eq_ofInt]
    generalize a.kernel.get idx + b.kernel.get idx = x at k2 k3
    have hx : x = -2 ∨ x = -1 ∨ x = 0 ∨ x = 1 ∨ x = 2 := by omega
    rcases hx with rfl | rfl | rfl | rfl | rfl <;> rfl
  · rw [if_neg h1, if_neg h1]
    exact ⟨trivial, trivial⟩

theorem factorial_le_120 {n : Nat} (h : n ≤ 5) : n.factorial ≤ 120 := by
  have := Nat.factorial_le h
  exact this

theorem reads8_symmetry {a : Operator (BitVec 8)} {b : Operator Int} (h : Reads8 a b) {c : Nat} (hb : Tidy A c b)
    {axes : List Nat} (hax5 : axes.length ≤ 5) : Reads8Res (a.symmetry8 A axes) (b.symmetry A axes) := by
  rw [Operator.symmetry8, Operator.symmetry, h.axes]
  simp only [Option.bind_eq_bind]
  cases hsp : axes.mapM (b.axes[·]?) with
  | none => trivial
  | some spaces =>
  simp only [Option.bind_some]
  cases hT : pyMatch spaces with
  | none => trivial
  | some T =>
  simp only [Option.bind_some]
  have hlen : b.kernel.ndim = b.axes.length := by rw [Tensor.ndim, hb.wf.shape]; simp
  have hax : ∀ x ∈ axes, b.axes[x]? = some T := by
    have hall : ∀ S ∈ spaces, S = T := by
      cases spaces with
      | nil => simp [pyMatch] at hT
      | cons S Ss =>
        simp only [pyMatch] at hT
        split at hT
        · rename_i hall
          cases hT
          simpa using hall
        · cases hT
    intro x hx
    obtain ⟨S, hS, e⟩ := mapM_mem hsp x hx
    rw [e, hall S hS]
  have hlt : ∀ x ∈ axes, x < b.kernel.ndim := by
    intro x hx
    rw [hlen]
    exact (List.getElem?_eq_some_iff.1 (hax x hx)).1
  have hsh : ∀ i ∈ axes, ∀ j ∈ axes, b.kernel.shape.getD i 0 = b.kernel.shape.getD j 0 := by
    intro i hi j hj
    rw [hb.wf.shape]
    simp [List.getD_eq_getElem?_getD, hax i hi, hax j hj]
  by_cases hnd : axes.Nodup
  swap
  · have none_of : ∀ {K : Type} [AddMonoid K] (k : Tensor K), symmetrySum k axes = none := by
      intro K _ k
      cases e : symmetrySum k axes with
      | none => rfl
      | some t =>
        exfalso
        rw [symmetrySum] at e
        simp only [Option.bind_eq_bind] at e
        obtain ⟨ts, hts, -⟩ := Option.bind_eq_some_iff.1 e
        obtain ⟨t, -, e⟩ := mapM_mem hts axes (List.mem_permutations'.2 (List.Perm.refl _))
        rw [Tensor.moveaxis] at e
        split at e
        · rename_i h0; exact hnd h0.1
        · cases e
    rw [none_of a.kernel, none_of b.kernel]
    trivial
  have hnd8 : a.kernel.ndim = b.kernel.ndim := by rw [Tensor.ndim, Tensor.ndim, h.shape]
  obtain ⟨k, e, s, g⟩ := symmetrySum_spec b.kernel hnd hlt hsh
  obtain ⟨k8, e8, s8, g8⟩ := symmetrySum_spec a.kernel hnd (by rw [hnd8]; exact hlt) (by rw [h.shape]; exact hsh)
  rw [e, e8]
  simp only [Option.bind_some]
  have hP : axes.permutations'.length ≤ 120 := by
    rw [length_permutations']; exact factorial_le_120 hax5
  have hP0 : 0 < axes.permutations'.length := by
    rw [length_permutations']; exact Nat.factorial_pos _
  rw [if_neg (by omega)]
  have hbound : ∀ idx, Valid idx b.kernel.shape → |k.get idx| ≤ (axes.permutations'.length : Int) ∧
      k8.get idx = ((k.get idx : Int) : BitVec 8) := by
    intro idx hv
    rw [g, g8]
    have hp : ∀ p ∈ axes.permutations', |b.kernel.get (permIdx axes p b.kernel.ndim idx)| ≤ 1 ∧
        a.kernel.get (permIdx axes p a.kernel.ndim idx) = ((b.kernel.get (permIdx axes p b.kernel.ndim idx) : Int) : BitVec 8) := by
      intro p hp
      have hv' := permIdx_valid (List.mem_permutations'.1 hp) hlt hsh hv
      constructor
      · have := hb.val hv'
        rw [abs_le]
        change -1 ≤ b.kernel.get (permIdx axes p b.kernel.shape.length idx) ∧ b.kernel.get (permIdx axes p b.kernel.shape.length idx) ≤ 1
        omega
      · rw [hnd8]
        exact eq_cast8 (h.entry _ hv')
    revert hp
    generalize axes.permutations' = ps
    intro hp
    induction ps with
    | nil => simp
    | cons p ps ih =>
      obtain ⟨i1, i2⟩ := ih fun q hq => hp q (List.mem_cons_of_mem _ hq)
      obtain ⟨j1, j2⟩ := hp p (by simp)
      simp only [List.map_cons, List.sum_cons, List.length_cons]
      constructor
      · refine (abs_add_le _ _).trans ?_
        push_cast
        linarith
      · rw [i2, j2, Int.cast_add]
  have hint : ∀ idx, Valid idx b.kernel.shape → (k8.get idx).toInt = k.get idx := by
    intro idx hv
    obtain ⟨b1, b2⟩ := hbound idx hv
    rw [abs_le] at b1
    rw [b2]
    exact toInt_cast8 (by omega) (by omega)
  have hq : ∀ idx, Valid idx b.kernel.shape → -1 ≤ (k.get idx).fdiv (axes.permutations'.length : Int) ∧
      (k.get idx).fdiv (axes.permutations'.length : Int) ≤ 1 := by
    intro idx hv
    obtain ⟨b1, -⟩ := hbound idx hv
    rw [abs_le] at b1
    rw [Int.fdiv_eq_ediv_of_nonneg _ (by omega)]
    constructor
    · rw [Int.le_ediv_iff_mul_le (by omega)]; omega
    · have := Int.ediv_le_ediv (c := (axes.permutations'.length : Int)) (by omega) b1.2
      rwa [Int.ediv_self (by omega)] at this
  have hker : ∀ idx, Valid idx b.kernel.shape →
      (BitVec.ofInt 8 ((k8.get idx).toInt.fdiv (axes.permutations'.length : Int))).toInt =
        (k.get idx).fdiv (axes.permutations'.length : Int) := by
    intro idx hv
    have := hq idx hv
    rw [hint idx hv, ← cast8_eq_ofInt]
    exact toInt_cast8 (by omega) (by omega)
  have hexact : ((allIdx k8.shape).all fun i => decide ((k8.map fun x => BitVec.ofInt 8 (x.toInt.fdiv (axes.permutations'.length : Int))).get i *
      BitVec.ofInt 8 (axes.permutations'.length : Int) = k8.get i)) =
      ((allIdx k.shape).all fun i => decide ((k.map fun x => x.fdiv (axes.permutations'.length : Int)).get i *
        (axes.permutations'.length : Int) = k.get i)) := by
    rw [s, s8, h.shape]
    apply all_congr'
    intro idx hv
    rw [mem_allIdx] at hv
    apply decide_eq_decide.2
    simp only [Tensor.map]
    obtain ⟨b1, b2⟩ := hbound idx hv
    obtain ⟨q1, q2⟩ := hq idx hv
    rw [abs_le] at b1
    rw [eq_cast8 (hker idx hv), b2, ← cast8_eq_ofInt, ← Int.cast_mul]
    generalize hqq : (k.get idx).fdiv (axes.permutations'.length : Int) = q at q1 q2
    have hqp : -120 ≤ q * (axes.permutations'.length : Int) ∧ q * (axes.permutations'.length : Int) ≤ 120 := by
      constructor <;> nlinarith
    constructor
    · intro e
      have := congrArg BitVec.toInt e
      rwa [toInt_cast8 (by omega) (by omega), toInt_cast8 (by omega) (by omega)] at this
    · intro e
      rw [e]
  rw [hexact]
  refine reads8_squeeze ?_ ?_
  · split
    · refine ⟨rfl, by simp only [Tensor.map]; rw [s, s8, h.shape], ?_⟩
      intro idx hv
      rw [show (k.map fun x => x.fdiv (axes.permutations'.length : Int)).shape = k.shape from rfl, s] at hv
      exact hker idx hv
    · refine ⟨rfl, h.shape, ?_⟩
      intro idx hv
      have hv : Valid idx b.kernel.shape := hv
      have hany : k8.anyInputs (idx.getLastD 0) = k.anyInputs (idx.getLastD 0) := by
        have hv2 := hv
        rw [hb.wf.shape_eq] at hv2
        obtain ⟨v1, v2⟩ := hv2.take_drop
        have e := List.take_append_drop (b.inputs.map (fun S : SubSpace => S.blades.length)).length idx
        generalize List.take (b.inputs.map (fun S : SubSpace => S.blades.length)).length idx = pre at *
        generalize List.drop (b.inputs.map (fun S : SubSpace => S.blades.length)).length idx = post at *
        cases v2 with
        | cons h1 h2 =>
          cases h2
          rw [← e]
          simp only [List.getLastD_concat]
          refine reads8_anyInputs (by rw [s, s8, h.shape]) (by rw [s]; exact hb.wf.shape_eq) ?_ h1
          intro i hi
          rw [s] at hi
          rw [← hint i hi]
          constructor
          · intro e; rw [e]; rfl
          · intro e; exact BitVec.eq_of_toInt_eq e
      simp only [hany]
      have := h.entry idx hv
      split
      · simpa using this
      · simp
  · split
    · exact ⟨hb.wf.ne, by simp only [Tensor.map]; rw [s, hb.wf.shape], hb.wf.sub⟩
    · exact ⟨hb.wf.ne, hb.wf.shape, hb.wf.sub⟩

end Verif
