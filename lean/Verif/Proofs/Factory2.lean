import Verif.Proofs.Factory
/-! # What the selections, complements and duals of the factory compute -/
namespace Verif
open Model Spec Model.Factory

variable {A : Alg}

/-! ### selection -/

/-- Keep the blades in a list. -/
noncomputable def proj (A : Alg) (R : Type) [CommRing R] (p : Nat → Prop) [DecidablePred p] : Cl A R →ₗ[R] Cl A R :=
  linExt A R fun b => if p b then blade A R b else 0

theorem proj_blade {R : Type} [CommRing R] (p : Nat → Prop) [DecidablePred p] {b : Nat} (hb : b < 2 ^ A.n) :
    proj A R p (blade A R b) = if p b then blade A R b else 0 := linExt_blade _ hb

theorem selectKernel_spec {i o : SubSpace} (hi : WfSub A i) (ho : WfSub A o) :
    ∃ k : Tensor Int, selectKernel A i o = some k ∧ k.shape = [i.blades.length, o.blades.length] ∧
      ∀ a < i.blades.length, ∀ c < o.blades.length, k.get [a, c] = if i.blades.getD a 0 = o.blades.getD c 0 then 1 else 0 := by
  rw [selectKernel, Tensor.take, if_pos]
  · rw [Option.bind_some, Tensor.take, if_pos]
    · refine ⟨_, rfl, rfl, ?_⟩
      intro a ha c hc
      simp
    · refine ⟨by simp [Tensor.ndim], ?_⟩
      intro b hb
      simpa using ho.lt b hb
  · refine ⟨by simp [Tensor.ndim], ?_⟩
    intro b hb
    simpa using hi.lt b hb

/-- A subspace argument that only matters through its subspace. -/
theorem select_sem {i o : SubSpace} (hi : WfSub A i) (ho : WfSub A o) {v : Arg Int} (hv : v.subspace = i)
    (p : Nat → Prop) [DecidablePred p] (hp : ∀ b ∈ i.blades, b ∈ o.blades ↔ p b) :
    ∃ op, select A v o = some op ∧ WfOp A op ∧ op.axes = [i, o] ∧
      Computes A op (Cond.triv A) (fun R _ ds => proj A R p (ds.headD 0)) := by
  obtain ⟨k, k1, k2, k3⟩ := selectKernel_spec hi ho
  let B : Operator Int := ⟨k, [i, o]⟩
  have hwf : WfOp A B := ⟨by simp [B], by simp [B, k2], by simp [B, hi, ho]⟩
  refine ⟨B, ?_, hwf, rfl, ?_⟩
  · rw [select, hv, k1]
    simp [Operator.build, build_eq_foldl, operatorsOf, Arg.subspace, B]
  · apply computes_unary hwf (S := i) (O := o) rfl
    intro R _ a ha
    have hb := hi.lt _ (getD_mem ha)
    rw [proj_blade p hb]
    by_cases hin : i.blades.getD a 0 ∈ o.blades
    · rw [if_pos ((hp _ (getD_mem ha)).1 hin), term_single R (op := B) (s := 1) (c := i.blades.getD a 0) ho hin]
      · simp
      · intro c hc
        change k.get [a, c] = if o.blades.getD c 0 = i.blades.getD a 0 then 1 else 0
        rw [k3 a ha c hc]
        simp only [eq_comm]
    · rw [if_neg (fun h => hin ((hp _ (getD_mem ha)).2 h)), term]
      apply Finset.sum_eq_zero
      intro c hc
      have hc' : c < o.blades.length := Finset.mem_range.1 hc
      change (k.get [a, c] : R) • _ = 0
      rw [k3 a ha c hc', if_neg, Int.cast_zero, zero_smul]
      intro h
      exact hin (h ▸ getD_mem hc')

theorem restrict_sem (hA : WfAlg A) {i o : SubSpace} (hi : WfSub A i) (ho : WfSub A o) :
    ∃ op T, o.intersection A i = some T ∧ restrict A i o = some op ∧ WfOp A op ∧ op.axes = [i, T] ∧
      (∀ b, b ∈ T.blades ↔ b ∈ o.blades ∧ b ∈ i.blades) ∧
      Computes A op (Cond.triv A) (fun R _ ds => proj A R (· ∈ o.blades) (ds.headD 0)) := by
  obtain ⟨T, t1, t2, t3⟩ := intersection_spec hA ho (T := i)
  obtain ⟨op, h1, h2, h3, h4⟩ := select_sem hi t2 (v := .sub i) rfl (· ∈ o.blades) (by
    intro b hb; rw [t3]; exact ⟨fun h => h.2.1, fun h => ⟨hi.lt b hb, h, hb⟩⟩)
  refine ⟨op, T, t1, ?_, h2, h3, ?_, h4⟩
  · rw [restrict, t1]; exact h1
  · intro b; rw [t3]; exact ⟨fun h => h.2, fun h => ⟨ho.lt b h.1, h⟩⟩

/-! ### complements -/

theorem complement_sem (hA : WfAlg A) {v : Arg Int} {I : List SubSpace} {C : Cond A} {F : Fn A} (hv : ArgSem A v I C F)
    (blades : Nat → Nat) (signs : Nat → Int) (hb : ∀ b < 2 ^ A.n, blades b = b ^^^ A.pss)
    (L : ∀ (R : Type) [CommRing R], Cl A R →ₗ[R] Cl A R)
    (hL : ∀ (R : Type) [CommRing R], ∀ b < 2 ^ A.n, L R (blade A R b) = (signs b : R) • blade A R (b ^^^ A.pss)) :
    Sem A (complement_ A v blades signs) I C (fun R _ ds => L R (F R ds)) := by
  have hS := args_ins_subspace hv.1
  set S := v.subspace with hSdef
  obtain ⟨c, c1, c2, c3⟩ := complement_spec hA hS
  let cay : List Nat → Nat := fun idx => blades (S.blades.getD (idx.getD 0 0) 0)
  let sg : List Nat → Int := fun idx => signs (S.blades.getD (idx.getD 0 0) 0)
  have hcay : ∀ idx, Valid idx ([S].map (·.blades.length)) → cay idx ∈ c.blades := by
    intro idx hidx
    cases hidx with
    | cons h1 h =>
      cases h
      simp only [cay, List.getD_cons_zero]
      have hm := getD_mem (S := S) h1
      rw [hb _ (hS.lt _ hm), c3]
      refine ⟨xor_lt (hS.lt _ hm) (pss_lt A), ?_⟩
      change _ ^^^ A.pss ^^^ A.pss ∈ _
      rw [xor_cancel]
      exact hm
  obtain ⟨t, t1, t2, t3⟩ := toDense_spec hA (ins := [S]) (by simpa using hS) c2 cay sg hcay
  let B : Operator Int := ⟨t, [S, c]⟩
  have hwf : WfOp A B := ⟨by simp [B], t2, by simp [B, hS, c2]⟩
  have hdef : complement_ A v blades signs = B.build_ [v] := by
    rw [complement_, ← hSdef, c1]
    simp only [Option.bind_eq_bind, Option.bind_some]
    change ((fromCayley A [S] cay sg).toDense [S, c]).bind _ = _
    rw [show [S, c] = [S] ++ [c] from rfl, t1, Option.bind_some, build1_eq]
  rw [hdef]
  refine Sem.build1 hwf (O := c) rfl (FB := fun R _ ds => L R (ds.headD 0)) ?_ hv
  apply computes_unary hwf (S := S) (O := c) rfl
  intro R _ i hi
  have hval : Valid [i] ([S].map (·.blades.length)) := List.Forall₂.cons hi List.Forall₂.nil
  have hlt := hS.lt _ (getD_mem hi)
  rw [hL R _ hlt, ← hb _ hlt]
  apply term_single R (op := B) c2 (hcay _ hval)
  intro o ho
  exact t3 [i] hval o ho

/-- Linear map sending every blade to its complement with the given sign. -/
noncomputable def compl (A : Alg) (R : Type) [CommRing R] (signs : Nat → Int) : Cl A R →ₗ[R] Cl A R :=
  linExt A R fun b => (signs b : R) • blade A R (b ^^^ A.pss)

theorem compl_blade {R : Type} [CommRing R] (signs : Nat → Int) {b : Nat} (hb : b < 2 ^ A.n) :
    compl A R signs (blade A R b) = (signs b : R) • blade A R (b ^^^ A.pss) := linExt_blade _ hb

theorem cayley_fst (A : Alg) (a b : Nat) : (A.cayley a b).1 = a ^^^ b := rfl

theorem rightComplement_sem (hA : WfAlg A) {v : Arg Int} {I : List SubSpace} {C : Cond A} {F : Fn A} (hv : ArgSem A v I C F) :
    Sem A (rightComplement A v) I C (fun R _ ds => compl A R (fun b => swapSign A b A.pss * negSign A b) (F R ds)) := by
  rw [rightComplement, pseudoscalar_eq hA]
  simp only [Option.bind_eq_bind, Option.bind_some, List.headD_cons, cayley_fst]
  exact complement_sem hA hv _ _ (fun b _ => rfl) (fun R _ => compl A R _) fun R _ b hb => compl_blade _ hb

theorem leftComplement_sem (hA : WfAlg A) {v : Arg Int} {I : List SubSpace} {C : Cond A} {F : Fn A} (hv : ArgSem A v I C F) :
    Sem A (leftComplement A v) I C (fun R _ ds => compl A R (fun b => swapSign A A.pss b * negSign A b) (F R ds)) := by
  rw [leftComplement, pseudoscalar_eq hA]
  simp only [Option.bind_eq_bind, Option.bind_some, List.headD_cons, cayley_fst]
  exact complement_sem hA hv _ _ (fun b _ => Nat.xor_comm _ _) (fun R _ => compl A R _) fun R _ b hb => compl_blade _ hb

theorem rightComplementDual_sem (hA : WfAlg A) {v : Arg Int} {I : List SubSpace} {C : Cond A} {F : Fn A} (hv : ArgSem A v I C F) :
    Sem A (rightComplementDual A v) I C (fun R _ ds => compl A R (fun b => swapSign A b (b ^^^ A.pss)) (F R ds)) := by
  rw [rightComplementDual, pseudoscalar_eq hA]
  simp only [Option.bind_eq_bind, Option.bind_some, List.headD_cons, cayley_fst, Nat.xor_comm A.pss]
  exact complement_sem hA hv _ _ (fun b _ => rfl) (fun R _ => compl A R _) fun R _ b hb => compl_blade _ hb

theorem leftComplementDual_sem (hA : WfAlg A) {v : Arg Int} {I : List SubSpace} {C : Cond A} {F : Fn A} (hv : ArgSem A v I C F) :
    Sem A (leftComplementDual A v) I C (fun R _ ds => compl A R (fun b => swapSign A (b ^^^ A.pss) b) (F R ds)) := by
  rw [leftComplementDual, pseudoscalar_eq hA]
  simp only [Option.bind_eq_bind, Option.bind_some, List.headD_cons, cayley_fst, Nat.xor_comm A.pss]
  exact complement_sem hA hv _ _ (fun b _ => rfl) (fun R _ => compl A R _) fun R _ b hb => compl_blade _ hb

/-- The diagonal of metric signs. -/
noncomputable def signed (A : Alg) (R : Type) [CommRing R] (signs : Nat → Int) : Cl A R →ₗ[R] Cl A R :=
  linExt A R fun b => (signs b : R) • blade A R b

theorem signed_blade {R : Type} [CommRing R] (signs : Nat → Int) {b : Nat} (hb : b < 2 ^ A.n) :
    signed A R signs (blade A R b) = (signs b : R) • blade A R b := linExt_blade _ hb

theorem compl_signed {R : Type} [CommRing R] (s t : Nat → Int) (x : Cl A R) :
    compl A R s (signed A R t x) = compl A R (fun b => s b * t b) x := by
  have : (compl A R s).comp (signed A R t) = compl A R fun b => s b * t b := by
    apply lin_ext
    intro b hb
    rw [LinearMap.comp_apply, signed_blade _ hb, map_smul, compl_blade _ hb, compl_blade _ hb, smul_smul]
    congr 1
    push_cast
    ring
  exact congrArg (fun f => f x) this

/-- Sign of the right Hodge dual of a blade. -/
def hodgeSign (A : Alg) (b : Nat) : Int := swapSign A b (b ^^^ A.pss) * negSign A b

/-- Sign of the left Hodge dual of a blade. -/
def leftHodgeSign (A : Alg) (b : Nat) : Int := swapSign A (b ^^^ A.pss) b * negSign A b

theorem rightHodge_sem (hA : WfAlg A) {v : Arg Int} {I : List SubSpace} {C : Cond A} {F : Fn A} (hv : ArgSem A v I C F) :
    Sem A (rightHodge A v) I C (fun R _ ds => compl A R (hodgeSign A) (F R ds)) := by
  have h1 : Sem A (diagonal v (negatives A v)) I C (fun R _ ds => signed A R (negSign A) (F R ds)) :=
    diagonal_sem hv (negSign A) (fun R _ => signed A R (negSign A))
      fun R _ b hb => signed_blade _ ((args_ins_subspace hv.1).lt b hb)
  refine (h1.bind_arg fun _ _ h => rightComplementDual_sem hA h).congr ?_
  intro R _ ds _ hC
  exact ⟨hC, compl_signed _ _ _⟩

theorem leftHodge_sem (hA : WfAlg A) {v : Arg Int} {I : List SubSpace} {C : Cond A} {F : Fn A} (hv : ArgSem A v I C F) :
    Sem A (leftHodge A v) I C (fun R _ ds => compl A R (leftHodgeSign A) (F R ds)) := by
  have h1 : Sem A (diagonal v (negatives A v)) I C (fun R _ ds => signed A R (negSign A) (F R ds)) :=
    diagonal_sem hv (negSign A) (fun R _ => signed A R (negSign A))
      fun R _ b hb => signed_blade _ ((args_ins_subspace hv.1).lt b hb)
  refine (h1.bind_arg fun _ _ h => leftComplementDual_sem hA h).congr ?_
  intro R _ ds _ hC
  exact ⟨hC, compl_signed _ _ _⟩

/-! ### inverting signed permutations -/

theorem parityToSign_mem (p : Int) : parityToSign p = 1 ∨ parityToSign p = -1 := by
  unfold parityToSign
  omega

theorem hodgeSign_sq (A : Alg) (b : Nat) : hodgeSign A b * hodgeSign A b = 1 := by
  unfold hodgeSign swapSign negSign
  rcases parityToSign_mem (A.cayley b (b ^^^ A.pss)).2 with h | h <;> rcases parityToSign_mem (A.bitDot b A.negatives) with h' | h' <;>
    rw [h, h'] <;> norm_num

theorem leftHodgeSign_sq (A : Alg) (b : Nat) : leftHodgeSign A b * leftHodgeSign A b = 1 := by
  unfold leftHodgeSign swapSign negSign
  rcases parityToSign_mem (A.cayley (b ^^^ A.pss) b).2 with h | h <;> rcases parityToSign_mem (A.bitDot b A.negatives) with h' | h' <;>
    rw [h, h'] <;> norm_num

theorem complement_output (hA : WfAlg A) {v : Arg Int} (hv : WfArg A v) {blades : Nat → Nat} {signs : Nat → Int} {op : Operator Int}
    (h : complement_ A v blades signs = some op) (hb : ∀ b < 2 ^ A.n, blades b = b ^^^ A.pss) :
    v.subspace.complement A = some op.output := by
  have hS := args_ins_subspace hv
  obtain ⟨c, c1, c2, c3⟩ := complement_spec hA hS
  obtain ⟨k, e, k1⟩ : ∃ k : Tensor Int, ((⟨k, [v.subspace, c]⟩ : Operator Int).build_ [v] = some op) ∧
      k.shape = [v.subspace.blades.length, c.blades.length] := by
    rw [complement_, c1] at h
    simp only [Option.bind_eq_bind, Option.bind_some, Option.bind_eq_some_iff] at h
    obtain ⟨k, h1, h2⟩ := h
    refine ⟨k, by rw [← build1_eq]; exact h2, ?_⟩
    simp only [SparseTensor.toDense, Option.bind_eq_bind, Option.bind_eq_some_iff] at h1
    obtain ⟨_, _, h1⟩ := h1
    cases h1
    rfl
  obtain ⟨h', e1, _, e3, _⟩ := build_apply [v] (by simpa using hv) (⟨k, [v.subspace, c]⟩ : Operator Int)
    ⟨by simp, by simp [k1], by intro T hT; simp at hT; rcases hT with rfl | rfl; exacts [hS, c2]⟩ (Q := []) (O := c) (by simp)
  cases e1.symm.trans e
  rw [c1, Operator.output, e3]
  simp

/-- A kernel with orthogonal rows is inverted by transposing it. -/
theorem unaryInverse_spec {op : Operator Int} (h : WfOp A op) {S O : SubSpace} (hax : op.axes = [S, O])
    (hlen : O.blades.length = S.blades.length)
    (horth : toMatrix op.kernel S.blades.length * (toMatrix op.kernel S.blades.length).transpose = 1) :
    ∃ t, unaryInverse op = some t ∧ WfOp A t ∧ t.axes = [O, S] ∧
      ∀ o < O.blades.length, ∀ i < S.blades.length, t.kernel.get [o, i] = op.kernel.get [i, o] := by
  set M := toMatrix op.kernel S.blades.length with hM
  have hsh : op.kernel.shape = [S.blades.length, S.blades.length] := by rw [h.shape, hax]; simp [hlen]
  have hdet : M.det * M.det = 1 := by
    have := congrArg Matrix.det horth
    rwa [Matrix.det_mul, Matrix.det_transpose, Matrix.det_one] at this
  have hne : M.det ≠ 0 := by intro h0; rw [h0] at hdet; simp at hdet
  have hadj : M.adjugate = M.det • M.transpose := by
    have h1 : M.transpose * M = 1 := mul_eq_one_comm.1 horth
    calc M.adjugate = (M.transpose * M) * M.adjugate := by rw [h1, one_mul]
      _ = M.transpose * (M * M.adjugate) := Matrix.mul_assoc _ _ _
      _ = M.det • M.transpose := by rw [Matrix.mul_adjugate, Matrix.mul_smul, Matrix.mul_one]
  let k : Tensor Int := { shape := [S.blades.length, S.blades.length]
                          get := fun idx => if h : idx.getD 0 0 < S.blades.length ∧ idx.getD 1 0 < S.blades.length then
                            Int.tdiv (M.adjugate ⟨idx.getD 0 0, h.1⟩ ⟨idx.getD 1 0, h.2⟩) M.det else 0 }
  have hk : linalgInv op.kernel = some k := by
    rw [linalgInv, hsh]
    simp only [true_and]
    rw [if_pos hne]
  have hwf : WfOp A (⟨k, [O, S]⟩ : Operator Int) := by
    refine ⟨by simp, by simp [k, hlen], ?_⟩
    intro T hT
    apply h.sub
    rw [hax]
    simp only [List.mem_cons, List.not_mem_nil, or_false] at hT ⊢
    exact hT.symm
  refine ⟨⟨k, [O, S]⟩, ?_, hwf, rfl, ?_⟩
  · rw [unaryInverse, if_pos (by simp [Operator.arity, Operator.inputs, hax]), hk, hax]
    simp [Operator.build, build_eq_foldl, operatorsOf, Arg.subspace]
  · intro o ho i hi
    change (if h : _ then _ else _) = _
    rw [dif_pos ⟨by simpa [hlen] using ho, by simpa using hi⟩, hadj]
    simp only [List.getD_cons_zero, List.getD_cons_succ, Matrix.smul_apply, Matrix.transpose_apply, smul_eq_mul]
    rw [Int.mul_tdiv_cancel_left _ hne]
    rfl

/-- Inverting a dual: the inverse of `compl s` on the complement space. -/
theorem inverseDual_sem (hA : WfAlg A) (dual : Arg Int → Option (Operator Int)) (s : Nat → Int) (hs : ∀ b, s b * s b = 1)
    (hd : ∀ {S : SubSpace}, WfSub A S → Sem A (dual (.sub S)) [S] (Cond.triv A) (fun R _ ds => compl A R s (ds.headD 0)))
    (hout : ∀ {S : SubSpace} {op}, WfSub A S → dual (.sub S) = some op → S.complement A = some op.output)
    {v : Arg Int} {I : List SubSpace} {C : Cond A} {F : Fn A} (hv : ArgSem A v I C F) :
    Sem A (do
      let c ← v.subspace.complement A
      (← unaryInverse (← dual (.sub c))).build_ [v]) I C (fun R _ ds => compl A R (fun b => s (b ^^^ A.pss)) (F R ds)) := by
  have hS := args_ins_subspace hv.1
  obtain ⟨c, c1, c2, c3⟩ := complement_spec hA hS
  obtain ⟨op, o1, o2, o3, o4⟩ := hd c2
  have hcc : op.output = v.subspace := by
    obtain ⟨d, d1, d2, d3⟩ := complement_spec hA c2
    have e := hout c2 o1
    rw [d1] at e
    cases e
    apply IsSpace.unique ⟨d2, d3⟩ (p := fun b => b ^^^ A.pss ∈ c.blades)
    refine ⟨hS, ?_⟩
    intro b
    constructor
    · intro hb
      refine ⟨hS.lt b hb, (c3 _).2 ⟨xor_lt (hS.lt b hb) (pss_lt A), ?_⟩⟩
      change _ ^^^ A.pss ^^^ A.pss ∈ _
      rw [xor_cancel]; exact hb
    · rintro ⟨_, hb⟩
      have := ((c3 _).1 hb).2
      change _ ^^^ A.pss ^^^ A.pss ∈ _ at this
      rwa [xor_cancel] at this
  have hax : op.axes = [c, v.subspace] := by rw [o2.axes_eq, o3, hcc]; rfl
  have hentry : ∀ i < c.blades.length, ∀ o < v.subspace.blades.length, op.kernel.get [i, o] =
      if v.subspace.blades.getD o 0 = c.blades.getD i 0 ^^^ A.pss then s (c.blades.getD i 0) else 0 := by
    intro i hi o ho
    have hval : Valid [i] (op.inputs.map (·.blades.length)) := by
      rw [o3]; exact List.Forall₂.cons hi List.Forall₂.nil
    have := Computes.entry o2 o4 hval (o := o) (by rw [hcc]; exact ho)
    rw [List.singleton_append] at this
    rw [this, o3, hcc]
    have hb := c2.lt _ (getD_mem hi)
    simp only [bladesAt, List.zipWith_cons_cons, List.zipWith_nil_left, List.headD_cons]
    rw [compl_blade _ hb, map_smul, coef_blade _ _ (xor_lt hb (pss_lt A))]
    simp [eq_comm]
  have hlen : v.subspace.blades.length = c.blades.length := by
    have p : c.blades.Perm (v.subspace.blades.map (· ^^^ A.pss)) := by
      rw [List.perm_ext_iff_of_nodup c2.nodup (hS.nodup.map fun a b h => by simpa [xor_cancel] using congrArg (· ^^^ A.pss) h)]
      intro b
      rw [c3, List.mem_map]
      constructor
      · rintro ⟨_, h⟩; exact ⟨_, h, xor_cancel _ _⟩
      · rintro ⟨a, ha, rfl⟩
        refine ⟨xor_lt (hS.lt a ha) (pss_lt A), ?_⟩
        change _ ^^^ A.pss ^^^ A.pss ∈ _
        rw [xor_cancel]; exact ha
    simpa using p.length_eq.symm
  have hpos : ∀ i < c.blades.length, c.blades.getD i 0 ^^^ A.pss ∈ v.subspace.blades := fun i hi => ((c3 _).1 (getD_mem hi)).2
  have horth : toMatrix op.kernel c.blades.length * (toMatrix op.kernel c.blades.length).transpose = 1 := by
    ext i j
    rw [Matrix.mul_apply]
    have hio := List.idxOf_lt_length_of_mem (hpos i i.2)
    rw [Finset.sum_eq_single (⟨v.subspace.blades.idxOf (c.blades.getD i 0 ^^^ A.pss), lt_of_lt_of_eq hio hlen⟩ : Fin c.blades.length)]
    · simp only [Matrix.transpose_apply, toMatrix]
      rw [hentry i i.2 _ hio, hentry j j.2 _ hio]
      have hg : v.subspace.blades.getD (v.subspace.blades.idxOf (c.blades.getD i 0 ^^^ A.pss)) 0 = c.blades.getD i 0 ^^^ A.pss := by
        rw [getD_lt _ _ hio, List.getElem_idxOf]
      rw [hg, if_pos rfl]
      by_cases hij : i = j
      · subst hij; rw [if_pos rfl, hs, Matrix.one_apply_eq]
      · rw [if_neg, Matrix.one_apply_ne hij, mul_zero]
        intro h
        have h' : c.blades.getD i 0 = c.blades.getD j 0 := by simpa [xor_cancel] using congrArg (· ^^^ A.pss) h
        apply hij
        apply Fin.ext
        rw [← idxOf_getD c2 i.2, h', idxOf_getD c2 j.2]
    · intro o _ ho
      simp only [Matrix.transpose_apply, toMatrix]
      have ho' : (o : Nat) < v.subspace.blades.length := by rw [hlen]; exact o.2
      rw [hentry i i.2 o ho', if_neg, zero_mul]
      intro h
      apply ho
      apply Fin.ext
      change (o : Nat) = v.subspace.blades.idxOf _
      rw [← h, idxOf_getD hS ho']
    · intro h; exact absurd (Finset.mem_univ _) h
  obtain ⟨t, t1, t2, t3, t4⟩ := unaryInverse_spec o2 hax hlen horth
  rw [c1]
  simp only [Option.bind_eq_bind, Option.bind_some, o1, t1]
  refine Sem.build1 t2 t3 (FB := fun R _ ds => compl A R (fun b => s (b ^^^ A.pss)) (ds.headD 0)) ?_ hv
  apply computes_unary t2 t3
  intro R _ o ho
  have hb := hS.lt _ (getD_mem ho)
  rw [compl_blade _ hb]
  have hmem : v.subspace.blades.getD o 0 ^^^ A.pss ∈ c.blades := by
    rw [c3]
    refine ⟨xor_lt hb (pss_lt A), ?_⟩
    change _ ^^^ A.pss ^^^ A.pss ∈ _
    rw [xor_cancel]; exact getD_mem ho
  have htout : t.output = c := by rw [Operator.output, t3]; rfl
  apply term_single R (op := t) (by rw [htout]; exact c2) (by rw [htout]; exact hmem)
  intro i hi
  rw [htout] at hi ⊢
  rw [List.singleton_append, t4 o ho i hi, hentry i hi o ho]
  by_cases h : c.blades.getD i 0 = v.subspace.blades.getD o 0 ^^^ A.pss
  · rw [if_pos h, h, xor_cancel, if_pos rfl]
  · rw [if_neg h, if_neg]
    intro h'
    apply h
    rw [h', xor_cancel]

theorem rightHodge_output (hA : WfAlg A) {S : SubSpace} {op : Operator Int} (hS : WfSub A S) (h : rightHodge A (.sub S) = some op) :
    S.complement A = some op.output := by
  rw [rightHodge, Option.bind_eq_bind, Option.bind_eq_some_iff] at h
  obtain ⟨d, d1, d2⟩ := h
  rw [rightComplementDual, pseudoscalar_eq hA] at d2
  simp only [Option.bind_eq_bind, Option.bind_some, List.headD_cons, cayley_fst, Nat.xor_comm A.pss] at d2
  obtain ⟨d', h1, h2, h3, h4⟩ := diagonal_sem (argSem_sub hS) (negSign A) (fun R _ => signed A R (negSign A))
      fun R _ b hb => signed_blade _ (hS.lt b hb)
  cases d1.symm.trans h1
  have := complement_output hA (v := .op d) h2 d2 (fun b _ => rfl)
  have hd : (Arg.op d).subspace = S := by
    rw [diagonal, build1_eq] at d1
    obtain ⟨h', e1, _, e3, _⟩ := build_apply [Arg.sub S] (by simpa [WfArg] using hS)
      (⟨diagKernel (negatives A (.sub S)), [S, S]⟩ : Operator Int)
      ⟨by simp, by simp [diagKernel, negatives, Arg.subspace], by simp [hS]⟩ (Q := []) (O := S) (by simp [Arg.subspace])
    cases e1.symm.trans d1
    simp [Arg.subspace, Operator.output, e3]
  rwa [hd] at this

theorem leftHodge_output (hA : WfAlg A) {S : SubSpace} {op : Operator Int} (hS : WfSub A S) (h : leftHodge A (.sub S) = some op) :
    S.complement A = some op.output := by
  rw [leftHodge, Option.bind_eq_bind, Option.bind_eq_some_iff] at h
  obtain ⟨d, d1, d2⟩ := h
  rw [leftComplementDual, pseudoscalar_eq hA] at d2
  simp only [Option.bind_eq_bind, Option.bind_some, List.headD_cons, cayley_fst, Nat.xor_comm A.pss] at d2
  obtain ⟨d', h1, h2, h3, h4⟩ := diagonal_sem (argSem_sub hS) (negSign A) (fun R _ => signed A R (negSign A))
      fun R _ b hb => signed_blade _ (hS.lt b hb)
  cases d1.symm.trans h1
  have := complement_output hA (v := .op d) h2 d2 (fun b _ => rfl)
  have hd : (Arg.op d).subspace = S := by
    rw [diagonal, build1_eq] at d1
    obtain ⟨h', e1, _, e3, _⟩ := build_apply [Arg.sub S] (by simpa [WfArg] using hS)
      (⟨diagKernel (negatives A (.sub S)), [S, S]⟩ : Operator Int)
      ⟨by simp, by simp [diagKernel, negatives, Arg.subspace], by simp [hS]⟩ (Q := []) (O := S) (by simp [Arg.subspace])
    cases e1.symm.trans d1
    simp [Arg.subspace, Operator.output, e3]
  rwa [hd] at this

theorem rightHodgeInverse_sem (hA : WfAlg A) {v : Arg Int} {I : List SubSpace} {C : Cond A} {F : Fn A} (hv : ArgSem A v I C F) :
    Sem A (rightHodgeInverse A v) I C (fun R _ ds => compl A R (fun b => hodgeSign A (b ^^^ A.pss)) (F R ds)) :=
  inverseDual_sem hA (rightHodge A) (hodgeSign A) (hodgeSign_sq A) (fun hS => rightHodge_sem hA (argSem_sub hS))
    (fun hS h => rightHodge_output hA hS h) hv

theorem leftHodgeInverse_sem (hA : WfAlg A) {v : Arg Int} {I : List SubSpace} {C : Cond A} {F : Fn A} (hv : ArgSem A v I C F) :
    Sem A (leftHodgeInverse A v) I C (fun R _ ds => compl A R (fun b => leftHodgeSign A (b ^^^ A.pss)) (F R ds)) :=
  inverseDual_sem hA (leftHodge A) (leftHodgeSign A) (leftHodgeSign_sq A) (fun hS => leftHodge_sem hA (argSem_sub hS))
    (fun hS h => leftHodge_output hA hS h) hv

theorem compl_compl {R : Type} [CommRing R] (s : Nat → Int) (hs : ∀ b, s b * s b = 1) (x : Cl A R) :
    compl A R (fun b => s (b ^^^ A.pss)) (compl A R s x) = x ∧ compl A R s (compl A R (fun b => s (b ^^^ A.pss)) x) = x := by
  have hs' : ∀ b, ((s b : Int) : R) * (s b : R) = 1 := fun b => by exact_mod_cast congrArg (Int.cast : Int → R) (hs b)
  constructor
  · have : (compl A R (fun b => s (b ^^^ A.pss))).comp (compl A R s) = LinearMap.id := by
      apply lin_ext
      intro b hb
      rw [LinearMap.comp_apply, compl_blade _ hb, map_smul, compl_blade _ (xor_lt hb (pss_lt A)), smul_smul, xor_cancel, hs',
        one_smul, LinearMap.id_apply]
    exact congrArg (fun f => f x) this
  · have : (compl A R s).comp (compl A R (fun b => s (b ^^^ A.pss))) = LinearMap.id := by
      apply lin_ext
      intro b hb
      rw [LinearMap.comp_apply, compl_blade _ hb, map_smul, compl_blade _ (xor_lt hb (pss_lt A)), smul_smul, xor_cancel, hs',
        one_smul, LinearMap.id_apply]
    exact congrArg (fun f => f x) this

end Verif
