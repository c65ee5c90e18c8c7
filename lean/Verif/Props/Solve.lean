import Verif.Props.Spaces
/-! # C73: selections of operators, the Euclidean factorisation, and `solve` -/
namespace Verif.Props
open Model Spec Model.Factory

variable {A : Alg}

theorem selectOp_sem {r : Option (Operator Int)} {ins : List SubSpace} {C : Cond A} {F : Fn A} (h : Sem A r ins C F)
    {o : SubSpace} (ho : WfSub A o) :
    Sem A (r.bind (·.selectSubspace A o)) ins C (fun R _ ds => proj A R (· ∈ o.blades) (F R ds)) := by
  refine h.bind_arg (k := fun op => op.selectSubspace A o) fun op _ hop => ?_
  have hw : WfSub A op.output := args_ins_subspace hop.1
  obtain ⟨k, k1, _⟩ := selectKernel_spec hw ho
  obtain ⟨B, b1, b2, b3, b4⟩ := select_sem hw ho (v := .sub op.output) rfl (· ∈ o.blades) fun _ _ => Iff.rfl
  have hB : B = ⟨k, [op.output, o]⟩ := by
    rw [select] at b1
    simp only [Arg.subspace, k1, Option.bind_eq_bind, Option.bind_some] at b1
    simpa [Operator.build, build_eq_foldl, operatorsOf, Arg.subspace, eq_comm] using b1
  rw [Operator.selectSubspace, k1]
  simp only [Option.bind_eq_bind, Option.bind_some]
  rw [build1_eq]
  have := Sem.build1 (a := .op op) b2 b3 b4 hop
  rw [hB] at this
  exact this

theorem selectOp_output {op s : Operator Int} (h : WfOp A op) {o : SubSpace} (ho : WfSub A o) (hs : op.selectSubspace A o = some s) :
    s.output = o := by
  obtain ⟨k, k1, k2, _⟩ := selectKernel_spec h.wf_output ho
  rw [Operator.selectSubspace, k1] at hs
  simp only [Option.bind_eq_bind, Option.bind_some] at hs
  rw [build1_eq] at hs
  have hB : WfOp A (⟨k, [op.output, o]⟩ : Operator Int) := ⟨by simp, by simp [k2], by simp [h.wf_output, ho]⟩
  obtain ⟨g, g1, g2, g3, g4⟩ := build_apply [.op op] (by simpa using (show WfArg A (.op op) from h)) _ hB (Q := []) (O := o) rfl
  cases g1.symm.trans hs
  simp [Operator.output, g3]

theorem computes_self {op : Operator Int} (h : WfOp A op) : Computes A op (Cond.triv A) fun R _ ds =>
    denote A R op.output (op.apply R (List.zipWith (fun (S : SubSpace) d => S.blades.map fun b => coef A R b d) op.inputs ds)) := by
  intro R _ xs hx hC
  clear hC
  have e : List.zipWith (fun (S : SubSpace) d => S.blades.map fun b => coef A R b d) op.inputs (den A R op.inputs xs) = xs := by
    have hw : ∀ S ∈ op.inputs, WfSub A S := h.wf_inputs
    generalize op.inputs = ins at hx hw
    induction hx with
    | nil => rfl
    | @cons x S xs ins h1 h2 ih =>
      rw [den, List.zipWith_cons_cons, List.zipWith_cons_cons]
      rw [den] at ih
      rw [ih fun T hT => hw T (List.mem_cons_of_mem _ hT)]
      congr 1
      have hS := hw S List.mem_cons_self
      apply List.ext_getElem (by simp [h1])
      intro i i1 i2
      rw [List.getElem_map]
      have := coef_denote_getD (R := R) hS h1 (i := i) (by omega)
      rwa [getD_lt _ _ (by omega), getD_lt _ _ i2] at this
  simp only [e]

/-- C73: `operator.select_subspace(o)` has exactly the output `o`; its value is the old one with the other coefficients dropped. -/
theorem C73_select {op : Operator Int} (h : WfOp A op) {o : SubSpace} (ho : WfSub A o) :
    ∃ s, op.selectSubspace A o = some s ∧ WfOp A s ∧ s.axes = op.inputs ++ [o] ∧
      ∀ (R : Type) [CommRing R] (xs : List (List R)), Fits xs op.inputs → ∀ b,
        coef A R b (denote A R s.output (s.apply R xs)) = if b ∈ o.blades then coef A R b (denote A R op.output (op.apply R xs)) else 0 := by
  obtain ⟨s, s1, s2, s3, s4⟩ := selectOp_sem (r := some op) ⟨op, rfl, h, rfl, computes_self h⟩ ho
  rw [Option.bind_some] at s1
  refine ⟨s, s1, s2, by rw [s2.axes_eq, s3, selectOp_output h ho s1], fun R _ xs hx b => ?_⟩
  have e := s4 R xs (s3 ▸ hx) trivial
  have e2 := computes_self h R xs hx trivial
  rw [s3] at e
  rw [e, coef_proj, e2]

/-- C73: `operator.select_grade(k)` keeps the grade `k` part of the value. -/
theorem C73_select_grade (hA : WfAlg A) {op : Operator Int} (h : WfOp A op) {g : Int} {k : Nat} (hg : IsGrade A.n g k) :
    ∃ s, op.selectGrade A g = some s ∧ WfOp A s ∧ s.inputs = op.inputs ∧ IsSpace A s.output (fun b => popcount b = k) ∧
      ∀ (R : Type) [CommRing R] (xs : List (List R)), Fits xs op.inputs →
        denote A R s.output (s.apply R xs) = gradePart A R k (denote A R op.output (op.apply R xs)) := by
  obtain ⟨S, s1, s2⟩ := kVector_isSpace hA hg
  obtain ⟨s, t1, t2, t3, t4⟩ := C73_select h s2.1
  have hout : s.output = S := by rw [Operator.output, t3]; simp
  refine ⟨s, by rw [Operator.selectGrade, s1]; exact t1, t2, by rw [Operator.inputs, t3]; simp, hout ▸ s2, fun R _ xs hx => ?_⟩
  apply ext_coef A R
  intro b hb
  rw [t4 R xs hx b, gradePart_eq_proj, coef_proj]
  have := s2.2 b
  by_cases hp : popcount b = k
  · rw [if_pos (this.2 ⟨hb, hp⟩), if_pos hp]
  · rw [if_neg fun h => hp (this.1 h).2, if_neg hp]

theorem DiagSem.select {r : Option (Operator Int)} {k : Nat} {S : SubSpace} {F : ∀ (R : Type) [CommRing R], Cl A R → Cl A R}
    (h : DiagSem A r k S F) {o : SubSpace} (ho : WfSub A o) :
    DiagSem A (r.bind (·.selectSubspace A o)) k S fun R _ x => proj A R (· ∈ o.blades) (F R x) := by
  obtain ⟨C, G, h1, h2⟩ := h
  exact ⟨C, _, selectOp_sem h1 ho, fun R _ x => ⟨(h2 R x).1, by rw [(h2 R x).2]⟩⟩

theorem DiagSem.congr {r : Option (Operator Int)} {k : Nat} {S : SubSpace} {F F' : ∀ (R : Type) [CommRing R], Cl A R → Cl A R}
    (h : DiagSem A r k S F) (e : ∀ (R : Type) [CommRing R] (x : Cl A R), F R x = F' R x) : DiagSem A r k S F' := by
  obtain ⟨C, G, h1, h2⟩ := h
  exact ⟨C, G, h1, fun R _ x => ⟨(h2 R x).1, (h2 R x).2.trans (e R x)⟩⟩

theorem euclidian_least (hA : WfAlg A) (h2 : 2 ≤ A.n) {S : SubSpace} (hS : WfSub A S) :
    LeastOp A (euclidianFactorization A (.sub S)) 2 S fun R _ x => gradePart A R 2 (rhMap A R (x * rhMap A R x)) := by
  obtain ⟨B, b1, b2⟩ := kVector_isSpace hA (g := 2) (k := 2) ⟨h2, Or.inl rfl⟩
  refine ((diagArg_sub hS).un (rightHodge_un hA)).bindL fun p _ hp => ?_
  refine ((diagArg_sub hS).bin (product_bin hA) hp).bindL fun q _ hq => ?_
  have hr := hq.un (rightHodge_un hA)
  have hs := hr.select b2.1
  obtain ⟨C, G, ⟨r, r1, r2⟩, _⟩ := hr
  rw [r1, Option.bind_some] at hs
  rw [r1]
  simp only [Option.bind_eq_bind, Option.bind_some]
  rw [Operator.selectGrade, b1]
  simp only [Option.bind_eq_bind, Option.bind_some]
  refine (hs.congr fun R _ x => ?_).least hA (k := 2) (by omega) hS
  rw [gradePart_eq_proj]
  exact proj_congr (fun b hb => by rw [b2.2 b]; simp [hb]) _

/-- C73: `euclidian_factorization(m)` computes the grade 2 part of `dual(m * dual(m))`, with the least output subspace; `D` is the
map that `dual` computes. -/
theorem C73_euclidian (hA : WfAlg A) (h2 : 2 ≤ A.n) {S : SubSpace} (hS : WfSub A S) :
    ∃ D : LinMap A, (∀ (R : Type) [CommRing R] (x : MV R), WfMV A x → Gives A (x.dual A) (D R (val A x))) ∧
      LeastOp A (euclidianFactorization A (.sub S)) 2 S fun R _ x => gradePart A R 2 (D R (x * D R x)) :=
  ⟨fun R _ => rhMap A R, fun _ _ _ hx => un_gives (rightHodge_un hA) hx, euclidian_least hA h2 hS⟩

/-! ### solve -/

/-- One round of `solve` finds the blades whose product with some blade of `x` is a blade of the target. -/
theorem solveRound_spec (hA : WfAlg A) {x T mv : SubSpace} (hx : WfSub A x) (hT : WfSub A T) (hm : A.full = some mv) :
    ∃ Y, solveRound A x mv T = some Y ∧ IsSpace A Y fun c => ∃ a ∈ x.blades, (A.product a c).2 ≠ 0 ∧ a ^^^ c ∈ T.blades := by
  obtain ⟨mv', m1, m2⟩ := full_isSpace hA
  cases m1.symm.trans hm
  have hp := (selectOp_sem (product_bin hA (argSem_sub hx) (argSem_sub m2.1)) hT).squeeze hA
  obtain ⟨op, o1, o2, o3, o4⟩ := hp
  replace o3 : op.inputs = [x, mv] := o3
  have o5 : Computes A op (Cond.triv A) (fun R _ ds => proj A R (· ∈ T.blades) ((ds.take 1).headD 0 * (ds.drop 1).headD 0)) :=
    fun R _ xs hx _ => o4 R xs hx ⟨trivial, trivial⟩
  have hsh : op.kernel.shape = [x.blades.length, mv.blades.length, op.output.blades.length] := by
    rw [o2.shape, o2.axes_eq, o3]; rfl
  have ent : ∀ i < x.blades.length, ∀ j < mv.blades.length, ∀ o < op.output.blades.length, op.kernel.get [i, j, o] =
      if op.output.blades.getD o 0 ∈ T.blades then
        (if op.output.blades.getD o 0 = x.blades.getD i 0 ^^^ mv.blades.getD j 0 then sgn A (x.blades.getD i 0) (mv.blades.getD j 0) else 0) else 0 := by
    intro i hi j hj o ho
    have := Computes.entry o2 o5 (idx := [i, j]) (by rw [o3]; exact .cons hi (.cons hj .nil)) ho
    rw [show ([i, j] : List Nat) ++ [o] = [i, j, o] from rfl] at this
    rw [this, o3]
    simp only [bladesAt, List.zipWith_cons_cons, List.zipWith_nil_left, List.take_succ_cons, List.take_zero, List.headD_cons,
      List.drop_succ_cons, List.drop_zero]
    rw [coef_proj, blade_mul hA, map_smul, coef_blade A ℤ (xor_lt (hx.lt _ (getD_mem hi)) (m2.1.lt _ (getD_mem hj)))]
    simp
  have hmask : ∀ j < mv.blades.length, ((allIdx op.kernel.shape).any fun i => i.getD 1 0 == j && decide (op.kernel.get i ≠ 0)) = true ↔
      ∃ a ∈ x.blades, sgn A a (mv.blades.getD j 0) ≠ 0 ∧ a ^^^ mv.blades.getD j 0 ∈ T.blades := by
    intro j hj
    rw [List.any_eq_true]
    constructor
    · rintro ⟨idx, h1, h2⟩
      rw [mem_allIdx, hsh] at h1
      cases h1 with | @cons i _ _ _ h1 h => ?_
      cases h with | @cons j' _ _ _ h3 h => ?_
      cases h with | @cons o _ _ _ h4 h => ?_
      cases h
      simp only [List.getD_cons_succ, List.getD_cons_zero, Bool.and_eq_true, beq_iff_eq, decide_eq_true_eq] at h2
      obtain ⟨rfl, h2⟩ := h2
      rw [ent i h1 j' h3 o h4] at h2
      refine ⟨_, getD_mem h1, ?_⟩
      by_cases c1 : op.output.blades.getD o 0 ∈ T.blades
      · rw [if_pos c1] at h2
        by_cases c2 : op.output.blades.getD o 0 = x.blades.getD i 0 ^^^ mv.blades.getD j' 0
        · rw [if_pos c2] at h2
          exact ⟨h2, c2 ▸ c1⟩
        · rw [if_neg c2] at h2; exact absurd rfl h2
      · rw [if_neg c1] at h2; exact absurd rfl h2
    · rintro ⟨a, ha, h1, h2⟩
      obtain ⟨i, hi, rfl⟩ : ∃ i, i < x.blades.length ∧ x.blades.getD i 0 = a := by
        obtain ⟨i, hi, rfl⟩ := List.getElem_of_mem ha
        exact ⟨i, hi, getD_lt _ _ hi⟩
      have hb : x.blades.getD i 0 ^^^ mv.blades.getD j 0 ∈ op.output.blades := by
        by_contra hne
        have := Computes.outside o2 o5 ℤ (idx := [i, j]) (by rw [o3]; exact .cons hi (.cons hj .nil)) hne
        rw [o3] at this
        simp only [bladesAt, List.zipWith_cons_cons, List.zipWith_nil_left, List.take_succ_cons, List.take_zero, List.headD_cons,
          List.drop_succ_cons, List.drop_zero] at this
        rw [coef_proj, if_pos h2, blade_mul hA, map_smul, coef_blade A ℤ (xor_lt (hx.lt _ (getD_mem hi)) (m2.1.lt _ (getD_mem hj)))] at this
        simp at this
        exact h1 this
      obtain ⟨o, ho, e⟩ : ∃ o, o < op.output.blades.length ∧ op.output.blades.getD o 0 = x.blades.getD i 0 ^^^ mv.blades.getD j 0 := by
        obtain ⟨o, ho, e⟩ := List.getElem_of_mem hb
        exact ⟨o, ho, by rw [getD_lt _ _ ho, e]⟩
      refine ⟨[i, j, o], by rw [mem_allIdx, hsh]; exact .cons hi (.cons hj (.cons ho .nil)), ?_⟩
      simp only [List.getD_cons_succ, List.getD_cons_zero, Bool.and_eq_true, beq_iff_eq, decide_eq_true_eq, true_and]
      rw [ent i hi j hj o ho, e, if_pos h2, if_pos rfl]
      exact h1
  set mask := (List.range mv.blades.length).filter fun j =>
    (allIdx op.kernel.shape).any fun i => i.getD 1 0 == j && decide (op.kernel.get i ≠ 0) with hmaskdef
  have hsl : solveRound A x mv T = mv.slice A mask := by
    rw [solveRound]
    simp only [Option.bind_eq_bind]
    rw [← Option.bind_assoc, ← Option.bind_assoc, o1, Option.bind_some]
  have hlt : ∀ i ∈ mask, i < mv.blades.length := fun i hi => List.mem_range.1 (List.mem_filter.1 hi).1
  rw [hsl, SubSpace.slice, mapM_getElem? mv.blades 0 mask hlt, Option.bind_some]
  apply fromBlades_isSpace hA (m2.1.nodup.sublist (map_getD_filter_sublist _ _ _))
  intro c
  rw [List.mem_map]
  constructor
  · rintro ⟨j, hj, rfl⟩
    have hj' := hlt j hj
    have hc := m2.1.lt _ (getD_mem hj')
    obtain ⟨a, ha, h1, h2⟩ := (hmask j hj').1 (List.mem_filter.1 hj).2
    exact ⟨hc, a, ha, by rw [product_eq hA (hx.lt a ha)]; exact h1, h2⟩
  · rintro ⟨hc, a, ha, h1, h2⟩
    obtain ⟨j, hj, rfl⟩ : ∃ j, j < mv.blades.length ∧ mv.blades.getD j 0 = c := by
      obtain ⟨j, hj, e⟩ := List.getElem_of_mem ((m2.2 c).2 ⟨hc, trivial⟩)
      exact ⟨j, hj, by rw [getD_lt _ _ hj, e]⟩
    refine ⟨j, List.mem_filter.2 ⟨List.mem_range.2 hj, (hmask j hj).2 ⟨a, ha, ?_, h2⟩⟩, rfl⟩
    rw [product_eq hA (hx.lt a ha)] at h1
    exact h1

/-- C73: `solve(x, rhs)` is the product of `x` with a subspace `Y` that holds every blade relevant to the right hand side: the
coefficients of `x * z` on the blades of `rhs` depend only on the coefficients of `z` on the blades of `Y`.  `Y` is found by two
rounds: blades reaching a blade of the products of `x` with the blades that reach `rhs`. -/
theorem C73_solve (hA : WfAlg A) {x rhs : SubSpace} (hx : WfSub A x) (hr : WfSub A rhs) :
    ∃ op Y, solve A x rhs = some op ∧ WfOp A op ∧ op.inputs = [x, Y] ∧ WfSub A Y ∧
      (∀ c, c ∈ Y.blades ↔ c < 2 ^ A.n ∧ ∃ a ∈ x.blades, (A.product a c).2 ≠ 0 ∧ ∃ a' ∈ x.blades, ∃ c' < 2 ^ A.n,
        (A.product a' c').2 ≠ 0 ∧ a' ^^^ c' = a ^^^ c ∧ ∃ a'' ∈ x.blades, (A.product a'' c').2 ≠ 0 ∧ a'' ^^^ c' ∈ rhs.blades) ∧
      (∀ (R : Type) [CommRing R] (u v : MV R), WfMV A u → WfMV A v → u.sub = x → v.sub = Y →
        Gives A (MV.call (solve A x rhs) [u, v]) (val A u * val A v)) ∧
      ∀ (R : Type) [CommRing R] (u z w : Cl A R), Within A x u → (∀ c ∈ Y.blades, coef A R c z = coef A R c w) →
        ∀ b ∈ rhs.blades, coef A R b (u * z) = coef A R b (u * w) := by
  obtain ⟨mv, m1, -⟩ := full_isSpace hA
  obtain ⟨Y1, y1, y2⟩ := solveRound_spec hA hx hr m1
  obtain ⟨P, p1, p2, p3⟩ := product_space hA hx y2.1
  obtain ⟨Y, z1, z2⟩ := solveRound_spec hA hx p2 m1
  have hs := product_bin hA (argSem_sub hx) (argSem_sub z2.1)
  have e : solve A x rhs = product A (.sub x) (.sub Y) := by
    obtain ⟨foo, f1, f2⟩ := Option.map_eq_some_iff.1 p1
    rw [solve, m1]
    simp only [Option.bind_eq_bind, Option.bind_some]
    rw [y1]
    simp only [Option.bind_some]
    rw [f1]
    simp only [Option.bind_some, f2, z1]
  have hsg : ∀ a ∈ x.blades, ∀ c, (A.product a c).2 = sgn A a c := fun a ha c => by rw [product_eq hA (hx.lt a ha)]
  have hY : ∀ c, c ∈ Y.blades ↔ c < 2 ^ A.n ∧ ∃ a ∈ x.blades, (A.product a c).2 ≠ 0 ∧ ∃ a' ∈ x.blades, ∃ c' < 2 ^ A.n,
        (A.product a' c').2 ≠ 0 ∧ a' ^^^ c' = a ^^^ c ∧ ∃ a'' ∈ x.blades, (A.product a'' c').2 ≠ 0 ∧ a'' ^^^ c' ∈ rhs.blades := by
    intro c
    rw [z2.2 c]
    refine and_congr_right fun hc => exists_congr fun a => and_congr_right fun ha => and_congr_right fun _ => ?_
    rw [p3]
    refine exists_congr fun a' => and_congr_right fun ha' => exists_congr fun c' => ?_
    rw [y2.2 c', hsg a' ha']
    exact ⟨fun ⟨⟨h1, h2⟩, h3, h4⟩ => ⟨h1, h4, h3, h2⟩, fun ⟨h1, h4, h3, h2⟩ => ⟨⟨h1, h2⟩, h3, h4⟩⟩
  obtain ⟨op, o1, o2, o3, o4⟩ := hs
  refine ⟨op, Y, e.trans o1, o2, o3, z2.1, hY, ?_, ?_⟩
  · intro R _ u v hu hv e1 e2
    subst e1 e2
    rw [e]
    exact call_gives2 (product_bin hA (argSem_sub hu.sub) (argSem_sub hv.sub)) hu hv ⟨trivial, trivial⟩
  · intro R _ u z w hu hzw b hb
    rw [← sub_eq_zero, ← map_sub, ← mul_sub]
    have hd : ∀ c ∈ Y.blades, coef A R c (z - w) = 0 := fun c hc => by rw [map_sub, hzw c hc, sub_self]
    generalize z - w = d at hd
    refine within_induction hx (p := fun u => coef A R b (u * d) = 0) (by rw [zero_mul, map_zero])
      (fun x y hx hy => by rw [add_mul, map_add, hx, hy, add_zero]) (fun r a ha => ?_) hu
    rw [smul_mul_assoc, map_smul]
    have : coef A R b (blade A R a * d) = 0 := by
      rw [sum_coef A R d, Finset.mul_sum, map_sum]
      refine Finset.sum_eq_zero fun c hc => ?_
      have hc := Finset.mem_range.1 hc
      rw [mul_smul_comm, map_smul, blade_mul hA, map_smul, coef_blade A R (xor_lt (hx.lt a ha) hc)]
      by_cases h1 : b = a ^^^ c
      · by_cases h2 : sgn A a c = 0
        · simp [h2]
        · have hn : (A.product a c).2 ≠ 0 := by rw [hsg a ha]; exact h2
          rw [hd c ((hY c).2 ⟨hc, a, ha, hn, a, ha, c, hc, hn, rfl, a, ha, hn, h1 ▸ hb⟩), zero_smul]
      · simp [h1]
    rw [this, smul_zero]

/-- One unit vector and two null vectors. -/
def galilei3 : Alg := ⟨⟨["x".toList, "y".toList, "z".toList], [1, 0, 0]⟩, 1, 1⟩
theorem wf_galilei3 : WfAlg galilei3 := by constructor <;> decide

/-- C73: two rounds are not enough for a solution.  With one unit and two null vectors and `X = 1 + y + xz`, `solve` puts the unknown
in `{1, y, xz}`, where `X * Y = 1` has no solution; in the whole algebra it has one. -/
theorem C73_small :
    (solve galilei3 ⟨[0, 2, 5]⟩ ⟨[0]⟩).map (·.inputs) = some [⟨[0, 2, 5]⟩, ⟨[0, 2, 5]⟩] ∧
    (∀ y : MV ℚ, WfMV galilei3 y → y.sub = ⟨[0, 2, 5]⟩ → val galilei3 ⟨⟨[0, 2, 5]⟩, [1, 1, 1]⟩ * val galilei3 y ≠ 1) ∧
    ∃ y : MV ℚ, WfMV galilei3 y ∧ val galilei3 ⟨⟨[0, 2, 5]⟩, [1, 1, 1]⟩ * val galilei3 y = 1 := by
  have hA := wf_galilei3
  have b22 : blade galilei3 ℚ 2 * blade galilei3 ℚ 2 = 0 := by
    rw [blade_mul hA, show sgn galilei3 2 2 = 0 by decide +kernel]; simp
  have b55 : blade galilei3 ℚ 5 * blade galilei3 ℚ 5 = 0 := by
    rw [blade_mul hA, show sgn galilei3 5 5 = 0 by decide +kernel]; simp
  have b25 : blade galilei3 ℚ 2 * blade galilei3 ℚ 5 = - blade galilei3 ℚ 7 := by
    rw [blade_mul hA, show sgn galilei3 2 5 = -1 by decide +kernel]; simp
  have b52 : blade galilei3 ℚ 5 * blade galilei3 ℚ 2 = - blade galilei3 ℚ 7 := by
    rw [blade_mul hA, show sgn galilei3 5 2 = -1 by decide +kernel]; simp
  have b27 : blade galilei3 ℚ 2 * blade galilei3 ℚ 7 = 0 := by
    rw [blade_mul hA, show sgn galilei3 2 7 = 0 by decide +kernel]; simp
  have b57 : blade galilei3 ℚ 5 * blade galilei3 ℚ 7 = 0 := by
    rw [blade_mul hA, show sgn galilei3 5 7 = 0 by decide +kernel]; simp
  have hx : val galilei3 (⟨⟨[0, 2, 5]⟩, [1, 1, 1]⟩ : MV ℚ) = 1 + blade galilei3 ℚ 2 + blade galilei3 ℚ 5 := by
    simp [val, denote, blade_zero, add_assoc]
  refine ⟨by decide +kernel, ?_, ?_⟩
  · rintro ⟨S, vs⟩ hy rfl h
    have hl : vs.length = 3 := hy.len
    match vs, hl with
    | [a, b, c], _ =>
    have hv : val galilei3 (⟨⟨[0, 2, 5]⟩, [a, b, c]⟩ : MV ℚ) = a • 1 + b • blade galilei3 ℚ 2 + c • blade galilei3 ℚ 5 := by
      simp [val, denote, blade_zero, add_assoc]
    rw [hx, hv] at h
    have h' : a • blade galilei3 ℚ 0 + (a + b) • blade galilei3 ℚ 2 + (a + c) • blade galilei3 ℚ 5 + (-(b + c)) • blade galilei3 ℚ 7 =
        blade galilei3 ℚ 0 := by
      rw [blade_zero]
      refine Eq.trans ?_ h
      simp only [mul_add, add_mul, one_mul, mul_one, mul_smul_comm, b22, b55, b25, b52]
      module
    have hc : ∀ d < 8, ∀ e, coef galilei3 ℚ e (blade galilei3 ℚ d) = if e = d then 1 else 0 := fun d hd e => coef_blade galilei3 ℚ hd e
    have k : ∀ e, (if e = 0 then a else 0) + (if e = 2 then a + b else 0) + (if e = 5 then a + c else 0) +
        (if e = 7 then -(b + c) else 0) = if e = 0 then (1 : ℚ) else 0 := by
      intro e
      have := congrArg (coef galilei3 ℚ e) h'
      simpa [hc] using this
    have k0 := k 0
    have k2 := k 2
    have k5 := k 5
    have k7 := k 7
    norm_num at k0 k2 k5 k7
    linarith
  · refine ⟨⟨⟨[0, 2, 5, 7]⟩, [1, -1, -1, -2]⟩, ⟨wfSub_of_B (by decide +kernel), rfl⟩, ?_⟩
    have hv : val galilei3 (⟨⟨[0, 2, 5, 7]⟩, [1, -1, -1, -2]⟩ : MV ℚ) =
        1 - blade galilei3 ℚ 2 - blade galilei3 ℚ 5 - (2 : ℚ) • blade galilei3 ℚ 7 := by
      simp [val, denote, blade_zero]; module
    rw [hx, hv]
    simp only [mul_sub, add_mul, one_mul, mul_one, mul_smul_comm, b22, b55, b25, b52, b27, b57]
    module

/-! ## The hypotheses are met -/

/-- The vector part of the product of a vector and a bivector; the grade may be given from the top. -/
example : ∃ op, product galilei3 (.sub ⟨[1, 2]⟩) (.sub ⟨[3, 6]⟩) = some op ∧ WfOp galilei3 op ∧
    op.output = ⟨[2, 7]⟩ ∧ (op.selectSubspace galilei3 ⟨[2, 4]⟩).map (·.output) = some ⟨[2, 4]⟩ ∧
    (op.selectGrade galilei3 (-3)).map (·.axes) = some [⟨[1, 2]⟩, ⟨[3, 6]⟩, ⟨[1, 2, 4]⟩] ∧ IsGrade galilei3.n (-3) 1 := by
  obtain ⟨op, o1, o2, -⟩ := product_bin wf_galilei3 (argSem_sub (S := ⟨[1, 2]⟩) (wfSub_of_B (by decide +kernel)))
    (argSem_sub (S := ⟨[3, 6]⟩) (wfSub_of_B (by decide +kernel)))
  have k : ((product galilei3 (.sub ⟨[1, 2]⟩) (.sub ⟨[3, 6]⟩)).map (·.output) = some ⟨[2, 7]⟩ ∧
      ((product galilei3 (.sub ⟨[1, 2]⟩) (.sub ⟨[3, 6]⟩)).bind fun op => (op.selectSubspace galilei3 ⟨[2, 4]⟩).map (·.output)) = some ⟨[2, 4]⟩) ∧
      ((product galilei3 (.sub ⟨[1, 2]⟩) (.sub ⟨[3, 6]⟩)).bind fun op => (op.selectGrade galilei3 (-3)).map (·.axes)) =
        some [⟨[1, 2]⟩, ⟨[3, 6]⟩, ⟨[1, 2, 4]⟩] := by decide +kernel
  rw [o1] at k
  simp only [Option.map_some, Option.bind_some, Option.some_inj] at k
  exact ⟨op, o1, o2, k.1.1, k.1.2, k.2, ⟨by decide, Or.inr (by decide)⟩⟩

/-- The factorization operator of a rotation in one plane is not empty. -/
example : 2 ≤ galilei3.n ∧ WfSub galilei3 ⟨[0, 3]⟩ ∧ (euclidianFactorization galilei3 (.sub ⟨[0, 3]⟩)).map (·.output) = some ⟨[3]⟩ :=
  ⟨by decide, wfSub_of_B (by decide +kernel), by decide +kernel⟩

/-- With vectors on the left and a bivector on the right, `solve` puts the unknown in the vectors. -/
example : (solve galilei3 ⟨[1, 2]⟩ ⟨[3]⟩).map (·.axes) = some [⟨[1, 2]⟩, ⟨[1, 2]⟩, ⟨[0, 3]⟩] ∧ WfSub galilei3 ⟨[1, 2]⟩ ∧ WfSub galilei3 ⟨[3]⟩ :=
  ⟨by decide +kernel, wfSub_of_B (by decide +kernel), wfSub_of_B (by decide +kernel)⟩

end Verif.Props
