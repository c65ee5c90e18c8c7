import Verif.Proofs.Factory3
/-! # Commutators, sandwiches -/
namespace Verif
open Model Spec Model.Factory

variable {A : Alg}

/-- The operator is the result of a `squeeze`. -/
def Squeezed (A : Alg) (op : Operator Int) : Prop := ∃ g, WfOp A g ∧ g.squeeze A = some op

theorem squeezed_wf (hA : WfAlg A) {op : Operator Int} (h : Squeezed A op) : WfOp A op := by
  obtain ⟨g, h1, h2⟩ := h
  obtain ⟨s, s1, s2, _⟩ := squeeze_spec hA h1
  cases s1.symm.trans h2
  exact s2

/-- The output space of a squeezed operator is exactly what its values on blades need. -/
theorem squeezed_out (hA : WfAlg A) {op : Operator Int} (hs : Squeezed A op) {F : Fn A} (hF : Computes A op (Cond.triv A) F) {b : Nat} :
    b ∈ op.output.blades ↔ ∃ idx, Valid idx (op.inputs.map (·.blades.length)) ∧ coef A ℤ b (F ℤ (bladesAt A ℤ op.inputs idx)) ≠ 0 := by
  have hwf := squeezed_wf hA hs
  constructor
  · intro hb
    obtain ⟨g, h1, h2⟩ := hs
    obtain ⟨s, s1, _, s3, s4, _, s6⟩ := squeeze_spec hA h1
    cases s1.symm.trans h2
    have hFg : Computes A g (Cond.triv A) F := by
      intro R _ xs hx hC
      rw [← s3] at hx hC ⊢
      rw [← s6, hF R xs hx hC]
    rw [s4, List.mem_map] at hb
    obtain ⟨o, ho, rfl⟩ := hb
    rw [List.mem_filter, List.mem_range, anyInputs_iff] at ho
    obtain ⟨ho1, idx, hidx, hnz⟩ := ho
    rw [h1.shape_in] at hidx
    refine ⟨idx, by rw [s3]; exact hidx, ?_⟩
    rw [s3, ← Computes.entry h1 hFg hidx ho1]
    exact hnz
  · rintro ⟨idx, hidx, hnz⟩
    by_contra hb
    exact hnz (Computes.outside hwf hF ℤ hidx hb)

theorem makeProduct_squeezed (hA : WfAlg A) {l r : SubSpace} (hl : WfSub A l) (hr : WfSub A r) {formula : Int → Int → Int → Bool}
    {op : Operator Int} (h : makeProduct A (.sub l) (.sub r) formula = some op) : Squeezed A op := by
  obtain ⟨raw, g, O, h1, h2, h3, h4, h5⟩ := gradeSelected_sem hA hl hr formula
  obtain ⟨q, q1, q2, _⟩ := Sem.build2 (a := .sub l) (b := .sub r) h3 h4 h5 (argSem_sub hl) (argSem_sub hr)
  rw [makeProduct] at h
  simp only [Arg.subspace, h1, h2, Option.bind_eq_bind, Option.bind_some, q1] at h
  exact ⟨q, q2, h⟩

theorem product_squeezed (hA : WfAlg A) {l r : SubSpace} (hl : WfSub A l) (hr : WfSub A r)
    {op : Operator Int} (h : product A (.sub l) (.sub r) = some op) : Squeezed A op := makeProduct_squeezed hA hl hr h

theorem antify_squeezed (hA : WfAlg A) {f : Arg Int → Arg Int → Option (Operator Int)}
    {B : ∀ (R : Type) [CommRing R], Cl A R → Cl A R → Cl A R} (hf : BinSem A f B) {l r : SubSpace} (hl : WfSub A l) (hr : WfSub A r)
    {op : Operator Int} (h : antify A f (.sub l) (.sub r) = some op) : Squeezed A op := by
  have : Sem A ((rightComplement A (.sub l)).bind fun cl => (rightComplement A (.sub r)).bind fun cr =>
      (f (.op cl) (.op cr)).bind fun o => leftComplement A (.op o)) _ _ _ :=
    (rightComplement_un hA (argSem_sub hl)).bind_arg fun cl _ hcl => (rightComplement_un hA (argSem_sub hr)).bind_arg fun cr _ hcr =>
      (hf hcl hcr).bind_arg fun _ _ ha => leftComplement_un hA ha
  obtain ⟨q, q1, q2, _⟩ := this
  refine ⟨q, q2, ?_⟩
  rw [antify] at h
  simp only [Option.bind_eq_bind, ← Option.bind_assoc] at h q1
  simp only [Option.bind_eq_bind, Option.bind_assoc] at h q1
  have e : (((rightComplement A (.sub l)).bind fun cl => (rightComplement A (.sub r)).bind fun cr =>
      (f (.op cl) (.op cr)).bind fun o => leftComplement A (.op o)).bind fun q => q.squeeze A) = some op := by
    simp only [Option.bind_assoc]
    exact h
  rw [q1, Option.bind_some] at e
  exact e

/-! ### bilinear maps given on blades -/

section bil
variable {R : Type} [CommRing R]

/-- Bilinear map sending blades `a`, `c` to `t a c` times blade `g a c`. -/
noncomputable def bil (A : Alg) (R : Type) [CommRing R] (t : Nat → Nat → Int) (g : Nat → Nat → Nat) : Cl A R →ₗ[R] Cl A R →ₗ[R] Cl A R :=
  linExt A R fun a => linExt A R fun c => (t a c : R) • blade A R (g a c)

theorem bil_blade (t : Nat → Nat → Int) (g : Nat → Nat → Nat) {a c : Nat} (ha : a < 2 ^ A.n) (hc : c < 2 ^ A.n) :
    bil A R t g (blade A R a) (blade A R c) = (t a c : R) • blade A R (g a c) := by
  rw [bil, linExt_blade _ ha, linExt_blade _ hc]

theorem bil_mul (hA : WfAlg A) (x y : Cl A R) : bil A R (sgn A) (· ^^^ ·) x y = x * y := by
  have : bil A R (sgn A) (· ^^^ ·) = LinearMap.mul R (Cl A R) := by
    apply lin_ext₂
    intro a ha b hb
    rw [bil_blade _ _ ha hb, LinearMap.mul_apply', blade_mul hA]
  rw [this, LinearMap.mul_apply']

/-- Half the sum of a bilinear map and its flip, on blades. -/
def halfSign (t : Nat → Nat → Int) (s : Int) (a c : Nat) : Int := Int.fdiv (t a c + t c a * s) 2

theorem halfSign_two {t : Nat → Nat → Int} {s : Int} (hs : s = 1 ∨ s = -1) {a c : Nat} (ht : t c a = t a c ∨ t c a = - t a c) :
    2 * halfSign t s a c = t a c + t c a * s := by
  have h2 : ∀ z : Int, 2 * Int.fdiv (z + z) 2 = z + z := by
    intro z; rw [← two_mul, Int.mul_fdiv_cancel_left _ (by norm_num)]
  unfold halfSign
  rcases hs with rfl | rfl <;> rcases ht with h | h <;> rw [h]
  · simpa using h2 (t a c)
  · simp
  · simp
  · simpa using h2 (t a c)

theorem bil_half {t : Nat → Nat → Int} {g : Nat → Nat → Nat} {s : Int} (hs : s = 1 ∨ s = -1)
    (ht : ∀ a c, t c a = t a c ∨ t c a = - t a c) (hg : ∀ a c, g a c = g c a) (x y : Cl A R) :
    (2 : R) • bil A R (halfSign t s) g x y = bil A R t g x y + (s : R) • bil A R t g y x := by
  have : (2 : R) • bil A R (halfSign t s) g = bil A R t g + (s : R) • (bil A R t g).flip := by
    apply lin_ext₂
    intro a ha c hc
    simp only [LinearMap.smul_apply, LinearMap.add_apply, LinearMap.flip_apply]
    rw [bil_blade _ _ ha hc, bil_blade _ _ ha hc, bil_blade _ _ hc ha, hg c a, smul_smul, smul_smul, ← add_smul]
    congr 1
    have := congrArg (Int.cast : Int → R) (halfSign_two hs (ht a c))
    push_cast at this
    rw [this]; ring
  simpa using congrArg (fun f => f x y) this

end bil

theorem sgn_swap (A : Alg) (a b : Nat) : sgn A b a = sgn A a b ∨ sgn A b a = - sgn A a b := by
  unfold sgn
  rw [Nat.and_comm b a]
  rcases neg_one_pow_eq_or ℤ (pc A.n (a &&& b &&& A.negatives) + inv A.n a b) with h | h <;>
    rcases neg_one_pow_eq_or ℤ (pc A.n (a &&& b &&& A.negatives) + inv A.n b a) with h' | h' <;> rw [h, h'] <;> split_ifs <;> simp

/-! ### commutators -/

theorem makeCommutator_sem (hA : WfAlg A) {f : Arg Int → Arg Int → Option (Operator Int)}
    {t : Nat → Nat → Int} {g : Nat → Nat → Nat} (hf : BinSem A f fun R _ x y => bil A R t g x y)
    (hsq : ∀ {l r : SubSpace} {op}, WfSub A l → WfSub A r → f (.sub l) (.sub r) = some op → Squeezed A op)
    (ht : ∀ a c, t c a = t a c ∨ t c a = - t a c) (hg : ∀ a c, g a c = g c a) (hglt : ∀ a < 2 ^ A.n, ∀ c < 2 ^ A.n, g a c < 2 ^ A.n)
    {s : Int} (hs : s = 1 ∨ s = -1) {l r : SubSpace} (hl : WfSub A l) (hr : WfSub A r) :
    Sem A (makeCommutator A f s (.sub l) (.sub r)) [l, r] (Cond.triv A)
      (fun R _ ds => bil A R (halfSign t s) g (ds.getD 0 0) (ds.getD 1 0)) := by
  have key : ∀ {l r : SubSpace}, WfSub A l → WfSub A r → ∃ op, f (.sub l) (.sub r) = some op ∧ WfOp A op ∧ op.inputs = [l, r] ∧
      (∀ b, b ∈ op.output.blades ↔ ∃ a ∈ l.blades, ∃ c ∈ r.blades, t a c ≠ 0 ∧ g a c = b) ∧
      ∀ i < l.blades.length, ∀ j < r.blades.length, ∀ o < op.output.blades.length, op.kernel.get [i, j, o] =
        if op.output.blades.getD o 0 = g (l.blades.getD i 0) (r.blades.getD j 0) then t (l.blades.getD i 0) (r.blades.getD j 0) else 0 := by
    intro l r hl hr
    obtain ⟨op, o1, o2, o3, o4⟩ := hf (argSem_sub hl) (argSem_sub hr)
    replace o3 : op.inputs = [l, r] := o3
    have o5 : Computes A op (Cond.triv A) (fun R _ ds => bil A R t g ((ds.take 1).headD 0) ((ds.drop 1).headD 0)) :=
      fun R _ xs hx _ => o4 R xs hx ⟨trivial, trivial⟩
    have hval : ∀ i < l.blades.length, ∀ j < r.blades.length, Valid [i, j] (op.inputs.map (·.blades.length)) := by
      intro i hi j hj
      rw [o3]; exact List.Forall₂.cons hi (List.Forall₂.cons hj List.Forall₂.nil)
    have hco : ∀ i < l.blades.length, ∀ j < r.blades.length, ∀ b, coef A ℤ b
        (bil A ℤ t g ((((bladesAt A ℤ op.inputs [i, j])).take 1).headD 0) (((bladesAt A ℤ op.inputs [i, j]).drop 1).headD 0)) =
        if b = g (l.blades.getD i 0) (r.blades.getD j 0) then t (l.blades.getD i 0) (r.blades.getD j 0) else 0 := by
      intro i hi j hj b
      have ha := hl.lt _ (getD_mem hi)
      have hc := hr.lt _ (getD_mem hj)
      rw [o3]
      have e : bil A ℤ t g ((((bladesAt A ℤ [l, r] [i, j])).take 1).headD 0) (((bladesAt A ℤ [l, r] [i, j]).drop 1).headD 0) =
          bil A ℤ t g (blade A ℤ (l.blades.getD i 0)) (blade A ℤ (r.blades.getD j 0)) := rfl
      rw [e, bil_blade _ _ ha hc, map_smul, coef_blade _ _ (hglt _ ha _ hc)]
      simp [eq_comm]
    refine ⟨op, o1, o2, o3, ?_, ?_⟩
    · intro b
      rw [squeezed_out hA (hsq hl hr o1) o5]
      constructor
      · rintro ⟨idx, hidx, hnz⟩
        have hidx' := hidx
        rw [o3] at hidx'
        cases hidx' with
        | @cons i _ _ _ h1 h =>
          cases h with
          | @cons j _ _ _ h2 h =>
            cases h
            rw [hco _ h1 _ h2] at hnz
            refine ⟨_, getD_mem h1, _, getD_mem h2, ?_⟩
            by_cases hb : b = g (l.blades.getD i 0) (r.blades.getD j 0)
            · rw [if_pos hb] at hnz; exact ⟨hnz, hb.symm⟩
            · rw [if_neg hb] at hnz; exact absurd rfl hnz
      · rintro ⟨a, ha, c, hc, hnz, rfl⟩
        have hi := List.idxOf_lt_length_of_mem ha
        have hj := List.idxOf_lt_length_of_mem hc
        refine ⟨[l.blades.idxOf a, r.blades.idxOf c], hval _ hi _ hj, ?_⟩
        rw [hco _ hi _ hj, getD_lt _ _ hi, getD_lt _ _ hj, List.getElem_idxOf, List.getElem_idxOf, if_pos rfl]
        exact hnz
    · intro i hi j hj o ho
      have := Computes.entry o2 o5 (hval i hi j hj) ho
      rw [show [i, j] ++ [o] = [i, j, o] from rfl] at this
      rw [this, hco i hi j hj]
  obtain ⟨p, p1, p2, p3, p4, p5⟩ := key hl hr
  obtain ⟨q, q1, q2, q3, q4, q5⟩ := key hr hl
  have hO : q.output = p.output := by
    apply WfSub.ext q2.wf_output p2.wf_output
    intro b
    rw [q4, p4]
    constructor
    · rintro ⟨a, ha, c, hc, h, rfl⟩
      refine ⟨c, hc, a, ha, ?_, hg _ _⟩
      rcases ht a c with h' | h' <;> rw [h'] <;> simpa using h
    · rintro ⟨a, ha, c, hc, h, rfl⟩
      refine ⟨c, hc, a, ha, ?_, hg _ _⟩
      rcases ht a c with h' | h' <;> rw [h'] <;> simpa using h
  have hpax : p.axes = [l, r, p.output] := by rw [p2.axes_eq, p3]; rfl
  have hqax : q.axes = [r, l, p.output] := by rw [q2.axes_eq, q3, hO]; rfl
  have hpsh : p.kernel.shape = [l.blades.length, r.blades.length, p.output.blades.length] := by rw [p2.shape, hpax]; rfl
  have hqsh : q.kernel.shape = [r.blades.length, l.blades.length, p.output.blades.length] := by rw [q2.shape, hqax]; rfl
  let k : Tensor Int := { shape := p.kernel.shape
                          get := fun i => Int.fdiv (p.kernel.get i + q.kernel.get (swapAt i 0 1) * s) 2 }
  let m : Operator Int := ⟨k, p.axes⟩
  have hm : WfOp A m := ⟨p2.ne, p2.shape, p2.sub⟩
  have hdef : makeCommutator A f s (.sub l) (.sub r) = m.squeeze A := by
    have e1 : (q.mul s).swapaxes 0 1 = some ⟨{ shape := swapAt q.kernel.shape 0 1, get := fun idx => q.kernel.get (swapAt idx 0 1) * s }, p.axes⟩ := by
      rw [Operator.swapaxes, if_pos (by simp [Operator.mul, hqax]), Tensor.swapaxes, if_pos (by simp [Operator.mul, Tensor.map, Tensor.ndim, hqsh])]
      simp only [Operator.mul, Tensor.map, Option.map_some, hqax, hpax]
      rfl
    rw [makeCommutator, p1, q1]
    simp only [Option.bind_eq_bind, Option.bind_some, e1]
    rw [Operator.add, if_pos rfl, Tensor.add, if_pos (by simp [hpsh, hqsh, swapAt])]
    rfl
  have hcomp : Computes A m (Cond.triv A) (fun R _ ds => bil A R (halfSign t s) g (ds.getD 0 0) (ds.getD 1 0)) := by
    apply computes_binary hm (S := l) (T := r) (O := p.output) hpax (fun R _ => bil A R (halfSign t s) g)
    intro R _ i hi j hj
    have ha := hl.lt _ (getD_mem hi)
    have hc := hr.lt _ (getD_mem hj)
    rw [bil_blade _ _ ha hc]
    have hk : ∀ o < p.output.blades.length, m.kernel.get ([i, j] ++ [o]) =
        if p.output.blades.getD o 0 = g (l.blades.getD i 0) (r.blades.getD j 0) then
          halfSign t s (l.blades.getD i 0) (r.blades.getD j 0) else 0 := by
      intro o ho
      change Int.fdiv (p.kernel.get [i, j, o] + q.kernel.get [j, i, o] * s) 2 = _
      rw [p5 i hi j hj o ho, q5 j hj i hi o (by rw [hO]; exact ho), hO, hg (r.blades.getD j 0)]
      by_cases h : p.output.blades.getD o 0 = g (l.blades.getD i 0) (r.blades.getD j 0)
      · rw [if_pos h, if_pos h, if_pos h, halfSign]
      · rw [if_neg h, if_neg h, if_neg h]; simp
    by_cases hmem : g (l.blades.getD i 0) (r.blades.getD j 0) ∈ p.output.blades
    · exact term_single R (op := m) p2.wf_output hmem hk
    · have h0 : t (l.blades.getD i 0) (r.blades.getD j 0) = 0 := by
        by_contra h
        exact hmem ((p4 _).2 ⟨_, getD_mem hi, _, getD_mem hj, h, rfl⟩)
      have h1 : t (r.blades.getD j 0) (l.blades.getD i 0) = 0 := by
        rcases ht (l.blades.getD i 0) (r.blades.getD j 0) with h | h <;> rw [h, h0]; simp
      rw [halfSign, h0, h1, term]
      simp only [zero_mul, add_zero, Int.zero_fdiv, Int.cast_zero, zero_smul]
      apply Finset.sum_eq_zero
      intro o ho
      have ho' : o < p.output.blades.length := Finset.mem_range.1 ho
      rw [hk o ho', if_neg, Int.cast_zero, zero_smul]
      intro h
      exact hmem (h ▸ getD_mem ho')
  rw [hdef]
  obtain ⟨c, c1, c2, c3, _, _, c6⟩ := squeeze_spec hA hm
  refine ⟨c, c1, c2, by rw [c3, Operator.inputs, show m.axes = p.axes from rfl, hpax]; rfl, ?_⟩
  intro R _ xs hx hC
  rw [c3] at hx hC ⊢
  rw [c6, hcomp R xs hx hC]

theorem product_bil (hA : WfAlg A) : BinSem A (product A) fun R _ x y => bil A R (sgn A) (· ^^^ ·) x y :=
  (product_bin hA).congr fun _ _ x y => (bil_mul hA x y).symm

theorem commutator_sem (hA : WfAlg A) {l r : SubSpace} (hl : WfSub A l) (hr : WfSub A r) :
    Sem A (commutator A (.sub l) (.sub r)) [l, r] (Cond.triv A)
      (fun R _ ds => bil A R (halfSign (sgn A) (-1)) (· ^^^ ·) (ds.getD 0 0) (ds.getD 1 0)) :=
  makeCommutator_sem hA (product_bil hA) (fun hl hr h => product_squeezed hA hl hr h) (sgn_swap A) (fun _ _ => Nat.xor_comm _ _)
    (fun _ ha _ hc => xor_lt ha hc) (Or.inr rfl) hl hr

theorem antiCommutator_sem (hA : WfAlg A) {l r : SubSpace} (hl : WfSub A l) (hr : WfSub A r) :
    Sem A (antiCommutator A (.sub l) (.sub r)) [l, r] (Cond.triv A)
      (fun R _ ds => bil A R (halfSign (sgn A) 1) (· ^^^ ·) (ds.getD 0 0) (ds.getD 1 0)) :=
  makeCommutator_sem hA (product_bil hA) (fun hl hr h => product_squeezed hA hl hr h) (sgn_swap A) (fun _ _ => Nat.xor_comm _ _)
    (fun _ ha _ hc => xor_lt ha hc) (Or.inl rfl) hl hr

/-- Sign of the anti-product of two blades. -/
def antiSign (A : Alg) (a c : Nat) : Int :=
  (swapSign A a A.pss * negSign A a) * (swapSign A c A.pss * negSign A c) * sgn A (a ^^^ A.pss) (c ^^^ A.pss) *
    (swapSign A A.pss ((a ^^^ A.pss) ^^^ (c ^^^ A.pss)) * negSign A ((a ^^^ A.pss) ^^^ (c ^^^ A.pss)))

/-- Blade of the anti-product of two blades. -/
def antiBlade (A : Alg) (a c : Nat) : Nat := ((a ^^^ A.pss) ^^^ (c ^^^ A.pss)) ^^^ A.pss

theorem bil_anti (hA : WfAlg A) {R : Type} [CommRing R] (x y : Cl A R) :
    bil A R (antiSign A) (antiBlade A) x y = lcMap A R (rcMap A R x * rcMap A R y) := by
  have : bil A R (antiSign A) (antiBlade A) = ((LinearMap.mul R (Cl A R)).compl₁₂ (rcMap A R) (rcMap A R)).compr₂ (lcMap A R) := by
    apply lin_ext₂
    intro a ha c hc
    have ha' := xor_lt ha (pss_lt A)
    have hc' := xor_lt hc (pss_lt A)
    rw [bil_blade _ _ ha hc]
    simp only [LinearMap.compr₂_apply, LinearMap.compl₁₂_apply, LinearMap.mul_apply']
    rw [rcMap, compl_blade _ ha, compl_blade _ hc, smul_mul_smul_comm, blade_mul hA, smul_smul, map_smul, lcMap,
      compl_blade _ (xor_lt ha' hc'), smul_smul, antiSign, antiBlade]
    congr 1
    push_cast
    ring
  rw [this]
  simp

theorem antiProduct_bil (hA : WfAlg A) : BinSem A (antiProduct A) fun R _ x y => bil A R (antiSign A) (antiBlade A) x y :=
  (antiProduct_bin hA).congr fun _ _ x y => (bil_anti hA x y).symm

theorem antiSign_swap (A : Alg) (a c : Nat) : antiSign A c a = antiSign A a c ∨ antiSign A c a = - antiSign A a c := by
  unfold antiSign
  rw [Nat.xor_comm (c ^^^ A.pss) (a ^^^ A.pss)]
  rcases sgn_swap A (a ^^^ A.pss) (c ^^^ A.pss) with h | h <;> rw [h]
  · left; ring
  · right; ring

theorem commutatorAnti_sem (hA : WfAlg A) {l r : SubSpace} (hl : WfSub A l) (hr : WfSub A r) :
    Sem A (commutatorAnti A (.sub l) (.sub r)) [l, r] (Cond.triv A)
      (fun R _ ds => bil A R (halfSign (antiSign A) (-1)) (antiBlade A) (ds.getD 0 0) (ds.getD 1 0)) :=
  makeCommutator_sem hA (antiProduct_bil hA) (fun hl hr h => antify_squeezed hA (product_bin hA) hl hr h) (antiSign_swap A)
    (fun _ _ => by rw [antiBlade, Nat.xor_comm (_ ^^^ _) (_ ^^^ _)]; rfl)
    (fun _ ha _ hc => xor_lt (xor_lt (xor_lt ha (pss_lt A)) (xor_lt hc (pss_lt A))) (pss_lt A)) (Or.inr rfl) hl hr

theorem antiCommutatorAnti_sem (hA : WfAlg A) {l r : SubSpace} (hl : WfSub A l) (hr : WfSub A r) :
    Sem A (antiCommutatorAnti A (.sub l) (.sub r)) [l, r] (Cond.triv A)
      (fun R _ ds => bil A R (halfSign (antiSign A) 1) (antiBlade A) (ds.getD 0 0) (ds.getD 1 0)) :=
  makeCommutator_sem hA (antiProduct_bil hA) (fun hl hr h => antify_squeezed hA (product_bin hA) hl hr h) (antiSign_swap A)
    (fun _ _ => by rw [antiBlade, Nat.xor_comm (_ ^^^ _) (_ ^^^ _)]; rfl)
    (fun _ ha _ hc => xor_lt (xor_lt (xor_lt ha (pss_lt A)) (xor_lt hc (pss_lt A))) (pss_lt A)) (Or.inl rfl) hl hr

end Verif
