import Verif.Proofs.Sem
import Verif.Spec.Grades
/-! # What the operators of the factory compute -/
namespace Verif
open Model Spec Model.Factory

variable {A : Alg}

/-! ### linear maps given on blades -/

section lin
variable {R : Type} [CommRing R] {M : Type} [AddCommGroup M] [Module R M]

theorem linExt_blade (f : Nat → M) {b : Nat} (hb : b < 2 ^ A.n) : linExt A R f (blade A R b) = f b := by
  have := (bladeBasis A R).constr_basis R (fun b : Fin (2 ^ A.n) => f b) ⟨b, hb⟩
  rwa [bladeBasis_apply] at this

theorem lin_ext {f g : Cl A R →ₗ[R] M} (h : ∀ b < 2 ^ A.n, f (blade A R b) = g (blade A R b)) : f = g := by
  apply (bladeBasis A R).ext
  intro b
  rw [bladeBasis_apply]
  exact h b b.2

theorem lin_ext₂ {f g : Cl A R →ₗ[R] Cl A R →ₗ[R] M}
    (h : ∀ a < 2 ^ A.n, ∀ b < 2 ^ A.n, f (blade A R a) (blade A R b) = g (blade A R a) (blade A R b)) : f = g := by
  apply lin_ext
  intro a ha
  apply lin_ext
  exact h a ha

theorem gradePart_blade (k : Nat) {b : Nat} (hb : b < 2 ^ A.n) :
    gradePart A R k (blade A R b) = if popcount b = k then blade A R b else 0 := linExt_blade _ hb

theorem sum_gradePart (hA : WfAlg A) (x : Cl A R) : ∑ k ∈ Finset.range (A.n + 1), gradePart A R k x = x := by
  have : (∑ k ∈ Finset.range (A.n + 1), gradePart A R k) = LinearMap.id := by
    apply lin_ext
    intro b hb
    rw [LinearMap.sum_apply]
    simp only [gradePart_blade _ hb, LinearMap.id_apply]
    rw [Finset.sum_ite_eq, if_pos]
    have := popcount_le hA.le32 hb
    simp; omega
  simpa using congrArg (fun f => f x) this

/-- `gradedProduct` as a bilinear map. -/
noncomputable def gradedProductₗ (A : Alg) (R : Type) [CommRing R] (sel : Nat → Nat → Nat → Prop)
    [∀ i j k, Decidable (sel i j k)] : Cl A R →ₗ[R] Cl A R →ₗ[R] Cl A R :=
  ∑ i ∈ Finset.range (A.n + 1), ∑ j ∈ Finset.range (A.n + 1), ∑ k ∈ Finset.range (A.n + 1),
    if sel i j k then ((LinearMap.mul R (Cl A R)).compl₁₂ (gradePart A R i) (gradePart A R j)).compr₂ (gradePart A R k) else 0

theorem gradedProductₗ_apply (sel : Nat → Nat → Nat → Prop) [∀ i j k, Decidable (sel i j k)] (x y : Cl A R) :
    gradedProductₗ A R sel x y = gradedProduct A R sel x y := by
  simp only [gradedProductₗ, gradedProduct, LinearMap.sum_apply]
  refine Finset.sum_congr rfl fun i _ => Finset.sum_congr rfl fun j _ => Finset.sum_congr rfl fun k _ => ?_
  split_ifs <;> simp

theorem gradedProduct_congr {sel sel' : Nat → Nat → Nat → Prop} [∀ i j k, Decidable (sel i j k)]
    [∀ i j k, Decidable (sel' i j k)] (h : ∀ i j k, sel i j k ↔ sel' i j k) {x y : Cl A R} :
    gradedProduct A R sel x y = gradedProduct A R sel' x y := by
  simp only [gradedProduct]
  refine Finset.sum_congr rfl fun i _ => Finset.sum_congr rfl fun j _ => Finset.sum_congr rfl fun k _ => ?_
  simp only [h i j k]

theorem gradePart_mul_blade (hA : WfAlg A) (k : Nat) {a b : Nat} (ha : a < 2 ^ A.n) (hb : b < 2 ^ A.n) :
    gradePart A R k (blade A R a * blade A R b) = if popcount (a ^^^ b) = k then blade A R a * blade A R b else 0 := by
  rw [blade_mul hA, map_smul, gradePart_blade _ (xor_lt ha hb)]
  split_ifs <;> simp

theorem gradedProduct_blade (hA : WfAlg A) (sel : Nat → Nat → Nat → Prop) [∀ i j k, Decidable (sel i j k)] {a b : Nat}
    (ha : a < 2 ^ A.n) (hb : b < 2 ^ A.n) :
    gradedProduct A R sel (blade A R a) (blade A R b) =
      if sel (popcount a) (popcount b) (popcount (a ^^^ b)) then blade A R a * blade A R b else 0 := by
  have h1 := popcount_le hA.le32 ha
  have h2 := popcount_le hA.le32 hb
  have h3 := popcount_le hA.le32 (xor_lt ha hb)
  rw [gradedProduct, Finset.sum_eq_single (popcount a), Finset.sum_eq_single (popcount b),
    Finset.sum_eq_single (popcount (a ^^^ b))]
  · rw [gradePart_blade _ ha, gradePart_blade _ hb, if_pos rfl, if_pos rfl, gradePart_mul_blade hA _ ha hb, if_pos rfl]
  · intro k _ hk
    rw [gradePart_blade _ ha, gradePart_blade _ hb, if_pos rfl, if_pos rfl, gradePart_mul_blade hA _ ha hb,
      if_neg (Ne.symm hk), ite_self]
  · intro h; exact absurd (Finset.mem_range.2 (by omega)) h
  · intro j _ hj
    rw [gradePart_blade j hb, if_neg (Ne.symm hj)]; simp
  · intro h; exact absurd (Finset.mem_range.2 (by omega)) h
  · intro j _ hj
    rw [gradePart_blade j ha, if_neg (Ne.symm hj)]; simp
  · intro h; exact absurd (Finset.mem_range.2 (by omega)) h

theorem gradedProduct_true (hA : WfAlg A) (x y : Cl A R) : gradedProduct A R (fun _ _ _ => True) x y = x * y := by
  have : gradedProductₗ A R (fun _ _ _ => True) = LinearMap.mul R (Cl A R) := by
    apply lin_ext₂
    intro a ha b hb
    rw [gradedProductₗ_apply, gradedProduct_blade hA _ ha hb]; simp
  rw [← gradedProductₗ_apply, this, LinearMap.mul_apply']

end lin

/-! ### building with a final subspace argument -/

theorem build1_eq (k : Tensor Int) (a : Arg Int) (O : SubSpace) :
    Operator.build k [a, .sub O] = (⟨k, [a.subspace, O]⟩ : Operator Int).build_ [a] := by
  rw [Operator.build, show [a, Arg.sub O] = [a] ++ [Arg.sub O] from rfl, build_sub_last]; rfl

/-! ### diagonal operators -/

theorem diagonal_sem {v : Arg Int} {I : List SubSpace} {C : Cond A} {F : Fn A} (hv : ArgSem A v I C F) (f : Nat → Int)
    (L : ∀ (R : Type) [CommRing R], Cl A R →ₗ[R] Cl A R)
    (hL : ∀ (R : Type) [CommRing R], ∀ b ∈ v.subspace.blades, L R (blade A R b) = (f b : R) • blade A R b) :
    Sem A (diagonal v (v.subspace.blades.map f)) I C (fun R _ ds => L R (F R ds)) := by
  have hS := args_ins_subspace hv.1
  set B : Operator Int := ⟨diagKernel (v.subspace.blades.map f), [v.subspace, v.subspace]⟩ with hB
  have hwf : WfOp A B := ⟨by simp [hB], by simp [hB, diagKernel], by simpa [hB] using hS⟩
  rw [diagonal, build1_eq]
  refine Sem.build1 hwf (O := v.subspace) rfl (FB := fun R _ ds => L R (ds.headD 0)) ?_ hv
  apply computes_unary hwf (S := v.subspace) (O := v.subspace) rfl
  intro R _ i hi
  rw [hL R _ (getD_mem hi)]
  apply term_single R (op := B) hS (getD_mem hi)
  intro o ho
  change o < v.subspace.blades.length at ho
  change (if i = o then (v.subspace.blades.map f).getD i 0 else 0) =
    if v.subspace.blades.getD o 0 = v.subspace.blades.getD i 0 then _ else _
  have : (v.subspace.blades.map f).getD i 0 = f (v.subspace.blades.getD i 0) := by
    rw [getD_lt _ _ (by simpa using hi), getD_lt _ _ hi]; simp
  rw [this]
  congr 1
  rw [eq_iff_iff]
  constructor
  · rintro rfl; rfl
  · intro h; rw [← idxOf_getD hS hi, ← h, idxOf_getD hS ho]

theorem parity_cast (R : Type) [CommRing R] (k : Nat) : ((parityToSign (k : Int) : Int) : R) = (-1) ^ k := by
  rw [parityToSign_eq _ k rfl]; simp

theorem reverse_sem (hA : WfAlg A) {v : Arg Int} {I : List SubSpace} {C : Cond A} {F : Fn A} (hv : ArgSem A v I C F) :
    Sem A (Factory.reverse A v) I C (fun R _ ds => CliffordAlgebra.reverse (F R ds)) := by
  refine diagonal_sem hv _ (fun R _ => CliffordAlgebra.reverse) ?_
  intro R _ b hb
  have hb' := (args_ins_subspace hv.1).lt b hb
  rw [reverse_blade, parity_cast, grade_eq hA hb']

theorem involute_sem (hA : WfAlg A) {v : Arg Int} {I : List SubSpace} {C : Cond A} {F : Fn A} (hv : ArgSem A v I C F) :
    Sem A (Factory.involute A v) I C (fun R _ ds => CliffordAlgebra.involute (F R ds)) := by
  refine diagonal_sem hv _ (fun R _ => CliffordAlgebra.involute.toLinearMap) ?_
  intro R _ b hb
  have hb' := (args_ins_subspace hv.1).lt b hb
  rw [AlgHom.toLinearMap_apply, involute_blade, Alg.involuteSign, parity_cast, grade_eq hA hb']

theorem conjugate_sem (hA : WfAlg A) {v : Arg Int} {I : List SubSpace} {C : Cond A} {F : Fn A} (hv : ArgSem A v I C F) :
    Sem A (Factory.conjugate A v) I C (fun R _ ds => CliffordAlgebra.involute (CliffordAlgebra.reverse (F R ds))) :=
  (reverse_sem hA hv).bind_arg fun _ _ h => involute_sem hA h

/-! ### products -/

theorem full_spec (hA : WfAlg A) : ∃ S, A.full = some S ∧ WfSub A S ∧ ∀ b, b ∈ S.blades ↔ b < 2 ^ A.n := by
  obtain ⟨S, h1, h2, h3⟩ := full_isSpace hA
  exact ⟨S, h1, h2, by simpa using h3⟩

theorem grades_getD {S : SubSpace} (hA : WfAlg A) (hS : WfSub A S) {i : Nat} (hi : i < S.blades.length) :
    (S.grades A).getD i 0 = popcount (S.blades.getD i 0) := by
  rw [SubSpace.grades, getD_lt _ _ (by simpa using hi), getD_lt _ _ hi, List.getElem_map, grade_popcount hA]
  exact hS.lt _ (List.getElem_mem _)

/-- The two stages of `make_product` before binding: they exist and compute the graded product. -/
theorem gradeSelected_sem (hA : WfAlg A) {l r : SubSpace} (hl : WfSub A l) (hr : WfSub A r) (formula : Int → Int → Int → Bool) :
    ∃ raw g O, rawProduct A l r = some raw ∧
      raw.gradeSelection A (fun gs => formula (gs.getD 0 0) (gs.getD 1 0) (gs.getD 2 0)) = some g ∧
      WfOp A g ∧ g.axes = [l, r, O] ∧
      Computes A g (Cond.triv A) (fun R _ ds => gradedProduct A R (fun i j k => formula i j k = true) (ds.getD 0 0) (ds.getD 1 0)) := by
  obtain ⟨o, ho1, ho2, ho3⟩ := full_spec hA
  let cay : List Nat → Nat := fun idx => (A.product (l.blades.getD (idx.getD 0 0) 0) (r.blades.getD (idx.getD 1 0) 0)).1
  let sg : List Nat → Int := fun idx => (A.product (l.blades.getD (idx.getD 0 0) 0) (r.blades.getD (idx.getD 1 0) 0)).2
  have hprod : ∀ i < l.blades.length, ∀ j < r.blades.length,
      A.product (l.blades.getD i 0) (r.blades.getD j 0) =
        (l.blades.getD i 0 ^^^ r.blades.getD j 0, sgn A (l.blades.getD i 0) (r.blades.getD j 0)) :=
    fun i hi j hj => product_eq hA (hl.lt _ (getD_mem hi))
  have hcay : ∀ idx, Valid idx ([l, r].map (·.blades.length)) → cay idx ∈ o.blades := by
    intro idx hidx
    cases hidx with
    | cons h1 h =>
      cases h with
      | cons h2 h =>
        cases h
        simp only [cay, List.getD_cons_zero, List.getD_cons_succ]
        rw [hprod _ h1 _ h2, ho3]
        exact xor_lt (hl.lt _ (getD_mem h1)) (hr.lt _ (getD_mem h2))
  obtain ⟨t, t1, t2, t3⟩ := toDense_spec hA (ins := [l, r]) (by simp [hl, hr]) ho2 cay sg hcay
  let raw : Operator Int := ⟨t, [l, r, o]⟩
  have hraw : rawProduct A l r = some raw := by
    rw [rawProduct, ho1]
    simp only [Option.bind_eq_bind, Option.bind_some]
    change (((fromCayley A [l, r] cay sg).toDense [l, r, o]).bind fun k => some (⟨k, [l, r, o]⟩ : Operator Int)) = _
    rw [show [l, r, o] = [l, r] ++ [o] from rfl, t1]; rfl
  let m : Operator Int := ⟨{ shape := t.shape
                             get := fun idx => t.get idx * (if formula
                               ((List.zipWith (fun (a : SubSpace) i => ((a.grades A).getD i 0 : Int)) [l, r, o] idx).getD 0 0)
                               ((List.zipWith (fun (a : SubSpace) i => ((a.grades A).getD i 0 : Int)) [l, r, o] idx).getD 1 0)
                               ((List.zipWith (fun (a : SubSpace) i => ((a.grades A).getD i 0 : Int)) [l, r, o] idx).getD 2 0)
                               then 1 else 0) }, [l, r, o]⟩
  have hm : WfOp A m := ⟨by simp [m], t2, by simp [m, hl, hr, ho2]⟩
  have hcomp : Computes A m (Cond.triv A)
      (fun R _ ds => gradedProduct A R (fun i j k => formula i j k = true) (ds.getD 0 0) (ds.getD 1 0)) := by
    have := computes_binary hm (S := l) (T := r) (O := o) rfl
      (fun R _ => gradedProductₗ A R (fun i j k => formula i j k = true)) (by
        intro R _ i hi j hj
        have ha := hl.lt _ (getD_mem hi)
        have hb := hr.lt _ (getD_mem hj)
        rw [gradedProductₗ_apply, gradedProduct_blade hA _ ha hb, blade_mul hA]
        have hval : Valid [i, j] ([l, r].map (·.blades.length)) :=
          List.Forall₂.cons hi (List.Forall₂.cons hj List.Forall₂.nil)
        rw [term_single R (op := m) (s := if formula (popcount (l.blades.getD i 0)) (popcount (r.blades.getD j 0))
            (popcount (l.blades.getD i 0 ^^^ r.blades.getD j 0)) = true then sgn A (l.blades.getD i 0) (r.blades.getD j 0) else 0)
            ho2 (hcay _ hval)]
        · simp only [cay, List.getD_cons_zero, List.getD_cons_succ]
          rw [hprod i hi j hj]
          split_ifs <;> simp
        · intro c hc
          change c < o.blades.length at hc
          change t.get ([i, j] ++ [c]) * (if formula ((l.grades A).getD i 0 : Int) ((r.grades A).getD j 0 : Int)
              ((o.grades A).getD c 0 : Int) then 1 else 0) = if o.blades.getD c 0 = cay [i, j] then _ else _
          rw [t3 _ hval c hc, grades_getD hA hl hi, grades_getD hA hr hj, grades_getD hA ho2 hc]
          simp only [cay, sg, List.getD_cons_zero, List.getD_cons_succ]
          rw [hprod i hi j hj]
          simp only
          by_cases h : o.blades.getD c 0 = l.blades.getD i 0 ^^^ r.blades.getD j 0
          · rw [if_pos h, if_pos h, h]; split_ifs <;> simp
          · rw [if_neg h, if_neg h, zero_mul])
    intro R _ xs hx hC
    exact (this R xs hx hC).trans (gradedProductₗ_apply _ _ _)
  obtain ⟨g, g1, g2, g3, _, _, g6⟩ := squeeze_spec hA hm
  refine ⟨raw, g, g.output, hraw, ?_, g2, ?_, ?_⟩
  · rw [Operator.gradeSelection]; exact g1
  · rw [g2.axes_eq, g3]; rfl
  · intro R _ xs hx hC
    rw [g3] at hx hC ⊢
    rw [g6, hcomp R xs hx hC]

theorem makeProduct_sem (hA : WfAlg A) {l r : Arg Int} {I J : List SubSpace} {C D : Cond A} {F G : Fn A}
    (hl : ArgSem A l I C F) (hr : ArgSem A r J D G) (formula : Int → Int → Int → Bool) :
    Sem A (makeProduct A l r formula) (I ++ J) (fun R _ ds => C R (ds.take I.length) ∧ D R (ds.drop I.length))
      (fun R _ ds => gradedProduct A R (fun i j k => formula i j k = true) (F R (ds.take I.length)) (G R (ds.drop I.length))) := by
  obtain ⟨raw, g, O, h1, h2, h3, h4, h5⟩ := gradeSelected_sem hA (args_ins_subspace hl.1) (args_ins_subspace hr.1) formula
  have := (Sem.build2 h3 h4 h5 hl hr).squeeze hA
  rw [makeProduct, h1]
  simp only [Option.bind_eq_bind, Option.bind_some, h2]
  exact this

theorem product_sem (hA : WfAlg A) {l r : Arg Int} {I J : List SubSpace} {C D : Cond A} {F G : Fn A}
    (hl : ArgSem A l I C F) (hr : ArgSem A r J D G) :
    Sem A (product A l r) (I ++ J) (fun R _ ds => C R (ds.take I.length) ∧ D R (ds.drop I.length))
      (fun R _ ds => F R (ds.take I.length) * G R (ds.drop I.length)) := by
  refine (makeProduct_sem hA hl hr fun _ _ _ => true).congr ?_
  intro R _ ds _ hC
  refine ⟨hC, ?_⟩
  rw [← gradedProduct_true hA]
  exact gradedProduct_congr fun _ _ _ => by simp

end Verif
