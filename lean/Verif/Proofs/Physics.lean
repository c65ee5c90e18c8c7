import Verif.Model.Physics
import Verif.Proofs.Momentum2
import Verif.Proofs.Polar
import Mathlib.LinearAlgebra.Matrix.Adjugate
import Mathlib.Algebra.BigOperators.Field
import Mathlib.Tactic.FieldSimp
/-! # Inertia maps as linear maps -/
namespace Verif
open Model Spec Model.Factory Props

variable {A : Alg} {R : Type}

/-- A unary operator between two subspaces. -/
structure Unary [CommRing R] (A : Alg) (o : Operator R) (S T : SubSpace) : Prop where
  axes : o.axes = [S, T]
  shape : o.kernel.shape = [S.blades.length, T.blades.length]
  dom : WfSub A S
  cod : WfSub A T

/-- The linear map of a unary operator. -/
noncomputable def opMap [CommRing R] (A : Alg) (o : Operator R) (S T : SubSpace) : Cl A R →ₗ[R] Cl A R :=
  ∑ i ∈ Finset.range S.blades.length, ∑ j ∈ Finset.range T.blades.length,
    (coef A R (S.blades.getD i 0)).smulRight (o.kernel.get [i, j] • blade A R (T.blades.getD j 0))

section
variable [CommRing R]

theorem opMap_apply (o : Operator R) (S T : SubSpace) (x : Cl A R) : opMap A o S T x =
    ∑ j ∈ Finset.range T.blades.length, (∑ i ∈ Finset.range S.blades.length, o.kernel.get [i, j] * coef A R (S.blades.getD i 0) x) •
      blade A R (T.blades.getD j 0) := by
  rw [opMap, Finset.sum_comm, LinearMap.sum_apply]
  refine Finset.sum_congr rfl fun j _ => ?_
  rw [LinearMap.sum_apply, Finset.sum_smul]
  refine Finset.sum_congr rfl fun i _ => ?_
  rw [LinearMap.smulRight_apply, smul_smul, mul_comm]

theorem Unary.wf {o : Operator R} {S T : SubSpace} (h : Unary A o S T) : WfOp A o :=
  ⟨by rw [h.axes]; simp, by rw [h.shape, h.axes]; rfl, by rw [h.axes]; rintro U hU; simp at hU; rcases hU with rfl | rfl; exacts [h.dom, h.cod]⟩

theorem Unary.output {o : Operator R} {S T : SubSpace} (h : Unary A o S T) : o.output = T := by rw [Operator.output, h.axes]; rfl

/-- Calling a unary operator applies its linear map. -/
theorem Unary.call {o : Operator R} {S T : SubSpace} (h : Unary A o S T) {x : MV R} (hx : WfMV A x) (hs : x.sub = S) :
    GivesIn A (einsumCallMV o [x]) T (opMap A o S T (val A x)) := by
  have hi : o.inputs = [S] := by rw [Operator.inputs, h.axes]; rfl
  have ha : o.arity = 1 := by rw [Operator.arity, hi]; rfl
  have hf : [x.vals].map (·.length) = o.inputs.map (·.blades.length) := by rw [hi]; simp [hx.len, hs]
  have hT : o.kernel.shape.getLastD 0 = T.blades.length := by rw [h.shape]; rfl
  have e : einsumCallMV o [x] = some ⟨T, o.eval [x.vals]⟩ := by
    rw [einsumCallMV, List.map_singleton, einsumCall_eq h.wf (by omega) (by omega) hf, Option.bind_eq_bind, Option.bind_some, MV.construct, h.output,
      if_pos (by rw [Operator.eval, hT]; simp)]
  have hl : (o.eval [x.vals]).length = T.blades.length := by rw [Operator.eval, hT]; simp
  refine ⟨_, e, rfl, ⟨h.cod, hl⟩, ?_⟩
  rw [val, denote_eq_sum _ _ hl, opMap_apply]
  refine Finset.sum_congr rfl fun j hj => ?_
  congr 1
  rw [Operator.eval, hT, List.getD_eq_getElem?_getD, List.getElem?_map, List.getElem?_range (Finset.mem_range.1 hj)]
  simp only [Option.map_some, Option.getD_some]
  rw [Operator.evalAt, h.shape, ← sumIdx, List.dropLast_cons₂, List.dropLast_singleton, sumIdx_single]
  refine Finset.sum_congr rfl fun i hi => ?_
  subst hs
  rw [val, coef_denote_getD hx.sub hx.len (Finset.mem_range.1 hi)]
  simp [prodAt]

theorem opMap_within {o : Operator R} {S T : SubSpace} (hT : WfSub A T) (x : Cl A R) : Within A T (opMap A o S T x) := by
  rw [opMap_apply]
  refine within_sum hT _ fun j hj => (within_blade hT ?_).smul hT _
  have := Finset.mem_range.1 hj
  rw [List.getD_eq_getElem?_getD, List.getElem?_eq_getElem this]; exact List.getElem_mem _

theorem opMap_ext {o : Operator R} {S T : SubSpace} (hS : WfSub A S) {L : Cl A R → Cl A R} (h : ∀ x : MV R, WfMV A x → x.sub = S → opMap A o S T (val A x) = L (val A x))
    {x : Cl A R} (hx : Within A S x) : opMap A o S T x = L x := by
  obtain ⟨z, z1, z2, rfl⟩ := hx
  exact h z z1 z2

theorem opMap_sum {S T : SubSpace} {ops : List (Operator R)} {axes : List SubSpace} {shape : List Nat} (x : Cl A R) :
    opMap A (sumOperators axes shape ops) S T x = (ops.map fun o => opMap A o S T x).sum := by
  induction ops with
  | nil => rw [opMap_apply]; simp [sumOperators]
  | cons o ops ih =>
    rw [List.map_cons, List.sum_cons, ← ih, opMap_apply, opMap_apply, opMap_apply, ← Finset.sum_add_distrib]
    refine Finset.sum_congr rfl fun j _ => ?_
    rw [← add_smul, ← Finset.sum_add_distrib]
    congr 1
    refine Finset.sum_congr rfl fun i _ => ?_
    simp only [sumOperators, List.map_cons, List.sum_cons]
    ring

theorem coef_opMap {o : Operator R} {S T : SubSpace} (hT : WfSub A T) (x : Cl A R) {j : Nat} (hj : j < T.blades.length) :
    coef A R (T.blades.getD j 0) (opMap A o S T x) = ∑ i ∈ Finset.range S.blades.length, o.kernel.get [i, j] * coef A R (S.blades.getD i 0) x := by
  rw [opMap_apply, map_sum, Finset.sum_eq_single j]
  · rw [map_smul, coef_blade A R, if_pos rfl, smul_eq_mul, mul_one]
    rw [List.getD_eq_getElem?_getD, List.getElem?_eq_getElem hj]; exact hT.lt _ (List.getElem_mem _)
  · intro k hk hkj
    have hk' := Finset.mem_range.1 hk
    simp only [List.getD_eq_getElem?_getD, List.getElem?_eq_getElem hj, List.getElem?_eq_getElem hk', Option.getD_some]
    rw [map_smul, coef_blade A R (hT.lt _ (List.getElem_mem _)), if_neg, smul_zero]
    intro he
    exact hkj ((List.Nodup.getElem_inj_iff hT.nodup).1 he.symm)
  · intro h; exact absurd (Finset.mem_range.2 hj) h

theorem within_eq_sum {S : SubSpace} (hS : WfSub A S) {x : Cl A R} (hx : Within A S x) :
    x = ∑ k ∈ Finset.range S.blades.length, coef A R (S.blades.getD k 0) x • blade A R (S.blades.getD k 0) := by
  obtain ⟨z, z1, z2, rfl⟩ := hx
  subst z2
  conv_lhs => rw [val, denote_eq_sum _ _ z1.len]
  refine Finset.sum_congr rfl fun k hk => ?_
  rw [val, coef_denote_getD z1.sub z1.len (Finset.mem_range.1 hk)]

end

section
variable [Field R] [DecidableEq R]

/-- The inverse operator is the inverse linear map. -/
theorem inverse_spec {o q : Operator R} {S T : SubSpace} (h : Unary A o S T) (hq : o.inverse = some q) :
    Unary A q T S ∧ (∀ x, Within A S x → opMap A q T S (opMap A o S T x) = x) ∧ ∀ y, Within A T y → opMap A o S T (opMap A q T S y) = y := by
  rw [Operator.inverse, h.axes] at hq
  simp only [Option.map_eq_some_iff] at hq
  obtain ⟨k, hk, rfl⟩ := hq
  rw [numpyInv, h.shape] at hk
  simp only at hk
  split at hk
  swap
  · cases hk
  rename_i hn
  split at hk
  · cases hk
  rename_i hd
  set M : Matrix (Fin S.blades.length) (Fin S.blades.length) R := Matrix.of fun i j => o.kernel.get [i, j] with hM
  cases hk
  have m1 : M * M.adjugate = M.det • 1 := Matrix.mul_adjugate M
  have m2 : M.adjugate * M = M.det • 1 := Matrix.adjugate_mul M
  set K : List Nat → R := fun idx => if h : idx.getD 0 0 < S.blades.length ∧ idx.getD 1 0 < S.blades.length then M.adjugate ⟨_, h.1⟩ ⟨_, h.2⟩ / M.det else 0 with hK
  have hKe : ∀ i j : Fin S.blades.length, K [i, j] = M.adjugate i j / M.det := by
    intro i j
    simp only [hK, List.getD_cons_zero, List.getD_cons_succ]
    rw [dif_pos ⟨i.2, j.2⟩]
  have s1 : ∀ i k : Fin S.blades.length, ∑ j : Fin S.blades.length, o.kernel.get [i, j] * K [j, k] = if i = k then 1 else 0 := by
    intro i k
    have := congrFun (congrFun m1 i) k
    rw [Matrix.mul_apply, Matrix.smul_apply, Matrix.one_apply, smul_eq_mul] at this
    calc _ = (∑ j, M i j * M.adjugate j k) / M.det := by
            rw [Finset.sum_div]; exact Finset.sum_congr rfl fun j _ => by rw [hKe, mul_div_assoc]; rfl
      _ = _ := by rw [this]; split <;> field_simp
  have s2 : ∀ i k : Fin S.blades.length, ∑ j : Fin S.blades.length, K [i, j] * o.kernel.get [j, k] = if i = k then 1 else 0 := by
    intro i k
    have := congrFun (congrFun m2 i) k
    rw [Matrix.mul_apply, Matrix.smul_apply, Matrix.one_apply, smul_eq_mul] at this
    calc _ = (∑ j, M.adjugate i j * M j k) / M.det := by
            rw [Finset.sum_div]; exact Finset.sum_congr rfl fun j _ => by rw [hKe, div_mul_eq_mul_div]; rfl
      _ = _ := by rw [this]; split <;> field_simp
  have key : ∀ (U V : SubSpace) (P Q : List Nat → R) (hU : WfSub A U) (hV : WfSub A V) (_ : U.blades.length = S.blades.length) (_ : V.blades.length = S.blades.length)
      (_ : ∀ i k : Fin S.blades.length, ∑ j : Fin S.blades.length, P [i, j] * Q [j, k] = if i = k then 1 else 0)
      (a b : List SubSpace) (sa sb : List Nat) (x : Cl A R) (_ : Within A U x), opMap A (⟨⟨sb, Q⟩, b⟩ : Operator R) V U (opMap A (⟨⟨sa, P⟩, a⟩ : Operator R) U V x) = x := by
    intro U V P Q hU hV lU lV hPQ a b sa sb x hx
    conv_rhs => rw [within_eq_sum hU hx]
    rw [opMap_apply]
    refine Finset.sum_congr rfl fun k hk => ?_
    congr 1
    have hk := Finset.mem_range.1 hk
    have : ∀ j ∈ Finset.range V.blades.length, Q [j, k] * coef A R (V.blades.getD j 0) (opMap A (⟨⟨sa, P⟩, a⟩ : Operator R) U V x) =
        ∑ i ∈ Finset.range U.blades.length, P [i, j] * Q [j, k] * coef A R (U.blades.getD i 0) x := by
      intro j hj
      rw [coef_opMap hV x (Finset.mem_range.1 hj), Finset.mul_sum]
      exact Finset.sum_congr rfl fun i _ => by simp only; ring
    simp only
    rw [Finset.sum_congr rfl this, Finset.sum_comm]
    simp only [← Finset.sum_mul]
    have e : ∀ i ∈ Finset.range U.blades.length, (∑ j ∈ Finset.range V.blades.length, P [i, j] * Q [j, k]) * coef A R (U.blades.getD i 0) x =
        if i = k then coef A R (U.blades.getD i 0) x else 0 := by
      intro i hi
      have := hPQ ⟨i, by rw [← lU]; exact Finset.mem_range.1 hi⟩ ⟨k, by omega⟩
      rw [lV, Finset.sum_range fun j => P [i, j] * Q [j, k], this]
      simp only [Fin.mk.injEq]
      split <;> simp
    rw [Finset.sum_congr rfl e, Finset.sum_ite_eq' _ k, if_pos (Finset.mem_range.2 hk)]
  refine ⟨⟨rfl, by rw [hn], h.cod, h.dom⟩, fun x hx => ?_, fun y hy => ?_⟩
  · exact key S T o.kernel.get K h.dom h.cod rfl hn.symm s1 o.axes [T, S] o.kernel.shape _ x hx
  · exact key T S K o.kernel.get h.cod h.dom hn.symm rfl s2 [T, S] o.axes _ o.kernel.shape y hy

end
end Verif
