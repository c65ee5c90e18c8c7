import Verif.Proofs.Physics4
import Mathlib.LinearAlgebra.Matrix.ToLinearEquiv
import Mathlib.LinearAlgebra.Dimension.Constructions
import Mathlib.LinearAlgebra.Dimension.Finite
/-! # When a cloud of points makes a body -/
namespace Verif
open Model Spec Model.Factory Props

variable {A : Alg} {R : Type}

theorem regressive_squeezed' (hA : WfAlg A) {l r : Arg Int} {I J : List SubSpace} {C D : Cond A} {F G : Fn A} (hl : ArgSem A l I C F) (hr : ArgSem A r J D G)
    {op : Operator Int} (h : regressive A l r = some op) : Squeezed A op := by
  have : Sem A ((rightHodge A l).bind fun cl => (rightHodge A r).bind fun cr =>
      (wedge A (.op cl) (.op cr)).bind fun o => rightHodgeInverse A (.op o)) _ _ _ :=
    (rightHodge_un hA hl).bind_arg fun cl _ hcl => (rightHodge_un hA hr).bind_arg fun cr _ hcr =>
      ((wedge_bin hA) hcl hcr).bind_arg fun _ _ ha => rightHodgeInverse_un hA ha
  obtain ⟨q, q1, q2, _⟩ := this
  refine ⟨q, q2, ?_⟩
  have e : (((rightHodge A l).bind fun cl => (rightHodge A r).bind fun cr =>
      (wedge A (.op cl) (.op cr)).bind fun o => rightHodgeInverse A (.op o)).bind fun q => q.squeeze A) = some op := by
    simp only [Option.bind_assoc]
    exact h
  rw [q1, Option.bind_some] at e
  exact e

/-- The momenta of points are antibivectors. -/
theorem inertia_output (hA : WfAlg A) (hn : 2 ≤ A.n) {S B : SubSpace} (hS : WfSub A S) (hB : WfSub A B) (h1 : ∀ a ∈ S.blades, popcount a + 1 = A.n)
    (h2 : ∀ a ∈ B.blades, popcount a = 2) {o : Operator Int} (h : Factory.inertia A (.sub S) (.sub B) = some o) :
    ∀ b ∈ o.output.blades, popcount b + 2 = A.n := by
  rw [Factory.inertia] at h
  simp only [Option.bind_eq_bind, Option.bind_eq_some_iff] at h
  obtain ⟨c, c1, r, r1, h⟩ := h
  have hcs := commutator_sem hA hS hB
  rw [c1] at hcs
  have hc := hcs.arg
  have hsq := regressive_squeezed' hA (argSem_sub hS) hc r1
  obtain ⟨r', r1', r2, r3, r4⟩ := regressive_bin hA (argSem_sub hS) hc
  cases r1.symm.trans r1'
  have r3' : r.inputs = [S, S, B] := r3
  obtain ⟨s, s1, -, -, s4, -⟩ := symmetry_spec hA r2 (axes := [0, 1]) (by simp) (by simp) (by rw [r3']; simp) (T := S) (by rw [r3']; simp)
  cases s1.symm.trans h
  intro b hb
  obtain ⟨k, hk, rfl, -⟩ := s4 b hb
  have hm := getD_mem hk
  have hcomp : Computes A r (Cond.triv A) (fun R _ ds => rhInv A R (gradedProduct A R (fun i j k => i + j = k) (rhMap A R ((ds.take 1).headD 0))
      (rhMap A R (bil A R (halfSign (sgn A) (-1)) (· ^^^ ·) ((ds.drop 1).getD 0 0) ((ds.drop 1).getD 1 0))))) := fun R _ xs hx _ => r4 R xs hx ⟨trivial, trivial⟩
  have hlt := r2.wf_output.lt _ hm
  rw [squeezed_out hA hsq hcomp, r3'] at hm
  obtain ⟨idx, hidx, hnz⟩ := hm
  cases hidx with
  | @cons i _ _ _ e1 h' =>
    cases h' with
    | @cons j _ _ _ e2 h' =>
      cases h' with
      | @cons l _ _ _ e3 h' =>
        cases h'
        have ha := getD_mem e1
        have hb := getD_mem e2
        have hc := getD_mem e3
        change coef A ℤ _ (rhInv A ℤ (wedgeMap A ℤ (rhMap A ℤ (blade A ℤ (S.blades.getD i 0))) (rhMap A ℤ (comm A ℤ (blade A ℤ (S.blades.getD j 0))
          (blade A ℤ (B.blades.getD l 0)))))) ≠ 0 at hnz
        rw [← meet_eq] at hnz
        have g1 := gradePart_blade (R := ℤ) (A.n - 1) (hS.lt _ ha)
        rw [if_pos (by have := h1 _ ha; omega)] at g1
        have g2 := gradePart_blade (R := ℤ) (A.n - 1) (hS.lt _ hb)
        rw [if_pos (by have := h1 _ hb; omega)] at g2
        have g3 := gradePart_blade (R := ℤ) 2 (hB.lt _ hc)
        rw [if_pos (h2 _ hc)] at g3
        have g4 := comm_grade hA g3 g2
        have g5 : gradePart A ℤ (A.n - 1) (comm A ℤ (blade A ℤ (S.blades.getD j 0)) (blade A ℤ (B.blades.getD l 0))) = comm A ℤ (blade A ℤ (S.blades.getD j 0)) (blade A ℤ (B.blades.getD l 0)) := by
          rw [comm_swap hA, map_neg, g4]
        have g6 := meet_grade hA g1 g5 (by omega) (by omega) (l := A.n - 2) (by omega)
        rw [← g6, gradePart_eq_proj, coef_proj] at hnz
        by_contra hne
        apply hnz
        rw [if_neg]
        intro hh
        have : popcount (r.output.blades.getD k 0) = A.n - 2 := by simpa using hh
        omega

section
variable [Field R] [DecidableEq R]

/-- An injective map between spaces of the same dimension has an inverse operator. -/
theorem inverse_exists {o : Operator R} {S T : SubSpace} (h : Unary A o S T) (hT : WfSub A T) (hl : T.blades.length ≤ S.blades.length)
    (hi : ∀ x, Within A S x → opMap A o S T x = 0 → x = 0) : S.blades.length = T.blades.length ∧ ∃ q, o.inverse = some q := by
  have key : ∀ v : Fin S.blades.length → R, Matrix.vecMul v (Matrix.of fun (i : Fin S.blades.length) (j : Fin T.blades.length) => o.kernel.get [i, j]) = 0 → v = 0 := by
    intro v hv
    have hw : WfMV A (⟨S, List.ofFn v⟩ : MV R) := ⟨h.dom, by simp⟩
    have hc : ∀ i : Fin S.blades.length, coef A R (S.blades.getD i 0) (val A (⟨S, List.ofFn v⟩ : MV R)) = v i := by
      intro i
      rw [val, coef_denote_getD h.dom (by simp) i.2]
      rw [List.getD_eq_getElem?_getD, List.getElem?_eq_getElem (by simp)]
      simp
    have h0 : opMap A o S T (val A (⟨S, List.ofFn v⟩ : MV R)) = 0 := by
      rw [within_eq_sum hT (opMap_within hT _)]
      refine Finset.sum_eq_zero fun j hj => ?_
      have hj' := Finset.mem_range.1 hj
      rw [coef_opMap hT _ hj', Finset.sum_range]
      have := congrFun hv ⟨j, hj'⟩
      rw [Matrix.vecMul, dotProduct] at this
      rw [show (∑ i : Fin S.blades.length, o.kernel.get [↑i, j] * coef A R (S.blades.getD i 0) (val A (⟨S, List.ofFn v⟩ : MV R))) = 0 from ?_, zero_smul]
      rw [← this.trans (Pi.zero_apply _)]
      exact Finset.sum_congr rfl fun i _ => by rw [hc, mul_comm]; rfl
    have := hi _ ⟨_, hw, rfl, rfl⟩ h0
    funext i
    rw [← hc, this, map_zero, Pi.zero_apply]
  have hle : S.blades.length ≤ T.blades.length := by
    have := LinearMap.finrank_le_finrank_of_injective (f := Matrix.vecMulLinear (Matrix.of fun (i : Fin S.blades.length) (j : Fin T.blades.length) => o.kernel.get [i, j]))
      ((injective_iff_map_eq_zero _).2 fun v hv => key v hv)
    simpa using this
  have e : S.blades.length = T.blades.length := le_antisymm hle hl
  refine ⟨e, ?_⟩
  have hd : (Matrix.of fun (i j : Fin S.blades.length) => o.kernel.get [(i : Nat), (j : Nat)]).det ≠ 0 := by
    intro hd
    obtain ⟨v, v0, hv⟩ := Matrix.exists_vecMul_eq_zero_iff.2 hd
    refine v0 (key v ?_)
    funext j
    exact congrFun hv ⟨j, by rw [e]; exact j.2⟩
  rw [Operator.inverse, h.axes, numpyInv, h.shape, ← e]
  simp only [if_true]
  rw [if_neg hd]
  exact ⟨_, rfl⟩

/-- Multiplication with a number keeps the subspace. -/
theorem mul_num_in (hA : WfAlg A) {x : MV R} (hx : WfMV A x) (c : R) : ∃ y, x.mul A (.num c) = some y ∧ WfMV A y ∧ y.sub = x.sub := by
  obtain ⟨u1, u2⟩ := upcast_num' hA c
  obtain ⟨y, y1, y2, y3, -⟩ := mul_scalar_in hA hx u2 rfl
  refine ⟨y, ?_, y3, y2⟩
  rw [← y1, MV.mul, MV.mul, u1]
  rfl

/-- There are as many antibivectors as bivectors. -/
theorem compl_length (hA : WfAlg A) {B L : SubSpace} (hB : IsSpace A B fun b => popcount b = 2) (hL : IsSpace A L fun b => popcount b + 2 = A.n) :
    L.blades.length ≤ B.blades.length := by
  have hnd : (L.blades.map (· ^^^ A.pss)).Nodup := by
    refine hL.1.nodup.map fun a b h => ?_
    have : a ^^^ A.pss = b ^^^ A.pss := h
    rw [← xor_xor_pss (A := A) a, this, xor_xor_pss]
  have := (hnd.subperm (l₂ := B.blades) fun b hb => by
    obtain ⟨a, ha, rfl⟩ := List.mem_map.1 hb
    have := (hL.2 a).1 ha
    have e := compl_pop hA this.1
    exact (hB.2 _).2 ⟨xor_lt this.1 (pss_lt A), by omega⟩).length_le
  simpa using this

theorem mapM_total {α β : Type} {f : α → Option β} {l : List α} (h : ∀ x ∈ l, ∃ y, f x = some y) : ∃ l', (l.mapM fun x => lift (f x)) = .ok l' := by
  induction l with
  | nil => exact ⟨[], rfl⟩
  | cons a l ih =>
    obtain ⟨b, hb⟩ := h a (by simp)
    obtain ⟨l', hl⟩ := ih fun x hx => h x (by simp [hx])
    refine ⟨b :: l', ?_⟩
    rw [List.mapM_cons, hl, hb]
    rfl

theorem cloud_sub {S : SubSpace} {rows : List (List R)} {b : Body R} (h : Body.fromPointCloud A S rows = .ok b) : b.firstMoment.sub = S := by
  unfold Body.fromPointCloud at h
  obtain ⟨points, hp, h⟩ := bind_ok h
  obtain ⟨t, ht, h⟩ := bind_ok h
  split at h
  swap
  · cases h
  obtain ⟨fm, hfm, h⟩ := bind_ok h
  obtain ⟨-, rfl⟩ := construct_ok (lift_ok hfm)
  obtain ⟨_, _, h⟩ := bind_ok h
  obtain ⟨_, _, h⟩ := bind_ok h
  obtain ⟨_, _, h⟩ := bind_ok h
  obtain ⟨_, _, h⟩ := bind_ok h
  obtain ⟨_, _, h⟩ := bind_ok h
  obtain ⟨_, _, h⟩ := bind_ok h
  obtain ⟨_, _, h⟩ := bind_ok h
  obtain ⟨_, _, h⟩ := bind_ok h
  obtain ⟨_, _, h⟩ := bind_ok h
  obtain ⟨_, _, h⟩ := bind_ok h
  obtain ⟨_, _, h⟩ := bind_ok h
  obtain ⟨_, _, h⟩ := bind_ok h
  obtain ⟨rfl, -⟩ := init_ok h
  rfl

theorem cloud_total (hA : WfAlg A) (hn : 2 ≤ A.n) {S : SubSpace} (hS : WfSub A S) {rows : List (List R)} (h1 : ∀ a ∈ S.blades, popcount a + 1 = A.n)
    (hr : ∀ r ∈ rows, r.length = S.blades.length)
    (hi : ∀ x : Cl A R, gradePart A R 2 x = x → ((rows.map (denote A R S)).map fun p => meet A R p (comm A R p x)).sum = 0 → x = 0) :
    ∃ b, Body.fromPointCloud A S rows = .ok b := by
  obtain ⟨⟨sc, sc1, sc2⟩, -, hbiv, -, -, -, ⟨V, v1, v2⟩, hant, -, -, -, -, ⟨E, e1, e2⟩, -⟩ := id (C14_named hA)
  obtain ⟨B, b1, b2⟩ := hbiv hn
  obtain ⟨L, l1, l2⟩ := hant hn
  have hVS : V.contains S = true := contains_iff.2 fun a ha => (v2.2 a).2 ⟨hS.lt a ha, h1 a ha⟩
  obtain ⟨points, hp⟩ := mapM_total (f := fun r => MV.construct r S) (l := rows) fun r h => ⟨⟨S, r⟩, by rw [MV.construct, if_pos (hr r h)]⟩
  obtain ⟨-, hpts⟩ := rows_points (mapM_ok hp)
  have hfm : MV.construct (sumRows S.blades.length rows) S = some ⟨S, sumRows S.blades.length rows⟩ := by rw [MV.construct, if_pos (by simp [sumRows])]
  obtain ⟨o, ho, hmap⟩ := inertiaMap_unary (R := R) hA hS b2.1
  obtain ⟨ops, hops⟩ := mapM_total (f := fun p : MV R => p.inertiaMap A B) (l := points) fun p h => by
    rw [hpts] at h
    obtain ⟨r, h', rfl⟩ := List.mem_map.1 h
    obtain ⟨q, q1, -⟩ := hmap ⟨S, r⟩ ⟨hS, hr r h'⟩ rfl
    exact ⟨q, q1⟩
  have hgo := inertia_output hA hn hS b2.1 h1 (fun a ha => ((b2.2 a).1 ha).2) ho
  obtain ⟨o', o1', hwo, -⟩ := inertia_sem hA hS b2.1
  cases ho.symm.trans o1'
  have hU : Unary A (sumOperators [B, o.output] [B.blades.length, o.output.blades.length] ops) B o.output := ⟨rfl, rfl, b2.1, hwo.wf_output⟩
  have hsubL : o.output.blades.Subperm L.blades := hwo.wf_output.nodup.subperm fun b hb => (l2.2 b).2 ⟨hwo.wf_output.lt b hb, hgo b hb⟩
  obtain ⟨hlen, inv, hinv⟩ := inverse_exists hU hwo.wf_output (hsubL.length_le.trans (compl_length hA b2 l2)) fun x hx h0 => by
    refine hi x (within_grade b2 hx) ?_
    rw [opMap_sum] at h0
    have := mapM_ok hops
    rw [hpts] at this
    rw [← ops_maps hS hmap hr hx this]
    exact h0
  have hperm : o.output.blades.Perm L.blades := hsubL.perm_of_length_le (by rw [← hlen]; exact compl_length hA b2 l2)
  obtain rfl : o.output = L := WfSub.ext hwo.wf_output l2.1 fun b => hperm.mem_iff
  obtain ⟨mo, m1, m2, m3⟩ := mul_num_in hA (C45_default (R := R) e2.1).1 1
  obtain ⟨ra, r1, r2, r3⟩ := mul_num_in hA (C45_default (R := R) b2.1).1 1
  obtain ⟨da, d1, d2, d3⟩ := mul_num_in hA (C45_default (R := R) sc2.1).1 1
  obtain ⟨da', d1', d2', d3'⟩ := mul_num_in hA d2 0
  obtain ⟨gr, g1, g2, g3⟩ := mul_num_in hA (C45_default (R := R) v2.1).1 1
  have hinv' := inverse_spec hU hinv
  refine ⟨⟨mo, ra, ⟨S, sumRows S.blades.length rows⟩, sumOperators [B, o.output] [B.blades.length, o.output.blades.length] ops, inv, da', gr⟩, ?_⟩
  simp only [Body.fromPointCloud, hp, v1, hVS, hfm, b1, hops, ho, hinv, e1, m1, r1, sc1, d1, d1', g1, lift_some, bind, Except.bind, Option.bind, if_true, Body.init]
  rw [if_pos]
  have hoi : (sumOperators [B, o.output] [B.blades.length, o.output.blades.length] ops).output = o.output := rfl
  have hoo : inv.output = B := by
    rw [Operator.output, hinv'.1.axes]
    rfl
  have hgV : V.contains gr.sub = true := contains_iff.2 fun a ha => by rw [g3] at ha; exact ha
  simp only [Body.asserts, e1, b1, v1, l1, sc1, bind, Option.bind, hoi, hoo, hgV, m3, r3, d3', d3]
  simp [MV.default]

end

section
variable [Field R] [LinearOrder R] [IsStrictOrderedRing R]

/-- In a space without negative basis vectors, a rate has no momentum if and only if it moves no point. -/
theorem momentum_zero (hA : WfAlg A) (hn : 2 ≤ A.n) (hN : NonNeg A) {ps : List (Cl A R)} (hp : ∀ p ∈ ps, gradePart A R (A.n - 1) p = p) {x : Cl A R}
    (hx : gradePart A R 2 x = x) : (ps.map fun p => meet A R p (comm A R p x)).sum = 0 ↔ ∀ p ∈ ps, meet A R p x * meet A R p x = 0 := by
  classical
  have ex : ∀ p ∈ ps, ∀ y : Cl A R, gradePart A R 2 y = y → ∃ v : Fin A.n → R, meet A R p y = vec A v := fun p h y hy =>
    exists_vec hA (meet_grade hA (hp p h) hy (by omega) hn (by omega))
  have hsum : ∀ y : Cl A R, gradePart A R 2 y = y → ∃ f : Cl A R → Fin A.n → R, (∀ p ∈ ps, meet A R p y = vec A (f p)) := fun y hy =>
    ⟨fun p => if hp : p ∈ ps then (ex p hp y hy).choose else 0, fun p hp => by simp only [hp, dif_pos]; exact (ex p hp y hy).choose_spec⟩
  obtain ⟨u, hu⟩ := hsum x hx
  have pair : ∀ (y : Cl A R) (v : Cl A R → Fin A.n → R), gradePart A R 2 y = y → (∀ p ∈ ps, meet A R p y = vec A (v p)) →
      meet A R (ps.map fun p => meet A R p (comm A R p x)).sum y = (ps.map fun p => dot A (u p) (v p)).sum • 1 := by
    intro y v hy hv
    rw [List.sum_smul, ← LinearMap.flip_apply, map_list_sum, List.map_map, List.map_map]
    refine congrArg List.sum (List.map_congr_left fun p h => ?_)
    rw [Function.comp_apply, Function.comp_apply, LinearMap.flip_apply, inertia_form hA (hp p h) hx hy hn, hu p h, hv p h, inner_vec hA,
      Algebra.algebraMap_eq_smul_one]
  have sq : ∀ p ∈ ps, meet A R p x * meet A R p x = 0 ↔ dot A (u p) (u p) = 0 := by
    intro p h
    rw [hu p h, vec_sq, smul_eq_zero]
    exact ⟨fun e => e.resolve_right (one_ne_zero' A R), Or.inl⟩
  constructor
  · intro h p hm
    have := pair x u hx hu
    rw [h, map_zero, LinearMap.zero_apply] at this
    have h0 : (ps.map fun p => dot A (u p) (u p)).sum = 0 := (smul_eq_zero.1 this.symm).resolve_right (one_ne_zero' A R)
    have h1 := List.single_le_sum (l := ps.map fun p => dot A (u p) (u p)) (fun x hx => by
      obtain ⟨p, -, rfl⟩ := List.mem_map.1 hx
      exact hN.dot_nonneg _) _ (List.mem_map_of_mem hm)
    rw [h0] at h1
    exact (sq p hm).2 (le_antisymm h1 (hN.dot_nonneg _))
  · intro h
    have hg : gradePart A R (A.n - 2) (ps.map fun p => meet A R p (comm A R p x)).sum = (ps.map fun p => meet A R p (comm A R p x)).sum := by
      rw [map_list_sum, List.map_map]
      refine congrArg List.sum (List.map_congr_left fun p hm => ?_)
      have g5 : gradePart A R (A.n - 1) (comm A R p x) = comm A R p x := by
        rw [comm_swap hA, map_neg, comm_grade hA hx (hp p hm)]
      exact meet_grade hA (hp p hm) g5 (by omega) (by omega) (by omega)
    refine pairing_ext hA hn hg fun y hy => ?_
    obtain ⟨v, hv⟩ := hsum y hy
    rw [pair y v hy hv, List.sum_eq_zero, zero_smul]
    intro x hx
    obtain ⟨p, hm, rfl⟩ := List.mem_map.1 hx
    exact hN.dot_zero ((sq p hm).1 (h p hm)) _

end
end Verif
