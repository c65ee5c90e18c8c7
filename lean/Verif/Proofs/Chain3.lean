import Verif.Proofs.Chain2
/-! # The points of the chain -/
namespace Verif
open Model Spec Props Model.Chain

/-- The point at the end of the arm `v` from the origin: the element whose dual is `w + Σ v_i e_i`. -/
noncomputable def Spec.place (A : Alg) {R : Type} [Field R] (v : List R) : Cl A R := rhInv A R (last A R + arm A v)

namespace Spec.Flat
variable {A : Alg} {d : Nat} (h : Flat A d) {R : Type} [Field R] [DecidableEq R]
include h

theorem place_eq {v : List R} (hv : v.length = d) :
    place A v = (hodgeSign A (2 ^ d - 1) : R) • (blade A R (2 ^ d - 1) + arm A v * last A R * blade A R (2 ^ d - 1)) := h.rhInv_place (h.arm_last hv)

theorem grade_place {v : List R} : gradePart A R d (place A v) = place A v := by
  rw [place, rhInv_grade h.wf (k := 1) (by rw [h.n]; omega)]
  congr 1
  rw [map_add, h.last_eq, ← blade_two_pow, gradePart_blade _ (pow_lt h.iw), if_pos (popcount_gen h.wf _), arm, vec_eq_sum, map_sum]
  congr 1
  refine Finset.sum_congr rfl fun i _ => ?_
  rw [map_smul, ← blade_two_pow, gradePart_blade _ (pow_lt i), if_pos (popcount_gen h.wf i)]

theorem arm_add {u v : List R} (hu : u.length = d) (hv : v.length = d) : arm A (List.zipWith (· + ·) u v) = arm A u + arm A v := by
  rw [arm, arm, arm, vec, vec, vec, ← map_add]
  congr 1
  funext i
  simp only [Pi.add_apply, List.getD_eq_getElem?_getD, List.getElem?_zipWith]
  by_cases hi : (i : Nat) < d
  · rw [List.getElem?_eq_getElem (by omega), List.getElem?_eq_getElem (by omega)]; rfl
  · rw [List.getElem?_eq_none (by omega), List.getElem?_eq_none (by omega)]; simp

/-- Moving a point by a translator. -/
theorem move_place (h2 : (2 : R) ≠ 0) {u v : List R} (hu : u.length = d) (hv : v.length = d) :
    (1 + (1 / 2 : R) • (arm A u * last A R)) * place A v * CliffordAlgebra.reverse (1 + (1 / 2 : R) • (arm A u * last A R)) =
      place A (List.zipWith (· + ·) u v) := by
  rw [h.place_eq hv, h.place_eq (by simp [hu, hv]), h.arm_add hu hv]
  have := h.move (u := fun i : Fin A.n => u.getD i 0) (v := fun i : Fin A.n => v.getD i 0) (h.arm_last hu) (h.arm_last hv) h2 (hodgeSign A (2 ^ d - 1) : R)
  rw [show vec A ((fun i : Fin A.n => u.getD i 0) + fun i : Fin A.n => v.getD i 0) = arm A u + arm A v from map_add _ _ _] at this
  exact this

theorem antivector_blade {b : Nat} (hb : b < 2 ^ A.n) (hp : popcount b + 1 = A.n) : ∃ i : Fin A.n, b = 2 ^ (i : Nat) ^^^ A.pss := by
  have hx := popcount_xor b A.pss
  rw [pc_and_pss hb, popcount_of_lt h.wf.le32 (pss_lt A), pc_pss] at hx
  obtain ⟨V, v1, v2⟩ := (C14_named h.wf).2.1
  cases (vector_eq h.wf).symm.trans v1
  have := (v2.2 (b ^^^ A.pss)).2 ⟨xor_lt hb (pss_lt A), by omega⟩
  obtain ⟨i, hi, e⟩ := List.mem_map.1 this
  refine ⟨⟨i, List.mem_range.1 hi⟩, ?_⟩
  show b = 2 ^ i ^^^ A.pss
  have e : 2 ^ i = b ^^^ A.pss := e
  rw [e, Nat.xor_assoc, Nat.xor_self, Nat.xor_zero]

theorem coef_place (v : List R) (hv : v.length = d) (i : Fin A.n) :
    coef A R (2 ^ (i : Nat) ^^^ A.pss) (place A v) = (hodgeSign A (2 ^ (i : Nat) ^^^ A.pss) : R) * (if i = h.iw then 1 else v.getD i 0) := by
  have e : last A R + arm A v = ∑ j : Fin A.n, (if j = h.iw then 1 else v.getD j 0) • gen A R j := by
    rw [arm, vec_eq_sum, ← Finset.add_sum_erase _ _ (Finset.mem_univ h.iw), ← Finset.add_sum_erase (a := h.iw) _ _ (Finset.mem_univ h.iw), if_pos rfl, one_smul,
      ← h.last_eq, show v.getD (h.iw : Nat) 0 = 0 from h.arm_last hv, zero_smul, zero_add]
    congr 1
    refine Finset.sum_congr rfl fun j hj => ?_
    rw [if_neg (Finset.ne_of_mem_erase hj)]
  rw [place, e, map_sum, map_sum, Finset.sum_eq_single i]
  · rw [map_smul, map_smul, rhInv_gen, map_smul, coef_blade A R (xor_lt (pow_lt i) (pss_lt A)), if_pos rfl, smul_eq_mul, smul_eq_mul, mul_one, mul_comm]
  · intro j _ hj
    have hne : ¬ 2 ^ (i : Nat) ^^^ A.pss = 2 ^ (j : Nat) ^^^ A.pss := fun e =>
      hj (Fin.ext (Nat.pow_right_injective (le_refl 2) ((by have := congrArg (· ^^^ A.pss) e; simpa [Nat.xor_assoc] using this)))).symm
    rw [map_smul, map_smul, rhInv_gen, map_smul, coef_blade A R (xor_lt (pow_lt j) (pss_lt A)), if_neg hne, smul_zero, smul_zero]
  · simp

omit h in
theorem hodgeSign_ne (b : Nat) : (hodgeSign A b : R) ≠ 0 := by
  have e := hodgeSign_sq A b
  intro h0
  have := congrArg (Int.cast : Int → R) e
  push_cast at this
  rw [h0] at this
  simp at this

variable (fuel n : Nat) (e : R → R)

/-- The points: layout and value. -/
theorem point_spec (h2 : (2 : R) ≠ 0) {V : SubSpace} (hV : IsSpace A V fun b => popcount b + 1 = A.n) {v : List R} (hv : v.length = d) :
    ∃ p, pointEmbed A fuel e n v = .ok p ∧ WfMV A p ∧ p.sub = V ∧ val A p = place A v := by
  obtain ⟨T, -, hT⟩ := h.translator_spec fuel n e h2
  have wo : WfMV A (⟨⟨[2 ^ d]⟩, [1]⟩ : MV R) := ⟨h.wfPow (by rw [h.n]; omega), rfl⟩
  obtain ⟨q, q1, q2, q3⟩ := un_gives (rightHodgeInverse_un h.wf) wo
  have hq : (⟨⟨[2 ^ d]⟩, [1]⟩ : MV R).dualInverse A = some q := q1
  have hvw : val A (⟨⟨[2 ^ d]⟩, [1]⟩ : MV R) = last A R := by simp [val, denote, last, h.n]
  rw [hvw] at q3
  have qs : q.sub = ⟨[2 ^ d - 1]⟩ := by
    obtain ⟨op, o1, -⟩ := rightHodgeInverse_un h.wf (argSem_sub wo.sub)
    have ho := rightHodgeInverse_output h.wf wo.sub o1
    rw [MV.dualInverse, o1] at hq
    obtain ⟨C, c1, c2⟩ := complement_spec h.wf wo.sub
    have : op.output = C := Option.some.inj (ho.symm.trans c1)
    rw [call_sub hq, this]
    have hE : WfSub A ⟨[2 ^ d - 1]⟩ := ⟨by simpa using h.ltE, by simp⟩
    refine WfSub.ext c2.1 hE fun b => ?_
    rw [c2.2]
    simp only [List.mem_singleton]
    constructor
    · rintro ⟨-, hb⟩
      rw [← h.xorW, ← hb, Nat.xor_assoc, Nat.xor_self, Nat.xor_zero]
    · rintro rfl
      exact ⟨h.ltE, by rw [← h.xorW, Nat.xor_assoc, Nat.xor_self, Nat.xor_zero]⟩
  have hplace0 : rhInv A R (last A R) = place A (List.replicate d (0 : R)) := by
    rw [place, show arm A (List.replicate d (0 : R)) = 0 by
      rw [arm, show (fun i : Fin A.n => (List.replicate d (0 : R)).getD i 0) = 0 by
        funext i; simp [List.getD_eq_getElem?_getD, List.getElem?_replicate]; split <;> rfl]
      exact map_zero _, add_zero]
  have key : ∀ v : List R, v.length = d → ∃ t p, translator A fuel e n v = .ok t ∧ WfMV A t ∧ t.sub = T ∧ t.sandwich A q = some p ∧ WfMV A p ∧ val A p = place A v := by
    intro v hv
    obtain ⟨t, t1, t2, t3, t4⟩ := hT v hv
    obtain ⟨p, p1, p2, p3⟩ := sandwich_gives h.wf t2 q2
    refine ⟨t, p, t1, t2, t3, p1, p2, ?_⟩
    rw [p3, t4, q3, hplace0, h.move_place h2 hv (by simp), qs, show List.zipWith (· + ·) v (List.replicate d (0 : R)) = v by
      clear * - hv
      subst hv; induction v with
      | nil => rfl
      | cons a l ih => simp [List.replicate_succ, ih]]
    rw [← h.grade_place]
    exact gradesOf_gradePart ⟨2 ^ d - 1, by simp, h.popE⟩ _
  obtain ⟨t, p, t1, t2, t3, p1, p2, p3⟩ := key v hv
  refine ⟨p, ?_, p2, ?_, p3⟩
  · rw [pointEmbed, t1, h.origin_eq]
    show (lift ((⟨⟨[2 ^ d]⟩, [1]⟩ : MV R).dualInverse A) >>= _) = _
    rw [hq]
    show lift (t.sandwich A q) = _
    rw [p1, lift_some]
  · refine WfSub.ext p2.sub hV.1 fun b => ⟨fun hb => ?_, fun hb => ?_⟩
    · obtain ⟨a, ha, e⟩ := sandwich_sub h.wf t2 q2 (.inl p1) hb
      rw [qs, List.mem_singleton] at ha
      rw [hV.2]
      exact ⟨p2.sub.lt b hb, by show popcount b + 1 = A.n; rw [← e, ha, h.popE, h.n]⟩
    · obtain ⟨t', p', t1', t2', t3', p1', p2', p3'⟩ := key (List.replicate d 1) (by simp)
      have hs : p.sub = p'.sub := by
        obtain ⟨op, o1, -⟩ := sandwich_sem h.wf (S := T) (V := q.sub) (t3 ▸ t2.sub) q2.sub
        rw [MV.sandwich, t3, o1] at p1
        rw [MV.sandwich, t3', o1] at p1'
        rw [call_sub p1, call_sub p1']
      rw [hs]
      by_contra hn
      have hb' := (hV.2 b).1 hb
      obtain ⟨i, rfl⟩ := h.antivector_blade hb'.1 hb'.2
      have := coeff_eq p2' (2 ^ (i : Nat) ^^^ A.pss)
      rw [coeff_notMem hn, p3', h.coef_place _ (by simp)] at this
      have h1 : (if i = h.iw then (1 : R) else (List.replicate d (1 : R)).getD i 0) = 1 := by
        split
        · rfl
        · rename_i hi
          have hd : (i : Nat) < d := by
            have h1 := i.2
            have h2 : (i : Nat) ≠ d := fun e => hi (Fin.ext e)
            have := h.n
            omega
          simp [List.getD_eq_getElem?_getD, hd]
      rw [h1, mul_one] at this
      exact hodgeSign_ne _ this.symm

end Spec.Flat
end Verif
