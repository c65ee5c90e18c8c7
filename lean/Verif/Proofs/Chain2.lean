import Verif.Proofs.Chain
/-! # The translators and points of the chain -/
namespace Verif
open Model Spec Props Model.Chain

namespace Spec.Flat
variable {A : Alg} {d : Nat} (h : Flat A d) {R : Type} [Field R] [DecidableEq R]
include h

theorem axes_eq : axes A = some ((List.range d).map fun i => (⟨⟨[2 ^ i]⟩, [1]⟩ : MV R)) := by
  rw [axes, basis_eq h.wf, h.n, List.range_succ, List.map_append]
  simp

theorem origin_eq : origin A = some (⟨⟨[2 ^ d]⟩, [1]⟩ : MV R) := by
  rw [origin, basis_eq h.wf, h.n, List.range_succ, List.map_append]
  simp

theorem wfPow {i : Nat} (hi : i < A.n) : WfSub A ⟨[2 ^ i]⟩ :=
  ⟨by simpa using Nat.pow_lt_pow_right (by norm_num : 1 < 2) hi, by simp⟩

omit h in
theorem summation_spec (hA : WfAlg A) : ∀ (l : List Nat) (x : MV R), (∀ i ∈ l, i < A.n) → WfMV A x →
    ∃ z, (l.map fun i => (⟨⟨[2 ^ i]⟩, [1]⟩ : MV R)).foldlM (fun x y => x.add A (.mv y)) x = some z ∧ WfMV A z ∧
      ∀ b, b ∈ z.sub.blades ↔ b ∈ x.sub.blades ∨ ∃ i ∈ l, b = 2 ^ i
  | [], x, _, hx => ⟨x, rfl, hx, by simp⟩
  | i :: l, x, hl, hx => by
    have hi : WfMV A (⟨⟨[2 ^ i]⟩, [1]⟩ : MV R) :=
      ⟨⟨by simpa using Nat.pow_lt_pow_right (by norm_num : 1 < 2) (hl i (by simp)), by simp⟩, rfl⟩
    obtain ⟨U, u1, ⟨y, y1, y2, y3, -⟩, -⟩ := C44_sum hA hx hi
    obtain ⟨U', v1, v2⟩ := union_spec hA hx.sub hi.sub
    cases u1.symm.trans v1
    obtain ⟨z, z1, z2, z3⟩ := summation_spec hA l y (fun j hj => hl j (by simp [hj])) y3
    refine ⟨z, by rw [List.map_cons, List.foldlM_cons, y1]; exact z1, z2, fun b => ?_⟩
    rw [z3, y2, v2.2]
    have hlt : b = 2 ^ i → b < 2 ^ A.n := fun e => e ▸ hi.sub.lt _ (by simp)
    have hlt' : b ∈ x.sub.blades → b < 2 ^ A.n := hx.sub.lt b
    simp only [List.mem_singleton, List.mem_cons, exists_eq_or_imp]
    tauto

/-- The space of the axes. -/
theorem modelSpace_eq : ∃ M, modelSpace A R = some M ∧ M = ⟨(List.range d).map (2 ^ ·)⟩ ∧ WfSub A M := by
  have hw : WfSub A ⟨(List.range d).map (2 ^ ·)⟩ := by
    obtain ⟨V, v1, v2⟩ := (C14_named h.wf).2.1
    cases (vector_eq h.wf).symm.trans v1
    have hs : ((List.range d).map (2 ^ · : Nat → Nat)).Sublist ((List.range A.n).map (2 ^ ·)) := by
      rw [h.n]; exact (List.range_sublist.2 (by omega)).map _
    exact ⟨fun b hb => v2.1.lt b (hs.subset hb), v2.1.sorted.sublist hs⟩
  refine ⟨_, ?_, rfl, hw⟩
  obtain ⟨k, rfl⟩ : ∃ k, d = k + 1 := ⟨d - 1, by have := h.pos; omega⟩
  rw [modelSpace, h.axes_eq]
  simp only [Option.bind_eq_bind, Option.bind_some, List.range_succ_eq_map, List.map_cons]
  obtain ⟨z, z1, z2, z3⟩ := summation_spec h.wf ((List.range k).map Nat.succ) (⟨⟨[2 ^ 0]⟩, [1]⟩ : MV R)
    (fun i hi => by simp at hi; obtain ⟨j, hj, rfl⟩ := hi; rw [h.n]; omega) ⟨h.wfPow (by rw [h.n]; omega), rfl⟩
  rw [List.range_succ_eq_map] at hw
  rw [summation, z1]
  simp only [Option.bind_some, Option.some_inj]
  refine WfSub.ext z2.sub hw fun b => ?_
  rw [z3]
  simp [eq_comm]

theorem val_arm {v : List R} (hv : v.length = d) : val A (⟨⟨(List.range d).map (2 ^ ·)⟩, v⟩ : MV R) = arm A v := by
  rw [val, denote_eq_sum _ _ (by simp [hv]), arm, vec_eq_sum, ← Finset.univ.sum_congr rfl fun (i : Fin A.n) _ => by rw [← blade_two_pow]]
  rw [Fin.sum_univ_eq_sum_range (fun i => v.getD i 0 • blade A R (2 ^ i)) A.n, show Finset.range A.n = Finset.range (d + 1) by rw [h.n], Finset.sum_range_succ,
    show v.getD d 0 = 0 by rw [List.getD_eq_getElem?_getD, List.getElem?_eq_none (by omega)]; rfl, zero_smul, add_zero]
  simp only [List.length_map, List.length_range]
  refine Finset.sum_congr rfl fun i hi => ?_
  rw [Finset.mem_range] at hi
  simp [List.getD_eq_getElem?_getD, hi]

theorem arm_last {v : List R} (hv : v.length = d) : (fun i : Fin A.n => v.getD i 0) h.iw = 0 := by
  show v.getD d 0 = 0
  rw [List.getD_eq_getElem?_getD, List.getElem?_eq_none (by omega)]; rfl

omit h in
theorem exp_add (hA : WfAlg A) (fuel n : Nat) (e : R → R) {b : MV R} (hb : WfMV A b) (hne : b.sub ≠ ⟨[]⟩) (h0 : ∀ a ∈ b.sub.blades, NullBlade A a) :
    b.exp A fuel e n = lift (b.add A (.num 1)) := by
  obtain ⟨⟨r, r1, r2⟩, _⟩ := C61_predicates hA hb.sub
  have e0 : equalsEmpty A b.sub = some false := by
    rw [equalsEmpty, empty_eq hA, Option.bind_eq_bind, Option.bind_some, Option.some_inj, beq_eq_false_iff_ne]; exact hne
  have e1 : equalsScalar A b.sub = some false := by
    rw [equalsScalar, (scalar_eq hA).1, Option.bind_eq_bind, Option.bind_some, Option.some_inj, beq_eq_false_iff_ne]
    intro h
    obtain ⟨i, _, h1, _⟩ := h0 0 (by rw [h]; simp)
    simp at h1
  rw [MV.exp]
  simp only [expOptions, Dispatch.matchLoop, e0, e1, r1, r2.2 h0]

variable (fuel n : Nat) (e : R → R)

/-- The translators: layout and value. -/
theorem translator_spec (h2 : (2 : R) ≠ 0) : ∃ T, (IsSpace A T fun b => b = 0 ∨ ∃ i < d, b = 2 ^ d ||| 2 ^ i) ∧ ∀ v : List R, v.length = d →
    ∃ m, translator A fuel e n v = .ok m ∧ WfMV A m ∧ m.sub = T ∧ val A m = 1 + (1 / 2 : R) • (arm A v * last A R) := by
  obtain ⟨M, m1, rfl, m3⟩ := h.modelSpace_eq (R := R)
  have hW : WfSub A ⟨[2 ^ d]⟩ := h.wfPow (by rw [h.n]; omega)
  obtain ⟨H, k1, k2⟩ := C70_wedge h.wf hW m3
  have hH : ∀ b, b ∈ H.blades ↔ ∃ i < d, b = 2 ^ d ||| 2 ^ i := by
    intro b
    rw [k2.2]
    simp only [List.mem_singleton, exists_eq_left, List.mem_map, List.mem_range, exists_exists_and_eq_and]
    constructor
    · rintro ⟨-, i, hi, -, rfl⟩; exact ⟨i, hi, rfl⟩
    · rintro ⟨i, hi, rfl⟩
      have hl : 2 ^ i < 2 ^ A.n := Nat.pow_lt_pow_right (by norm_num) (by rw [h.n]; omega)
      exact ⟨Nat.or_lt_two_pow h.ltW hl, i, hi, pow_and (by omega), rfl⟩
  obtain ⟨T, t1, t2⟩ := union_spec h.wf k2.1 (scalar_eq h.wf).2
  refine ⟨T, t2.congr fun b hb => ?_, fun v hv => ?_⟩
  · rw [hH]; simp [or_comm]
  have wv : WfMV A (⟨⟨(List.range d).map (2 ^ ·)⟩, v⟩ : MV R) := ⟨m3, by simp [hv]⟩
  have wo : WfMV A (⟨⟨[2 ^ d]⟩, [1]⟩ : MV R) := ⟨hW, rfl⟩
  have wc : WfMV A (⟨⟨[2 ^ d]⟩, [1 / -2]⟩ : MV R) := ⟨hW, rfl⟩
  obtain ⟨z, z1, z2, z3⟩ := wedge_gives h.wf wc wv
  have zs : z.sub = H := by
    rw [SubSpace.wedge] at k1
    rw [MV.wedge] at z1
    cases e1 : Factory.wedge A (.sub ⟨[2 ^ d]⟩) (.sub ⟨(List.range d).map (2 ^ ·)⟩) with
    | none => rw [e1] at k1; cases k1
    | some op => rw [e1] at z1 k1; rw [call_sub z1]; exact Option.some.inj k1
  have hne : z.sub ≠ ⟨[]⟩ := by
    intro e0
    have := (hH (2 ^ d ||| 2 ^ 0)).2 ⟨0, by have := h.pos; omega, rfl⟩
    rw [← zs, e0] at this
    cases this
  have hnull : ∀ a ∈ z.sub.blades, NullBlade A a := by
    intro a ha
    rw [zs, hH] at ha
    obtain ⟨i, -, rfl⟩ := ha
    exact ⟨d, by rw [h.n]; omega, by rw [Nat.testBit_or, Nat.testBit_two_pow_self, Bool.true_or], h.null⟩
  have wone : WfMV A (⟨⟨[0]⟩, [1]⟩ : MV R) := ⟨(scalar_eq h.wf).2, rfl⟩
  obtain ⟨U, u1, ⟨m, p1, p2, p3, p4⟩, -⟩ := C44_sum h.wf z2 wone
  rw [zs] at u1
  cases u1.symm.trans t1
  have hadd : z.add A (.num 1) = some m := by rw [← p1, MV.add, upcast_num h.wf]; rfl
  refine ⟨m, ?_, p3, p2, ?_⟩
  · rw [translator, h.origin_eq, lift_some]
    show (((⟨⟨[2 ^ d]⟩, [1]⟩ : MV R).truediv A fuel (.num (-2))) >>= _) = _
    rw [(C49_scalar h.wf fuel wo (neg_ne_zero.2 h2)).2, m1]
    have hc : MVFactory.multivector A (some v) (some ⟨(List.range d).map (2 ^ ·)⟩) = some (⟨⟨(List.range d).map (2 ^ ·)⟩, v⟩ : MV R) := by
      simp [MVFactory.multivector, MV.construct, hv]
    show (lift (MVFactory.multivector A (some v) (some ⟨(List.range d).map (2 ^ ·)⟩)) >>= _) = _
    rw [hc]
    show (lift ((⟨⟨[2 ^ d]⟩, [1].map (· / -2)⟩ : MV R).wedge A ⟨⟨(List.range d).map (2 ^ ·)⟩, v⟩) >>= _) = _
    rw [List.map_singleton, z1]
    show z.exp A fuel e n = _
    rw [exp_add h.wf fuel n e z2 hne hnull, hadd, lift_some]
  · have hl := h.arm_last hv
    rw [p4, z3, show val A (⟨⟨[0]⟩, [1]⟩ : MV R) = 1 by simp [val, denote, blade_zero], add_comm, h.val_arm hv]
    congr 1
    rw [show val A (⟨⟨[2 ^ d]⟩, [1 / -2]⟩ : MV R) = (1 / -2 : R) • last A R by
      simp [val, denote, last, h.n]]
    rw [wedgeMap, ← gradedProductₗ_apply, map_smul, LinearMap.smul_apply, gradedProductₗ_apply, ← wedgeMap, arm, h.last_eq,
      show gen A R h.iw = vec A (Pi.single h.iw 1) from rfl, wedge_vec h.wf]
    rw [show dot A (Pi.single h.iw 1) (fun i : Fin A.n => v.getD i 0) = 0 from
      Finset.sum_eq_zero fun i _ => by
        by_cases hi : i = h.iw
        · subst hi; exact mul_eq_zero_of_right _ hl
        · rw [Pi.single_eq_of_ne hi, mul_zero, zero_mul], map_zero, sub_zero]
    rw [show vec A (Pi.single h.iw 1) = gen A R h.iw from rfl, ← h.last_eq, h.vec_w hl, smul_neg, div_neg, neg_smul]

end Spec.Flat
end Verif
