import Verif.Proofs.Chain6
/-! # The set-up of the chain -/
namespace Verif
open Model Spec Props Model.Chain

namespace Spec.Flat
variable {A : Alg} {d : Nat} (h : Flat A d) {R : Type} [Field R] [DecidableEq R]
include h
variable (fuel n : Nat) (e : R → R)

theorem setup_spec (h2 : (2 : R) ≠ 0) {V H : SubSpace} (v1 : A.antivector = some V) (hV : IsSpace A V fun b => popcount b + 1 = A.n)
    (hH : horizon A R = some H) (hH' : IsSpace A H fun b => ∃ i < d, b = 2 ^ d ||| 2 ^ i) (fixing : Bool) (nB : Nat) (compliance distance size damping : R) :
    ∃ rows : List (List R), (∀ r ∈ rows, r.length = V.blades.length) ∧ rows.map (denote A R V) = (cube d size).map (place A) ∧
      (∀ r, setupBodies A fuel e n fixing nB compliance distance size damping = .ok r → nB ≠ 0 ∧ ∃ b0, Body.fromPointCloud A V rows = .ok b0) ∧
      ∀ b0, nB ≠ 0 → Body.fromPointCloud A V rows = .ok b0 → ∃ bs c,
        setupBodies A fuel e n fixing nB compliance distance size damping = .ok (bs, chainSets nB (List.replicate (nB - 1) c)) ∧
        (c.init A = .ok c ∧ WfMV A c.anchor0 ∧ WfMV A c.anchor1 ∧ WfMV A c.compliance ∧ val A c.anchor0 = place A (along d (distance / 2)) ∧
          val A c.anchor1 = place A (along d (-distance / 2)) ∧ val A c.compliance = compliance • 1) ∧
        bs.length = nB ∧ ∀ (i : Nat) b, bs[i]? = some b → Hung A d damping (i * distance) b ∧
          if fixing = true ∧ i = 0 then ∃ b', Made A V rows b' ∧ Hung A d damping (i * distance) b' ∧ fix H b' = some b else Made A V rows b := by
  have hn : 2 ≤ A.n := by rw [h.n]; have := h.pos; omega
  obtain ⟨rows, r1, r2, r3, r4⟩ := h.first_spec fuel n e h2 v1 hV size damping
  have hax : ((List.range d).map fun i => (⟨⟨[2 ^ i]⟩, [1]⟩ : MV R)).length = d := by simp
  refine ⟨rows, r1, r2, fun r hr => ?_, fun b0 hnB hb0 => ?_⟩
  · rw [setupBodies, h.axes_eq] at hr
    obtain ⟨_, -, hr⟩ := bind_ok hr
    obtain ⟨b, hb, hr⟩ := bind_ok hr
    obtain ⟨_, -, hr⟩ := bind_ok hr
    obtain ⟨_, -, hr⟩ := bind_ok hr
    obtain ⟨_, -, hr⟩ := bind_ok hr
    refine ⟨?_, r3 b hb⟩
    rintro rfl
    rw [if_pos rfl] at hr
    cases hr
  obtain ⟨b, hb, hm, b1, b2, b3, b4, b5⟩ := r4 b0 hb0
  have key := fun i : Nat => h.place_body fuel n e h2 v1 hV hm b1 b2 b3 b4 b5 (i * distance)
  choose qf cf k1 k2 k3 k4 using key
  obtain ⟨a0, a01, a02, a03, a04⟩ := h.point_spec fuel n e h2 hV (h.along_length (distance / 2))
  obtain ⟨a1, a11, a12, a13, a14⟩ := h.point_spec fuel n e h2 hV (h.along_length (-distance / 2))
  have wone : WfMV A (⟨⟨[0]⟩, [1]⟩ : MV R) := ⟨(scalar_eq h.wf).2, rfl⟩
  obtain ⟨cp, p1, p2, p3, p4⟩ := num_in h.wf wone compliance
  have hq : ((List.range nB).mapM fun i : Nat => translator A fuel e n (along d (i * distance))) = .ok ((List.range nB).map qf) := by
    rw [mapM_iff, List.forall₂_map_right_iff, List.forall₂_same]
    exact fun i _ => k1 i
  have htake : takeBodies A [b] (List.replicate nB 0) = .ok (List.replicate nB b) := by
    rw [C99_take (by intro x hx; rw [List.mem_singleton.1 hx]; exact hm.sound h.wf hn hV.1)]
    clear hq hnB
    induction nB with
    | zero => exact .nil
    | succ k ih => exact .cons ⟨0, by simp [pyIndex], rfl⟩ ih
  have hz : List.zip (List.replicate nB b) ((List.range nB).map qf) = (List.range nB).map fun i => (b, qf i) := by
    refine List.ext_getElem? fun i => ?_
    by_cases hi : i < nB
    · simp [hi]
    · rw [List.getElem?_eq_none (by simpa using hi), List.getElem?_eq_none (by simpa using hi)]
  have hput : ((List.range nB).map fun i => (b, qf i)).mapM (fun x => do x.1.copy A (some (← lift (x.1.motor.mul A (.mv x.2)))) none none none) =
      .ok ((List.range nB).map cf) := by
    rw [mapM_iff, List.forall₂_map_right_iff, List.forall₂_map_left_iff, List.forall₂_same]
    exact fun i _ => k2 i
  have hinit : Constraint.init A ⟨a0, a1, cp⟩ = .ok (⟨a0, a1, cp⟩ : Constraint R) := by
    rw [Constraint.init, if_pos]
    rw [v1, (scalar_eq h.wf).1]
    simp [a03, a13, p2]
  have hsc : MVFactory.multivector A (some [1]) (some ⟨[0]⟩) = some (⟨⟨[0]⟩, [1]⟩ : MV R) := by
    simp [MVFactory.multivector, MV.construct]
  have hb' : ∀ {α β : Type} (x : α) (f : α → Except Fail β), (Except.ok x >>= f) = f x := fun _ _ => rfl
  refine ⟨if fixing then ((List.range nB).map cf).modifyHead fun b => (fix H b).getD b else (List.range nB).map cf, ⟨a0, a1, cp⟩, ?_,
    ⟨hinit, a02, a12, p3, a04, a14, by rw [p4]; simp [val, denote, blade_zero]⟩, by split <;> simp, fun i b hib => ?_⟩
  · simp only [setupBodies, h.axes_eq, lift_some, hb', hb, hax, hq, htake, hz, hput, if_neg hnB, a01, a11, (scalar_eq h.wf).1, hsc, p1, hinit, hH]
    cases fixing with
    | false => rfl
    | true =>
      obtain ⟨k, rfl⟩ : ∃ k, nB = k + 1 := ⟨nB - 1, by omega⟩
      obtain ⟨⟨B, L, hl⟩, -⟩ := (k3 0).live h.wf hn hV.1
      obtain ⟨c, c1, -⟩ := h.fix_spec hH' hl.spaceB hl.inverse
      simp only [List.range_succ_eq_map, List.map_cons, c1, lift_some, hb', if_true, List.modifyHead_cons, Option.getD_some]
  · cases fixing with
    | false =>
      simp only [Bool.false_eq_true, if_false, false_and] at hib ⊢
      obtain ⟨hi, rfl⟩ : i < nB ∧ cf i = b := by simpa [List.getElem?_eq_some_iff] using hib
      exact ⟨k4 i, k3 i⟩
    | true =>
      obtain ⟨k, rfl⟩ : ∃ k, nB = k + 1 := ⟨nB - 1, by omega⟩
      obtain ⟨⟨B, L, hl⟩, -⟩ := (k3 0).live h.wf hn hV.1
      obtain ⟨c, c1, c2, -⟩ := h.fix_spec hH' hl.spaceB hl.inverse
      simp only [List.range_succ_eq_map, List.map_cons, c1, if_true, List.modifyHead_cons, Option.getD_some, true_and] at hib ⊢
      cases i with
      | zero =>
        rw [List.getElem?_cons_zero, Option.some_inj] at hib
        subst hib
        have h4 := k4 0
        refine ⟨?_, by rw [if_pos rfl]; exact ⟨cf 0, k3 0, h4, c1⟩⟩
        rw [c2]
        exact ⟨h4.1, h4.2, h4.3, h4.4, h4.5, h4.6, h4.7⟩
      | succ i =>
        rw [List.getElem?_cons_succ] at hib
        rw [if_neg (by omega)]
        obtain ⟨hi, rfl⟩ : i < k ∧ cf (i + 1) = b := by simpa [List.getElem?_eq_some_iff] using hib
        exact ⟨k4 (i + 1), k3 (i + 1)⟩

/-- A motor that is a translation moves points. -/
theorem carry_point (h2 : (2 : R) ≠ 0) {V : SubSpace} (hV : IsSpace A V fun b => popcount b + 1 = A.n) {m p : MV R} {u v : List R} (hm : WfMV A m) (m1 : val A m = trans A u)
    (hp : WfMV A p) (p1 : p.sub = V) (p2 : val A p = place A v) (hu : u.length = d) (hv : v.length = d) :
    Gives A (m.sandwich A p) (place A (List.zipWith (· + ·) u v)) := by
  refine (sandwich_gives h.wf hm hp).congr ?_
  rw [m1, p2, trans, h.move_place h2 hu hv, ← h.grade_place]
  refine gradesOf_gradePart ⟨2 ^ d - 1, ?_, h.popE⟩ _
  rw [p1, hV.2]
  exact ⟨h.ltE, by show popcount _ + 1 = A.n; rw [h.popE, h.n]⟩

theorem trans_unit {u : List R} (hu : u.length = d) : trans A u * CliffordAlgebra.reverse (trans A u) = 1 := by
  have h0 : arm A u * last A R * (arm A u * last A R) = 0 := h.vw_vw (u := fun i : Fin A.n => u.getD i 0) (h.arm_last hu)
  have h1 : CliffordAlgebra.reverse (arm A u * last A R) = -(arm A u * last A R) := h.rev_vw (h.arm_last hu)
  rw [trans, map_add, map_smul, CliffordAlgebra.reverse.map_one, h1]
  simp only [mul_add, add_mul, one_mul, mul_one, smul_mul_assoc, mul_smul_comm, smul_neg, mul_neg, h0, smul_zero, neg_zero, add_zero]
  abel

omit h [DecidableEq R] in
theorem along_add (s t : R) : List.zipWith (· + ·) (along d s) (along d t) = along d (s + t) := by
  rw [along, along, along, List.zipWith_append (by simp)]
  simp

/-- The chain with and without fixing. -/
theorem setup_fix (h2 : (2 : R) ≠ 0) {V H : SubSpace} (v1 : A.antivector = some V) (hV : IsSpace A V fun b => popcount b + 1 = A.n)
    (hH : horizon A R = some H) (hH' : IsSpace A H fun b => ∃ i < d, b = 2 ^ d ||| 2 ^ i) {nB : Nat} {compliance distance size damping : R} {bs : List (Body R)}
    {s0 s1 : List (Link R)} (hs : setupBodies A fuel e n true nB compliance distance size damping = .ok (bs, s0, s1)) :
    ∃ b rest rows, (match fix H b with | some b' => bs = b' :: rest | none => False) ∧
      setupBodies A fuel e n false nB compliance distance size damping = .ok (b :: rest, s0, s1) ∧ Made A V rows b := by
  obtain ⟨rows, -, -, r3, r4⟩ := h.setup_spec fuel n e h2 v1 hV hH hH' false nB compliance distance size damping
  have hok : ∃ bs', setupBodies A fuel e n false nB compliance distance size damping = .ok (bs', s0, s1) ∧
      ∃ b rest b', bs' = b :: rest ∧ fix H b = some b' ∧ bs = b' :: rest := by
    have hb' : ∀ {α β : Type} (x : α) (f : α → Except Fail β), (Except.ok x >>= f) = f x := fun _ _ => rfl
    unfold setupBodies at hs ⊢
    rw [h.axes_eq] at hs ⊢
    obtain ⟨ax, q0, hs⟩ := bind_ok hs
    obtain ⟨b, q1, hs⟩ := bind_ok hs
    obtain ⟨qs, q2, hs⟩ := bind_ok hs
    obtain ⟨bodies, q3, hs⟩ := bind_ok hs
    obtain ⟨bodies', q4, hs⟩ := bind_ok hs
    simp only [q0, hb', q1, q2, q3, q4]
    by_cases hnB : nB = 0
    · rw [if_pos hnB] at hs; cases hs
    rw [if_neg hnB] at hs ⊢
    obtain ⟨x1, y1, hs⟩ := bind_ok hs
    obtain ⟨x2, y2, hs⟩ := bind_ok hs
    obtain ⟨x3, y3, hs⟩ := bind_ok hs
    obtain ⟨x4, y4, hs⟩ := bind_ok hs
    obtain ⟨x5, y5, hs⟩ := bind_ok hs
    obtain ⟨x6, y6, hs⟩ := bind_ok hs
    simp only [y1, y2, y3, y4, y5, y6, hb']
    cases bodies' with
    | nil => cases hs
    | cons b0 rest =>
      simp only [hH, lift_some, hb'] at hs
      obtain ⟨b', z1, hs⟩ := bind_ok hs
      cases hs
      exact ⟨_, rfl, b0, rest, b', rfl, lift_ok z1, rfl⟩
  obtain ⟨bs', e1, b, rest, b', rfl, e2, rfl⟩ := hok
  obtain ⟨hnB, b0, hb0⟩ := r3 _ e1
  obtain ⟨bs', c, q1, -, q3, q4⟩ := r4 b0 hnB hb0
  cases e1.symm.trans q1
  refine ⟨b, rest, rows, by rw [e2], e1, ?_⟩
  have := (q4 0 b rfl).2
  rwa [if_neg (by simp)] at this

end Spec.Flat
end Verif
