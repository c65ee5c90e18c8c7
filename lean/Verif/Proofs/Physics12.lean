import Verif.Proofs.Physics11
import Verif.Proofs.Physics6
import Verif.Props.Derived
/-! # Forques between anchors -/
namespace Verif
open Model Spec Model.Factory Props

variable {A : Alg} {R : Type}

section
variable [Field R] [DecidableEq R]

namespace Live
variable {b : Body R} {ps : List (Cl A R)} {B L : SubSpace} (h : Live A b ps B L)
include h

/-- Every component of a momentum is reached by some point. -/
theorem reach (hA : WfAlg A) {c : Nat} (hc : c ∈ L.blades) : ∃ p x : Cl A R, gradePart A R (A.n - 1) p = p ∧ Within A B x ∧
    gradePart A R (A.n - 1) (comm A R p x) = comm A R p x ∧ coef A R c (meet A R p (comm A R p x)) ≠ 0 := by
  obtain ⟨z, z1, z2, z3⟩ := basis_mv (R := R) h.spaceL.1 hc
  obtain ⟨s, s1, s2, s3, s4⟩ := h.inverse.call z1 z2
  have wS : Within A B (val A s) := ⟨s, s3, s2, rfl⟩
  have e := h.right (val A z) ⟨z, z1, z2, rfl⟩
  rw [← s4, h.map _ wS, z3] at e
  have hne : coef A R c (ps.map fun p => meet A R p (comm A R p (val A s))).sum ≠ 0 := by
    rw [e, coef_blade A R (h.spaceL.1.lt c hc), if_pos rfl]
    exact one_ne_zero
  rw [map_list_sum, List.map_map] at hne
  obtain ⟨p, hp, hne'⟩ : ∃ p ∈ ps, coef A R c (meet A R p (comm A R p (val A s))) ≠ 0 := by
    by_contra hall
    push Not at hall
    refine hne (List.sum_eq_zero fun x hx => ?_)
    obtain ⟨p, hp, rfl⟩ := List.mem_map.1 hx
    exact hall p hp
  refine ⟨p, val A s, h.points p hp, wS, ?_, hne'⟩
  rw [comm_swap hA, map_neg, comm_grade hA (within_grade h.spaceB wS) (h.points p hp)]

/-- The momentum of any point has the components of the momentum of the body. -/
theorem mapOutput (hA : WfAlg A) {V : SubSpace} (hV : IsSpace A V fun b => popcount b + 1 = A.n) {o : Operator Int}
    (ho : Factory.inertia A (.sub V) (.sub B) = some o) : o.output = L := by
  obtain ⟨o', o1, o2⟩ := inertiaMap_unary (R := R) hA hV.1 h.spaceB.1
  cases o1.symm.trans ho
  have hg := inertia_output hA h.two hV.1 h.spaceB.1 (fun a ha => ((hV.2 a).1 ha).2) (fun a ha => ((h.spaceB.2 a).1 ha).2) ho
  obtain ⟨o', o1', hwo, -⟩ := inertia_sem hA hV.1 h.spaceB.1
  cases o1.symm.trans o1'
  refine WfSub.ext hwo.wf_output h.spaceL.1 fun c => ⟨fun hc => (h.spaceL.2 c).2 ⟨hwo.wf_output.lt c hc, hg c hc⟩, fun hc => ?_⟩
  obtain ⟨p, x, p1, x1, -, hne⟩ := h.reach hA hc
  have hV' : IsSpace A V fun b => popcount b = A.n - 1 := hV.congr fun b _ => by have := h.two; omega
  obtain ⟨P, P1, P2, rfl⟩ : Within A V p := by
    refine (within_iff hV.1).2 fun d hd hd' => ?_
    rw [← p1, gradePart_eq_proj, coef_proj, if_neg fun hp => hd' ((hV'.2 d).2 ⟨hd, hp⟩)]
  obtain ⟨q, -, q2, q3⟩ := o2 P P1 P2
  obtain ⟨X, X1, X2, rfl⟩ := x1
  obtain ⟨z, -, z2, z3, z4⟩ := q2.call X1 X2
  rw [← z2]
  exact mem_of_coef z3 (by rwa [z4, q3 _ ⟨X, X1, X2, rfl⟩])

/-- The join of two anchors. -/
theorem join (hA : WfAlg A) {V : SubSpace} (hV : IsSpace A V fun b => popcount b + 1 = A.n) {p q : MV R} (hp : WfMV A p) (hq : WfMV A q)
    (sp : p.sub = V) (sq : q.sub = V) : GivesIn A (p.regressive A q) L (meet A R (val A p) (val A q)) := by
  have hn := h.two
  obtain ⟨z, z1, z2, z3⟩ := regressive_gives hA hp hq
  refine ⟨z, z1, WfSub.ext z2.sub h.spaceL.1 fun c => ⟨fun hc => ?_, fun hc => ?_⟩, z2, by rw [z3, meet_eq]⟩
  · obtain ⟨a, ha, d, hd, e⟩ := regressive_sub hA hp hq z1 hc
    rw [sp, hV.2] at ha
    rw [sq, hV.2] at hd
    exact (h.spaceL.2 c).2 ⟨z2.sub.lt c hc, by omega⟩
  · obtain ⟨u, x, u1, x1, y1, hne⟩ := h.reach hA hc
    have hV' : IsSpace A V fun b => popcount b = A.n - 1 := hV.congr fun b _ => by omega
    have wi : ∀ {p : Cl A R}, gradePart A R (A.n - 1) p = p → Within A V p := fun {p} p1 => by
      refine (within_iff hV.1).2 fun d hd hd' => ?_
      rw [← p1, gradePart_eq_proj, coef_proj, if_neg fun hp => hd' ((hV'.2 d).2 ⟨hd, hp⟩)]
    obtain ⟨P, P1, P2, rfl⟩ := wi u1
    obtain ⟨C, C1, C2, C3⟩ := wi y1
    have g := regressive_gives hA P1 C1
    rw [MV.regressive, P2, C2, ← sp] at g
    nth_rw 2 [sp] at g
    rw [← sq] at g
    rw [C3, ← meet_eq] at g
    exact call_mem z1 g hne

end Live

/-- The norm of a vector. -/
theorem vector_norm (hA : WfAlg A) (h3 : A.n = 3) (h0 : ∃ j < A.n, A.desc.sig.getD j 0 ≠ 0) {rt : Roots R} (hr : RootLaw rt) (fuel : Nat) {L : SubSpace}
    (hL : IsSpace A L fun b => popcount b = 1) {f : MV R} (hf : WfMV A f) (hs : f.sub = L) :
    ∃ c : R, val A f * CliffordAlgebra.reverse (val A f) = c • 1 ∧
      ((∃ d : R, f.norm A rt fuel = .ok ⟨⟨[0]⟩, [d]⟩ ∧ d * d = c ∧ (d = 0 ∨ rt.sqrt c = some d)) ∨ f.norm A rt fuel = .error .nan ∧ rt.sqrt c = none) := by
  obtain ⟨T, t1, t2, t3⟩ := symmetricReverse_sub hA hf.sub
  obtain ⟨⟨sc, sc1, sc2⟩, -, -, -, -, -, -, -, -, -, -, -, ⟨E, e1, e2⟩, -⟩ := id (C14_named hA)
  obtain ⟨T', t1', -, t4⟩ := rev_sub hA hf.sub e2.1 fun a ha c hc _ => by
    have ha' := (hL.2 a).1 (hs ▸ ha)
    have hc' := (hL.2 c).1 (hs ▸ hc)
    refine (e2.2 _).2 ⟨xor_lt ha'.1 hc'.1, ?_⟩
    have := popcount_xor a c
    omega
  cases t1.symm.trans t1'
  have tz : SubOf T ⟨[0]⟩ := fun e he => by
    have h1 := t3 e he
    have h2 : e < 2 ^ A.n ∧ popcount e % 2 = 0 := (e2.2 e).1 (t4 e he)
    have h3' := pc_le A.n e
    rw [popcount_of_lt hA.le32 h2.1] at h2
    have : pc A.n e = 0 := by omega
    rw [pc_eq_zero_iff] at this
    have : e = 0 := Nat.eq_of_testBit_eq fun i => by
      by_cases hi : i < A.n
      · rw [this i hi, Nat.zero_testBit]
      · rw [Nat.zero_testBit, Nat.testBit_lt_two_pow (lt_of_lt_of_le h2.1 (Nat.pow_le_pow_right (by norm_num) (not_lt.1 hi)))]
    simp [this]
  have t0 : T = ⟨[0]⟩ := by
    rcases sub_of_scalar t2 tz with h | h
    · exfalso
      obtain ⟨j, hj, hj0⟩ := h0
      have hb : 2 ^ j ∈ L.blades := (hL.2 _).2 ⟨Nat.pow_lt_pow_right (by norm_num) hj, popcount_two_pow hA hj⟩
      obtain ⟨z, z1, z2, z3⟩ := basis_mv (R := R) hL.1 hb
      obtain ⟨w, -, w2, w3, w4⟩ := symmetricReverse_in hA z1 (show z.sub.symmetricReverse A = some T by rw [z2, ← hs]; exact t1)
      have hm : (0 : Nat) ∈ w.sub.blades := mem_of_coef w3 (by
        rw [w4, z3, show blade A R (2 ^ j) = gen A R ⟨j, hj⟩ from blade_two_pow _ _ ⟨j, hj⟩, gen, CliffordAlgebra.reverse_ι, ← gen, gen_sq, Algebra.algebraMap_eq_smul_one, map_smul, ← blade_zero,
          coef_blade A R (Nat.two_pow_pos _), if_pos rfl, smul_eq_mul, mul_one]
        have hj' : j < A.desc.sig.length := hj
        rw [metric]
        have hmem : A.desc.sig.getD j 0 ∈ A.desc.sig := by
          rw [List.getD_eq_getElem?_getD, List.getElem?_eq_getElem hj']
          exact List.getElem_mem hj'
        rcases hA.sig _ hmem with e | e | e
        · rw [e]; simp
        · rw [e]; simp
        · exact absurd e hj0)
      rw [w2, h] at hm
      cases hm
    · exact h
  subst t0
  have hns : ¬ SubOf f.sub ⟨[0]⟩ := fun hsub => by
    have hb : 2 ^ 0 ∈ L.blades := (hL.2 _).2 ⟨Nat.pow_lt_pow_right (by norm_num) (by omega), by decide⟩
    have := hsub 1 (hs ▸ hb)
    simp at this
  obtain ⟨z, z1, z3, z2, z4⟩ := symmetricReverse_in hA hf t1
  obtain ⟨r, r1, r2⟩ := insideScalar_eq hA f.sub
  have r3 : r = false := by
    cases r with
    | false => rfl
    | true => exact absurd (r2.1 rfl) hns
  have hz := scalar_val z2 z3
  have hsc : Sc z (coeff z 0) := Sc.of z2 (fun e he => z3 ▸ he) hz
  refine ⟨coeff z 0, by rw [← z4, hz], ?_⟩
  have hq : z.squareRoot A rt fuel = z.sqrt rt := by
    rcases sqrt_dispatch hA z2.sub with h | h | h | h
    · rw [MV.squareRoot, h.2]; rfl
    all_goals exact absurd (fun e he => z3 ▸ he) h.1
  have hnorm : f.norm A rt fuel = z.sqrt rt := by
    rw [← hq, MV.norm, r1, r3, MV.normSquared, z1]
    rfl
  rw [hnorm]
  rcases hsc with ⟨hsc, -⟩ | hsc
  · rw [hsc] at z3
    cases z3
  · generalize coeff z 0 = c at hsc
    subst hsc
    cases hc : rt.sqrt c with
    | none => exact Or.inr ⟨by simp [MV.sqrt, MV.sqrtVal, hc, bind, Except.bind], rfl⟩
    | some d =>
      refine Or.inl ⟨d, ?_, hr _ _ hc, Or.inr rfl⟩
      simp [MV.sqrt, MV.sqrtVal, hc, bind, Except.bind, pure, Except.pure, MV.copy, MV.construct, lift_some]

/-- The steps that a forque causes: the end of `apply_indexed` and `v_apply_indexed`. -/
def impulse (A : Alg) (rt : Roots R) (fuel : Nat) (tiny : R) (forque m0 m1 : MV R) (inv0 inv1 : Operator R) (comp : Except Fail (MV R)) :
    Except Fail (MV R × MV R) := do
  let magnitude ← forque.norm A rt fuel
  let direction ← forque.truediv A fuel (.mv (← lift (magnitude.add A (.num tiny))))
  Constraint.distributeForque A fuel (← lift (m0.reverseSandwich A direction)) (← lift (m1.reverseSandwich A direction)) magnitude inv0 inv1 (← comp)

theorem applyIndexed_eq (rt : Roots R) (fuel : Nat) (tiny : R) (c : Constraint R) (m0 m1 : MV R) (inv0 inv1 : Operator R) (dt : R) :
    Constraint.applyIndexed A rt fuel tiny c m0 m1 inv0 inv1 dt = (do
      let f ← lift (do (← m0.sandwich A c.anchor0).regressive A (← m1.sandwich A c.anchor1))
      let s ← impulse A rt fuel tiny f m0 m1 inv0 inv1 (c.compliance.truediv A fuel (.num (dt ^ 2)))
      .ok (← motorAddStep A rt fuel m0 s.1, ← motorAddStep A rt fuel m1 s.2)) := by
  rw [Constraint.applyIndexed]
  cases m0.sandwich A c.anchor0 with
  | none => rfl
  | some p =>
    cases m1.sandwich A c.anchor1 with
    | none => rfl
    | some q =>
      simp only [impulse, bind_assoc]
      rfl

/-- The velocity of an anchor in the world. -/
def anchorVelocity (A : Alg) (m anchor rate : MV R) : Option (MV R) := do
  m.sandwich A (← einsumCallMV (← anchor.inertiaMap A (← A.bivector)) [rate])

theorem vApplyIndexed_eq (rt : Roots R) (fuel : Nat) (tiny : R) (c : Constraint R) (m0 m1 rate0 rate1 : MV R) (inv0 inv1 : Operator R) {B : SubSpace}
    (hB : A.bivector = some B) (hs : A.scalar = some ⟨[0]⟩) :
    Constraint.vApplyIndexed A rt fuel tiny c m0 m1 rate0 rate1 inv0 inv1 = (do
      let v0 ← lift (anchorVelocity A m0 c.anchor0 rate0)
      let v1 ← lift (anchorVelocity A m1 c.anchor1 rate1)
      let w0 ← lift (MV.mul A ⟨⟨[0]⟩, [1 / 2]⟩ (.mv v0))
      let w1 ← lift (MV.mul A ⟨⟨[0]⟩, [-1 / 2]⟩ (.mv v1))
      let f ← lift (do (← w0.copy (List.zipWith (· + ·) w0.vals w1.vals)).neg)
      let s ← impulse A rt fuel tiny f m0 m1 inv0 inv1 (lift (c.compliance.mul A (.num 0)))
      .ok (← lift (rate0.add A (.mv s.1)), ← lift (rate1.add A (.mv s.2)))) := by
  simp only [Constraint.vApplyIndexed, impulse, anchorVelocity, bind_assoc, hB, hs]
  rfl

end
end Verif
