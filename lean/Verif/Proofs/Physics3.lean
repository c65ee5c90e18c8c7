import Verif.Proofs.Physics2
import Verif.Proofs.Inverse2
import Verif.Proofs.Conformal
/-! # Subspaces of joins, commutators and sandwiches; values of the methods of bodies -/
namespace Verif
open Model Spec Model.Factory Props

variable {A : Alg} {R : Type}

section
variable [CommRing R]

theorem regressive_squeezed (hA : WfAlg A) {l r : SubSpace} (hl : WfSub A l) (hr : WfSub A r)
    {op : Operator Int} (h : regressive A (.sub l) (.sub r) = some op) : Squeezed A op := by
  have : Sem A ((rightHodge A (.sub l)).bind fun cl => (rightHodge A (.sub r)).bind fun cr =>
      (wedge A (.op cl) (.op cr)).bind fun o => rightHodgeInverse A (.op o)) _ _ _ :=
    (rightHodge_un hA (argSem_sub hl)).bind_arg fun cl _ hcl => (rightHodge_un hA (argSem_sub hr)).bind_arg fun cr _ hcr =>
      ((wedge_bin hA) hcl hcr).bind_arg fun _ _ ha => rightHodgeInverse_un hA ha
  obtain ⟨q, q1, q2, _⟩ := this
  refine ⟨q, q2, ?_⟩
  have e : (((rightHodge A (.sub l)).bind fun cl => (rightHodge A (.sub r)).bind fun cr =>
      (wedge A (.op cl) (.op cr)).bind fun o => rightHodgeInverse A (.op o)).bind fun q => q.squeeze A) = some op := by
    simp only [Option.bind_assoc]
    exact h
  rw [q1, Option.bind_some] at e
  exact e

theorem commutator_squeezed (hA : WfAlg A) {l r : SubSpace} (hl : WfSub A l) (hr : WfSub A r)
    {op : Operator Int} (h : commutator A (.sub l) (.sub r) = some op) : Squeezed A op := by
  rw [Factory.commutator, makeCommutator] at h
  simp only [Option.bind_eq_bind, Option.bind_eq_some_iff] at h
  obtain ⟨a, a1, b, b1, c, c1, d, d1, h⟩ := h
  obtain ⟨a', a1', a2, -⟩ := product_bin hA (argSem_sub hl) (argSem_sub hr)
  cases a1'.symm.trans a1
  refine ⟨_, ?_, h⟩
  rw [Operator.add] at d1
  split at d1
  swap
  · cases d1
  rw [Tensor.add] at d1
  split at d1
  swap
  · cases d1
  cases d1
  exact ⟨a2.ne, a2.shape, a2.sub⟩

/-- The grades of the subspace of a join. -/
theorem regressive_sub (hA : WfAlg A) {x y z : MV R} (hx : WfMV A x) (hy : WfMV A y) (h : x.regressive A y = some z) {b : Nat} (hb : b ∈ z.sub.blades) :
    ∃ a ∈ x.sub.blades, ∃ c ∈ y.sub.blades, popcount a + popcount c = A.n + popcount b := by
  obtain ⟨op, o1, -⟩ := regressive_bin hA (argSem_sub hx.sub) (argSem_sub hy.sub)
  rw [MV.regressive, o1] at h
  rw [call_sub h, bin_output hA (regressive_bin hA) hx.sub hy.sub o1 (regressive_squeezed hA hx.sub hy.sub o1)] at hb
  obtain ⟨a, ha, c, hc, hnz⟩ := hb
  refine ⟨a, ha, c, hc, ?_⟩
  have la := hx.sub.lt a ha
  have lc := hy.sub.lt c hc
  have hP := pss_lt A
  change coef A ℤ b (rhInv A ℤ (wedgeMap A ℤ (rhMap A ℤ (blade A ℤ a)) (rhMap A ℤ (blade A ℤ c)))) ≠ 0 at hnz
  rw [← meet_eq, meet_blade hA la lc] at hnz
  split at hnz
  swap
  · exact absurd (map_zero _) hnz
  rename_i hd
  have lb : a ^^^ c ^^^ A.pss < 2 ^ A.n := xor_lt (xor_lt la lc) hP
  rw [map_smul, coef_blade _ _ lb] at hnz
  split at hnz
  swap
  · exact absurd (smul_zero _) hnz
  rename_i hbe
  have e1 := compl_pop hA la
  have e2 := compl_pop hA lc
  have e3 := compl_pop hA lb
  have e4 := pc_xor A.n (a ^^^ A.pss) (c ^^^ A.pss)
  have e5 : (a ^^^ c ^^^ A.pss) ^^^ A.pss = (a ^^^ A.pss) ^^^ (c ^^^ A.pss) := by
    rw [Nat.xor_assoc (a ^^^ c), Nat.xor_self, Nat.xor_zero, Nat.xor_assoc a, Nat.xor_comm c, ← Nat.xor_assoc A.pss, Nat.xor_self, Nat.zero_xor]
  rw [hd] at e4
  rw [e5] at e3
  have z : pc A.n 0 = 0 := by simp [pc]
  rw [popcount_of_lt hA.le32 (xor_lt la hP)] at e1
  rw [popcount_of_lt hA.le32 (xor_lt lc hP)] at e2
  rw [popcount_of_lt hA.le32 (xor_lt (xor_lt la hP) (xor_lt lc hP))] at e3
  subst hbe
  omega

theorem commutator_sub (hA : WfAlg A) {x y z : MV R} (hx : WfMV A x) (hy : WfMV A y) (h : x.commutator A y = some z) {k : Nat}
    (hk : ∀ a ∈ x.sub.blades, popcount a = k) (h2 : ∀ a ∈ y.sub.blades, popcount a = 2) {b : Nat} (hb : b ∈ z.sub.blades) :
    popcount b = k := by
  obtain ⟨op, o1, o2, o3, o4⟩ := commutator_sem hA hx.sub hy.sub
  rw [MV.commutator, o1] at h
  rw [call_sub h, squeezed_out hA (commutator_squeezed hA hx.sub hy.sub o1) o4, o3] at hb
  obtain ⟨idx, hidx, hnz⟩ := hb
  cases hidx with
  | @cons i _ _ _ h1 h' =>
    cases h' with
    | @cons j _ _ _ h2' h' =>
      cases h'
      have ha := getD_mem h1
      have hc := getD_mem h2'
      change coef A ℤ b (comm A ℤ (blade A ℤ (x.sub.blades.getD i 0)) (blade A ℤ (y.sub.blades.getD j 0))) ≠ 0 at hnz
      have g1 := gradePart_blade (R := ℤ) k (hx.sub.lt _ ha)
      rw [if_pos (hk _ ha)] at g1
      have g2 := gradePart_blade (R := ℤ) 2 (hy.sub.lt _ hc)
      rw [if_pos (h2 _ hc)] at g2
      have g := comm_grade hA g2 g1
      rw [comm_swap hA, map_neg] at hnz
      rw [comm_blade_cast (hy.sub.lt _ hc) (hx.sub.lt _ ha), map_smul, gradePart_blade _ (xor_lt (hy.sub.lt _ hc) (hx.sub.lt _ ha))] at g
      rw [comm_blade_cast (hy.sub.lt _ hc) (hx.sub.lt _ ha), map_smul, coef_blade _ _ (xor_lt (hy.sub.lt _ hc) (hx.sub.lt _ ha))] at hnz
      by_contra hne
      split at hnz
      swap
      · simp at hnz
      rename_i hbe
      subst hbe
      rw [if_neg hne, smul_zero] at g
      have := congrArg (coef A ℤ (y.sub.blades.getD j 0 ^^^ x.sub.blades.getD i 0)) g
      rw [map_zero, map_smul, coef_blade _ _ (xor_lt (hy.sub.lt _ hc) (hx.sub.lt _ ha)), if_pos rfl] at this
      rw [← this, neg_zero] at hnz
      exact hnz rfl

theorem sandwich_sub (hA : WfAlg A) {x y z : MV R} (hx : WfMV A x) (hy : WfMV A y) (h : x.sandwich A y = some z ∨ x.reverseSandwich A y = some z)
    {b : Nat} (hb : b ∈ z.sub.blades) : ∃ a ∈ y.sub.blades, popcount a = popcount b := by
  rcases h with h | h
  · obtain ⟨s, s1, s2, -⟩ := fullSandwich_sem hA hx.sub hy.sub
    obtain ⟨t, t1, -⟩ := sandwich_sem hA hx.sub hy.sub
    rw [MV.sandwich, t1] at h
    rw [call_sub h] at hb
    exact sandwich_grades hA hy.sub t1 s1 s2 hb
  · obtain ⟨r, r1, r2, r3, r4⟩ := reverse_un hA (argSem_sub hx.sub)
    have ha := Sem.arg (op := r) (ins := [x.sub]) (C := Cond.triv A) (F := fun R _ ds => CliffordAlgebra.reverse (ds.headD 0)) ⟨r, rfl, r2, r3, r4⟩
    obtain ⟨s, s1, s2, -⟩ := fullSandwich_arg hA (L := fun _ _ x => CliffordAlgebra.reverse x) ha hy.sub
    obtain ⟨t, t1, -⟩ := reverseSandwich_sem hA hx.sub hy.sub
    rw [MV.reverseSandwich, t1] at h
    rw [call_sub h] at hb
    rw [Factory.reverseSandwich, r1, Option.bind_eq_bind, Option.bind_some] at t1
    exact sandwich_grades hA hy.sub t1 s1 s2 hb

theorem scalar_val {x : MV R} (hx : WfMV A x) (hs : x.sub = ⟨[0]⟩) : val A x = coeff x 0 • 1 := by
  obtain ⟨S, v⟩ := x
  subst hs
  have hl := hx.len
  obtain ⟨c, rfl⟩ : ∃ c, v = [c] := List.length_eq_one_iff.1 (by simpa using hl)
  simp [val, denote, coeff, blade_zero]

/-- Multiplying by a multivector of the scalar subspace keeps the subspace. -/
theorem mul_scalar_in (hA : WfAlg A) {x y : MV R} (hx : WfMV A x) (hy : WfMV A y) (hs : y.sub = ⟨[0]⟩) :
    GivesIn A (x.mul A (.mv y)) x.sub (coeff y 0 • val A x) := by
  obtain ⟨U, u1, z, z1, z2, z3, z4⟩ := mul_in hA hx hy
  refine ⟨z, z1, ?_, z3, by rw [z4, scalar_val hy hs, mul_smul_comm, mul_one]⟩
  rw [z2]
  refine WfSub.ext u1.1 hx.sub fun b => ?_
  rw [u1.2, hs]
  constructor
  · rintro ⟨-, a, ha, c, hc, rfl, -⟩
    simp only [List.mem_singleton] at hc
    rw [hc, Nat.xor_zero]
    exact ha
  · intro hb
    exact ⟨hx.sub.lt b hb, b, hb, 0, by simp, Nat.xor_zero b, by rw [sgn_disjoint (by simp)]; simp [inv]⟩

theorem dual_in (hA : WfAlg A) {x : MV R} (hx : WfMV A x) {T : SubSpace} (hT : IsSpace A T fun b => b ^^^ A.pss ∈ x.sub.blades) :
    GivesIn A (x.dual A) T (rhMap A R (val A x)) := by
  refine GivesIn.of_call (un_gives (rightHodge_un hA) hx) fun op h => ?_
  obtain ⟨T', t1, t2⟩ := complement_spec hA hx.sub
  cases t1.symm.trans (rightHodge_output hA hx.sub h)
  exact WfSub.ext t2.1 hT.1 fun b => by rw [t2.2, hT.2]

theorem neg_in {x : MV R} (hx : WfMV A x) : GivesIn A x.neg x.sub (- val A x) := by
  refine ⟨⟨x.sub, x.vals.map (- ·)⟩, ?_, rfl, ⟨hx.sub, by simp [hx.len]⟩, denote_neg _⟩
  rw [MV.neg, MV.copy, MV.construct, if_pos (by simp [hx.len])]

theorem add_in (hA : WfAlg A) {x y : MV R} (hx : WfMV A x) (hy : WfMV A y) (h : SubOf y.sub x.sub) :
    GivesIn A (x.add A (.mv y)) x.sub (val A x + val A y) ∧ GivesIn A (x.sub' A (.mv y)) x.sub (val A x - val A y) := by
  obtain ⟨U, u1, u2, u3, -⟩ := C44_sum hA hx hy
  obtain ⟨U', u1', u4⟩ := union_spec hA hx.sub hy.sub
  cases u1.symm.trans u1'
  obtain rfl : x.sub = U := WfSub.ext hx.sub u4.1 fun b => by
    rw [u4.2]
    exact ⟨fun hb => ⟨hx.sub.lt b hb, Or.inl hb⟩, fun hb => hb.2.elim id (h b)⟩
  exact ⟨u2, u3⟩

end

section
variable [Field R] [DecidableEq R]

/-- A body with the inertia of the points `ps` and with well-formed state. -/
structure Live (A : Alg) (b : Body R) (ps : List (Cl A R)) (B L : SubSpace) : Prop extends Rigid A b ps B L where
  motorWf : WfMV A b.motor
  rateWf : WfMV A b.rate
  dampingWf : WfMV A b.damping
  gravityWf : WfMV A b.gravity
  motorSub : IsSpace A b.motor.sub fun b => popcount b % 2 = 0
  rateSub : b.rate.sub = B
  dampingSub : b.damping.sub = ⟨[0]⟩
  gravitySub : ∀ a ∈ b.gravity.sub.blades, popcount a + 1 = A.n
  momentSub : ∀ a ∈ b.firstMoment.sub.blades, popcount a + 1 = A.n

theorem Live.of_init (hA : WfAlg A) {b : Body R} {ps : List (Cl A R)} {B L : SubSpace} (h : Rigid A b ps B L) (hi : b.init A = .ok b)
    (hf : ∀ a ∈ b.firstMoment.sub.blades, popcount a + 1 = A.n) (h1 : WfMV A b.motor) (h2 : WfMV A b.rate) (h3 : WfMV A b.damping)
    (h4 : WfMV A b.gravity) : Live A b ps B L := by
  obtain ⟨⟨sc, sc1, sc2⟩, -, hbiv, -, -, -, ⟨V, v1, v2⟩, hant, -, -, -, -, ⟨E, e1, e2⟩, -⟩ := id (C14_named hA)
  obtain ⟨-, i1, i2, ⟨V', i3, i4⟩, -, -, i5⟩ := init_ok hi
  cases v1.symm.trans i3
  exact ⟨h, h1, h2, h3, h4, by cases e1.symm.trans i1; exact e2, Option.some.inj (i2.symm.trans h.bivector),
    Option.some.inj (i5.symm.trans (scalar_eq hA).1), fun a ha => ((v2.2 a).1 (i4 a ha)).2, hf⟩

theorem copy_ok {b c : Body R} {m r g d : Option (MV R)} (h : b.copy A m r g d = .ok c) :
    c = { b with motor := m.getD b.motor, rate := r.getD b.rate, gravity := g.getD b.gravity, damping := d.getD b.damping } ∧ c.init A = .ok c := by
  have e := (init_ok h).1
  refine ⟨e, ?_⟩
  rw [Body.copy, ← e] at h
  exact h

theorem Live.copy (hA : WfAlg A) {b c : Body R} {ps : List (Cl A R)} {B L : SubSpace} (h : Live A b ps B L) {m r g d : Option (MV R)}
    (hm : ∀ x ∈ m, WfMV A x) (hr : ∀ x ∈ r, WfMV A x) (hg : ∀ x ∈ g, WfMV A x) (hd : ∀ x ∈ d, WfMV A x)
    (hc : b.copy A m r g d = .ok c) : Live A c ps B L := by
  obtain ⟨rfl, hi⟩ := copy_ok hc
  refine Live.of_init hA ⟨h.two, h.bivector, h.antibivector, h.spaceB, h.spaceL, h.inertia, h.inverse, h.points, h.map, h.left, h.right, h.moment,
    h.momentWf, h.momentGrade⟩ hi h.momentSub ?_ ?_ ?_ ?_
  · cases m with
    | none => exact h.motorWf
    | some x => exact hm x rfl
  · cases r with
    | none => exact h.rateWf
    | some x => exact hr x rfl
  · cases d with
    | none => exact h.dampingWf
    | some x => exact hd x rfl
  · cases g with
    | none => exact h.gravityWf
    | some x => exact hg x rfl

namespace Live
variable {b : Body R} {ps : List (Cl A R)} {B L : SubSpace} (h : Live A b ps B L)
include h

theorem rateGrade : gradePart A R 2 (val A b.rate) = val A b.rate := within_grade h.spaceB ⟨_, h.rateWf, h.rateSub, rfl⟩

theorem rateIn : Within A B (val A b.rate) := ⟨_, h.rateWf, h.rateSub, rfl⟩

theorem forques (hA : WfAlg A) : GivesIn A (b.forques A) L
    (-(coeff b.damping 0 • rhMap A R (val A b.rate)) + meet A R (val A b.firstMoment)
      (gradesOf A R b.gravity.sub (CliffordAlgebra.reverse (val A b.motor) * val A b.gravity * val A b.motor))) := by
  obtain ⟨x, x1, x2, x3, x4⟩ := mul_scalar_in hA h.rateWf h.dampingWf h.dampingSub
  have hL : IsSpace A L fun b => b ^^^ A.pss ∈ x.sub.blades := by
    refine h.spaceL.congr fun c hc => ?_
    have := compl_pop hA hc
    rw [x2, h.rateSub, h.spaceB.2]
    constructor
    · intro e; exact ⟨xor_lt hc (pss_lt A), by omega⟩
    · intro e; omega
  obtain ⟨y, y1, y2, y3, y4⟩ := dual_in hA x3 hL
  obtain ⟨z, z1, z2, z3, z4⟩ := neg_in y3
  obtain ⟨g, g1, g2, g3⟩ := reverseSandwich_gives hA h.motorWf h.gravityWf
  obtain ⟨u, u1, u2, u3⟩ := regressive_gives hA h.momentWf g2
  have hs : SubOf u.sub z.sub := by
    intro c hc
    obtain ⟨a, ha, d, hd, e⟩ := regressive_sub hA h.momentWf g2 u1 hc
    obtain ⟨d', hd', e'⟩ := sandwich_sub hA h.motorWf h.gravityWf (Or.inr g1) hd
    have := h.momentSub a ha
    have := h.gravitySub d' hd'
    rw [z2, y2, h.spaceL.2]
    exact ⟨u2.sub.lt c hc, by omega⟩
  obtain ⟨w, w1, w2, w3, w4⟩ := (add_in hA z3 u2 hs).1
  refine ⟨w, ?_, by rw [w2, z2, y2], w3, ?_⟩
  · simp only [Body.forques, x1, y1, z1, g1, u1, Option.bind_eq_bind, Option.bind_some]
    exact w1
  · rw [w4, z4, y4, x4, u3, g3, map_smul, ← meet_eq]

theorem momentum {x : MV R} (hx : WfMV A x) (hs : x.sub = B) : GivesIn A (einsumCallMV b.inertia [x]) L (opMap A b.inertia B L (val A x)) :=
  h.inertia.call hx hs

theorem inL (x : Cl A R) : Within A L (opMap A b.inertia B L x) := opMap_within h.spaceL.1 x

theorem rateDerivative (hA : WfAlg A) {F : Cl A R} (hF : GivesIn A (b.forques A) L F) : GivesIn A (b.rateDerivative A) B
    (opMap A b.inertiaInv L B (F - comm A R (opMap A b.inertia B L (val A b.rate)) (val A b.rate))) := by
  obtain ⟨f, f1, f2, f3, f4⟩ := hF
  obtain ⟨p, p1, p2, p3, p4⟩ := h.momentum h.rateWf h.rateSub
  obtain ⟨g, g1, g2, g3⟩ := commutator_gives hA p3 h.rateWf
  have hs : SubOf g.sub f.sub := by
    intro c hc
    have h2 : 2 ≤ A.n := h.two
    have := commutator_sub hA p3 h.rateWf g1 (k := A.n - 2) (fun a ha => by rw [p2, h.spaceL.2] at ha; omega)
      (fun a ha => by rw [h.rateSub, h.spaceB.2] at ha; exact ha.2) hc
    rw [f2, h.spaceL.2]
    exact ⟨g2.sub.lt c hc, by omega⟩
  obtain ⟨w, w1, w2, w3, w4⟩ := (add_in hA f3 g2 hs).2
  have := h.inverse.call w3 (w2.trans f2)
  rw [w4, f4, g3, p4] at this
  simpa only [Body.rateDerivative, p1, g1, f1, w1, Option.bind_eq_bind, Option.bind_some] using this

/-- The pairing of the momentum of `x` with `y` is the sum over the points of the inner products of their joins. -/
theorem pairing (hA : WfAlg A) {x y : Cl A R} (hx : Within A B x) (hy : gradePart A R 2 y = y) :
    meet A R (opMap A b.inertia B L x) y = (ps.map fun p => innerMap A R (meet A R p x) (meet A R p y)).sum := by
  rw [h.map x hx, ← LinearMap.flip_apply, map_list_sum, List.map_map]
  congr 1
  refine List.map_congr_left fun p hp => ?_
  rw [Function.comp_apply, LinearMap.flip_apply, inertia_form hA (h.points p hp) (within_grade h.spaceB hx) hy h.two]

theorem joinGrade (hA : WfAlg A) {p x : Cl A R} (hp : p ∈ ps) (hx : gradePart A R 2 x = x) : gradePart A R 1 (meet A R p x) = meet A R p x :=
  meet_grade hA (h.points p hp) hx (by omega) h.two (by have := h.two; omega)

theorem energy (hA : WfAlg A) : Gives A (b.kineticEnergy A) (meet A R (opMap A b.inertia B L (val A b.rate)) (val A b.rate)) := by
  obtain ⟨p, p1, p2, p3, p4⟩ := h.momentum h.rateWf h.rateSub
  have := regressive_gives hA p3 h.rateWf
  rw [p4, ← meet_eq] at this
  simpa only [Body.kineticEnergy, p1, Option.bind_eq_bind, Option.bind_some] using this

/-- The gyroscopic term does no work. -/
theorem gyro (hA : WfAlg A) (h2 : (2 : R) ≠ 0) (x : Cl A R) :
    meet A R (comm A R (opMap A b.inertia B L x) (val A b.rate)) (val A b.rate) = 0 := by
  have e := meet_invariant hA (halving h2) (j := A.n - 2) (k := 2) (by have := h.two; omega) h.rateGrade
    (within_grade (h.spaceL.congr fun b _ => by have := h.two; omega) (h.inL x)) h.rateGrade
  have c : comm A R (val A b.rate) (val A b.rate) = 0 := by
    have := two_comm hA (val A b.rate) (val A b.rate)
    rw [sub_self] at this
    exact halving h2 _ this
  rw [c, map_zero, add_zero] at e
  rw [comm_swap hA, map_neg, LinearMap.neg_apply, e, neg_zero]

end Live
end
end Verif
