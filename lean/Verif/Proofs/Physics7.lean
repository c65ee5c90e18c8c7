import Verif.Proofs.Physics5
import Verif.Proofs.Physics6
import Verif.Proofs.Principal
import Verif.Proofs.Integrators
import Verif.Proofs.SparseMatrix
import Verif.Props.InverseLimits
/-! # The subspaces of motors and steps -/
namespace Verif
open Model Spec Model.Factory Props

variable {A : Alg} {R : Type}

section
variable [CommRing R]

theorem basis_mv {S : SubSpace} (hS : WfSub A S) {b : Nat} (hb : b ∈ S.blades) : ∃ z : MV R, WfMV A z ∧ z.sub = S ∧ val A z = blade A R b := by
  refine (within_iff hS).2 fun c _ hc => ?_
  rw [coef_blade A R (hS.lt b hb), if_neg fun (h : c = b) => hc (h ▸ hb)]

theorem mem_of_coef {x : MV R} (hx : WfMV A x) {b : Nat} (h : coef A R b (val A x) ≠ 0) : b ∈ x.sub.blades := by
  by_contra hb
  exact h (by rw [← coeff_eq hx, coeff_notMem hb])

/-- The subspace of the result of an operator only depends on the subspaces of the arguments: it has every blade that occurs in a result for
other coefficients. -/
theorem call_mem [Nontrivial R] {op : Option (Operator Int)} {x y x' y' z : MV R} (h : MV.call op [x, y] = some z) {v : Cl A R}
    (g : Gives A (MV.call op [x', y']) v) {b : Nat} (hv : coef A R b v ≠ 0) : b ∈ z.sub.blades := by
  obtain ⟨w, w1, w2, w3⟩ := g
  cases op with
  | none => rw [MV.call] at h; cases h
  | some o =>
    rw [(call_output h).1, ← (call_output w1).1]
    exact mem_of_coef w2 (w3 ▸ hv)

theorem product_keeps [Nontrivial R] (hA : WfAlg A) {x y z : MV R} (hx : WfMV A x) (hy : WfMV A y) (h : x.product A y = some z) :
    (0 ∈ x.sub.blades → SubOf y.sub z.sub) ∧ (0 ∈ y.sub.blades → SubOf x.sub z.sub) := by
  constructor
  · intro h0 b hb
    obtain ⟨x', x1, x2, x3⟩ := basis_mv (R := R) hx.sub h0
    obtain ⟨y', y1, y2, y3⟩ := basis_mv (R := R) hy.sub hb
    have g := product_gives hA x1 y1
    rw [MV.product, x2, y2, x3, y3, blade_zero, one_mul] at g
    exact call_mem h g (by rw [coef_blade A R (hy.sub.lt b hb), if_pos rfl]; exact one_ne_zero)
  · intro h0 b hb
    obtain ⟨x', x1, x2, x3⟩ := basis_mv (R := R) hx.sub hb
    obtain ⟨y', y1, y2, y3⟩ := basis_mv (R := R) hy.sub h0
    have g := product_gives hA x1 y1
    rw [MV.product, x2, y2, x3, y3, blade_zero, mul_one] at g
    exact call_mem h g (by rw [coef_blade A R (hx.sub.lt b hb), if_pos rfl]; exact one_ne_zero)

theorem reverseProduct_keeps [Nontrivial R] (hA : WfAlg A) {x y z : MV R} (hx : WfMV A x) (hy : WfMV A y) (h : x.reverseProduct A y = some z)
    (h0 : 0 ∈ y.sub.blades) : SubOf x.sub z.sub := by
  intro b hb
  obtain ⟨x', x1, x2, x3⟩ := basis_mv (R := R) hx.sub hb
  obtain ⟨y', y1, y2, y3⟩ := basis_mv (R := R) hy.sub h0
  have g : Gives A (x'.reverseProduct A y') (val A x' * CliffordAlgebra.reverse (val A y')) := bin_gives (reverseProduct_bin hA) x1 y1
  rw [MV.reverseProduct, x2, y2, x3, y3, blade_zero, CliffordAlgebra.reverse.map_one, mul_one] at g
  exact call_mem h g (by rw [coef_blade A R (hx.sub.lt b hb), if_pos rfl]; exact one_ne_zero)

theorem bivectorProduct_keeps [Nontrivial R] (hA : WfAlg A) (hn : 2 ≤ A.n) {x y z : MV R} (hx : WfMV A x) (hy : WfMV A y) (h : x.bivectorProduct A y = some z)
    (h0 : 0 ∈ y.sub.blades) {b : Nat} (hb : b ∈ x.sub.blades) (hp : popcount b = 2) : b ∈ z.sub.blades := by
  obtain ⟨x', x1, x2, x3⟩ := basis_mv (R := R) hx.sub hb
  obtain ⟨y', y1, y2, y3⟩ := basis_mv (R := R) hy.sub h0
  have g := (C30_graded hA x1 y1).2.2.2.2.2 hn
  rw [MV.bivectorProduct, x2, y2, x3, y3, blade_zero, mul_one, gradePart_blade _ (hx.sub.lt b hb), if_pos hp] at g
  exact call_mem h g (by rw [coef_blade A R (hx.sub.lt b hb), if_pos rfl]; exact one_ne_zero)

end

theorem reverse_in [Field R] [DecidableEq R] (hA : WfAlg A) {x : MV R} (hx : WfMV A x) : GivesIn A (x.reverse A) x.sub (CliffordAlgebra.reverse (val A x)) := by
  have wa : WfArg (K := Int) A (.sub x.sub) := hx.sub
  have h := un_givesIn (reverse_un hA) hx fun _ h => reverse_output wa h
  rw [MV.reverse]
  exact h

section
variable [Field R]

/-- The root `q` of an even norm squared and its inverse have a scalar part. -/
theorem root_scalar (hA : WfAlg A) (h5 : A.n < 6) (h2 : (2 : R) ≠ 0) {N q i : Cl A R} {u v : R} (hr : CliffordAlgebra.reverse N = N)
    (he : CliffordAlgebra.involute N = N) (q1 : q * i = 1) (q3 : q = u • 1 + v • N) (q4 : q * q = N) : coef A R 0 q ≠ 0 ∧ coef A R 0 i ≠ 0 := by
  obtain ⟨κ, ν, e, hν, hκ⟩ := study_split hA h5 h2 hr he
  obtain ⟨a, ha⟩ : ∃ a, a = coef A R 0 N := ⟨_, rfl⟩
  rw [← ha] at e
  obtain ⟨α, hα⟩ : ∃ α, α = u + v * a := ⟨_, rfl⟩
  have h1 : coef A R 0 (1 : Cl A R) = 1 := by rw [← blade_zero, coef_blade A R (Nat.two_pow_pos _), if_pos rfl]
  have h0 : coef A R 0 ν = 0 := by
    rw [gradePart_zero_eq hA] at hν
    have := congrArg (coef A R 0) hν
    simpa [h1] using this
  have hq : q = α • 1 + v • ν := by rw [q3, e, hα, add_smul, smul_add, smul_smul, mul_smul]; simp only [smul_smul]; abel
  have hq0 : q ≠ 0 := by
    rintro h
    rw [h, zero_mul] at q1
    exact one_ne_zero' A R q1.symm
  have c0 : coef A R 0 q = α := by rw [hq]; simp [h1, h0]
  have hα0 : α ≠ 0 := by
    intro h
    rw [h, zero_smul, zero_add] at hq
    rw [hq, smul_mul_smul_comm, hκ, e] at q4
    have k := congrArg (coef A R 0) q4
    simp only [map_smul, map_add, h1, h0, smul_eq_mul, mul_one, add_zero] at k
    rw [smul_smul, k, left_eq_add] at q4
    exact hq0 (by rw [hq, q4, smul_zero])
  have hD : q * (α • 1 - v • ν) = (α * α - v * v * κ) • 1 := by
    rw [hq, add_mul, mul_sub, mul_sub]
    simp only [smul_mul_smul_comm, hκ, mul_one, one_mul, smul_smul]
    module
  have hi : (α * α - v * v * κ) • i = α • 1 - v • ν := by
    have q2 : i * q = 1 := mul_eq_one_comm.1 q1
    have := congrArg (i * ·) hD
    simp only [← mul_assoc, q2, one_mul, mul_smul_comm, mul_one] at this
    exact this.symm
  refine ⟨c0 ▸ hα0, fun h => hα0 ?_⟩
  have k := congrArg (coef A R 0) hi
  simpa [h, h1, h0] using k.symm

end

section
variable [Field R] [DecidableEq R]

theorem norm_even (hA : WfAlg A) {x : MV R} (hx : WfMV A x) (he : EvenSub x.sub) :
    CliffordAlgebra.reverse (val A x * CliffordAlgebra.reverse (val A x)) = val A x * CliffordAlgebra.reverse (val A x) ∧
    CliffordAlgebra.involute (val A x * CliffordAlgebra.reverse (val A x)) = val A x * CliffordAlgebra.reverse (val A x) := by
  refine ⟨by rw [CliffordAlgebra.reverse.map_mul, CliffordAlgebra.reverse_reverse], ?_⟩
  rw [map_mul, ← CliffordAlgebra.reverse_involute] 
  rw [val_even hA hx he]

/-- `normalized` of an even multivector keeps all blades. -/
theorem normalized_keeps (hA : WfAlg A) (h5 : A.n < 6) (h2 : (2 : R) ≠ 0) {rt : Roots R} (hr : RootLaw rt) {fuel : Nat} (hf : 2 ≤ fuel) {x y : MV R} (hx : WfMV A x)
    (he : EvenSub x.sub) (h : x.normalized A rt fuel = .ok y) : SubOf x.sub y.sub := by
  obtain ⟨fuel, rfl⟩ : ∃ f, fuel = f + 2 := ⟨fuel - 2, by omega⟩
  obtain ⟨-, q, i, u, v, q1, q2, q3, q4, q5⟩ := normalized_spec hA h2 hr fuel hx h
  obtain ⟨n1, n2⟩ := norm_even hA hx he
  obtain ⟨-, hi⟩ := root_scalar hA h5 h2 n1 n2 q1 q3 q4
  obtain ⟨s, s1, s2⟩ : ∃ s, WfMV A s ∧ s.product A x = some y := by
    obtain ⟨T, t1, t2, _⟩ := symmetricReverse_self hA x.sub hx.sub
    obtain ⟨z, z1, z2, z3, z4⟩ := symmetricReverse_in hA hx t1
    have fin : ∀ {s : MV R}, lift (s.mul A (.mv x)) = .ok y → s.product A x = some y := fun h => lift_ok h
    have e0 : equalsEmpty A T = some (T == ⟨[]⟩) := by rw [equalsEmpty, empty_eq hA]; rfl
    have e1 : equalsScalar A T = some (T == ⟨[0]⟩) := by rw [equalsScalar, (scalar_eq hA).1]; rfl
    rw [MV.normalized] at h
    simp only [normOptions, Dispatch.matchLoop, t1, Option.bind_eq_bind, Option.bind_some, e0, e1] at h
    cases c0 : T == ⟨[]⟩ with
    | true => rw [c0] at h; cases h
    | false =>
    cases c1 : T == ⟨[0]⟩ with
    | true =>
      rw [c0, c1] at h
      simp only [z1, lift_some, bind, Except.bind] at h
      rw [MV.inverseSquareRoot, (scalar_eq hA).1] at h
      simp only [lift_some, bind, Except.bind] at h
      rw [if_pos (z2.trans (beq_iff_eq.1 c1))] at h
      obtain ⟨c, c2, c3⟩ := val_scalar z3 (z2.trans (beq_iff_eq.1 c1))
      rw [c2] at h
      simp only [List.mapM_cons, List.mapM_nil, bind, Except.bind, pure, Except.pure] at h
      cases hs : MV.invSqrtVal rt c with
      | error e => rw [hs] at h; cases h
      | ok s =>
        rw [hs] at h
        have e : z.copy [s] = some ⟨⟨[0]⟩, [s]⟩ := by
          rw [MV.copy, MV.construct, z2, beq_iff_eq.1 c1, if_pos (by simp)]
        simp only [e, lift_some] at h
        exact ⟨⟨⟨[0]⟩, [s]⟩, ⟨wf_scalar, rfl⟩, fin h⟩
    | false =>
      rw [c0, c1] at h
      simp only at h
      obtain ⟨st, st1, _⟩ := C39_study hA t2
      rw [st1] at h
      cases st with
      | false => cases h
      | true =>
        simp only [z1, lift_some, bind, Except.bind] at h
        cases hq : z.squareRoot A rt (fuel + 2) with
        | error e => rw [hq] at h; cases h
        | ok q =>
          rw [hq] at h
          simp only at h
          obtain ⟨q1, q2, -⟩ := squareRoot_spec' hA h2 hr (fuel + 1) z3 hq
          have hst := study_mono hA t2 q1.sub st1 (z2 ▸ q2)
          rcases inverse_works1 hA fuel q1 (nsimple_study hA q1.sub hst) with ⟨i, i1, i2, i3⟩ | hd
          swap
          · rw [hd] at h; cases h
          rw [i1] at h
          exact ⟨i, i2, fin h⟩
  have hs : val A s = i := by
    obtain ⟨y', y1, y2, y3⟩ := product_gives hA s1 hx
    cases y1.symm.trans s2
    rw [q5] at y3
    have k : val A x * (CliffordAlgebra.reverse (val A x) * (i * i)) = 1 := by
      rw [← mul_assoc, ← q4, mul_assoc, ← mul_assoc q i, q1, one_mul, q1]
    have := congrArg (· * (CliffordAlgebra.reverse (val A x) * (i * i))) y3
    simp only [mul_assoc, k, mul_one] at this
    simpa [k] using this.symm
  exact (product_keeps hA s1 hx s2).1 (mem_of_coef s1 (hs ▸ hi))

theorem study_even (hA : WfAlg A) (h5 : A.n < 6) {S : SubSpace} (hS : WfSub A S) (h4 : ∀ b ∈ S.blades, pc A.n b % 4 = 0) : S.isStudy A = some true := by
  obtain ⟨V, v1, v2, v3⟩ := sn_sub hA hS (wf_scalar (A := A)) (fun a ha c hc hs => by
    rw [List.mem_singleton]
    exact pair_sn5 A.n (by omega) a (hS.lt a ha) c (hS.lt c hc) ⟨h4 a ha, h4 c hc, hs⟩)
  rw [SubSpace.isStudy, SubSpace.isScalarNegationSimple, v1]
  exact nsimple_scalar hA 0 v2 v3

/-- `motor_add_step` keeps all blades of the motor. -/
theorem addStep_keeps (hA : WfAlg A) (h5 : A.n < 6) (hn : 2 ≤ A.n) (h2 : (2 : R) ≠ 0) {rt : Roots R} (hr : RootLaw rt) {fuel : Nat} (hf : 2 ≤ fuel)
    {m s m' : MV R} (hm : WfMV A m) (hs : WfMV A s) (h : motorAddStep A rt fuel m s = .ok m') : SubOf m.sub m'.sub := by
  obtain ⟨t, t1, t2, t3, t4⟩ := mul_num hA hs (-1 / 2 : R)
  obtain ⟨t', h1, h⟩ := bind_ok h
  rw [t1] at h1
  cases h1
  obtain ⟨e, h1, h⟩ := bind_ok h
  have h' := lift_ok h
  obtain ⟨e1, -⟩ := exp_split hA hn h2 hr hf t2 h1
  refine (product_keeps hA hm e1 h').2 ?_
  obtain ⟨hi, h1⟩ := require_ok h1
  have hh := (insideBivector_iff hA hn t2.sub).1 hi
  obtain ⟨x, x1, x2, x3, x4⟩ := add_num_even hA t2 hh.even (1 : R)
  rw [x1] at h1
  replace h1 : x.normalized A rt fuel = .ok e := h1
  refine normalized_keeps hA h5 h2 hr hf x2 x4 h1 0 (mem_of_coef x2 ?_)
  have h0 : coef A R 0 (val A t) = 0 := by
    rw [← coeff_eq t2, coeff_notMem]
    intro h
    exact absurd (hh 0 h) (by decide)
  rw [x3, map_add, h0, one_smul, ← blade_zero, coef_blade A R (Nat.two_pow_pos _), if_pos rfl, zero_add]
  exact one_ne_zero

/-- `motor_relative_step` of two multivectors with a scalar part has all bivectors of the second. -/
theorem relStep_keeps (hA : WfAlg A) (h5 : A.n < 6) (hn : 2 ≤ A.n) (h2 : (2 : R) ≠ 0) {fuel : Nat} (hf : 4 ≤ fuel) {x y z : MV R}
    (hx : WfMV A x) (ex : EvenSub x.sub) (hy : WfMV A y) (ey : EvenSub y.sub) (x0 : 0 ∈ x.sub.blades) {q i t : Cl A R} (q1 : q * i = 1)
    (hq : coef A R 0 q ≠ 0) (hri : CliffordAlgebra.reverse i = i) (hrt : CliffordAlgebra.reverse t = -t)
    (hv : val A y * CliffordAlgebra.reverse (val A x) = i + t) (h : motorRelativeStep A fuel x y = .ok z) {b : Nat} (hb : b ∈ y.sub.blades)
    (hp : popcount b = 2) : b ∈ z.sub.blades := by
  obtain ⟨m, h0, h⟩ := bind_ok h
  have h0 := lift_ok h0
  obtain ⟨l, h1, h⟩ := bind_ok h
  obtain ⟨m', m1, m2, m3⟩ : Gives A (y.reverseProduct A x) (val A y * CliffordAlgebra.reverse (val A x)) := bin_gives (reverseProduct_bin hA) hy hx
  cases m1.symm.trans h0
  obtain ⟨-, h1⟩ := require_ok h1
  obtain ⟨S, S1, S2⟩ := (C14_named hA).2.2.2.2.2.2.2.2.2.2.2.2.2.2.1
  obtain ⟨T, t1, p, p1, p2, p3, p4⟩ := restrictSubspace_gives hA m2 S2.1
  rw [m3, hv, self_part hA h2 hri hrt S2] at p4
  have e : m.logLinearNormalized A fuel = (do let d ← p.inverse A fuel; lift (m.bivectorProduct A d)) := by
    simp only [MV.logLinearNormalized, S1, p1, lift_some, bind, Except.bind]
  rw [e] at h1
  obtain ⟨d, h1, h3⟩ := bind_ok h1
  rcases C47_inverse hA h5 h2 hf p3 with ⟨d', d1, d2, d3, d4⟩ | hd
  swap
  · rw [hd] at h1; cases h1
  cases d1.symm.trans h1
  have hd : val A d = q := by
    rw [p4] at d3
    rw [← one_mul (val A d), ← q1, mul_assoc, d3, mul_one]
  have h3 := lift_ok h3
  obtain ⟨w, w1, w2, w3⟩ := mul_num_in hA ((C30_graded hA m2 d2).2.2.2.2.2 hn |>.val h3).1 (-2 : R)
  cases w1.symm.trans (lift_ok h)
  rw [w3]
  exact bivectorProduct_keeps hA hn m2 d2 h3 (mem_of_coef d2 (hd ▸ hq)) (reverseProduct_keeps hA hy hx h0 x0 b hb) hp

end
end Verif
