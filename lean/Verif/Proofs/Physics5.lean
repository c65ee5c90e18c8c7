import Verif.Proofs.Physics3
import Verif.Props.LogExp
import Verif.Props.Products2
/-! # Steps of motors: helper lemmas -/
namespace Verif
open Model Spec Model.Factory Props

variable {A : Alg} {R : Type} [Field R] [DecidableEq R]

/-- What `exp_linear_normalized` computes: an invertible multiple of `1 + b`. -/
theorem exp_split (hA : WfAlg A) (hn : 2 ≤ A.n) (h2 : (2 : R) ≠ 0) {rt : Roots R} (hr : RootLaw rt)
    {fuel : Nat} (hf : 2 ≤ fuel) {b m : MV R} (hb : WfMV A b) (h : b.expLinearNormalized A rt fuel = .ok m) :
    WfMV A m ∧ EvenSub m.sub ∧ Homogeneous 2 b ∧ val A m * CliffordAlgebra.reverse (val A m) = 1 ∧
      ∃ q i : Cl A R, q * i = 1 ∧ i * q = 1 ∧ CliffordAlgebra.reverse i = i ∧ Commute (val A b) i ∧ val A m = i + i * val A b ∧
        ∃ (u v : R) (N : Cl A R), CliffordAlgebra.reverse N = N ∧ CliffordAlgebra.involute N = N ∧ q = u • 1 + v • N ∧ q * q = N := by
  obtain ⟨hi, h⟩ := require_ok h
  have hh := (insideBivector_iff hA hn hb.sub).1 hi
  obtain ⟨x, x1, x2, x3, x4⟩ := add_num_even hA hb hh.even (1 : R)
  rw [x1] at h
  replace h : x.normalized A rt fuel = .ok m := h
  have hme := normalized_even hA h2 hr (by omega) x2 x4 h
  obtain ⟨_, hunit, _⟩ := C63_normalized hA h2 hr (by omega) x2 h
  obtain ⟨fuel, rfl⟩ : ∃ f, fuel = f + 2 := ⟨fuel - 2, by omega⟩
  obtain ⟨hm, q, i, u, v, q1, q2, q3, q4, q5⟩ := normalized_spec hA h2 hr fuel x2 h
  have hrev := bivector_rev hA hb hh
  have hx : val A x = 1 + val A b := by rw [x3, one_smul, add_comm]
  have hxr : CliffordAlgebra.reverse (val A x) = 1 - val A b := by rw [hx, map_add, CliffordAlgebra.reverse.map_one, hrev, sub_eq_add_neg]
  have hq : CliffordAlgebra.reverse q = q := by rw [q3, map_add, reverse_smul_one, map_smul, reverse_norm]
  have hcq : Commute (val A b) q := by
    rw [q3, hxr, hx]
    exact ((Commute.one_right _).smul_right u).add_right
      ((((Commute.one_right _).add_right (Commute.refl _)).mul_right ((Commute.one_right _).sub_right (Commute.refl _))).smul_right v)
  exact ⟨hm, hme, hh, hunit, q, i, q1, q2, reverse_inverse q1 q2 hq, commute_inv q2 q1 hcq, by rw [q5, hx, mul_add, mul_one],
    u, v, _, by rw [CliffordAlgebra.reverse.map_mul, CliffordAlgebra.reverse_reverse], by
      rw [map_mul, ← CliffordAlgebra.reverse_involute, val_even hA x2 x4], q3, q4⟩

/-- What the linear logarithm computes on an invertible multiple of `1 + c`. -/
theorem log_split (hA : WfAlg A) (h5 : A.n < 6) (hn : 2 ≤ A.n) (h2 : (2 : R) ≠ 0) (h0 : ∃ j < A.n, A.desc.sig.getD j 0 ≠ 0) {fuel : Nat} (hf : 4 ≤ fuel)
    {m : MV R} (hm : WfMV A m) (hme : EvenSub m.sub) {q i c : Cl A R} (q1 : q * i = 1) (q2 : i * q = 1) (hri : CliffordAlgebra.reverse i = i)
    (hrev : CliffordAlgebra.reverse c = -c) (hci : Commute c i) (hv : val A m = i + i * c) :
    ∃ z, m.motorLogLinearNormalized A fuel = .ok z ∧ WfMV A z ∧ Homogeneous 2 z ∧ val A z = gradePart A R 2 c := by
  have ht : CliffordAlgebra.reverse (i * c) = -(i * c) := by
    rw [CliffordAlgebra.reverse.map_mul, hrev, hri, neg_mul, hci.eq]
  rcases logLinear_spec hA h5 hn h2 hf hm hme hv hri ht with ⟨d, z, d1, d2, z1, z2, z3, z4⟩ | ⟨_, hu⟩
  swap
  · exact absurd ⟨⟨_, _, q2, q1⟩, rfl⟩ hu
  obtain ⟨j, hj, h0⟩ := h0
  refine ⟨z, ?_, z2, z3, ?_⟩
  · obtain ⟨S, s1, s2, s3⟩ := C57_reflection_all hA hj h0 4
    rw [MV.motorLogLinearNormalized, s1, Option.bind_eq_bind, Option.bind_some, (contains_iff (S := S) (T := m.sub)).2, require]
    · exact z1
    · intro a ha
      have hl : popcount a ≤ A.n := by rw [popcount_of_lt hA.le32 (hm.sub.lt a ha)]; exact pc_le A.n a
      have := hme a ha
      exact (s3 a).2 ⟨hm.sub.lt a ha, by omega, by omega⟩
  · have : val A m * d = 1 + c := by
      rw [hv, add_mul, d1, ← hci.eq, mul_assoc, d1, mul_one]
    rw [z4, this, map_add, gradePart_one hA, zero_add]

/-- `motor_add_step`. -/
theorem addStep_spec (hA : WfAlg A) (hn : 2 ≤ A.n) (h2 : (2 : R) ≠ 0) {rt : Roots R} (hr : RootLaw rt)
    {fuel : Nat} (hf : 2 ≤ fuel) {m s m' : MV R} (hm : WfMV A m) (he : EvenSub m.sub) (hs : WfMV A s) (hs2 : Homogeneous 2 s)
    (h : motorAddStep A rt fuel m s = .ok m') :
    WfMV A m' ∧ EvenSub m'.sub ∧ ∃ E q i : Cl A R, val A m' = val A m * E ∧ E * CliffordAlgebra.reverse E = 1 ∧ CliffordAlgebra.involute E = E ∧ q * i = 1 ∧ i * q = 1 ∧
      CliffordAlgebra.reverse i = i ∧ Commute (val A s) i ∧ E = i + i * ((-1 / 2 : R) • val A s) ∧
      ∃ (u v : R) (N : Cl A R), CliffordAlgebra.reverse N = N ∧ CliffordAlgebra.involute N = N ∧ q = u • 1 + v • N ∧ q * q = N := by
  obtain ⟨t, t1, t2, t3, t4⟩ := mul_num hA hs (-1 / 2 : R)
  obtain ⟨t', h1, h⟩ := bind_ok h
  rw [t1] at h1
  cases h1
  obtain ⟨e, h1, h⟩ := bind_ok h
  obtain ⟨e1, e2, e3, e4, q, i, q1, q2, q3, q4, q5, q6⟩ := exp_split hA hn h2 hr hf t2 h1
  obtain ⟨y, y1, y2, y3⟩ := product_gives hA hm e1
  have h' := lift_ok h
  rw [MV.mul] at h'
  cases y1.symm.trans h'
  refine ⟨y2, product_even hA hm e1 he e2 y1, val A e, q, i, y3, e4, val_even hA e1 e2, q1, q2, q3, ?_, by rw [q5, t4], q6⟩
  rw [t4] at q4
  have h3 : (-1 / 2 : R) ≠ 0 := div_ne_zero (neg_ne_zero.2 one_ne_zero) h2
  have := q4.smul_left (-1 / 2 : R)⁻¹
  rwa [smul_smul, inv_mul_cancel₀ h3, one_smul] at this

theorem reverseProduct_even (hA : WfAlg A) {x y z : MV R} (hx : WfMV A x) (hy : WfMV A y) (ex : EvenSub x.sub) (ey : EvenSub y.sub)
    (h : x.reverseProduct A y = some z) : EvenSub z.sub := by
  obtain ⟨op, o1, -⟩ := reverseProduct_bin hA (argSem_sub hx.sub) (argSem_sub hy.sub)
  rw [MV.reverseProduct, o1] at h
  have hsq : Squeezed A op := by
    rw [Factory.reverseProduct] at o1
    obtain ⟨c, c1, o1⟩ := Option.bind_eq_some_iff.1 o1
    have hr := reverse_un hA (argSem_sub hy.sub)
    rw [c1] at hr
    obtain ⟨raw, g, O, h1, h2, h3, h4, h5⟩ := gradeSelected_sem hA hx.sub (args_ins_subspace hr.arg.1) fun _ _ _ => true
    obtain ⟨q, q1, q2, _⟩ := Sem.build2 (a := .sub x.sub) (b := .op c) h3 h4 h5 (argSem_sub hx.sub) hr.arg
    rw [product, makeProduct] at o1
    rw [show (Arg.sub x.sub : Arg Int).subspace = x.sub from rfl, h1] at o1
    simp only [h2, Option.bind_eq_bind, Option.bind_some, q1] at o1
    exact ⟨q, q2, o1⟩
  intro b hb
  rw [call_sub h, bin_output hA (reverseProduct_bin hA) hx.sub hy.sub o1 hsq] at hb
  obtain ⟨a, ha, c, hc, hnz⟩ := hb
  rw [reverse_blade, mul_smul_comm, blade_mul hA, map_smul, map_smul, coef_blade _ _ (xor_lt (hx.sub.lt a ha) (hy.sub.lt c hc))] at hnz
  split at hnz
  · rename_i e
    rw [e]
    exact even_xor (ex a ha) (ey c hc)
  · simp at hnz

/-- `motor_relative_step` of two motors whose quotient is an invertible multiple of `1 - s/2`. -/
theorem relStep_spec (hA : WfAlg A) (h5 : A.n < 6) (hn : 2 ≤ A.n) (h2 : (2 : R) ≠ 0) (h0 : ∃ j < A.n, A.desc.sig.getD j 0 ≠ 0) {fuel : Nat} (hf : 4 ≤ fuel)
    {x y : MV R} (hx : WfMV A x) (ex : EvenSub x.sub) (hy : WfMV A y) (ey : EvenSub y.sub) {q i s : Cl A R} (q1 : q * i = 1) (q2 : i * q = 1)
    (hri : CliffordAlgebra.reverse i = i) (hrev : CliffordAlgebra.reverse s = -s) (hinv : CliffordAlgebra.involute s = s) (hci : Commute s i)
    (hv : val A y * CliffordAlgebra.reverse (val A x) = i + i * ((-1 / 2 : R) • s)) :
    ∃ z, motorRelativeStep A fuel x y = .ok z ∧ WfMV A z ∧ Homogeneous 2 z ∧ val A z = s := by
  obtain ⟨z, z1, z2, z3⟩ : Gives A (y.reverseProduct A x) (val A y * CliffordAlgebra.reverse (val A x)) := bin_gives (reverseProduct_bin hA) hy hx
  have ez : EvenSub z.sub := reverseProduct_even hA hy hx ey ex z1
  obtain ⟨l, l1, l2, l3, l4⟩ := log_split hA h5 hn h2 h0 hf z2 ez q1 q2 hri (by rw [map_smul, hrev, smul_neg]) (hci.smul_left _) (z3.trans hv)
  obtain ⟨w, w1, w2, w3, w4⟩ := mul_num hA l2 (-2 : R)
  refine ⟨w, ?_, w2, fun a ha => l3 a (w3 a ha), ?_⟩
  · simp only [motorRelativeStep, z1, lift_some, bind, Except.bind, l1, w1]
  · rw [w4, l4, map_smul, anti_bivector hA h5 h2 hrev hinv, smul_smul]
    rw [show (-2 : R) * (-1 / 2) = 1 by field_simp, one_smul]

end Verif
