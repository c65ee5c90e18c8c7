import Verif.Model.Simplex
import Verif.Proofs.Simplex
import Verif.Proofs.LieIntegrators
import Verif.Proofs.System
import Verif.Props.Derived
/-! # C102: inertia of simplices -/
namespace Verif.Props
open Model Spec Model.Factory

section
variable {A : Alg} {R : Type} [Field R] [LinearOrder R] [IsStrictOrderedRing R]

theorem sqrt_scalar {rt : Roots R} (hr : RealRoots rt) {a : R} (ha : 0 ≤ a) :
    ∃ r, MV.sqrtVal rt a = .ok r ∧ 0 ≤ r ∧ r * r = a ∧ (⟨⟨[0]⟩, [a]⟩ : MV R).sqrt rt = .ok ⟨⟨[0]⟩, [r]⟩ := by
  obtain ⟨r, r1, r2, r3⟩ := hr.nonneg a ha
  have e : MV.sqrtVal rt a = .ok r := by rw [MV.sqrtVal, r1]
  refine ⟨r, e, r2, r3, ?_⟩
  rw [MV.sqrt, List.mapM_cons, e, List.mapM_nil]
  rfl

/-- The norm of an element with scalar `x ~x`. -/
theorem norm_scalar (hA : WfAlg A) {rt : Roots R} (hr : RealRoots rt) (fuel : Nat) {x : MV R} (hx : WfMV A x) (hs : ¬ SubOf x.sub ⟨[0]⟩)
    (hT : x.sub.symmetricReverse A = some ⟨[0]⟩) {a : R} (ha : 0 ≤ a) (hv : val A x * CliffordAlgebra.reverse (val A x) = (a * a) • 1) :
    x.norm A rt fuel = .ok ⟨⟨[0]⟩, [a]⟩ := by
  obtain ⟨z, z1, z2, z3, z4⟩ := norm_eq hA rt fuel hx hs hT
  obtain ⟨c, hc, hcv⟩ := val_scalar z2 z3
  have hca : c = a * a := by
    have h := congrArg (coef A R 0) (hcv.symm.trans (z4.trans hv))
    simpa [← blade_zero, coef_blade A R (a := 0) (by positivity)] using h
  obtain ⟨r, -, r2, r3, r4⟩ := sqrt_scalar hr (mul_self_nonneg a)
  obtain rfl : z = ⟨⟨[0]⟩, [a * a]⟩ := by
    obtain ⟨s, v⟩ := z
    cases z3
    rw [← hca, ← hc]
  rw [z1, MV.squareRoot]
  obtain ⟨i, i1, i2⟩ := insideScalar_eq hA (⟨[0]⟩ : SubSpace)
  rw [i2.2 (fun _ h => h)] at i1
  rw [show Dispatch.matchLoop (⟨[0]⟩ : SubSpace) (sqrtOptions A) = some .scalar by rw [sqrtOptions, Dispatch.matchLoop, i1]]
  have : r = a := (mul_self_inj r2 ha).1 r3
  exact r4.trans (by rw [this])

/-- Points: elements of the subspace `S` whose norm is the absolute value of a linear function, their mass. -/
structure Points (A : Alg) {R : Type} [Field R] (S : SubSpace) (μ : Cl A R →ₗ[R] R) : Prop where
  sub : WfSub A S
  proper : ¬ SubOf S ⟨[0]⟩
  scalar : S.symmetricReverse A = some ⟨[0]⟩
  norm : ∀ x : MV R, WfMV A x → x.sub = S → val A x * CliffordAlgebra.reverse (val A x) = (μ (val A x) * μ (val A x)) • 1

variable {S : SubSpace} {μ : Cl A R →ₗ[R] R} {rt : Roots R} {fuel : Nat}

/-- The combination of elements with weights. -/
def mix (A : Alg) {R : Type} [Field R] (C : List (MV R)) (w : List R) : Cl A R := ((C.zip w).map fun p => p.2 • val A p.1).sum

theorem combine_spec (hA : WfAlg A) (hS : WfSub A S) {C : List (MV R)} (hC : ∀ c ∈ C, WfMV A c ∧ c.sub = S) {w : List R} (hw : w.length = C.length) :
    ∃ L, Simplex.combine A S C w = .ok L ∧ WfMV A L ∧ L.sub = S ∧ val A L = mix A C w := by
  have key : ∀ l : List (MV R × R), (∀ p ∈ l, WfMV A p.1 ∧ p.1.sub = S) → ∃ ts : List (MV R), (l.mapM fun p => lift (p.1.mul A (.num p.2))) = .ok ts ∧
      (∀ r ∈ ts.map (·.vals), r.length = S.blades.length) ∧ ((ts.map (·.vals)).map (denote A R S)).sum = (l.map fun p => p.2 • val A p.1).sum := by
    intro l hl
    induction l with
    | nil => exact ⟨[], rfl, by simp, by simp⟩
    | cons p l ih =>
      obtain ⟨ts, t1, t2, t3⟩ := ih fun q hq => hl q (by simp [hq])
      obtain ⟨h1, h2⟩ := hl p (by simp)
      obtain ⟨y, y1, y2, y3, y4⟩ := num_in hA h1 p.2
      refine ⟨y :: ts, ?_, ?_, ?_⟩
      · rw [List.mapM_cons, y1, lift_some, t1]; rfl
      · intro r hr
        simp only [List.map_cons, List.mem_cons] at hr
        rcases hr with rfl | hr
        · rw [y3.len, y2, h2]
        · exact t2 r hr
      · simp only [List.map_cons, List.sum_cons]
        rw [t3, ← y4, val, y2, h2]
  obtain ⟨ts, t1, t2, t3⟩ := key (C.zip w) fun p hp => hC _ (List.of_mem_zip hp).1
  refine ⟨⟨S, sumRows S.blades.length (ts.map (·.vals))⟩, ?_, ⟨hS, by simp [sumRows]⟩, rfl, ?_⟩
  · rw [Simplex.combine, if_pos hw.symm, t1]
    change lift (MV.construct _ S) = _
    rw [MV.construct, if_pos (by simp [sumRows]), lift_some]
  · rw [val, denote_sumRows t2, t3, mix]

theorem rescale_spec (hA : WfAlg A) (hP : Points A S μ) (hr : RealRoots rt) {L : MV R} (hL : WfMV A L) (hs : L.sub = S) (h0 : μ (val A L) ≠ 0) :
    ∃ p s, Simplex.rescale A rt fuel L = .ok p ∧ WfMV A p ∧ p.sub = S ∧ val A p = s • val A L ∧ s * s * |μ (val A L)| = 1 := by
  have hn := norm_scalar hA hr fuel hL (hs ▸ hP.proper) (hs ▸ hP.scalar) (abs_nonneg (μ (val A L))) (by rw [hP.norm L hL hs, abs_mul_abs_self])
  obtain ⟨r, -, r2, r3, r4⟩ := sqrt_scalar hr (abs_nonneg (μ (val A L)))
  have r0 : r ≠ 0 := by rintro rfl; exact h0 (by simpa using r3.symm)
  obtain ⟨p, p1, p2, p3, p4⟩ := num_in hA hL (1 / r)
  refine ⟨p, 1 / r, ?_, p3, p2.trans hs, p4, by rw [← r3]; field_simp⟩
  rw [Simplex.rescale, hn]
  change (⟨⟨[0]⟩, [|μ (val A L)|]⟩ : MV R).sqrt rt >>= _ = _
  rw [r4]
  change (⟨⟨[0]⟩, [r]⟩ : MV R).rtruediv A fuel (.num 1) >>= _ = _
  have e : (⟨⟨[0]⟩, [r]⟩ : MV R).rtruediv A fuel (.num 1) = .ok ⟨⟨[0]⟩, [1 / r]⟩ := by
    rw [MV.rtruediv, upcast_num hA, lift_some]
    change MV.divideWith A _ _ _ = _
    rw [MV.divideWith, (scalar_eq hA).1, lift_some]
    simp only [bind, Except.bind, if_true, MV.divValues]
    change (if r = 0 ∧ ([1] : List R) ≠ [] then Except.error Fail.divZero else lift (MV.copy (⟨⟨[0]⟩, [1]⟩ : MV R) ([1].map (· / r)))) = _
    rw [if_neg (fun h => r0 h.1)]
    rfl
  rw [e]
  change lift (L.mul A (.mv ⟨⟨[0]⟩, [1 / r]⟩)) = _
  have : L.mul A (.mv ⟨⟨[0]⟩, [1 / r]⟩) = L.mul A (.num (1 / r)) := by
    rw [MV.mul, MV.mul, upcast_num hA]; rfl
  rw [this, p1, lift_some]

/-- C102: `simplex_inertia` with any weights is the sum of the inertia maps of its rows, each row being a point mass: its mass is the sum of
the masses of the corners with the weights, its place the combination of the corners. -/
theorem C102_inertia (hA : WfAlg A) (hn : 2 ≤ A.n) (hP : Points A S μ) (hr : RealRoots rt) {C : List (MV R)} (hC : ∀ c ∈ C, WfMV A c ∧ c.sub = S)
    {W : List (List R)} (hW : W ≠ []) (hl : ∀ w ∈ W, w.length = C.length) (h0 : ∀ w ∈ W, μ (mix A C w) ≠ 0) :
    ∃ B o out, A.bivector = some B ∧ Simplex.inertia A rt fuel S W C = .ok o ∧ Factory.inertia A (.sub S) (.sub B) = some out ∧ Unary A o B out.output ∧
      ∀ x, Within A B x → opMap A o B out.output x = (W.map fun w => |μ (mix A C w)|⁻¹ • meet A R (mix A C w) (comm A R (mix A C w) x)).sum := by
  obtain ⟨B, b1, b2⟩ := (C14_named hA).2.2.1 hn
  obtain ⟨out, u1, u2⟩ := inertiaMap_unary (R := R) hA hP.sub b2.1
  have rows : ∀ W : List (List R), (∀ w ∈ W, w.length = C.length) → (∀ w ∈ W, μ (mix A C w) ≠ 0) → ∃ Ls ps ops, (W.mapM fun w => Simplex.combine A S C w) = .ok Ls ∧
      Ls.mapM (Simplex.rescale A rt fuel) = .ok ps ∧ (ps.mapM fun p => lift (p.inertiaMap A B)) = .ok ops ∧ (∀ p ∈ ps, p.sub = S) ∧ ps.length = W.length ∧
      ∀ x, Within A B x → (ops.map fun o => opMap A o B out.output x).sum =
        (W.map fun w => |μ (mix A C w)|⁻¹ • meet A R (mix A C w) (comm A R (mix A C w) x)).sum := by
    intro W hl h0
    induction W with
    | nil => exact ⟨[], [], [], rfl, rfl, rfl, by simp, rfl, by simp⟩
    | cons w W ih =>
      obtain ⟨Ls, ps, ops, i1, i2, i3, i4, i5, i6⟩ := ih (fun w h => hl w (by simp [h])) fun w h => h0 w (by simp [h])
      obtain ⟨L, l1, l2, l3, l4⟩ := combine_spec hA hP.sub hC (hl w (by simp))
      obtain ⟨p, s, p1, p2, p3, p4, p5⟩ := rescale_spec (fuel := fuel) hA hP hr l2 l3 (l4 ▸ h0 w (by simp))
      obtain ⟨q, q1, q2, q3⟩ := u2 p p2 p3
      refine ⟨L :: Ls, p :: ps, q :: ops, ?_, ?_, ?_, ?_, by simp [i5], ?_⟩
      · rw [List.mapM_cons, l1, i1]; rfl
      · rw [List.mapM_cons, p1, i2]; rfl
      · rw [List.mapM_cons, q1, lift_some, i3]; rfl
      · intro p' hp'
        rcases List.mem_cons.1 hp' with rfl | hp'
        · exact p3
        · exact i4 p' hp'
      · intro x hx
        rw [List.map_cons, List.sum_cons, i6 x hx, List.map_cons, List.sum_cons, q3 x hx, p4, l4]
        congr 1
        rw [map_smul, map_smul, LinearMap.smul_apply, LinearMap.smul_apply, map_smul, smul_smul]
        congr 1
        rw [l4] at p5
        exact eq_inv_of_mul_eq_one_left p5
  obtain ⟨Ls, ps, ops, i1, i2, i3, i4, i5, i6⟩ := rows W hl h0
  obtain ⟨p, ps, rfl⟩ : ∃ p l, ps = p :: l := by
    cases ps with
    | nil => exact absurd (List.length_eq_zero_iff.1 i5.symm) hW
    | cons p l => exact ⟨p, l, rfl⟩
  refine ⟨B, sumOperators [B, out.output] [B.blades.length, out.output.blades.length] ops, out, b1, ?_, u1, ⟨rfl, rfl, b2.1, ?_⟩, fun x hx => ?_⟩
  · rw [Simplex.inertia, i1]
    change Ls.mapM (Simplex.rescale A rt fuel) >>= _ = _
    rw [i2]
    change lift A.bivector >>= _ = _
    rw [b1, lift_some]
    change (List.mapM (fun p => lift (p.inertiaMap A B)) (p :: ps)) >>= _ = _
    rw [i3]
    change lift (Factory.inertia A (.sub p.sub) (.sub B)) >>= _ = _
    rw [i4 p (by simp), u1, lift_some]
    rfl
  · obtain ⟨op, o1, o2, -⟩ := inertia_sem hA hP.sub b2.1
    cases o1.symm.trans u1
    exact o2.wf_output
  · rw [opMap_sum, i6 x hx]

/-- C102: the weights: there are as many rows as corners, the weights of every row and of every corner add up to `1/N`, so that the centre of
mass of the rows is the centroid, and the second moments of the weights are those of a uniform density. -/
theorem C102_weights (hr : RealRoots rt) {N : Nat} (hN : 0 < N) :
    ∃ B : Nat → Nat → R, Simplex.weights rt N = .ok ((List.range N).map fun k => (List.range N).map (B k)) ∧
      (∀ k < N, ∑ i ∈ Finset.range N, B k i = 1 / N) ∧ (∀ i < N, ∑ k ∈ Finset.range N, B k i = 1 / N) ∧
      ∀ i < N, ∀ j < N, N * ∑ k ∈ Finset.range N, B k i * B k j = (if i = j then 2 else 1) / (N * (N + 1)) := by
  have n0 : (N : R) ≠ 0 := Nat.cast_ne_zero.2 (by omega)
  have n1 : (N : R) + 1 ≠ 0 := by positivity
  obtain ⟨f, f1, f2, f3, -⟩ := sqrt_scalar hr (a := 1 / (1 + (N : R))) (by positivity)
  refine ⟨fun k i => (1 / (N : R) + ((if k = i then 1 else 0) - 1 / (N : R)) * f) / N, ?_, ?_, ?_, ?_⟩
  · rw [Simplex.weights, if_neg n0, f1]; rfl
  · intro k hk
    rw [← Finset.sum_div, Finset.sum_add_distrib, ← Finset.sum_mul, Finset.sum_sub_distrib, Finset.sum_ite_eq, if_pos (Finset.mem_range.2 hk)]
    simp only [Finset.sum_const, Finset.card_range, nsmul_eq_mul]
    field_simp
    ring
  · intro i hi
    rw [← Finset.sum_div, Finset.sum_add_distrib, ← Finset.sum_mul, Finset.sum_sub_distrib, Finset.sum_ite_eq', if_pos (Finset.mem_range.2 hi)]
    simp only [Finset.sum_const, Finset.card_range, nsmul_eq_mul]
    field_simp
    ring
  · intro i hi j hj
    have e : ∀ k, (1 / (N : R) + ((if k = i then 1 else 0) - 1 / (N : R)) * f) / N * ((1 / (N : R) + ((if k = j then 1 else 0) - 1 / (N : R)) * f) / N) =
        ((1 / (N : R) - f / N) ^ 2 + (1 / (N : R) - f / N) * f * ((if k = i then 1 else 0) + (if k = j then 1 else 0)) +
          f * f * ((if k = i then 1 else 0) * (if k = j then 1 else 0))) / N ^ 2 := fun k => by
      field_simp
      ring
    simp only [e]
    rw [← Finset.sum_div, Finset.sum_add_distrib, Finset.sum_add_distrib, ← Finset.mul_sum, ← Finset.mul_sum, Finset.sum_add_distrib, Finset.sum_ite_eq', Finset.sum_ite_eq',
      if_pos (Finset.mem_range.2 hi), if_pos (Finset.mem_range.2 hj)]
    have e2 : ∑ k ∈ Finset.range N, ((if k = i then (1 : R) else 0) * (if k = j then 1 else 0)) = if i = j then 1 else 0 := by
      rw [Finset.sum_eq_single i]
      · simp
      · intro k _ hk; simp [hk]
      · intro h; exact absurd (Finset.mem_range.2 hi) h
    rw [e2, f3]
    simp only [Finset.sum_const, Finset.card_range, nsmul_eq_mul]
    have f4 : f * f * (1 + (N : R)) = 1 := by rw [f3]; field_simp
    have n2 : 1 + (N : R) ≠ 0 := by positivity
    split
    · field_simp
      linear_combination (-(N : R) - 1) * f4
    · field_simp
      linear_combination (-(N : R) - 1) * f4

end

section
variable {A : Alg}

/-- In a projective algebra, where the one null basis vector is `z`, an antivector times its reverse is the square of one coefficient. -/
theorem antivector_norm (hA : WfAlg A) {R : Type} [CommRing R] {S : SubSpace} (hS : IsSpace A S fun b => popcount b + 1 = A.n) {z : Nat} (hz : z < A.n)
    (h0 : A.desc.sig.getD z 0 = 0) (h1 : ∀ i < A.n, i ≠ z → A.desc.sig.getD i 0 = 1) {x : Cl A R} (hx : Within A S x) :
    x * CliffordAlgebra.reverse x = (coef A R (A.pss ^^^ 2 ^ z) x * coef A R (A.pss ^^^ 2 ^ z) x) • 1 := by
  set E := A.pss ^^^ 2 ^ z with hE
  have z2 : 2 ^ z < 2 ^ A.n := Nat.pow_lt_pow_right (by norm_num) hz
  have hEl : E < 2 ^ A.n := xor_lt (pss_lt A) z2
  have bitE : ∀ i, E.testBit i = decide (i < A.n ∧ i ≠ z) := fun i => by
    rw [hE, Nat.testBit_xor, Alg.pss, Nat.testBit_two_pow_sub_one, Nat.testBit_two_pow]
    by_cases h : i = z
    · subst h; simp [hz]
    · simp [h, Ne.symm h]
  have hN : NonNeg A := fun s hs => by
    obtain ⟨i, hi, rfl⟩ := List.mem_iff_getElem.1 hs
    have e : A.desc.sig[i] = A.desc.sig.getD i 0 := by simp [List.getD_eq_getElem?_getD, hi]
    rw [e]
    by_cases h : i = z
    · rw [h, h0]
    · rw [h1 i hi h]; norm_num
  have hEn : ¬ NullBlade A E := by
    rintro ⟨i, hi, hb, hs⟩
    rw [bitE] at hb
    rw [h1 i hi (by simpa using (of_decide_eq_true hb).2)] at hs
    exact absurd hs (by norm_num)
  have sE : blade A R E * CliffordAlgebra.reverse (blade A R E) = 1 := by
    have k := congrArg (coef A ℚ 0) (rev_mul_blade (R := ℚ) hA hEl hEn)
    rw [hN.pc hA, reverse_blade, smul_mul_assoc, blade_mul hA, Nat.xor_self, blade_zero, map_smul, map_smul, map_smul, coef_one] at k
    have k' : (-1 : ℤ) ^ (pc A.n E / 2) * sgn A E E = 1 := by
      have : ((-1 : ℚ) ^ (pc A.n E / 2) * (sgn A E E : ℚ)) = 1 := by simpa using k
      exact_mod_cast this
    rw [reverse_blade, mul_smul_comm, blade_mul hA, Nat.xor_self, blade_zero, smul_smul]
    have : ((-1 : R) ^ (pc A.n E / 2) * ((sgn A E E : ℤ) : R)) = 1 := by exact_mod_cast congrArg (Int.cast (R := R)) k'
    rw [this, one_smul]
  have other : ∀ b ∈ S.blades, b ≠ E → ∃ l < A.n, l ≠ z ∧ b ^^^ A.pss = 2 ^ l ∧ b.testBit z = true := by
    intro b hb hne
    obtain ⟨b1, b2⟩ := (hS.2 b).1 hb
    obtain ⟨l, hl, e⟩ := anti_blade hA (by omega) b1 (by omega)
    have eb : b = A.pss ^^^ 2 ^ l := by rw [← e, Nat.xor_comm b, ← Nat.xor_assoc, Nat.xor_self, Nat.zero_xor]
    have hlz : l ≠ z := by rintro rfl; exact hne eb
    refine ⟨l, hl, hlz, e, ?_⟩
    rw [eb, Nat.testBit_xor, Alg.pss, Nat.testBit_two_pow_sub_one, Nat.testBit_two_pow]
    simp [hz, hlz]
  set n := x - coef A R E x • blade A R E with hn
  have supp : ∀ b < 2 ^ A.n, coef A R b n ≠ 0 → b ∈ S.blades ∧ b ≠ E := by
    intro b hb h
    have e : coef A R b n = coef A R b x - coef A R E x * (if b = E then 1 else 0) := by
      rw [hn, map_sub, map_smul, coef_blade A R hEl, smul_eq_mul]
    have hne : b ≠ E := by rintro rfl; simp [e] at h
    rw [if_neg hne, mul_zero, sub_zero] at e
    refine ⟨?_, hne⟩
    by_contra hm
    exact h (e.trans ((within_iff hS.1).1 hx b hb hm))
  have zero : ∀ a ∈ S.blades, a ≠ E → ∀ b ∈ S.blades, b ≠ E → blade A R a * CliffordAlgebra.reverse (blade A R b) = 0 := by
    intro a ha ha' b hb hb'
    have : sgn A a b = 0 := by
      by_contra h
      obtain ⟨_, _, _, _, ta⟩ := other a ha ha'
      obtain ⟨_, _, _, _, tb⟩ := other b hb hb'
      exact (sgn_ne_zero hA ((hS.2 a).1 ha).1).1 h ⟨z, hz, ta, tb, h0⟩
    rw [reverse_blade, mul_smul_comm, blade_mul hA, this]
    simp
  have cross : ∀ b ∈ S.blades, b ≠ E → blade A R E * CliffordAlgebra.reverse (blade A R b) + blade A R b * CliffordAlgebra.reverse (blade A R E) = 0 := by
    intro b hb hb'
    obtain ⟨l, hl, hlz, e, -⟩ := other b hb hb'
    have e2 : E ^^^ b = 2 ^ z ^^^ 2 ^ l := by
      rw [← e, hE, Nat.xor_comm b, Nat.xor_comm A.pss, Nat.xor_assoc]
    have p2 : pc A.n (E ^^^ b) = 2 := by
      have := pc_xor A.n (2 ^ z) (2 ^ l)
      rw [and_two_pow, Nat.testBit_two_pow, if_neg (by simpa using Ne.symm hlz), pc_two_pow hz, pc_two_pow hl, ← e2] at this
      simpa [pc] using this
    have : blade A R b * CliffordAlgebra.reverse (blade A R E) = CliffordAlgebra.reverse (blade A R E * CliffordAlgebra.reverse (blade A R b)) := by
      rw [CliffordAlgebra.reverse.map_mul, CliffordAlgebra.reverse_reverse]
    rw [this, reverse_blade, mul_smul_comm, blade_mul hA, map_smul, map_smul, reverse_blade, p2]
    simp
  have hx' : x = coef A R E x • blade A R E + n := by rw [hn]; abel
  have nn : n * CliffordAlgebra.reverse n = 0 := by
    rw [sum_coef A R n, map_sum, Finset.sum_mul_sum]
    refine Finset.sum_eq_zero fun a ha => Finset.sum_eq_zero fun b hb => ?_
    rw [map_smul, smul_mul_smul_comm]
    by_cases c1 : coef A R a n = 0
    · rw [c1, zero_mul, zero_smul]
    by_cases c2 : coef A R b n = 0
    · rw [c2, mul_zero, zero_smul]
    obtain ⟨a1, a2⟩ := supp a (Finset.mem_range.1 ha) c1
    obtain ⟨b1, b2⟩ := supp b (Finset.mem_range.1 hb) c2
    rw [zero a a1 a2 b b1 b2, smul_zero]
  have nE : blade A R E * CliffordAlgebra.reverse n + n * CliffordAlgebra.reverse (blade A R E) = 0 := by
    rw [sum_coef A R n, map_sum, Finset.mul_sum, Finset.sum_mul, ← Finset.sum_add_distrib]
    refine Finset.sum_eq_zero fun b hb => ?_
    rw [map_smul, mul_smul_comm, smul_mul_assoc, ← smul_add]
    by_cases c2 : coef A R b n = 0
    · rw [c2, zero_smul]
    obtain ⟨b1, b2⟩ := supp b (Finset.mem_range.1 hb) c2
    rw [cross b b1 b2, smul_zero]
  set k := coef A R E x with hk
  calc x * CliffordAlgebra.reverse x = (k * k) • (blade A R E * CliffordAlgebra.reverse (blade A R E)) +
        k • (blade A R E * CliffordAlgebra.reverse n + n * CliffordAlgebra.reverse (blade A R E)) + n * CliffordAlgebra.reverse n := by
        rw [hx', map_add, map_smul, add_mul, mul_add, mul_add, smul_mul_smul_comm, smul_mul_assoc, mul_smul_comm, smul_add]
        abel
    _ = _ := by rw [sE, nE, nn, smul_zero, add_zero, add_zero]

/-- The antivectors of a projective algebra are points; the mass is, up to its sign, the coefficient of the blade without the null vector. -/
theorem pga_points (hA : WfAlg A) (hn : 2 ≤ A.n) {R : Type} [Field R] {S : SubSpace} (hS : IsSpace A S fun b => popcount b + 1 = A.n) {z : Nat} (hz : z < A.n)
    (h0 : A.desc.sig.getD z 0 = 0) (h1 : ∀ i < A.n, i ≠ z → A.desc.sig.getD i 0 = 1) {e : R} (he : e * e = 1) :
    Points A S (e • coef A R (A.pss ^^^ 2 ^ z)) := by
  have z2 : 2 ^ z < 2 ^ A.n := Nat.pow_lt_pow_right (by norm_num) hz
  have hEl : A.pss ^^^ 2 ^ z < 2 ^ A.n := xor_lt (pss_lt A) z2
  have hEp : popcount (A.pss ^^^ 2 ^ z) + 1 = A.n := by
    have := pc_xor A.n A.pss (2 ^ z)
    rw [Nat.and_comm, pc_and_pss z2, pc_two_pow hz, pc_pss, ← popcount_of_lt hA.le32 hEl] at this
    omega
  have hES := (hS.2 _).2 ⟨hEl, hEp⟩
  refine ⟨hS.1, fun h => ?_, ?_, fun x hx hs => ?_⟩
  · have := h _ hES
    rw [List.mem_singleton] at this
    rw [this] at hEp
    have : popcount 0 = 0 := by rw [popcount_of_lt hA.le32 (by positivity : 0 < 2 ^ A.n)]; simp [pc]
    omega
  · have h := C39_least hA hS.1
    cases h with | cons _ h => ?_
    cases h with | cons h _ => ?_
    obtain ⟨T, t1, t2, t3, t4⟩ := h
    rw [t1]
    have sub : SubOf T ⟨[0]⟩ := t4 ⟨[0]⟩ (scalar_eq hA).2 fun x hx => by
      have := antivector_norm hA hS hz h0 h1 hx
      refine (within_iff (scalar_eq hA).2).2 fun b hb hb' => ?_
      change coef A ℤ b (x * CliffordAlgebra.reverse x) = 0
      rw [this, map_smul, ← blade_zero, coef_blade A ℤ (a := 0) (by positivity), if_neg (by simpa using hb'), smul_zero]
    have h0T : 0 ∈ T.blades := by
      by_contra h
      have w : Within A S (blade A ℤ (A.pss ^^^ 2 ^ z)) := (within_iff hS.1).2 fun b _ hb' => by
        rw [coef_blade A ℤ hEl, if_neg (fun e' : b = A.pss ^^^ 2 ^ z => hb' (by rw [e']; exact hES))]
      have k := (within_iff t2).1 (t3 ℤ _ w) 0 (by positivity) h
      change coef A ℤ 0 (_ * CliffordAlgebra.reverse _) = 0 at k
      rw [antivector_norm hA hS hz h0 h1 w, coef_blade A ℤ hEl, if_pos rfl, map_smul, ← blade_zero, coef_blade A ℤ (a := 0) (by positivity)] at k
      simp at k
    rw [t2.ext (scalar_eq hA).2 fun b => ⟨sub b, fun h => by rw [List.mem_singleton.1 h]; exact h0T⟩]
  · rw [antivector_norm hA hS hz h0 h1 ⟨x, hx, hs, rfl⟩, LinearMap.smul_apply, smul_eq_mul]
    congr 1
    linear_combination (-(coef A R (A.pss ^^^ 2 ^ z) (val A x)) ^ 2) * he

end

section
variable {A : Alg} {S : SubSpace} {rt : Roots ℝ} {fuel : Nat}

/-- The point with barycentric coordinates `w` of the simplex with the corners `c`, as an element of `S`. -/
def bary {R : Type} [Field R] {n : Nat} (S : SubSpace) (c : Fin n → MV R) (w : Fin n → R) : MV R :=
  ⟨S, (List.range S.blades.length).map fun k => ∑ i, w i * (c i).vals.getD k 0⟩

theorem val_bary {R : Type} [Field R] {n : Nat} {c : Fin n → MV R} (hc : ∀ i, WfMV A (c i) ∧ (c i).sub = S) (w : Fin n → R) :
    val A (bary S c w) = ∑ i, w i • val A (c i) := by
  have e : ∀ i, val A (c i) = ∑ k ∈ Finset.range S.blades.length, (c i).vals.getD k 0 • blade A R (S.blades.getD k 0) := fun i => by
    rw [val, (hc i).2, denote_eq_sum _ _ (by rw [(hc i).1.len, (hc i).2])]
  simp only [e, Finset.smul_sum]
  rw [val, bary, denote_eq_sum _ _ (by simp), Finset.sum_comm]
  refine Finset.sum_congr rfl fun k hk => ?_
  rw [List.getD_eq_getElem?_getD (α := R), List.getElem?_map, List.getElem?_range (Finset.mem_range.1 hk)]
  simp only [Option.map_some, Option.getD_some, Finset.sum_smul, smul_smul]

theorem mix_ofFn {R : Type} [Field R] {n : Nat} (c : Fin n → MV R) (w : Nat → R) :
    mix A (List.ofFn c) ((List.range n).map w) = ∑ i : Fin n, w i • val A (c i) := by
  have : (List.ofFn c).zip ((List.range n).map w) = List.ofFn fun i => (c i, w i) := by
    refine List.ext_getElem (by simp) fun i h1 h2 => ?_
    simp
  rw [mix, this, List.map_ofFn, List.sum_ofFn]
  rfl

/-- C102: `simplex_inertia_lumped` is the inertia of the solid simplex: every coefficient of the momentum of every rate is the mean over the
simplex, for uniform density, of the coefficient for the point mass at each point of the simplex. -/
theorem C102_lumped (hA : WfAlg A) (hn : 2 ≤ A.n) {μ : Cl A ℝ →ₗ[ℝ] ℝ} (hP : Points A S μ) (hr : RealRoots rt) {n : Nat} {c : Fin (n + 1) → MV ℝ}
    (hc : ∀ i, WfMV A (c i) ∧ (c i).sub = S ∧ μ (val A (c i)) = 1) :
    ∃ B o, A.bivector = some B ∧ Simplex.lumped A rt fuel S (List.ofFn c) = .ok o ∧ ∀ x : MV ℝ, WfMV A x → x.sub = B →
      ∃ (y : MV ℝ) (z : (Fin (n + 1) → ℝ) → MV ℝ), einsumCallMV o [x] = some y ∧ WfMV A y ∧
        (∀ w, (do einsumCallMV (← (bary S c w).inertiaMap A B) [x]) = some (z w) ∧ WfMV A (z w) ∧ (z w).sub = y.sub) ∧
        ∀ a, coeff y a = simplexMean n fun w => coeff (z w) a := by
  obtain ⟨W, w1, w2, w3, w4⟩ := C102_weights (R := ℝ) hr (N := n + 1) (by omega)
  have n0 : ((n + 1 : ℕ) : ℝ) ≠ 0 := Nat.cast_ne_zero.2 (by omega)
  have hm : ∀ k < n + 1, μ (mix A (List.ofFn c) ((List.range (n + 1)).map (W k))) = 1 / (n + 1 : ℕ) := fun k hk => by
    rw [mix_ofFn, map_sum, ← w2 k hk, Finset.sum_range]
    exact Finset.sum_congr rfl fun i _ => by rw [map_smul, (hc i).2.2, smul_eq_mul, mul_one]
  obtain ⟨B, o, out, b1, o1, u1, o2, o3⟩ := C102_inertia (fuel := fuel) hA hn hP hr (C := List.ofFn c) (W := (List.range (n + 1)).map fun k => (List.range (n + 1)).map (W k))
    (fun d hd => by obtain ⟨i, rfl⟩ := (List.mem_ofFn' _ _).1 hd; exact ⟨(hc i).1, (hc i).2.1⟩) (by simp) (by simp) (by
      intro w hw
      obtain ⟨k, hk, rfl⟩ := List.mem_map.1 hw
      rw [hm k (List.mem_range.1 hk)]
      positivity)
  refine ⟨B, o, b1, ?_, fun x hx hs => ?_⟩
  · rw [Simplex.lumped, List.length_ofFn, w1]; exact o1
  obtain ⟨y, y1, y2, y3, y4⟩ := o2.call hx hs
  obtain ⟨out', u1', u2⟩ := inertiaMap_unary (R := ℝ) hA hP.sub (hs ▸ hx.sub)
  cases u1'.symm.trans u1
  have hz : ∀ w, ∃ z : MV ℝ, (do einsumCallMV (← (bary S c w).inertiaMap A B) [x]) = some z ∧ WfMV A z ∧ z.sub = out.output ∧
      val A z = meet A ℝ (∑ i, w i • val A (c i)) (comm A ℝ (∑ i, w i • val A (c i)) (val A x)) := fun w => by
    obtain ⟨q, q1, q2, q3⟩ := u2 (bary S c w) ⟨hP.sub, by simp [bary]⟩ rfl
    obtain ⟨z, z1, z2, z3, z4⟩ := q2.call hx hs
    refine ⟨z, ?_, z3, z2, by rw [z4, q3 _ (hs ▸ hx.within), val_bary fun i => ⟨(hc i).1, (hc i).2.1⟩]⟩
    rw [q1]; exact z1
  choose z z1 z2 z3 z4 using hz
  refine ⟨y, z, y1, y3, fun w => ⟨z1 w, z2 w, (z3 w).trans y2.symm⟩, fun a => ?_⟩
  have e : (fun w => coeff (z w) a) = fun w => ∑ i, ∑ j, coef A ℝ a (meet A ℝ (val A (c i)) (comm A ℝ (val A (c j)) (val A x))) * (w i * w j) := by
    funext w
    rw [coeff_eq (z2 w), z4]
    simp only [map_sum, map_smul, LinearMap.sum_apply, LinearMap.smul_apply, Finset.smul_sum, smul_eq_mul]
    rw [Finset.sum_comm]
    exact Finset.sum_congr rfl fun i _ => Finset.sum_congr rfl fun j _ => by ring
  rw [e, simplex_mean, coeff_eq y3, y4, o3 _ (hs ▸ hx.within), List.map_map]
  have sum_list : ∀ f : Nat → Cl A ℝ, ((List.range (n + 1)).map f).sum = ∑ k ∈ Finset.range (n + 1), f k := fun f => by
    rw [← List.sum_toFinset f List.nodup_range, List.toFinset_range]
  rw [sum_list, map_sum]
  set β : Fin (n + 1) → Fin (n + 1) → ℝ := fun i j => coef A ℝ a (meet A ℝ (val A (c i)) (comm A ℝ (val A (c j)) (val A x))) with hβ
  have row : ∀ k ∈ Finset.range (n + 1), coef A ℝ a ((fun k => |μ (mix A (List.ofFn c) ((List.range (n + 1)).map (W k)))|⁻¹ •
      meet A ℝ (mix A (List.ofFn c) ((List.range (n + 1)).map (W k))) (comm A ℝ (mix A (List.ofFn c) ((List.range (n + 1)).map (W k))) (val A x))) k) =
      ∑ i : Fin (n + 1), ∑ j : Fin (n + 1), (n + 1 : ℕ) * (W k i * W k j) * β i j := by
    intro k hk
    beta_reduce
    rw [hm k (Finset.mem_range.1 hk)]
    simp only [mix_ofFn]
    rw [abs_of_pos (by positivity), one_div, inv_inv]
    simp only [map_sum, map_smul, LinearMap.sum_apply, LinearMap.smul_apply, Finset.smul_sum, smul_eq_mul]
    rw [Finset.sum_comm]
    exact Finset.sum_congr rfl fun i _ => Finset.sum_congr rfl fun j _ => by rw [hβ]; ring
  refine (Finset.sum_congr rfl row).trans ?_
  rw [Finset.sum_comm]
  have col : ∀ i j : Fin (n + 1), ∑ k ∈ Finset.range (n + 1), (n + 1 : ℕ) * (W k i * W k j) * β i j = (β i j + if i = j then β i j else 0) / ((n + 1) * (n + 2)) := by
    intro i j
    rw [← Finset.sum_mul, ← Finset.mul_sum, w4 i i.2 j j.2]
    push_cast
    by_cases h : i = j
    · rw [if_pos (congrArg _ h), if_pos h]; field_simp; ring
    · rw [if_neg (fun e => h (Fin.ext e)), if_neg h]; field_simp; ring
  have : ∀ i : Fin (n + 1), ∑ k ∈ Finset.range (n + 1), ∑ j : Fin (n + 1), (n + 1 : ℕ) * (W k i * W k j) * β i j = (∑ j, β i j + β i i) / ((n + 1) * (n + 2)) := by
    intro i
    rw [Finset.sum_comm]
    simp only [col]
    rw [← Finset.sum_div, Finset.sum_add_distrib, Finset.sum_ite_eq, if_pos (Finset.mem_univ _)]
  simp only [this]
  rw [← Finset.sum_div, Finset.sum_add_distrib]

/-- C102: the mean of the specification is the uniform one: the mean of one is one, the mean of every barycentric coordinate is the same. -/
theorem simplexMean_one (n : ℕ) : simplexMean n (fun _ => 1) = 1 ∧ ∀ i, simplexMean n (fun w => w i) = 1 / (n + 1) := by
  have sum1 : ∀ v : Fin n → ℝ, ∑ j, (Fin.cons (1 - ∑ i, v i) v : Fin (n + 1) → ℝ) j = 1 := fun v => by
    rw [Fin.sum_univ_succ]; simp
  have key : ∀ β : Fin (n + 1) → Fin (n + 1) → ℝ, ∀ f : (Fin (n + 1) → ℝ) → ℝ, (∀ w : Fin (n + 1) → ℝ, ∑ j, w j = 1 → f w = ∑ i, ∑ j, β i j * (w i * w j)) →
      simplexMean n f = (∑ i, ∑ j, β i j + ∑ i, β i i) / ((n + 1) * (n + 2)) := fun β f h => by
    rw [← simplex_mean n β, simplexMean, simplexMean]
    congr 2
    funext v
    exact h _ (sum1 v)
  have n1 : (n : ℝ) + 1 ≠ 0 := by positivity
  have n2 : (n : ℝ) + 2 ≠ 0 := by positivity
  refine ⟨?_, fun k => ?_⟩
  · rw [key (fun _ _ => 1) _ fun w hw => ?_]
    · simp only [Finset.sum_const, Finset.card_univ, Fintype.card_fin, nsmul_eq_mul]
      push_cast
      field_simp
      ring
    · simp only [one_mul, ← Finset.mul_sum, hw, mul_one]
  · rw [key (fun i _ => if i = k then 1 else 0) _ fun w hw => ?_]
    · rw [Finset.sum_comm]
      simp only [Finset.sum_ite_eq', Finset.mem_univ, if_true, Finset.sum_const, Finset.card_univ, Fintype.card_fin, nsmul_eq_mul]
      push_cast
      field_simp
      ring
    · simp only [ite_mul, one_mul, zero_mul]
      rw [Finset.sum_comm]
      simp only [Finset.sum_ite_eq', Finset.mem_univ, if_true]
      rw [← Finset.mul_sum, hw, mul_one]

/-! Points of the projective plane with mass one; and the three corners of a triangle. -/
namespace SimplexEx

theorem space : IsSpace pga2s ⟨[3, 5, 6]⟩ fun b => popcount b + 1 = pga2s.n := by
  obtain ⟨S, s1, s2⟩ := (C14_named wf_pga2s).2.2.2.2.2.2.1
  rw [show pga2s.antivector = some ⟨[3, 5, 6]⟩ by decide +kernel] at s1
  cases s1
  exact s2

theorem points : Points pga2s ⟨[3, 5, 6]⟩ ((1 : ℝ) • coef pga2s ℝ 3) :=
  pga_points wf_pga2s (by decide) space (z := 2) (by decide) (by decide) (by decide) (one_mul 1)

/-- A point of the plane. -/
def point (a b : ℝ) : MV ℝ := ⟨⟨[3, 5, 6]⟩, [1, a, b]⟩

theorem point_ok (a b : ℝ) : WfMV pga2s (point a b) ∧ (point a b).sub = ⟨[3, 5, 6]⟩ ∧ ((1 : ℝ) • coef pga2s ℝ 3) (val pga2s (point a b)) = 1 := by
  have h : WfMV pga2s (point a b) := ⟨space.1, rfl⟩
  refine ⟨h, rfl, ?_⟩
  rw [LinearMap.smul_apply, one_smul, ← coeff_eq h]
  rfl

example (fuel : Nat) : ∃ B o, pga2s.bivector = some B ∧ Simplex.lumped pga2s (realRoots 0) fuel ⟨[3, 5, 6]⟩ [point 0 0, point 3 0, point 0 4] = .ok o ∧
    ∀ x : MV ℝ, WfMV pga2s x → x.sub = B →
      ∃ (y : MV ℝ) (z : (Fin 3 → ℝ) → MV ℝ), einsumCallMV o [x] = some y ∧ WfMV pga2s y ∧
        (∀ w, (do einsumCallMV (← (bary ⟨[3, 5, 6]⟩ ![point 0 0, point 3 0, point 0 4] w).inertiaMap pga2s B) [x]) = some (z w) ∧
          WfMV pga2s (z w) ∧ (z w).sub = y.sub) ∧
        ∀ a, coeff y a = simplexMean 2 fun w => coeff (z w) a :=
  C102_lumped (c := ![point 0 0, point 3 0, point 0 4]) wf_pga2s (by decide) points (realRoots_law 0) fun i => by
    fin_cases i
    · exact point_ok 0 0
    · exact point_ok 3 0
    · exact point_ok 0 4

end SimplexEx

end
end Verif.Props
