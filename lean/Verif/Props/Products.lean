import Verif.Proofs.Products
import Verif.Props.Unary
/-! # Properties C28 – C31, C33 – C38: products of multivectors -/
namespace Verif.Props
open Model Spec

variable {A : Alg} {R : Type} [CommRing R]

/-! ## C28 -/

/-- C28: `x * y` represents the Clifford product. -/
theorem C28_product (hA : WfAlg A) {x y : MV R} (hx : WfMV A x) (hy : WfMV A y) : Gives A (x.product A y) (val A x * val A y) :=
  product_gives hA hx hy

/-- C28: the product does not depend on the subspaces in which the factors are stored. -/
theorem C28_storage (hA : WfAlg A) {x x' y y' : MV R} (hx : WfMV A x) (hx' : WfMV A x') (hy : WfMV A y) (hy' : WfMV A y')
    (ex : ∀ b, coeff x b = coeff x' b) (ey : ∀ b, coeff y b = coeff y' b) : Agree A (x.product A y) (x'.product A y') := by
  refine Agree.of (product_gives hA hx hy) (product_gives hA hx' hy') ?_
  have e : ∀ {u w : MV R}, WfMV A u → WfMV A w → (∀ b, coeff u b = coeff w b) → val A u = val A w := by
    intro u w hu hw h
    apply ext_coef
    intro b _
    rw [← coeff_eq hu, ← coeff_eq hw, h]
  rw [e hx hx' ex, e hy hy' ey]

/-- C28: hence products are associative. -/
theorem C28_assoc (hA : WfAlg A) {x y z : MV R} (hx : WfMV A x) (hy : WfMV A y) (hz : WfMV A z) :
    Agree A (do (← x.product A y).product A z) (do x.product A (← y.product A z)) :=
  Agree.of ((product_gives hA hx hy).bind fun _ h e => e ▸ product_gives hA h hz)
    ((product_gives hA hy hz).bind fun _ h e => e ▸ product_gives hA hx h) (mul_assoc _ _ _)

example : exV.product pga3 exV = some ⟨⟨[0, 3, 5, 6, 9, 10, 12]⟩, [21, 0, 0, 0, 0, 0, 0]⟩ ∧ WfMV pga3 exV := ⟨by decide +kernel, wf_exV⟩
example : (∀ b ∈ [0, 2, 3, 6, 15], coeff exX b ≠ 0) ∧ WfMV pga3 exX ∧ WfMV pga3 exE := ⟨by decide +kernel, wf_exX, wf_exE⟩

/-! ## C29 -/

/-- C29: `x ^ y` represents the product in the exterior algebra, which knows nothing about the metric. -/
theorem C29_wedge (hA : WfAlg A) {x y : MV R} (hx : WfMV A x) (hy : WfMV A y) :
    ∃ z, x.wedge A y = some z ∧ WfMV A z ∧ valExt A z = valExt A x * valExt A y := by
  obtain ⟨z, h1, h2, h3⟩ := wedge_gives hA hx hy
  exact ⟨z, h1, h2, by rw [valExt_eq h2, h3, toExt_wedge hA, valExt_eq hx, valExt_eq hy]⟩

/-- C29: a multivector is determined by the element of the exterior algebra it represents (and its subspace). -/
theorem C29_faithful {x y : MV R} (hx : WfMV A x) (hy : WfMV A y) (h : valExt A x = valExt A y) : val A x = val A y := by
  rw [valExt_eq hx, valExt_eq hy] at h
  exact toExt_injective h

/-- C29: the wedge product is associative. -/
theorem C29_assoc (hA : WfAlg A) {x y z : MV R} (hx : WfMV A x) (hy : WfMV A y) (hz : WfMV A z) :
    Agree A (do (← x.wedge A y).wedge A z) (do x.wedge A (← y.wedge A z)) :=
  Agree.of ((wedge_gives hA hx hy).bind fun _ h e => e ▸ wedge_gives hA h hz)
    ((wedge_gives hA hy hz).bind fun _ h e => e ▸ wedge_gives hA hx h) (wedge_assoc hA _ _ _)

/-- C29: `v ^ v = 0` for vectors. -/
theorem C29_vector (hA : WfAlg A) {v : MV R} (hv : WfMV A v) (h1 : Homogeneous 1 v) : Gives A (v.wedge A v) 0 :=
  (wedge_gives hA hv hv).congr (vector_wedge_self hA _ (gradePart_val hv h1))

example : exX.wedge pga3 exV = some ⟨⟨[1, 2, 4, 8, 3, 6, 10, 7, 11, 14]⟩, [6, 2, -4, 8, 3, 2, -4, 9, 12, 20]⟩ := by decide +kernel
example : WfMV pga3 exV ∧ Homogeneous 1 exV := ⟨wf_exV, by unfold Homogeneous; decide +kernel⟩

/-! ## C30 -/

/-- C30: the grade-selected products are, summed over the grades `i` and `j` of the homogeneous parts of the factors,
the parts of grade `|i-j|`, `0`, `j-i`, `i-j`, `i+j` and `2` of the geometric product. -/
theorem C30_graded (hA : WfAlg A) {x y : MV R} (hx : WfMV A x) (hy : WfMV A y) :
    Gives A (x.inner A y) (gradedProduct A R (fun i j k => (k : Int) = |(i : Int) - j|) (val A x) (val A y)) ∧
    Gives A (x.scalarProduct A y) (gradedProduct A R (fun _ _ k => k = 0) (val A x) (val A y)) ∧
    Gives A (x.leftContract A y) (gradedProduct A R (fun i j k => (k : Int) = j - i) (val A x) (val A y)) ∧
    Gives A (x.rightContract A y) (gradedProduct A R (fun i j k => (k : Int) = i - j) (val A x) (val A y)) ∧
    Gives A (x.wedge A y) (gradedProduct A R (fun i j k => k = i + j) (val A x) (val A y)) ∧
    (2 ≤ A.n → Gives A (x.bivectorProduct A y) (gradePart A R 2 (val A x * val A y))) := by
  refine ⟨(bin_gives (inner_bin hA) hx hy).congr (gradedProduct_congr fun i j k => ?_),
    (bin_gives (scalarProduct_bin hA) hx hy),
    (bin_gives (leftContraction_bin hA) hx hy).congr (gradedProduct_congr fun i j k => ?_),
    (bin_gives (rightContraction_bin hA) hx hy).congr (gradedProduct_congr fun i j k => ?_),
    (bin_gives (wedge_bin hA) hx hy).congr (gradedProduct_congr fun i j k => ?_), fun hn => ?_⟩
  · rcases le_total (i : Int) j with h | h
    · rw [abs_of_nonpos (by omega)]; omega
    · rw [abs_of_nonneg (by omega)]; omega
  · omega
  · omega
  · omega
  · obtain ⟨S, s1, s2, s3⟩ := kVector_isSpace hA (g := 2) (k := 2) ⟨hn, Or.inl rfl⟩
    have : Factory.bivectorProduct A (.sub x.sub) (.sub y.sub) = Factory.nProduct A (.sub x.sub) (.sub y.sub) S := by
      rw [Factory.bivectorProduct, Alg.bivector, s1]; rfl
    rw [MV.bivectorProduct, this]
    refine (call_gives2 (nProduct_sem hA (argSem_sub hx.sub) (argSem_sub hy.sub) s2) hx hy ⟨trivial, trivial⟩).congr ?_
    rw [gradePart_eq_proj]
    exact proj_congr (fun b hb => by rw [s3]; exact ⟨fun h => h.2, fun h => ⟨hb, h⟩⟩) _

example : exV.inner pga3 exE = some ⟨⟨[1, 2, 4, 8]⟩, [1, 23, 1, 0]⟩ := by decide +kernel
example : WfAlg pga3 ∧ 2 ≤ pga3.n ∧ WfMV pga3 exX ∧ WfMV pga3 exV := ⟨wf_pga3, by decide, wf_exX, wf_exV⟩

/-! ## C31 -/

/-- C31: `v*M = v.left_contract(M) + v^M` and `M*v = M.right_contract(v) + M^v` for vectors `v`. -/
theorem C31_split (hA : WfAlg A) {v M : MV R} (hv : WfMV A v) (h1 : Homogeneous 1 v) (hM : WfMV A M) :
    Agree A (v.product A M) (do (← v.leftContract A M).add A (.mv (← v.wedge A M))) ∧
    Agree A (M.product A v) (do (← M.rightContract A v).add A (.mv (← M.wedge A v))) := by
  have hg := gradePart_val hv h1
  constructor
  · refine Agree.of (product_gives hA hv hM) ?_ (vector_mul hA _ _ hg)
    refine (bin_gives (leftContraction_bin hA) hv hM).bind fun a ha ea => (bin_gives (wedge_bin hA) hv hM).bind fun b hb eb => ?_
    obtain ⟨_, _, h, _⟩ := C44_sum hA ha hb
    rw [ea, eb] at h
    exact h.gives
  · refine Agree.of (product_gives hA hM hv) ?_ (mul_vector hA _ _ hg)
    refine (bin_gives (rightContraction_bin hA) hM hv).bind fun a ha ea => (bin_gives (wedge_bin hA) hM hv).bind fun b hb eb => ?_
    obtain ⟨_, _, h, _⟩ := C44_sum hA ha hb
    rw [ea, eb] at h
    exact h.gives

/-- C31 fails for the symmetric inner product: for a scalar `M` the product is counted twice. -/
theorem C31_inner_doubles : (do (← exV.inner pga3 ⟨⟨[0]⟩, [1]⟩).add pga3 (.mv (← exV.wedge pga3 ⟨⟨[0]⟩, [1]⟩))) =
    some ⟨⟨[1, 2, 4, 8]⟩, [6, 2, -4, 8]⟩ ∧ exV.product pga3 ⟨⟨[0]⟩, [1]⟩ = some exV := by decide +kernel

example : WfMV pga3 exV ∧ Homogeneous 1 exV ∧ WfMV pga3 exX := ⟨wf_exV, by unfold Homogeneous; decide +kernel, wf_exX⟩

/-! ## C33 -/

theorem regressive_gives (hA : WfAlg A) {x y : MV R} (hx : WfMV A x) (hy : WfMV A y) :
    Gives A (x.regressive A y) (rhInv A R (wedgeMap A R (rhMap A R (val A x)) (rhMap A R (val A y)))) :=
  bin_gives (regressive_bin hA) hx hy

/-- C33: `dual(a & b) = dual(a) ^ dual(b)`. -/
theorem C33_dual (hA : WfAlg A) {x y : MV R} (hx : WfMV A x) (hy : WfMV A y) :
    Agree A (do (← x.regressive A y).dual A) (do (← x.dual A).wedge A (← y.dual A)) := by
  refine Agree.of ((regressive_gives hA hx hy).bind fun a ha ea => ea ▸ un_gives (rightHodge_un hA) ha)
    ((un_gives (rightHodge_un hA) hx).bind fun a ha ea => (un_gives (rightHodge_un hA) hy).bind fun b hb eb =>
      ea ▸ eb ▸ wedge_gives hA ha hb) ?_
  rw [rh_rhInv]

/-- C33: `&` is associative. -/
theorem C33_assoc (hA : WfAlg A) {x y z : MV R} (hx : WfMV A x) (hy : WfMV A y) (hz : WfMV A z) :
    Agree A (do (← x.regressive A y).regressive A z) (do x.regressive A (← y.regressive A z)) := by
  refine Agree.of ((regressive_gives hA hx hy).bind fun _ h e => e ▸ regressive_gives hA h hz)
    ((regressive_gives hA hy hz).bind fun _ h e => e ▸ regressive_gives hA hx h) ?_
  rw [rh_rhInv, rh_rhInv, wedge_assoc hA]

/-- C33: `&` is bilinear. -/
theorem C33_bilinear (hA : WfAlg A) {x y z w : MV R} (t : R) (hx : WfMV A x) (hy : WfMV A y) (hz : WfMV A z) (hw : WfMV A w)
    (e : val A w = t • val A y + val A z) :
    (∃ p q, Gives A (x.regressive A y) p ∧ Gives A (x.regressive A z) q ∧ Gives A (x.regressive A w) (t • p + q)) ∧
    (∃ p q, Gives A (y.regressive A x) p ∧ Gives A (z.regressive A x) q ∧ Gives A (w.regressive A x) (t • p + q)) := by
  refine ⟨⟨_, _, regressive_gives hA hx hy, regressive_gives hA hx hz, (regressive_gives hA hx hw).congr ?_⟩,
    ⟨_, _, regressive_gives hA hy hx, regressive_gives hA hz hx, (regressive_gives hA hw hx).congr ?_⟩⟩
  · rw [e]
    simp only [wedgeMap, ← gradedProductₗ_apply, map_add, map_smul, LinearMap.add_apply, LinearMap.smul_apply]
  · rw [e]
    simp only [wedgeMap, ← gradedProductₗ_apply, map_add, map_smul, LinearMap.add_apply, LinearMap.smul_apply]

/-- C33: the pseudoscalar is the unit of `&` up to the sign `(-1)^q`, where `q` counts the negative basis vectors. -/
theorem C33_unit (hA : WfAlg A) {x : MV R} (hx : WfMV A x) :
    Gives A ((bladeMV R A.pss).regressive A x) ((-1 : R) ^ negCount A A.pss • val A x) ∧
    Gives A (x.regressive A (bladeMV R A.pss)) ((-1 : R) ^ negCount A A.pss • val A x) := by
  have hp := wf_bladeMV (R := R) (pss_lt A)
  have hc : pc A.n A.negatives = negCount A A.pss := by
    rw [← negCount_eq hA]
    unfold pc
    apply Finset.sum_congr rfl
    intro i hi
    rw [Nat.testBit_and, Alg.pss, Nat.testBit_two_pow_sub_one, decide_eq_true (Finset.mem_range.1 hi), Bool.true_and]
  have e : rhMap A R (val A (bladeMV R A.pss)) = ((-1 : R) ^ negCount A A.pss) • (1 : Cl A R) := by
    rw [val_bladeMV, rh_pss hA, hc]
  constructor
  · refine (regressive_gives hA hp hx).congr ?_
    rw [e, wedgeMap, gradedProduct_smul_left, ← wedgeMap, one_wedge hA, map_smul, rhInv_rh]
  · refine (regressive_gives hA hx hp).congr ?_
    rw [e, wedgeMap, gradedProduct_smul_right, ← wedgeMap, wedge_one hA, map_smul, rhInv_rh]

example : (bladeMV ℤ sta.pss).regressive sta exV = some ⟨⟨[1, 2, 4, 8]⟩, [-3, -1, 2, -4]⟩ ∧ negCount sta sta.pss = 3 := by
  decide +kernel

/-! ## C34 -/

/-- C34: the complements are right and left multiplication by `I`, in the algebra without null vectors. -/
theorem C34_complements (hA : WfAlg A) {x : MV R} (hx : WfMV A x) :
    (∃ d, Gives A (MV.call (Factory.rightComplement A (.sub x.sub)) [x]) d ∧
      relabel A R d = relabel A R (val A x) * blade (unnull A) R A.pss) ∧
    (∃ d, Gives A (MV.call (Factory.leftComplement A (.sub x.sub)) [x]) d ∧
      relabel A R d = blade (unnull A) R A.pss * relabel A R (val A x)) :=
  ⟨⟨_, un_gives (rightComplement_un hA) hx, relabel_rc hA _⟩, ⟨_, un_gives (leftComplement_un hA) hx, relabel_lc hA _⟩⟩

/-- C34: the anti-product is the left complement of the geometric product of the right complements. -/
theorem C34_value (hA : WfAlg A) {x y : MV R} (hx : WfMV A x) (hy : WfMV A y) :
    ∃ c d r, relabel A R c = relabel A R (val A x) * blade (unnull A) R A.pss ∧
      relabel A R d = relabel A R (val A y) * blade (unnull A) R A.pss ∧
      relabel A R r = blade (unnull A) R A.pss * relabel A R (c * d) ∧ Gives A (x.antiProduct A y) r :=
  ⟨_, _, _, relabel_rc hA _, relabel_rc hA _, relabel_lc hA _, bin_gives (antiProduct_bin hA) hx hy⟩

/-- C34: reading coefficients in the other algebra loses nothing, so the equations above determine the values. -/
theorem C34_faithful {x y : Cl A R} (h : relabel A R x = relabel A R y) : x = y := relabel_injective h

theorem anti_gives (hA : WfAlg A) {x y : MV R} (hx : WfMV A x) (hy : WfMV A y) :
    Gives A (x.antiProduct A y) (antiMul A R (val A x) (val A y)) := bin_gives (antiProduct_bin hA) hx hy

/-- C34: in odd dimensions the anti-product is associative. -/
theorem C34_odd (hA : WfAlg A) (hn : Odd A.n) {x y z : MV R} (hx : WfMV A x) (hy : WfMV A y) (hz : WfMV A z) :
    Agree A (do (← x.antiProduct A y).antiProduct A z) (do x.antiProduct A (← y.antiProduct A z)) :=
  Agree.of ((anti_gives hA hx hy).bind fun _ h e => e ▸ anti_gives hA h hz)
    ((anti_gives hA hy hz).bind fun _ h e => e ▸ anti_gives hA hx h) (antiMul_assoc_odd hA hn _ _ _)

/-- C34: in every algebra of even dimension it is not: with `I` twice and the complement of the first basis vector the
two bracketings differ in sign. -/
theorem C34_even (hA : WfAlg A) (hn : Even A.n) :
    ∃ x y z : MV ℤ, WfMV A x ∧ WfMV A y ∧ WfMV A z ∧
      ∃ v, v ≠ 0 ∧ Gives A (do (← x.antiProduct A y).antiProduct A z) (-v) ∧ Gives A (do x.antiProduct A (← y.antiProduct A z)) v := by
  have h1 : 1 < 2 ^ A.n := Nat.one_lt_two_pow (by have := hA.pos; omega)
  have hp := wf_bladeMV (R := ℤ) (pss_lt A)
  have hz := wf_bladeMV (R := ℤ) (xor_lt h1 (pss_lt A))
  refine ⟨bladeMV ℤ A.pss, bladeMV ℤ A.pss, bladeMV ℤ (1 ^^^ A.pss), hp, hp, hz, blade A ℤ (1 ^^^ A.pss), ?_, ?_, ?_⟩
  · intro h
    have := congrArg (coef A ℤ (1 ^^^ A.pss)) h
    rw [coef_blade _ _ (xor_lt h1 (pss_lt A)), if_pos rfl, map_zero] at this
    exact one_ne_zero this
  all_goals
    have hpop : pc A.n 1 = 1 := by
      have := popcount_two_pow hA (i := 0) (by have := hA.pos; omega)
      rwa [pow_zero, popcount_of_lt hA.le32 h1] at this
    obtain ⟨s, hs, hlc⟩ : ∃ s : ℤ, s * s = 1 ∧ lcMap A ℤ (s • blade A ℤ 1) = blade A ℤ (1 ^^^ A.pss) := by
      refine ⟨rcSign A 1 * (-1) ^ ((A.n + 1) * pc A.n 1), ?_, ?_⟩
      · have := rcSign_sq A 1
        rw [mul_mul_mul_comm, this, ← mul_pow]; simp
      · rw [map_smul, lcMap_blade hA h1, smul_smul, Int.cast_id, mul_mul_mul_comm, rcSign_sq, ← mul_pow]; simp
    obtain ⟨e1, e2⟩ := antiMul_even hA hn (s • blade A ℤ 1)
    have hinv : CliffordAlgebra.involute (s • blade A ℤ 1) = - (s • blade A ℤ 1) := by
      rw [map_smul, involute_blade A ℤ 1, hpop]; simp
    rw [hinv, map_neg, hlc] at e1
    rw [hlc] at e2
  · refine ((anti_gives hA hp hp).bind fun _ h e => e ▸ anti_gives hA h hz).congr ?_
    rw [val_bladeMV, val_bladeMV, e1]
  · refine ((anti_gives hA hp hz).bind fun _ h e => e ▸ anti_gives hA hp h).congr ?_
    rw [val_bladeMV, val_bladeMV, e2]

example : Even pga3.n ∧ Odd ({ pga3 with desc := { names := ["x".toList], sig := [1] } } : Alg).n := by decide

/-! ## C35 -/

theorem commutator_gives (hA : WfAlg A) {x y : MV R} (hx : WfMV A x) (hy : WfMV A y) :
    Gives A (x.commutator A y) (comm A R (val A x) (val A y)) := call_gives2 (commutator_sem hA hx.sub hy.sub) hx hy trivial
theorem antiCommutator_gives (hA : WfAlg A) {x y : MV R} (hx : WfMV A x) (hy : WfMV A y) :
    Gives A (x.antiCommutator A y) (acomm A R (val A x) (val A y)) := call_gives2 (antiCommutator_sem hA hx.sub hy.sub) hx hy trivial

/-- C35: the commutators succeed and are exactly half of `xy - yx` and `xy + yx`, without rounding, over any ring of
coefficients. -/
theorem C35_half (hA : WfAlg A) {x y : MV R} (hx : WfMV A x) (hy : WfMV A y) :
    (∃ c, Gives A (x.commutator A y) c ∧ (2 : R) • c = val A x * val A y - val A y * val A x) ∧
    (∃ c, Gives A (x.antiCommutator A y) c ∧ (2 : R) • c = val A x * val A y + val A y * val A x) :=
  ⟨⟨_, commutator_gives hA hx hy, two_comm hA _ _⟩, ⟨_, antiCommutator_gives hA hx hy, two_acomm hA _ _⟩⟩

/-- C35: their sum is the geometric product. -/
theorem C35_sum (hA : WfAlg A) {x y : MV R} (hx : WfMV A x) (hy : WfMV A y) :
    Agree A (do (← x.commutator A y).add A (.mv (← x.antiCommutator A y))) (x.product A y) := by
  refine Agree.of ((commutator_gives hA hx hy).bind fun a ha ea => (antiCommutator_gives hA hx hy).bind fun b hb eb => ?_)
    (product_gives hA hx hy) (comm_add_acomm hA _ _)
  obtain ⟨_, _, h, _⟩ := C44_sum hA ha hb
  rw [ea, eb] at h
  exact h.gives

/-- C35: the commutator satisfies the Jacobi identity. -/
theorem C35_jacobi (hA : WfAlg A) {x y z : MV R} (hx : WfMV A x) (hy : WfMV A y) (hz : WfMV A z) :
    ∃ a b c : Cl A R, Gives A (do x.commutator A (← y.commutator A z)) a ∧ Gives A (do y.commutator A (← z.commutator A x)) b ∧
      Gives A (do z.commutator A (← x.commutator A y)) c ∧ a + b + c = 0 := by
  have h : ∀ {u v w : MV R}, WfMV A u → WfMV A v → WfMV A w →
      Gives A (do u.commutator A (← v.commutator A w)) (comm A R (val A u) (comm A R (val A v) (val A w))) := by
    intro u v w hu hv hw
    exact (commutator_gives hA hv hw).bind fun _ h e => e ▸ commutator_gives hA hu h
  exact ⟨_, _, _, h hx hy hz, h hy hz hx, h hz hx hy, jacobi hA _ _ _⟩

/-- C35: commuting with a bivector preserves grade. -/
theorem C35_bivector (hA : WfAlg A) {B x : MV R} {k : Nat} (hB : WfMV A B) (h2 : Homogeneous 2 B) (hx : WfMV A x)
    (hk : Homogeneous k x) : ∃ c, Gives A (B.commutator A x) c ∧ gradePart A R k c = c :=
  ⟨_, commutator_gives hA hB hx, comm_grade hA (gradePart_val hB h2) (gradePart_val hx hk)⟩

example : (⟨⟨[3, 6]⟩, [2, 5]⟩ : MV ℤ).commutator pga3 exV = some ⟨⟨[1, 2, 4]⟩, [2, -10, -5]⟩ ∧
    WfMV pga3 (⟨⟨[3, 6]⟩, [2, 5]⟩ : MV ℤ) ∧ Homogeneous 2 (⟨⟨[3, 6]⟩, [2, 5]⟩ : MV ℤ) :=
  ⟨by decide +kernel, ⟨wfSub_of_B (by decide +kernel), rfl⟩, by unfold Homogeneous; decide +kernel⟩

end Verif.Props
