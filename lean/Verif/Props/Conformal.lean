import Verif.Proofs.Conformal3
import Verif.Props.Description
import Verif.Props.Inverse
import Verif.Props.Roots
/-! # C90, C91: conformal algebras -/
namespace Verif.Props
open Model Spec

variable {R : Type}

/-! ## C90 -/

/-- C90: `Conformal.algebra` adds two dimensions, named `p` and `n`, of square one and minus one, after those of the description.
It is defined exactly when these names are free and there are at most 32 dimensions. -/
theorem C90_algebra {s : List Char} {E : Alg} (hE : Alg.fromStr s = some E) :
    ((Conformal.algebra s).isSome ↔ "p".toList ∉ E.desc.names ∧ "n".toList ∉ E.desc.names ∧ E.n ≤ 30) ∧
    ∀ C, Conformal.algebra s = some C → WfAlg C ∧ C.n = E.n + 2 ∧ C.desc.names = E.desc.names ++ ["p".toList, "n".toList] ∧
      C.desc.sig = E.desc.sig ++ [1, -1] := by
  obtain ⟨H, hH, h1, h2⟩ : ∃ H, Alg.fromStr "p+n-".toList = some H ∧ H.desc.names = ["p".toList, "n".toList] ∧ H.desc.sig = [1, -1] :=
    ⟨⟨⟨["p".toList, "n".toList], [1, -1]⟩, 1, 1⟩, by decide +kernel, rfl, rfl⟩
  have h3 : H.n = 2 := by rw [Alg.n, Description.nDimensions, h2]; rfl
  have e : Conformal.algebra s = E.mul H := by
    rw [Conformal.algebra, Conformal.hyperbolicAlgebra, hE, hH]; rfl
  obtain ⟨m1, m2⟩ := C09_mul hE hH
  rw [e]
  constructor
  · rw [m1, h1, h3]
    simp only [List.mem_cons, List.not_mem_nil, or_false, not_or]
    constructor
    · rintro ⟨k, hk⟩
      exact ⟨fun hp => (k _ hp).1 rfl, fun hn => (k _ hn).2 rfl, by omega⟩
    · rintro ⟨k1, k2, k3⟩
      exact ⟨fun n hn => ⟨fun h => k1 (h ▸ hn), fun h => k2 (h ▸ hn)⟩, by omega⟩
  · intro C hC
    obtain ⟨c1, c2, c3⟩ := m2 C hC
    exact ⟨wf_mul hC, by rw [c3, h3], by rw [c1, h1], by rw [c2, h2]⟩

theorem conf_of {s : List Char} {E C : Alg} (hE : Alg.fromStr s = some E) (hC : Conformal.algebra s = some C) :
    Conf C E.n ∧ ∀ (R : Type) [CommRing R], ∀ i < E.n, metric C R i = metric E R i := by
  obtain ⟨h1, h2, h3, h4⟩ := (C90_algebra hE).2 C hC
  have hl : E.n = E.desc.sig.length := rfl
  refine ⟨⟨h1, (wf_fromStr hE).pos, h2, ?_, ?_⟩, fun R _ i hi => ?_⟩
  · rw [h4, List.getD_eq_getElem?_getD, List.getElem?_append_right (by omega), hl]; simp
  · rw [h4, List.getD_eq_getElem?_getD, List.getElem?_append_right (by omega), hl]; simp
  · rw [metric, metric, h4, List.getD_eq_getElem?_getD, List.getD_eq_getElem?_getD, List.getElem?_append_left (by omega)]

/-- The coordinates of a point from the list of its values. -/
def pt (E : Alg) {R : Type} [CommRing R] (P : List R) : Fin E.n → R := fun i => P.getD (i : Nat) 0

variable [Field R] [DecidableEq R] {s : List Char} {E C : Alg}

/-- C90: the two null vectors `ni = p + n` and `no = (n - p) / 2` and their plane. -/
theorem C90_null (hE : Alg.fromStr s = some E) (hC : Conformal.algebra s = some C) (h2 : (2 : R) ≠ 0) (fuel : Nat) :
    ∃ i o N : MV R, Conformal.ni C = .ok i ∧ Conformal.no C fuel = .ok o ∧ Conformal.N C fuel = .ok N ∧
      val C i = blade C R (2 ^ E.n) + blade C R (2 ^ (E.n + 1)) ∧
      val C o = (1 / 2 : R) • (blade C R (2 ^ (E.n + 1)) - blade C R (2 ^ E.n)) ∧ val C N = blade C R (2 ^ E.n) * blade C R (2 ^ (E.n + 1)) ∧
      val C i * val C i = 0 ∧ val C o * val C o = 0 ∧ val C i * val C o + val C o * val C i = -2 ∧ val C N * val C N = 1 := by
  obtain ⟨h, _⟩ := conf_of hE hC
  have ev : val C (⟨⟨[2 ^ E.n ||| 2 ^ (E.n + 1)]⟩, [1]⟩ : MV R) = blade C R (2 ^ E.n ||| 2 ^ (E.n + 1)) := by simp [val, denote]
  refine ⟨_, _, _, h.ni_eq, h.no_eq h2 fuel, h.N_eq h2 fuel, ?_, ?_, ?_, ?_, ?_, ?_, ?_⟩
  · simp [val, denote]
  · simp only [val, denote, List.zipWith_cons_cons, List.zipWith_nil_right, List.sum_cons, List.sum_nil]
    match_scalars <;> ring
  · rw [ev, h.blade_N, ← blade_two_pow, ← blade_two_pow]; rfl
  · rw [h.val_pm, vec_sq, h.dot_pm, h.pm_ip, h.pm_im]; simp
  · rw [h.val_pm, vec_sq, h.dot_pm, h.pm_ip, h.pm_im]; ring_nf; simp
  · rw [h.val_pm, h.val_pm, dotvec_swap, h.dot_pm, h.pm_ip, h.pm_im, sub_add_cancel]
    have : (2 : R) * (-1 / 2 * 1 - 1 / 2 * 1) = -2 := by field_simp; ring
    rw [this]
    rw [neg_smul, ← Algebra.algebraMap_eq_smul_one, map_ofNat]
  · rw [ev, h.N_sq]

/-- C90: `embed_point` puts a point, given as a list of as many values as there are dimensions, and a radius on all vector
blades; for a list of another length it raises an exception. -/
theorem C90_embed (hE : Alg.fromStr s = some E) (hC : Conformal.algebra s = some C) (h2 : (2 : R) ≠ 0) (fuel : Nat) (P : List R) (r : R) :
    (P.length = E.n → ∃ V, C.vector = some V ∧ Conformal.embedPoint C fuel P r = .ok ⟨V,
      P ++ [(dot E (pt E P) (pt E P) - r * r - 1) / 2, (dot E (pt E P) (pt E P) - r * r + 1) / 2]⟩) ∧
    (P.length ≠ E.n → Conformal.embedPoint C fuel P r = .error .raised) := by
  obtain ⟨h, hm⟩ := conf_of hE hC
  constructor
  · intro hP
    refine ⟨_, vector_eq h.wf, h.embed_ok h2 fuel hP r ?_⟩
    exact (h.dot_base rfl hm hP).symm
  · intro hP
    have e : MV.construct P ⟨(List.range E.n).map (2 ^ ·)⟩ = (none : Option (MV R)) := by
      rw [MV.construct, if_neg (by simpa using hP)]
    have : Conformal.euclidian C P = .error .raised := by
      rw [Conformal.euclidian, h.euclidian_eq, lift_some]
      simp only [bind, Except.bind, MVFactory.multivector, Option.bind, e]
      rfl
    rw [Conformal.embedPoint, this]
    rfl

/-- C90: the inner product of two embedded points is minus half the squared distance, with the squared radii subtracted; the
square of an embedded point is the squared radius and its inner product with `ni` is minus one. -/
theorem C90_distance (hE : Alg.fromStr s = some E) (hC : Conformal.algebra s = some C) (h2 : (2 : R) ≠ 0) (fuel : Nat) {P P' : List R}
    (hP : P.length = E.n) (hP' : P'.length = E.n) (r r' : R) :
    ∃ x y i z k : MV R, Conformal.embedPoint C fuel P r = .ok x ∧ Conformal.embedPoint C fuel P' r' = .ok y ∧ Conformal.ni C = .ok i ∧
      WfMV C x ∧ x.inner C y = some z ∧ x.inner C i = some k ∧
      val C z = algebraMap R _ (-(dot E (pt E P - pt E P') (pt E P - pt E P') - r * r - r' * r') / 2) ∧
      val C x * val C x = algebraMap R _ (r * r) ∧ val C k = -1 := by
  obtain ⟨h, hm⟩ := conf_of hE hC
  have e1 := h.embed_ok h2 fuel hP r (h.dot_base rfl hm hP).symm
  have e2 := h.embed_ok h2 fuel hP' r' (h.dot_base rfl hm hP').symm
  obtain ⟨z, z1, z2, z3⟩ := inner_vecs h.wf (h.mv_V hP _ _) (h.hom_V _) (h.mv_V hP' _ _) (h.hom_V _)
  obtain ⟨k, k1, k2, k3⟩ := inner_vecs h.wf (h.mv_V hP _ _) (h.hom_V _) (h.mv_pm (R := R) 1 1) (h.hom_pm 1 1)
  refine ⟨_, _, _, z, k, e1, e2, h.ni_eq, h.mv_V hP _ _, z1, k1, ?_, ?_, ?_⟩
  · rw [z3.val, h.coords_full hP, h.coords_full hP', h.dot_full rfl hm hP hP', Algebra.algebraMap_eq_smul_one]
    congr 1
    have : dot E (pt E P - pt E P') (pt E P - pt E P') = dot E (pt E P) (pt E P) - 2 * dot E (pt E P) (pt E P') + dot E (pt E P') (pt E P') := by
      simp only [dot, Finset.mul_sum, ← Finset.sum_sub_distrib, ← Finset.sum_add_distrib]
      refine Finset.sum_congr rfl fun i _ => ?_
      simp only [Pi.sub_apply]
      ring
    have hp : ∀ P : List R, (fun i : Fin E.n => P.getD (i : Nat) 0) = pt E P := fun _ => rfl
    rw [this, hp, hp]
    field_simp
    ring
  · rw [val_vec h.wf (h.mv_V hP _ _) (h.hom_V _), vec_sq, h.coords_full hP, h.dot_full rfl hm hP hP, Algebra.algebraMap_eq_smul_one]
    congr 1
    field_simp
    ring
  · rw [k3.val, h.coords_pm, h.dot_pm, h.coords_full hP]
    beta_reduce
    rw [h.at_p hP, h.at_m hP]
    have : ∀ t : R, (t - 1) / 2 * 1 - (t + 1) / 2 * 1 = -1 := fun t => by field_simp; ring
    rw [this, neg_smul, one_smul]

/-- C90: `point_position` of a vector drops the coordinates along `p` and `n` and keeps the others. -/
theorem C90_position (hE : Alg.fromStr s = some E) (hC : Conformal.algebra s = some C) (h2 : (2 : R) ≠ 0) (fuel : Nat) {x : MV R}
    (hx : WfMV C x) (hh : Homogeneous 1 x) :
    ∃ z, Conformal.pointPosition C fuel x = .ok z ∧ WfMV C z ∧ (∀ b, b ∈ z.sub.blades ↔ b ∈ x.sub.blades ∧ b < 2 ^ E.n) ∧
      ∀ b ∈ z.sub.blades, coeff z b = coeff x b := by
  obtain ⟨h, _⟩ := conf_of hE hC
  obtain ⟨z, z1, z2, z3, z4⟩ := h.position h2 fuel hx hh
  refine ⟨z, z1, z2, z3, fun b hb => ?_⟩
  obtain ⟨b1, b2⟩ := (z3 b).1 hb
  obtain ⟨i, hi, rfl⟩ := pow_of_hom h.wf hx hh b1
  have hd : i < E.n := (Nat.pow_lt_pow_iff_right (by norm_num)).1 b2
  rw [coeff_eq z2, z4]
  refine (coef_vec _ (⟨i, hi⟩ : Fin C.n)).trans ?_
  rw [if_pos hd]
  rfl

/-- C90: `normalize` divides a vector by minus its inner product with `ni`, after which that inner product is minus one; when it
is zero the division fails. -/
theorem C90_normalize (hE : Alg.fromStr s = some E) (hC : Conformal.algebra s = some C) (fuel : Nat) {x : MV R}
    (hx : WfMV C x) (hh : Homogeneous 1 x) {c : R} (hc : c = coeff x (2 ^ (E.n + 1)) - coeff x (2 ^ E.n)) :
    (c ≠ 0 → Conformal.normalize C fuel x = .ok ⟨x.sub, x.vals.map (· / c)⟩ ∧
      ∃ i k, Conformal.ni C = .ok i ∧ MV.inner C (⟨x.sub, x.vals.map (· / c)⟩ : MV R) i = some k ∧ val C k = -1) ∧
    (c = 0 → x.sub.blades ≠ [] → Conformal.normalize C (fuel + 1) x = .error .divZero) := by
  obtain ⟨h, _⟩ := conf_of hE hC
  constructor
  · intro h0
    obtain ⟨y, y1, y2⟩ := h.normalize_eq fuel hx hh
    have y1' : Sc y c := by rw [hc]; exact y1
    have hy : y = ⟨⟨[0]⟩, [c]⟩ := y1'.resolve_left fun e => h0 e.2
    have wx : WfMV C (⟨x.sub, x.vals.map (· / c)⟩ : MV R) := ⟨hx.sub, by simp [hx.len]⟩
    refine ⟨by rw [y2, hy]; exact (C49_scalar h.wf fuel hx h0).1, ?_⟩
    have hh' : Homogeneous 1 (⟨x.sub, x.vals.map (· / c)⟩ : MV R) := fun b hb => hh b hb
    obtain ⟨k, k1, k2, k3⟩ := inner_vecs h.wf wx hh' (h.mv_pm (R := R) 1 1) (h.hom_pm 1 1)
    refine ⟨_, k, h.ni_eq, k1, ?_⟩
    have hco : ∀ i : Fin C.n, coords C (⟨x.sub, x.vals.map (· / c)⟩ : MV R) i = c⁻¹ * coords C x i := by
      intro i
      have hv : val C (⟨x.sub, x.vals.map (· / c)⟩ : MV R) = c⁻¹ • val C x := denote_div _ _
      simp only [coords]
      rw [coeff_eq wx, coeff_eq hx, hv, map_smul, smul_eq_mul]
    rw [k3.val, h.coords_pm, h.dot_pm, hco, hco]
    have : c⁻¹ * coords C x h.ip * 1 - c⁻¹ * coords C x h.im * 1 = -(c⁻¹ * c) := by rw [hc]; simp only [coords, Conf.ip, Conf.im]; ring
    rw [this, inv_mul_cancel₀ h0, neg_smul, one_smul]
  · intro h0 hne
    obtain ⟨y, y1, y2⟩ := h.normalize_eq (fuel + 1) hx hh
    have y1' : Sc y c := by rw [hc]; exact y1
    rw [y2]
    exact (Sc.div h.wf fuel hx y1').2 h0 hne

/-- C90: any nonzero multiple of an embedded point is normalised to the embedded point, and `point_position` of that is the point. -/
theorem C90_roundtrip (hE : Alg.fromStr s = some E) (hC : Conformal.algebra s = some C) (h2 : (2 : R) ≠ 0) (fuel : Nat) {P : List R}
    (hP : P.length = E.n) (r : R) {c : R} (h0 : c ≠ 0) :
    ∃ x : MV R, Conformal.embedPoint C fuel P r = .ok x ∧ Conformal.normalize C fuel ⟨x.sub, x.vals.map (c * ·)⟩ = .ok x ∧
      ∃ S, Conformal.euclidianSpace C = some S ∧ Conformal.pointPosition C fuel x = .ok ⟨S, P⟩ := by
  obtain ⟨h, hm⟩ := conf_of hE hC
  have e1 := h.embed_ok h2 fuel hP r (h.dot_base rfl hm hP).symm
  generalize ht : dot E _ _ - r * r = t at e1
  refine ⟨_, e1, ?_, _, h.euclidian_eq, ?_⟩
  · have hl : ∀ c : R, WfMV C (⟨⟨(List.range C.n).map (2 ^ ·)⟩, (P ++ [(t - 1) / 2, (t + 1) / 2]).map (c * ·)⟩ : MV R) :=
      fun c => ⟨h.wf_V, by simp [hP, h.n]⟩
    have hco : ∀ i : Fin C.n, coords C (⟨⟨(List.range C.n).map (2 ^ ·)⟩, (P ++ [(t - 1) / 2, (t + 1) / 2]).map (c * ·)⟩ : MV R) i =
        c * (P ++ [(t - 1) / 2, (t + 1) / 2]).getD (i : Nat) 0 := by
      intro i
      rw [coords_range (hl c)]
      generalize P ++ [(t - 1) / 2, (t + 1) / 2] = l
      beta_reduce
      rw [List.getD_eq_getElem?_getD, List.getD_eq_getElem?_getD, List.getElem?_map]
      cases l[(i : Nat)]? <;> simp
    have hc : c = coeff (⟨⟨(List.range C.n).map (2 ^ ·)⟩, (P ++ [(t - 1) / 2, (t + 1) / 2]).map (c * ·)⟩ : MV R) (2 ^ (E.n + 1)) -
        coeff (⟨⟨(List.range C.n).map (2 ^ ·)⟩, (P ++ [(t - 1) / 2, (t + 1) / 2]).map (c * ·)⟩ : MV R) (2 ^ E.n) := by
      have i1 := hco h.ip
      have i2 := hco h.im
      rw [h.at_p hP] at i1
      rw [h.at_m hP] at i2
      simp only [coords, Conf.ip, Conf.im] at i1 i2
      rw [i1, i2]
      field_simp
      ring
    rw [((C90_normalize hE hC fuel (hl c) (h.hom_V _) hc).1 h0).1]
    congr 2
    rw [List.map_map]
    conv_rhs => rw [← List.map_id (P ++ [(t - 1) / 2, (t + 1) / 2])]
    congr 1
    funext v
    simp [mul_div_cancel_left₀ v h0]
  · obtain ⟨z, z1, z2, z3, z4⟩ := h.position h2 fuel (h.mv_V hP _ _) (h.hom_V (P ++ [(t - 1) / 2, (t + 1) / 2]))
    rw [z1]
    congr 1
    refine mv_eq z2 (h.mv_E hP) (WfSub.ext z2.sub h.wf_E fun b => ?_) ?_
    · rw [z3]
      simp only [h.V_blades, List.mem_append]
      constructor
      · rintro ⟨hb | hb, hlt⟩
        · exact hb
        · simp only [List.mem_cons, List.not_mem_nil, or_false] at hb
          have := Nat.pow_lt_pow_right (a := 2) (by norm_num) (Nat.lt_succ_self E.n)
          rcases hb with rfl | rfl <;> omega
      · intro hb
        refine ⟨Or.inl hb, ?_⟩
        obtain ⟨i, hi, rfl⟩ := h.mem_E.1 hb
        exact Nat.pow_lt_pow_right (by norm_num) hi
    · rw [z4, val_vec h.wf (h.mv_E hP) (h.hom_E P), coords_range (h.mv_E hP), h.coords_full hP]
      congr 1
      funext i
      split
      · rename_i hi
        exact h.at_lt hP _ _ hi
      · rename_i hi
        rw [List.getD_eq_getElem?_getD, List.getElem?_eq_none (by omega)]
        rfl

/-- The conformal algebra of the plane. -/
def cga2 : Alg := ⟨⟨["x".toList, "y".toList, "p".toList, "n".toList], [1, 1, 1, -1]⟩, 1, 1⟩

example : Alg.fromStr "x+y+".toList = some euc2 ∧ Conformal.algebra "x+y+".toList = some cga2 ∧
    Conformal.algebra "x+p+".toList = none := by decide +kernel

/-- A point of radius one, its position, and a multiple of it that `normalize` takes back. -/
example : Conformal.embedPoint cga2 4 [(1 : ℚ), 2] 1 = .ok ⟨⟨[1, 2, 4, 8]⟩, [1, 2, 3 / 2, 5 / 2]⟩ ∧
    Conformal.embedPoint cga2 4 [(1 : ℚ)] 1 = .error .raised ∧
    Conformal.pointPosition cga2 4 (⟨⟨[1, 2, 4, 8]⟩, [1, 2, 3 / 2, 5 / 2]⟩ : MV ℚ) = .ok ⟨⟨[1, 2]⟩, [1, 2]⟩ ∧
    Conformal.normalize cga2 4 (⟨⟨[1, 2, 4, 8]⟩, [-2, -4, -3, -5]⟩ : MV ℚ) = .ok ⟨⟨[1, 2, 4, 8]⟩, [1, 2, 3 / 2, 5 / 2]⟩ ∧
    Conformal.normalize cga2 4 (⟨⟨[1, 2, 4, 8]⟩, [1, 2, 1, 1]⟩ : MV ℚ) = .error .divZero := by decide +kernel

/-! ## C91 -/

variable {K : Type} [Field K] [LinearOrder K] [IsStrictOrderedRing K]

theorem null_dot {A : Alg} (hA : WfAlg A) {x : MV K} (hx : WfMV A x) (hh : Homogeneous 1 x) (h : val A x * val A x = 0) :
    dot A (coords A x) (coords A x) = 0 := by
  rw [val_vec hA hx hh, vec_sq] at h
  exact smul_one_inj (A := A) (by rw [h, zero_smul])

/-- C91: splitting a bivector that is the wedge of two null vectors, in the conformal algebra of a line or a plane.  With a
negative inner product of the two the first element of `split_points` is `-(x . ni) y`, the second `(y . ni) x`; with a positive
one they change places.  The mixin returns them in the opposite order. -/
theorem C91_split (hE : Alg.fromStr s = some E) (hC : Conformal.algebra s = some C) (hn : E.n ≤ 2) {fuel : Nat} (hf : 4 ≤ fuel)
    {rt : Roots K} (hr : RealRoots rt) {x y t T : MV K} (hx : WfMV C x) (hx1 : Homogeneous 1 x) (hy : WfMV C y) (hy1 : Homogeneous 1 y)
    (hx0 : val C x * val C x = 0) (hy0 : val C y * val C y = 0) (ht : x.wedge C y = some t) (hT : WfMV C T) (hT2 : Homogeneous 2 T)
    (hTt : val C T = val C t) {β ξ υ : K} (hβ : ∃ z, x.inner C y = some z ∧ val C z = algebraMap K _ β) (hb : β ≠ 0)
    (hξ : ∃ i z, Conformal.ni C = .ok i ∧ x.inner C i = some z ∧ val C z = algebraMap K _ ξ)
    (hυ : ∃ i z, Conformal.ni C = .ok i ∧ y.inner C i = some z ∧ val C z = algebraMap K _ υ) :
    ∃ a b a' b', Conformal.splitPoints C fuel rt T = .ok (a, b) ∧ Conformal.splitPointsMixin C fuel rt T = .ok (a', b') ∧
      WfMV C a ∧ Homogeneous 1 a ∧ WfMV C b ∧ Homogeneous 1 b ∧ WfMV C a' ∧ Homogeneous 1 a' ∧ WfMV C b' ∧ Homogeneous 1 b' ∧
      val C a' = val C b ∧ val C b' = val C a ∧
      (β < 0 → val C a = -(ξ • val C y) ∧ val C b = υ • val C x) ∧ (0 < β → val C a = υ • val C x ∧ val C b = -(ξ • val C y)) := by
  obtain ⟨h, _⟩ := conf_of hE hC
  have h4 : C.n ≤ 4 := by rw [h.n]; omega
  have h2 : (2 : K) ≠ 0 := two_ne_zero
  have num : ∀ {x y z : MV K} {c : K}, WfMV C x → Homogeneous 1 x → WfMV C y → Homogeneous 1 y → x.inner C y = some z → val C z = algebraMap K _ c →
      c = dot C (coords C x) (coords C y) := by
    intro x y z c hx hx1 hy hy1 h1 h2
    obtain ⟨z', z1, _, z3⟩ := inner_vecs h.wf hx hx1 hy hy1
    cases h1.symm.trans z1
    rw [z3.val, Algebra.algebraMap_eq_smul_one] at h2
    exact (smul_one_inj h2).symm
  obtain ⟨z, b1, b2⟩ := hβ
  have eβ := num hx hx1 hy hy1 b1 b2
  obtain ⟨i, z, i1, c1, c2⟩ := hξ
  cases i1.symm.trans h.ni_eq
  have eξ := num hx hx1 (h.mv_pm 1 1) (h.hom_pm 1 1) c1 c2
  obtain ⟨i, z, i1, d1, d2⟩ := hυ
  cases i1.symm.trans h.ni_eq
  have eυ := num hy hy1 (h.mv_pm 1 1) (h.hom_pm 1 1) d1 d2
  rw [h.coords_pm] at eξ eυ
  obtain ⟨_, _, t', t1, _, _, t4⟩ := wedge_in h.wf hx hy
  cases ht.symm.trans t1
  have hvT : val C T = wedgeMap C K (vec C (coords C x)) (vec C (coords C y)) := by
    rw [hTt, t4, val_vec h.wf hx hx1, val_vec h.wf hy hy1]
  obtain ⟨r, r1, r2, r3⟩ := hr.nonneg (β * β) (mul_self_nonneg β)
  obtain ⟨o, o1, o2, o3⟩ := hr.nonneg 0 (le_refl _)
  have ho : o = 0 := mul_self_eq_zero.1 o3
  rw [ho] at o1
  have hx' := null_dot h.wf hx hx1 hx0
  have hy' := null_dot h.wf hy hy1 hy0
  obtain ⟨a, a1, a2, a3, a4⟩ := h.split_ok h4 h2 hf hT hT2 hvT hx' hy' eβ hb r1 r3 o1 1
  obtain ⟨b, b1, b2, b3, b4⟩ := h.split_ok h4 h2 hf hT hT2 hvT hx' hy' eβ hb r1 r3 o1 (-1)
  obtain ⟨a', b', m1, m2, m3, m4, m5, m6, m7⟩ := h.split_mixin h4 h2 hf hT hT2 hvT hx' hy' eβ hb r1 r3 o1
  rw [← eξ, ← eυ, ← val_vec h.wf hx hx1, ← val_vec h.wf hy hy1] at a4 b4 m6 m7
  refine ⟨a, b, a', b', ?_, m1, a2, a3, b2, b3, m2, m3, m4, m5, ?_, ?_, ?_, ?_⟩
  · simp only [Conformal.splitPoints, a1, b1, bind, Except.bind]
    rfl
  · rw [m6, b4]; congr 3; ring
  · rw [m7, a4]; congr 3; ring
  · intro hneg
    have hr' : r = -β := by
      have : (r - -β) * (r + -β) = 0 := by ring_nf; rw [pow_two, r3]; ring
      rcases mul_eq_zero.1 this with e | e
      · linarith
      · linarith
    have e : r⁻¹ * β = -1 := by rw [hr']; field_simp
    rw [a4, b4, e]
    constructor
    · match_scalars <;> field_simp <;> ring
    · match_scalars <;> field_simp <;> ring
  · intro hpos
    have hr' : r = β := by
      have : (r - β) * (r + β) = 0 := by ring_nf; rw [pow_two, r3]; ring
      rcases mul_eq_zero.1 this with e | e
      · linarith
      · linarith
    have e : r⁻¹ * β = 1 := by rw [hr']; field_simp
    rw [a4, b4, e]
    constructor
    · match_scalars <;> field_simp <;> ring
    · match_scalars <;> field_simp <;> ring

/-- C91: when the inner product of the two null vectors is zero, but their wedge is not, the division by the norm fails. -/
theorem C91_degenerate (hE : Alg.fromStr s = some E) (hC : Conformal.algebra s = some C) (hn : E.n ≤ 3) {fuel : Nat} (hf : 4 ≤ fuel)
    {rt : Roots K} (hr : RealRoots rt) {x y t z T : MV K} (hx : WfMV C x) (hx1 : Homogeneous 1 x) (hy : WfMV C y) (hy1 : Homogeneous 1 y)
    (hx0 : val C x * val C x = 0) (hy0 : val C y * val C y = 0) (ht : x.wedge C y = some t) (hT : WfMV C T) (hT2 : Homogeneous 2 T)
    (hTt : val C T = val C t) (hz : x.inner C y = some z) (hz0 : val C z = 0) (hne : val C T ≠ 0) :
    Conformal.splitPoints C fuel rt T = .error .divZero := by
  obtain ⟨h, _⟩ := conf_of hE hC
  have h5 : C.n < 6 := by rw [h.n]; omega
  obtain ⟨z', z1, _, z3⟩ := inner_vecs h.wf hx hx1 hy hy1
  cases hz.symm.trans z1
  rw [z3.val] at hz0
  have hβ : dot C (coords C x) (coords C y) = 0 := smul_one_inj (A := C) (by rw [hz0, zero_smul])
  obtain ⟨_, _, t', t1, _, _, t4⟩ := wedge_in h.wf hx hy
  cases ht.symm.trans t1
  have hvT : val C T = wedgeMap C K (vec C (coords C x)) (vec C (coords C y)) := by
    rw [hTt, t4, val_vec h.wf hx hx1, val_vec h.wf hy hy1]
  obtain ⟨o, o1, o2, o3⟩ := hr.nonneg 0 (le_refl _)
  have ho : o = 0 := mul_self_eq_zero.1 o3
  rw [ho] at o1
  have := h.split_degenerate h5 two_ne_zero hf hT hT2 hvT (null_dot h.wf hx hx1 hx0) (null_dot h.wf hy hy1 hy0) hβ hne o1 1
  rw [Conformal.splitPoints, this]
  rfl

/-- C91: splitting the pair of two points of the line or the plane at a positive squared distance.  After `normalize` the two
elements are at the second and at the first point; without it the position of the second element has the opposite sign. -/
theorem C91_points (hE : Alg.fromStr s = some E) (hC : Conformal.algebra s = some C) (hn : E.n ≤ 2) {fuel : Nat} (hf : 4 ≤ fuel)
    {rt : Roots K} (hr : RealRoots rt) {P P' : List K} (hP : P.length = E.n) (hP' : P'.length = E.n)
    (hd : 0 < dot E (pt E P - pt E P') (pt E P - pt E P')) :
    ∃ x y t a b a₁ b₁ p q q' : MV K, Conformal.embedPoint C fuel P 0 = .ok x ∧ Conformal.embedPoint C fuel P' 0 = .ok y ∧
      x.wedge C y = some t ∧ Conformal.splitPoints C fuel rt t = .ok (a, b) ∧
      Conformal.normalize C fuel a = .ok a₁ ∧ Conformal.normalize C fuel b = .ok b₁ ∧ val C a₁ = val C y ∧ val C b₁ = val C x ∧
      Conformal.pointPosition C fuel a₁ = .ok p ∧ Conformal.pointPosition C fuel b₁ = .ok q ∧ Conformal.pointPosition C fuel b = .ok q' ∧
      ∀ i < E.n, coeff p (2 ^ i) = P'.getD i 0 ∧ coeff q (2 ^ i) = P.getD i 0 ∧ coeff q' (2 ^ i) = -P.getD i 0 := by
  obtain ⟨h, hm⟩ := conf_of hE hC
  have h2 : (2 : K) ≠ 0 := two_ne_zero
  obtain ⟨x, y, i, z, k, x1, y1, i1, wx, z1, k1, z2, xx, k2⟩ := C90_distance hE hC h2 fuel hP hP' 0 0
  obtain ⟨y', x', i', z', k', y1', x1', i1', wy, _, k1', _, yy, k2'⟩ := C90_distance hE hC h2 fuel hP' hP 0 0
  cases i1.symm.trans i1'
  cases y1.symm.trans y1'
  obtain ⟨τ, ex⟩ : ∃ τ, x = ⟨⟨(List.range C.n).map (2 ^ ·)⟩, P ++ [(τ - 1) / 2, (τ + 1) / 2]⟩ :=
    ⟨_, Except.ok.inj (x1.symm.trans (h.embed_ok h2 fuel hP 0 (h.dot_base rfl hm hP).symm))⟩
  obtain ⟨σ, ey⟩ : ∃ σ, y = ⟨⟨(List.range C.n).map (2 ^ ·)⟩, P' ++ [(σ - 1) / 2, (σ + 1) / 2]⟩ :=
    ⟨_, Except.ok.inj (y1.symm.trans (h.embed_ok h2 fuel hP' 0 (h.dot_base rfl hm hP').symm))⟩
  have hx1 : Homogeneous 1 x := by rw [ex]; exact h.hom_V _
  have hy1 : Homogeneous 1 y := by rw [ey]; exact h.hom_V _
  have cx : coords C x = fun i : Fin C.n => (P ++ [(τ - 1) / 2, (τ + 1) / 2]).getD (i : Nat) 0 := by rw [ex]; exact h.coords_full hP _ _
  have cy : coords C y = fun i : Fin C.n => (P' ++ [(σ - 1) / 2, (σ + 1) / 2]).getD (i : Nat) 0 := by rw [ey]; exact h.coords_full hP' _ _
  obtain ⟨U, u1, t, t1, t2, t3, t4⟩ := wedge_in h.wf wx wy
  have ht2 : Homogeneous 2 t := by
    intro c hc
    rw [t2] at hc
    obtain ⟨_, e, he, f, hf, hef, rfl⟩ := u1.2 c |>.1 hc
    have h1 := popcount_xor e f
    have hx : e ||| f = e ^^^ f := by
      apply Nat.eq_of_testBit_eq
      intro k
      have := congrArg (·.testBit k) hef
      simp only [Nat.testBit_and, Nat.zero_testBit] at this
      rw [Nat.testBit_xor, Nat.testBit_or]
      revert this
      cases e.testBit k <;> cases f.testBit k <;> simp
    rw [hef, hx1 e he, hy1 f hf, ← hx] at h1
    rw [show popcount 0 = 0 from by decide] at h1
    simpa using h1
  have hneg : -(dot E (pt E P - pt E P') (pt E P - pt E P') - 0 * 0 - 0 * 0) / 2 < 0 := by linarith
  obtain ⟨a, b, _, _, s1, _, wa, ha, wb, hb, _, _, _, _, _, _, s2, _⟩ := C91_split hE hC hn hf hr wx hx1 wy hy1 (by rw [xx]; simp)
    (by rw [yy]; simp) t1 t3 ht2 rfl ⟨z, z1, z2⟩ hneg.ne (ξ := -1) (υ := -1) ⟨i, k, i1, k1, by rw [k2]; simp⟩ ⟨i, k', i1, k1', by rw [k2']; simp⟩
  obtain ⟨va, vb⟩ := s2 hneg
  rw [neg_smul, one_smul, neg_neg] at va
  rw [neg_smul, one_smul] at vb
  have ca : coords C a = coords C y := by
    funext j
    simp only [coords]
    rw [coeff_eq wa, coeff_eq wy, va]
  have cb : coords C b = fun j => -coords C x j := by
    funext j
    simp only [coords]
    rw [coeff_eq wb, coeff_eq wx, vb, map_neg]
  have one : ∀ c : K, (c + 1) / 2 - (c - 1) / 2 = 1 := fun c => by field_simp; ring
  obtain ⟨sa, sa1, sa2⟩ := h.normalize_eq fuel wa ha
  obtain ⟨sb, sb1, sb2⟩ := h.normalize_eq fuel wb hb
  have sa3 : Sc sa (1 : K) := by
    rw [ca, cy] at sa1
    beta_reduce at sa1
    rw [h.at_p hP', h.at_m hP', one] at sa1
    exact sa1
  have sb3 : Sc sb (-1 : K) := by
    rw [cb, cx] at sb1
    beta_reduce at sb1
    rw [h.at_p hP, h.at_m hP, neg_sub_neg, ← neg_sub, one] at sb1
    exact sb1
  obtain ⟨a₁, a1, a2, a3, a4⟩ := (Sc.div h.wf fuel wa sa3).1 one_ne_zero
  obtain ⟨b₁, b1, b2, b3, b4⟩ := (Sc.div h.wf fuel wb sb3).1 (neg_ne_zero.2 one_ne_zero)
  rw [inv_one, one_smul, va] at a4
  rw [inv_neg, inv_one, neg_smul, one_smul, vb, neg_neg] at b4
  have ha1 : Homogeneous 1 a₁ := fun c hc => ha c (a3 ▸ hc)
  have hb1 : Homogeneous 1 b₁ := fun c hc => hb c (b3 ▸ hc)
  obtain ⟨p, p1, p2, p3, p4⟩ := h.position h2 fuel a2 ha1
  obtain ⟨q, q1, q2, q3, q4⟩ := h.position h2 fuel b2 hb1
  obtain ⟨q', r1, r2, r3, r4⟩ := h.position h2 fuel wb hb
  refine ⟨x, y, t, a, b, a₁, b₁, p, q, q', x1, y1, t1, s1, sa2.trans a1, sb2.trans b1, a4, b4, p1, q1, r1, fun j hj => ?_⟩
  have hj' : j < C.n := by rw [h.n]; omega
  have ca1 : coords C a₁ = coords C y := by
    funext j
    simp only [coords]
    rw [coeff_eq a2, coeff_eq wy, a4]
  have cb1 : coords C b₁ = coords C x := by
    funext j
    simp only [coords]
    rw [coeff_eq b2, coeff_eq wx, b4]
  refine ⟨?_, ?_, ?_⟩
  · rw [coeff_eq p2, p4]
    refine (coef_vec _ (⟨j, hj'⟩ : Fin C.n)).trans ?_
    rw [if_pos hj, ca1, cy]
    exact h.at_lt hP' _ _ hj
  · rw [coeff_eq q2, q4]
    refine (coef_vec _ (⟨j, hj'⟩ : Fin C.n)).trans ?_
    rw [if_pos hj, cb1, cx]
    exact h.at_lt hP _ _ hj
  · rw [coeff_eq r2, r4]
    refine (coef_vec _ (⟨j, hj'⟩ : Fin C.n)).trans ?_
    rw [if_pos hj, cb, cx]
    exact congrArg _ (h.at_lt hP _ _ hj)

/-- C91: the claim needs the bound on the dimension.  In the conformal algebra of space the same bivector `p n` is split when it
is stored on its one blade, and raises an exception when it is stored with two further blades. -/
theorem C91_space_fails : ∃ C : Alg, Conformal.algebra "x+y+z+".toList = some C ∧
    (∃ z, Conformal.splitPoints C 4 someRoots (⟨⟨[24]⟩, [1]⟩ : MV ℚ) = .ok z) ∧
    Conformal.splitPoints C 4 someRoots (⟨⟨[6, 9, 24]⟩, [0, 0, 1]⟩ : MV ℚ) = .error .raised :=
  ⟨⟨⟨["x".toList, "y".toList, "z".toList, "p".toList, "n".toList], [1, 1, 1, 1, -1]⟩, 1, 1⟩, by decide +kernel,
    ⟨(⟨⟨[8, 16]⟩, [0, 0]⟩, ⟨⟨[8, 16]⟩, [-1, -1]⟩), by decide +kernel⟩, by decide +kernel⟩

/-- The pair of the points `(0, 0)` and `(1, 0)`: the second element is minus the first point. -/
example : Conformal.embedPoint cga2 4 [(0 : ℚ), 0] 0 = .ok ⟨⟨[1, 2, 4, 8]⟩, [0, 0, -1 / 2, 1 / 2]⟩ ∧
    Conformal.embedPoint cga2 4 [(1 : ℚ), 0] 0 = .ok ⟨⟨[1, 2, 4, 8]⟩, [1, 0, 0, 1]⟩ ∧
    MV.wedge cga2 (⟨⟨[1, 2, 4, 8]⟩, [0, 0, -1 / 2, 1 / 2]⟩ : MV ℚ) ⟨⟨[1, 2, 4, 8]⟩, [1, 0, 0, 1]⟩ =
      some ⟨⟨[3, 5, 6, 9, 10, 12]⟩, [0, 1 / 2, 0, -1 / 2, 0, -1 / 2]⟩ := by decide +kernel

example : Conformal.splitPoints cga2 4 someRoots (⟨⟨[3, 5, 6, 9, 10, 12]⟩, [0, 1 / 2, 0, -1 / 2, 0, -1 / 2]⟩ : MV ℚ) =
    .ok (⟨⟨[1, 2, 4, 8]⟩, [1, 0, 0, 1]⟩, ⟨⟨[1, 2, 4, 8]⟩, [0, 0, 1 / 2, -1 / 2]⟩) := by decide +kernel

end Verif.Props
