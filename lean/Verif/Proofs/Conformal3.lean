import Verif.Proofs.Conformal2
import Verif.Spec.Roots
/-! # Conformal algebra: splitting point pairs -/
namespace Verif
open Model Spec Factory Props

variable {A : Alg} {R : Type} [Field R] [DecidableEq R]

omit [DecidableEq R] in
theorem denote_one_at {S : SubSpace} (hS : WfSub A S) (h0 : 0 ∈ S.blades) (c : R) :
    denote A R S (S.blades.map fun b => if b = 0 then c else 0) = c • (1 : Cl A R) := by
  have key : ∀ l : List Nat, l.Nodup → (List.zipWith (fun b x => x • blade A R b) l (l.map fun b => if b = 0 then c else 0)).sum =
      if 0 ∈ l then c • (1 : Cl A R) else 0 := by
    intro l
    induction l with
    | nil => simp
    | cons a l ih =>
      intro hn
      rw [List.nodup_cons] at hn
      rw [List.map_cons, List.zipWith_cons_cons, List.sum_cons, ih hn.2]
      by_cases ha : a = 0
      · subst ha
        rw [if_pos rfl, if_neg hn.1, if_pos (List.mem_cons_self ..), blade_zero, add_zero]
      · rw [if_neg ha, zero_smul, zero_add]
        have : 0 ∈ a :: l ↔ 0 ∈ l := by
          rw [List.mem_cons]
          exact ⟨fun h => h.resolve_left fun e => ha e.symm, Or.inr⟩
        simp only [this]
  rw [denote, key _ hS.nodup, if_pos h0]

/-- The square root of the coefficients of a number stored in a larger subspace. -/
theorem sqrt_of_number {rt : Roots R} {x : MV R} (hx : WfMV A x) {c s : R} (hv : val A x = c • (1 : Cl A R)) (hc : c ≠ 0)
    (hs : rt.sqrt c = some s) (h0 : rt.sqrt 0 = some 0) :
    ∃ y, x.sqrt rt = .ok y ∧ WfMV A y ∧ y.sub = x.sub ∧ val A y = s • (1 : Cl A R) := by
  have hm : 0 ∈ x.sub.blades := by
    by_contra hm
    have e := coeff_notMem (R := R) hm
    rw [coeff_eq hx, hv, ← blade_zero, map_smul, coef_blade _ _ (Nat.two_pow_pos _), if_pos rfl, smul_eq_mul, mul_one] at e
    exact hc e
  have hl : ∀ c : R, WfMV A (⟨x.sub, x.sub.blades.map fun b => if b = 0 then c else 0⟩ : MV R) := fun c => ⟨hx.sub, by simp⟩
  have e : x = ⟨x.sub, x.sub.blades.map fun b => if b = 0 then c else 0⟩ :=
    mv_eq hx (hl c) rfl (hv.trans (denote_one_at hx.sub hm c).symm)
  refine ⟨⟨x.sub, x.sub.blades.map fun b => if b = 0 then s else 0⟩, ?_, hl s, rfl, denote_one_at hx.sub hm s⟩
  have em : x.vals.mapM (MV.sqrtVal rt) = .ok (x.sub.blades.map fun b => if b = 0 then s else 0) := by
    rw [congrArg MV.vals e]
    generalize x.sub.blades = l
    induction l with
    | nil => rfl
    | cons a l ih =>
      rw [List.map_cons, List.mapM_cons, ih]
      by_cases ha : a = 0 <;> simp [ha, MV.sqrtVal, hs, h0, bind, Except.bind, pure, Except.pure]
  rw [MV.sqrt, em]
  simp only [bind, Except.bind]
  rw [MV.copy, MV.construct, if_pos (by simp)]
  rfl

/-- Division by a number that is stored with zeros in blades of grade zero or four, in at most four dimensions. -/
theorem div_number (hA : WfAlg A) (h4 : A.n ≤ 4) (h2 : (2 : R) ≠ 0) {fuel : Nat} (hf : 4 ≤ fuel) {x b : MV R} (hx : WfMV A x)
    (hb : WfMV A b) (hm : ∀ a ∈ b.sub.blades, popcount a % 4 = 0) {s : R} (hs : s ≠ 0) (hv : val A b = s • (1 : Cl A R)) :
    ∃ z, x.truediv A fuel (.mv b) = .ok z ∧ WfMV A z ∧ val A z = s⁻¹ • val A x ∧
      ∀ c ∈ z.sub.blades, ∃ a ∈ x.sub.blades, ∃ t, popcount t % 4 = 0 ∧ t < 2 ^ A.n ∧ c = a ^^^ t := by
  by_cases hsub : b.sub = ⟨[0]⟩
  · obtain ⟨c, hc, hv'⟩ := val_scalar hb hsub
    have hcs : c = s := smul_one_inj (A := A) (hv'.symm.trans hv)
    have e : b = ⟨⟨[0]⟩, [s]⟩ := by
      obtain ⟨S, v⟩ := b
      simp only at hsub hc
      rw [hsub, hc, hcs]
    refine ⟨⟨x.sub, x.vals.map (· / s)⟩, ?_, ⟨hx.sub, by simp [hx.len]⟩, denote_div _ _, ?_⟩
    · rw [e]; exact (C49_scalar hA fuel hx hs).1
    · intro c hc
      exact ⟨c, hc, 0, by simp [popcount, bitSet], Nat.two_pow_pos _, by simp⟩
  · obtain ⟨U, _, u2, u3⟩ := (C14_named hA).2.2.2.2.2.2.2.2.2.2.2.2.2.2.2
    have hcl : Closed A U := by
      rw [closed_iff hA u2]
      intro a ha c hc _
      rw [u3] at ha hc ⊢
      have lx := xor_lt ha.1 hc.1
      refine ⟨lx, ?_⟩
      have e := popcount_xor a c
      have ea : popcount a % 4 = 0 := ha.2
      have ec : popcount c % 4 = 0 := hc.2
      have la : popcount a ≤ 4 := by rw [popcount_of_lt hA.le32 ha.1]; exact (pc_le _ _).trans h4
      have lc : popcount c ≤ 4 := by rw [popcount_of_lt hA.le32 hc.1]; exact (pc_le _ _).trans h4
      have lac : popcount (a ^^^ c) ≤ 4 := by rw [popcount_of_lt hA.le32 lx]; exact (pc_le _ _).trans h4
      show popcount (a ^^^ c) % 4 = 0
      have full : ∀ {t}, t < 2 ^ A.n → popcount t = 4 → ∀ i < A.n, t.testBit i = true := by
        intro t ht h i hi
        by_contra hb
        rw [popcount_of_lt hA.le32 ht, pc] at h
        have : ∑ j ∈ Finset.range A.n, (t.testBit j).toNat < ∑ _j ∈ Finset.range A.n, 1 := by
          apply Finset.sum_lt_sum
          · intro j _; cases t.testBit j <;> simp
          · exact ⟨i, Finset.mem_range.2 hi, by simp [Bool.eq_false_iff.2 hb]⟩
        simp at this
        omega
      have zero : ∀ {t}, t < 2 ^ A.n → popcount t = 0 → t = 0 := fun ht h => (popcount_eq_zero hA.le32 ht).1 h
      have h1 : popcount a = 0 ∨ popcount a = 4 := by omega
      have h3 : popcount c = 0 ∨ popcount c = 4 := by omega
      rcases h1 with h1 | h1
      · rw [zero ha.1 h1, Nat.zero_xor]; exact ec
      · rcases h3 with h3 | h3
        · rw [zero hc.1 h3, Nat.xor_zero]; exact ea
        · have : a = c := by
            apply Nat.eq_of_testBit_eq
            intro i
            by_cases hi : i < A.n
            · rw [full ha.1 h1 i hi, full hc.1 h3 i hi]
            · have hp : 2 ^ A.n ≤ 2 ^ i := Nat.pow_le_pow_right (by norm_num) (by omega)
              rw [Nat.testBit_lt_two_pow (lt_of_lt_of_le ha.1 hp), Nat.testBit_lt_two_pow (lt_of_lt_of_le hc.1 hp)]
          rw [this, Nat.xor_self]
          simp [popcount, bitSet]
    have hu : IsUnit (val A b) := ⟨⟨s • 1, s⁻¹ • 1, by simp [smul_smul, hs], by simp [smul_smul, hs]⟩, hv.symm⟩
    obtain ⟨i, hi⟩ := (C47_complete hA h4 h2 hf hb).2 hu
    have hin : In A U b := ⟨hb, fun a ha => (u3 a).2 ⟨hb.sub.lt a ha, hm a ha⟩⟩
    have h0 : 0 ∈ U.blades := (u3 0).2 ⟨Nat.two_pow_pos _, by simp [popcount, bitSet]⟩
    obtain ⟨wi, si⟩ := inverse_in hA u2 hcl h0 fuel hin hi
    have hiv : val A i * val A b = 1 := by
      rcases C47_inverse hA (by omega) h2 hf hb with ⟨y, y1, _, _, y4⟩ | h
      · cases hi.symm.trans y1; exact y4
      · rw [hi] at h; cases h
    have hvi : val A i = s⁻¹ • (1 : Cl A R) := by
      rw [hv, mul_smul_comm, mul_one] at hiv
      rw [← hiv, smul_smul, inv_mul_cancel₀ hs, one_smul]
    obtain ⟨V, v1, z, z1, z2, z3, z4⟩ := mul_in hA hx wi
    refine ⟨z, ?_, z3, by rw [z4, hvi, mul_smul_comm, mul_one], ?_⟩
    · have zp : x.product A i = some z := by rw [MV.mul, MV.upcast] at z1; simpa using z1
      simp only [MV.truediv, MV.upcast, lift_some, bind, Except.bind, MV.divideWith, (scalar_eq hA).1]
      rw [if_neg hsub, hi]
      simp only [zp]
      rfl
    · intro c hc
      rw [z2, v1.2] at hc
      obtain ⟨_, a, ha, t, ht, e, _⟩ := hc
      have := (u3 t).1 (si t ht)
      exact ⟨a, ha, t, this.2, this.1, e.symm⟩

/-- Blades of the inner product of a blade of grade zero or two with one of grade one. -/
theorem inner_grade {a c b : Nat} (ha : popcount a = 0 ∨ popcount a = 2) (hc : popcount c = 1) (h : InnerBlade A a c b) : popcount b = 1 := by
  obtain ⟨h1, _, rfl⟩ := h
  have e := popcount_xor a c
  rcases h1 with h1 | h1 <;> rw [h1] at e <;> omega

omit [DecidableEq R] in
theorem dot_lin (w u v : Fin A.n → R) (a b : R) : dot A w (a • u - b • v) = a * dot A w u - b * dot A w v := by
  simp only [dot, Finset.mul_sum, ← Finset.sum_sub_distrib]
  refine Finset.sum_congr rfl fun i _ => ?_
  simp only [Pi.sub_apply, Pi.smul_apply, smul_eq_mul]
  ring

/-- The square of the wedge of two null vectors. -/
theorem wedge_sq (hA : WfAlg A) {u v : Fin A.n → R} (hu : dot A u u = 0) (hv : dot A v v = 0) :
    wedgeMap A R (vec A u) (vec A v) * wedgeMap A R (vec A u) (vec A v) = (dot A u v * dot A u v) • (1 : Cl A R) := by
  have e1 : vec A u * vec A u = 0 := by rw [vec_sq, hu, zero_smul]
  have e3 := dotvec_swap u v
  obtain ⟨β, hβ⟩ : ∃ β, β = dot A u v := ⟨_, rfl⟩
  rw [wedge_vec hA, ← hβ, Algebra.algebraMap_eq_smul_one]
  rw [← hβ] at e3
  have e4 : vec A u * vec A v * (vec A u * vec A v) = (2 * β) • (vec A u * vec A v) := by
    calc vec A u * vec A v * (vec A u * vec A v) = vec A u * (vec A v * vec A u) * vec A v := by noncomm_ring
      _ = (2 * β) • (vec A u * vec A v) - (vec A u * vec A u) * (vec A v * vec A v) := by
          rw [e3, mul_sub, sub_mul, mul_smul_comm, mul_one, smul_mul_assoc]; noncomm_ring
      _ = _ := by rw [e1, zero_mul, sub_zero]
  rw [sub_mul, mul_sub, mul_sub, e4]
  simp only [smul_mul_assoc, mul_smul_comm, one_mul, mul_one]
  module

namespace Conf
variable {d : Nat} (h : Conf A d)
include h

/-- The bivector divided by the root of its square. -/
theorem split_root (h4 : A.n ≤ 4) (h2 : (2 : R) ≠ 0) {fuel : Nat} (hf : 4 ≤ fuel) {rt : Roots R} {T : MV R} (hT : WfMV A T) (hh : Homogeneous 2 T)
    {u v : Fin A.n → R} (hv : val A T = wedgeMap A R (vec A u) (vec A v)) (hu0 : dot A u u = 0) (hv0 : dot A v v = 0)
    {β s : R} (hβ : β = dot A u v) (hβ0 : β ≠ 0) (hs : rt.sqrt (β * β) = some s) (hs0 : s ≠ 0) (h0 : rt.sqrt 0 = some 0) :
    ∃ y w b F, T.normSquared A = some y ∧ y.mul A (.num (-1)) = some w ∧ w.sqrt rt = .ok b ∧ T.truediv A fuel (.mv b) = .ok F ∧
      WfMV A F ∧ Homogeneous 2 F ∧ val A F = s⁻¹ • val A T := by
  have hA := h.wf
  have he : EvenSub T.sub := fun b hb => by rw [hh b hb]
  obtain ⟨y, y1, y2, y3, y4, y5⟩ := symmetricReverse_even hA hT he
  have hy5 : ∀ b ∈ y.sub.blades, popcount b % 4 = 0 := fun b hb => by rw [popcount_of_lt hA.le32 (y2.sub.lt b hb)]; exact y5 b hb
  have hrev : CliffordAlgebra.reverse (val A T) = - val A T := bivector_rev hA hT hh
  have hyv : val A y = (-(β * β)) • (1 : Cl A R) := by
    rw [y3, hrev, mul_neg, hv, wedge_sq hA hu0 hv0, ← hβ, neg_smul]
  have m1 : y.mul A (.num (-1)) = some ⟨y.sub, y.vals.map (-1 * ·)⟩ := by
    rw [← h.mul_scalar y2, MV.mul, MV.mul, (upcast_num' hA _).1]; rfl
  have w1 : WfMV A (⟨y.sub, y.vals.map (-1 * ·)⟩ : MV R) := ⟨y2.sub, by simp [y2.len]⟩
  have v1 : val A (⟨y.sub, y.vals.map (-1 * ·)⟩ : MV R) = (β * β) • (1 : Cl A R) := by
    have : y.vals.map ((-1 : R) * ·) = y.vals.map (- ·) := by congr 1; funext t; ring
    rw [val, this, denote_neg]
    change - val A y = _
    rw [hyv, neg_smul, neg_neg]
  obtain ⟨b, b1, b2, b3, b4⟩ := sqrt_of_number w1 v1 (mul_ne_zero hβ0 hβ0) hs h0
  have hb5 : ∀ a ∈ b.sub.blades, popcount a % 4 = 0 := fun a ha => hy5 a (by rw [b3] at ha; exact ha)
  obtain ⟨F, f1, f2, f3, f4⟩ := div_number hA h4 h2 hf hT b2 hb5 hs0 b4
  have hF : Homogeneous 2 F := by
    intro c hc
    obtain ⟨a, ha, t, ht, lt, rfl⟩ := f4 c hc
    have e := popcount_xor a t
    have e1 := hh a ha
    have lx := xor_lt (hT.sub.lt a ha) lt
    have l1 : popcount t ≤ 4 := by rw [popcount_of_lt hA.le32 lt]; exact (pc_le _ _).trans h4
    have l2 : popcount (a ^^^ t) ≤ 4 := by rw [popcount_of_lt hA.le32 lx]; exact (pc_le _ _).trans h4
    have : popcount t = 0 ∨ popcount t = 4 := by omega
    rcases this with h0 | h0
    · rw [(popcount_eq_zero hA.le32 lt).1 h0, Nat.xor_zero]; exact e1
    · have l3 : popcount (a ^^^ t) + popcount (a &&& t) ≤ 4 := by
        rw [popcount_of_lt hA.le32 lx, popcount_of_lt hA.le32 (lt_of_le_of_lt Nat.and_le_right lt), pc, pc, ← Finset.sum_add_distrib]
        refine (Finset.sum_le_card_nsmul _ _ 1 fun j _ => ?_).trans (by simpa using h4)
        rw [Nat.testBit_and, Nat.testBit_xor]
        cases a.testBit j <;> cases t.testBit j <;> simp
      have l5 : popcount (a &&& t) ≤ popcount a := by
        rw [popcount_eq, popcount_eq, pc, pc]
        apply Finset.sum_le_sum
        intro j _
        rw [Nat.testBit_and]
        cases a.testBit j <;> cases t.testBit j <;> simp
      omega
  exact ⟨y, _, b, F, y1, m1, b1, f1, f2, hF, f3⟩

/-- The inner product of a projector with the inner product of the bivector and `ni`. -/
theorem split_end (h2 : (2 : R) ≠ 0) {T P : MV R} (hT : WfMV A T) (hh : Homogeneous 2 T)
    {u v : Fin A.n → R} (hv : val A T = wedgeMap A R (vec A u) (vec A v)) (hu0 : dot A u u = 0) (hv0 : dot A v v = 0)
    {β σ : R} (hβ : β = dot A u v) (wP : WfMV A P) (gP : ∀ a ∈ P.sub.blades, popcount a = 0 ∨ popcount a = 2)
    (vP : val A P = (1 / 2 : R) • (1 + σ • val A T)) :
    ∃ tn z, T.inner A ⟨⟨[2 ^ d, 2 ^ (d + 1)]⟩, [1, 1]⟩ = some tn ∧ P.inner A tn = some z ∧ WfMV A z ∧ Homogeneous 1 z ∧
      val A z = (1 / 2 : R) • ((dot A v (h.pm 1 1) • vec A u - dot A u (h.pm 1 1) • vec A v) +
        (σ * β) • (dot A v (h.pm 1 1) • vec A u + dot A u (h.pm 1 1) • vec A v)) := by
  have hA := h.wf
  have h2' : ∀ x : Cl A R, (2 : R) • x = 0 → x = 0 := fun x hx => (smul_eq_zero.1 hx).resolve_left h2
  obtain ⟨V, t1, tn, t2, t3, t4, t5⟩ := inner_in hA hT (h.mv_pm (R := R) 1 1)
  have gT : Homogeneous 1 tn := by
    intro c hc
    rw [t3, t1.2] at hc
    obtain ⟨_, a, ha, e, he, hi⟩ := hc
    exact inner_grade (Or.inr (hh a ha)) (h.hom_pm (R := R) 1 1 e he) hi
  obtain ⟨W, x1, z, z1, z2, z3, z4⟩ := inner_in hA wP t4
  have gz : Homogeneous 1 z := by
    intro c hc
    rw [z2, x1.2] at hc
    obtain ⟨_, a, ha, e, he, hi⟩ := hc
    exact inner_grade (gP a ha) (gT e he) hi
  refine ⟨tn, z, t2, z1, z3, gz, ?_⟩
  obtain ⟨α, hα⟩ : ∃ α, α = dot A v (h.pm 1 1) := ⟨_, rfl⟩
  obtain ⟨γ, hγ⟩ : ∃ γ, γ = dot A u (h.pm 1 1) := ⟨_, rfl⟩
  rw [h.val_pm, hv, inner_wedge hA h2', ← hα, ← hγ] at t5
  have et : val A tn = vec A (α • u - γ • v) := by rw [t5, vec, vec, vec, map_sub, map_smul, map_smul]
  rw [z4, vP, et, ← hα, ← hγ]
  have i1 : innerMap A R ((1 / 2 : R) • (1 + σ • val A T)) (vec A (α • u - γ • v)) =
      (1 / 2 : R) • (innerMap A R 1 (vec A (α • u - γ • v)) + σ • innerMap A R (val A T) (vec A (α • u - γ • v))) := by
    simp only [innerMap, ← gradedProductₗ_apply]
    rw [map_smul, LinearMap.smul_apply, map_add, LinearMap.add_apply, map_smul, LinearMap.smul_apply]
  rw [i1, hv, inner_wedge hA h2', inner_one hA, dot_lin, dot_lin, hu0, hv0, dot_comm v u, ← hβ]
  simp only [vec, map_sub, map_smul]
  module

/-- What one of the two elements of `split_points` is. -/
theorem split_ok (h4 : A.n ≤ 4) (h2 : (2 : R) ≠ 0) {fuel : Nat} (hf : 4 ≤ fuel) {rt : Roots R} {T : MV R} (hT : WfMV A T) (hh : Homogeneous 2 T)
    {u v : Fin A.n → R} (hv : val A T = wedgeMap A R (vec A u) (vec A v)) (hu0 : dot A u u = 0) (hv0 : dot A v v = 0)
    {β s : R} (hβ : β = dot A u v) (hβ0 : β ≠ 0) (hs : rt.sqrt (β * β) = some s) (hss : s * s = β * β) (h0 : rt.sqrt 0 = some 0) (sign : R) :
    ∃ z, Conformal.splitPoint A fuel rt T sign = .ok z ∧ WfMV A z ∧ Homogeneous 1 z ∧
      val A z = (1 / 2 : R) • ((dot A v (h.pm 1 1) • vec A u - dot A u (h.pm 1 1) • vec A v) +
        (sign * (s⁻¹ * β)) • (dot A v (h.pm 1 1) • vec A u + dot A u (h.pm 1 1) • vec A v)) := by
  have hA := h.wf
  have hs0 : s ≠ 0 := by rintro rfl; exact hβ0 (mul_self_eq_zero.1 (by rw [← hss]; ring))
  obtain ⟨y, w, b, F, y1, m1, b1, f1, f2, hF, f3⟩ := h.split_root h4 h2 hf hT hh hv hu0 hv0 hβ hβ0 hs hs0 h0
  have k1 : MVFactory.kVector A 0 (some [sign]) = some (⟨⟨[0]⟩, [sign]⟩ : MV R) := by
    have e : A.kVector 0 = some ⟨[0]⟩ := (scalar_eq hA).1
    rw [MVFactory.kVector, e]
    rfl
  have m2 := h.mul_scalar f2 sign
  have w2 : WfMV A (⟨F.sub, F.vals.map (sign * ·)⟩ : MV R) := ⟨f2.sub, by simp [f2.len]⟩
  have v2 : val A (⟨F.sub, F.vals.map (sign * ·)⟩ : MV R) = sign • val A F := by
    have e := denote_div (A := A) (S := F.sub) F.vals sign⁻¹
    simp only [div_inv_eq_mul, inv_inv, mul_comm _ sign] at e
    exact e
  obtain ⟨o1, o2⟩ := upcast_num' (R := R) hA 1
  obtain ⟨U, u1, ⟨p, p1, p2, p3, p4⟩, _⟩ := C44_sum hA w2 o2
  have p1' : MV.add A ⟨F.sub, F.vals.map (sign * ·)⟩ (.num 1) = some p := by rw [← p1, MV.add, MV.add, o1]; rfl
  obtain ⟨U', u1', u2'⟩ := union_spec hA w2.sub o2.sub
  cases u1.symm.trans u1'
  have q1 := (C49_scalar hA fuel p3 h2).2
  have wP : WfMV A (⟨p.sub, p.vals.map (· / 2)⟩ : MV R) := ⟨p3.sub, by simp [p3.len]⟩
  have vP : val A (⟨p.sub, p.vals.map (· / 2)⟩ : MV R) = (1 / 2 : R) • (1 + (sign * s⁻¹) • val A T) := by
    rw [val, denote_div]
    change (2 : R)⁻¹ • val A p = _
    rw [p4, v2, f3]
    have : val A (⟨⟨[0]⟩, [1]⟩ : MV R) = 1 := by simp [val, denote, blade_zero]
    rw [this, one_div, smul_smul, add_comm]
  have gP : ∀ a ∈ p.sub.blades, popcount a = 0 ∨ popcount a = 2 := by
    intro a ha
    rw [p2, u2'.2] at ha
    rcases ha.2 with ha | ha
    · exact Or.inr (hF a ha)
    · rw [List.mem_singleton.1 ha]; simp [popcount, bitSet]
  obtain ⟨tn, z, t2, z1, z3, gz, hz⟩ := h.split_end h2 hT hh hv hu0 hv0 hβ wP gP vP
  refine ⟨z, ?_, z3, gz, by rw [hz, mul_assoc]⟩
  obtain ⟨Bv, bv1, bv2⟩ := (C14_named hA).2.2.1 (by rw [h.n]; omega)
  have a1 : Conformal.assertIn T.sub Bv = .ok () := by
    rw [Conformal.assertIn, if_pos (contains_iff.2 fun b hb => (bv2.2 b).2 ⟨hT.sub.lt b hb, hh b hb⟩)]
  obtain ⟨Vv, vv1, vv2⟩ := (C14_named hA).2.1
  have a2 : Conformal.assertIn z.sub Vv = .ok () := by
    rw [Conformal.assertIn, if_pos (contains_iff.2 fun b hb => (vv2.2 b).2 ⟨z3.sub.lt b hb, gz b hb⟩)]
  rw [Conformal.splitPoint, bv1, vv1, h.ni_eq]
  simp only [bind, Except.bind, lift_some, a1, y1, m1, b1, f1, k1, m2, p1', q1, t2, z1, a2]
  rfl

/-- The two elements of `split_points` of the mixin. -/
theorem split_mixin (h4 : A.n ≤ 4) (h2 : (2 : R) ≠ 0) {fuel : Nat} (hf : 4 ≤ fuel) {rt : Roots R} {T : MV R} (hT : WfMV A T) (hh : Homogeneous 2 T)
    {u v : Fin A.n → R} (hv : val A T = wedgeMap A R (vec A u) (vec A v)) (hu0 : dot A u u = 0) (hv0 : dot A v v = 0)
    {β s : R} (hβ : β = dot A u v) (hβ0 : β ≠ 0) (hs : rt.sqrt (β * β) = some s) (hss : s * s = β * β) (h0 : rt.sqrt 0 = some 0) :
    ∃ z z', Conformal.splitPointsMixin A fuel rt T = .ok (z, z') ∧ WfMV A z ∧ Homogeneous 1 z ∧ WfMV A z' ∧ Homogeneous 1 z' ∧
      val A z = (1 / 2 : R) • ((dot A v (h.pm 1 1) • vec A u - dot A u (h.pm 1 1) • vec A v) +
        (-s⁻¹ * β) • (dot A v (h.pm 1 1) • vec A u + dot A u (h.pm 1 1) • vec A v)) ∧
      val A z' = (1 / 2 : R) • ((dot A v (h.pm 1 1) • vec A u - dot A u (h.pm 1 1) • vec A v) +
        (s⁻¹ * β) • (dot A v (h.pm 1 1) • vec A u + dot A u (h.pm 1 1) • vec A v)) := by
  have hA := h.wf
  have hs0 : s ≠ 0 := by rintro rfl; exact hβ0 (mul_self_eq_zero.1 (by rw [← hss]; ring))
  obtain ⟨y, w, b, F, y1, m1, b1, f1, f2, hF, f3⟩ := h.split_root h4 h2 hf hT hh hv hu0 hv0 hβ hβ0 hs hs0 h0
  have part : ∀ c e : R, e ≠ 0 → ∃ p, F.add A (.num c) = some p ∧ p.truediv A fuel (.num e) = .ok ⟨p.sub, p.vals.map (· / e)⟩ ∧
      WfMV A (⟨p.sub, p.vals.map (· / e)⟩ : MV R) ∧ (∀ a ∈ p.sub.blades, popcount a = 0 ∨ popcount a = 2) ∧
      val A (⟨p.sub, p.vals.map (· / e)⟩ : MV R) = e⁻¹ • (s⁻¹ • val A T + c • 1) := by
    intro c e he
    obtain ⟨o1, o2⟩ := upcast_num' (R := R) hA c
    obtain ⟨U, u1, ⟨p, p1, p2, p3, p4⟩, _⟩ := C44_sum hA f2 o2
    have p1' : F.add A (.num c) = some p := by rw [← p1, MV.add, MV.add, o1]; rfl
    obtain ⟨U', u1', u2'⟩ := union_spec hA f2.sub o2.sub
    cases u1.symm.trans u1'
    refine ⟨p, p1', (C49_scalar hA fuel p3 he).2, ⟨p3.sub, by simp [p3.len]⟩, ?_, ?_⟩
    · intro a ha
      rw [p2, u2'.2] at ha
      rcases ha.2 with ha | ha
      · exact Or.inr (hF a ha)
      · rw [List.mem_singleton.1 ha]; simp [popcount, bitSet]
    · rw [val, denote_div]
      change e⁻¹ • val A p = _
      rw [p4, f3]
      have : val A (⟨⟨[0]⟩, [c]⟩ : MV R) = c • 1 := by simp [val, denote, blade_zero]
      rw [this]
  obtain ⟨p, p1, p2, p3, p4, p5⟩ := part 1 2 h2
  obtain ⟨q, q1, q2, q3, q4, q5⟩ := part (-1) (-2) (neg_ne_zero.2 h2)
  obtain ⟨tn, z', t2, z1', z3', gz', hz'⟩ := h.split_end (σ := s⁻¹) h2 hT hh hv hu0 hv0 hβ p3 p4 (by rw [p5]; module)
  obtain ⟨tn', z, t2', z1, z3, gz, hz⟩ := h.split_end (σ := -s⁻¹) h2 hT hh hv hu0 hv0 hβ q3 q4 (by
    rw [q5, inv_neg]; match_scalars <;> field_simp)
  cases t2.symm.trans t2'
  refine ⟨z, z', ?_, z3, gz, z3', gz', hz, hz'⟩
  obtain ⟨Bv, bv1, bv2⟩ := (C14_named hA).2.2.1 (by rw [h.n]; omega)
  have a1 : Conformal.assertIn T.sub Bv = .ok () := by
    rw [Conformal.assertIn, if_pos (contains_iff.2 fun b hb => (bv2.2 b).2 ⟨hT.sub.lt b hb, hh b hb⟩)]
  obtain ⟨Vv, vv1, vv2⟩ := (C14_named hA).2.1
  have a2 : Conformal.assertIn z.sub Vv = .ok () := by
    rw [Conformal.assertIn, if_pos (contains_iff.2 fun b hb => (vv2.2 b).2 ⟨z3.sub.lt b hb, gz b hb⟩)]
  have a3 : Conformal.assertIn z'.sub Vv = .ok () := by
    rw [Conformal.assertIn, if_pos (contains_iff.2 fun b hb => (vv2.2 b).2 ⟨z3'.sub.lt b hb, gz' b hb⟩)]
  rw [Conformal.splitPointsMixin, bv1, vv1, h.ni_eq]
  simp only [bind, Except.bind, lift_some, a1, y1, m1, b1, f1, p1, p2, q1, q2, t2, z1, z1', a2, a3]
  rfl

omit [DecidableEq R] in
/-- The scalar product of two lists of coordinates is that of the algebra without the two dimensions. -/
theorem dot_base {E : Alg} (hd : E.n = d) (hm : ∀ (R : Type) [CommRing R], ∀ i < E.n, metric A R i = metric E R i) {P P' : List R}
    (hP : P.length = d) : dot A (fun i : Fin A.n => P.getD (i : Nat) 0) (fun i : Fin A.n => P'.getD (i : Nat) 0) =
      dot E (fun i : Fin E.n => P.getD (i : Nat) 0) (fun i : Fin E.n => P'.getD (i : Nat) 0) := by
  rw [dot, dot]
  have e1 := Fin.sum_univ_eq_sum_range (fun i => metric A R i * P.getD i 0 * P'.getD i 0) A.n
  have e2 := Fin.sum_univ_eq_sum_range (fun i => metric E R i * P.getD i 0 * P'.getD i 0) E.n
  rw [e1, e2, h.n, hd, Finset.sum_range_succ, Finset.sum_range_succ]
  have z : ∀ k, d ≤ k → P.getD k 0 = 0 := fun k hk => by rw [List.getD_eq_getElem?_getD, List.getElem?_eq_none (by omega)]; rfl
  rw [z d (le_refl _), z (d + 1) (by omega), mul_zero, mul_zero, zero_mul, zero_mul, add_zero, add_zero]
  refine Finset.sum_congr rfl fun i hi => ?_
  rw [hm R i (by rw [hd]; exact Finset.mem_range.1 hi)]

/-- The scalar product of two vectors that are given by their values on all vector blades. -/
theorem dot_full {E : Alg} (hd : E.n = d) (hm : ∀ (R : Type) [CommRing R], ∀ i < E.n, metric A R i = metric E R i) {P P' : List R}
    (hP : P.length = d) (hP' : P'.length = d) (a b a' b' : R) :
    dot A (fun i : Fin A.n => (P ++ [a, b]).getD (i : Nat) 0) (fun i : Fin A.n => (P' ++ [a', b']).getD (i : Nat) 0) =
      dot E (fun i : Fin E.n => P.getD (i : Nat) 0) (fun i : Fin E.n => P'.getD (i : Nat) 0) + a * a' - b * b' := by
  rw [dot, dot]
  have e1 := Fin.sum_univ_eq_sum_range (fun i => metric A R i * (P ++ [a, b]).getD i 0 * (P' ++ [a', b']).getD i 0) A.n
  have e2 := Fin.sum_univ_eq_sum_range (fun i => metric E R i * P.getD i 0 * P'.getD i 0) E.n
  rw [e1, e2, h.n, hd, Finset.sum_range_succ, Finset.sum_range_succ]
  have z0 : ∀ (Q : List R) (x y : R), Q.length = d → (Q ++ [x, y]).getD d 0 = x := by
    rintro Q x y rfl; rw [List.getD_eq_getElem?_getD, List.getElem?_append_right (le_refl _)]; simp
  have z1 : ∀ (Q : List R) (x y : R), Q.length = d → (Q ++ [x, y]).getD (d + 1) 0 = y := by
    rintro Q x y rfl; rw [List.getD_eq_getElem?_getD, List.getElem?_append_right (by omega)]; simp
  have z2 : ∀ (Q : List R) (x y : R) (i : Nat), Q.length = d → i < d → (Q ++ [x, y]).getD i 0 = Q.getD i 0 := by
    rintro Q x y i rfl hi; rw [List.getD_eq_getElem?_getD, List.getD_eq_getElem?_getD, List.getElem?_append_left hi]
  rw [z0 _ _ _ hP, z0 _ _ _ hP', z1 _ _ _ hP, z1 _ _ _ hP', h.metric_p, h.metric_m, sub_eq_add_neg, add_assoc, add_assoc]
  congr 1
  · refine Finset.sum_congr rfl fun i hi => ?_
    have hi' := Finset.mem_range.1 hi
    rw [z2 _ _ _ _ hP hi', z2 _ _ _ _ hP' hi', hm R i (by rw [hd]; exact hi')]
  · ring

theorem coords_full {P : List R} (hP : P.length = d) (a b : R) :
    coords A (⟨⟨(List.range A.n).map (2 ^ ·)⟩, P ++ [a, b]⟩ : MV R) = fun i : Fin A.n => (P ++ [a, b]).getD (i : Nat) 0 :=
  coords_range (h.mv_V hP a b)

theorem at_p {P : List R} (hP : P.length = d) (a b : R) : (P ++ [a, b]).getD (h.ip : Nat) 0 = a := by
  have : (h.ip : Nat) = P.length := hP.symm
  rw [this, List.getD_eq_getElem?_getD, List.getElem?_append_right (le_refl _)]; simp

theorem at_m {P : List R} (hP : P.length = d) (a b : R) : (P ++ [a, b]).getD (h.im : Nat) 0 = b := by
  have : (h.im : Nat) = P.length + 1 := by rw [hP]; rfl
  rw [this, List.getD_eq_getElem?_getD, List.getElem?_append_right (by omega)]; simp

theorem at_lt {P : List R} (hP : P.length = d) (a b : R) {i : Nat} (hi : i < d) : (P ++ [a, b]).getD i 0 = P.getD i 0 := by
  rw [List.getD_eq_getElem?_getD, List.getD_eq_getElem?_getD, List.getElem?_append_left (by omega)]

/-- The root of a number zero that is stored in a larger subspace. -/
theorem sqrt_of_zero {rt : Roots R} {x : MV R} (hx : WfMV A x) (hv : val A x = 0) (h0 : rt.sqrt 0 = some 0) :
    x.sqrt rt = .ok x := by
  have e : x = ⟨x.sub, x.sub.blades.map fun _ => 0⟩ := by
    refine mv_eq hx ⟨hx.sub, by simp⟩ rfl ?_
    rw [hv, val, denote]
    simp only
    generalize x.sub.blades = l
    induction l with
    | nil => simp
    | cons a l ih => rw [List.map_cons, List.zipWith_cons_cons, List.sum_cons, zero_smul, zero_add]; exact ih
  have em : x.vals.mapM (MV.sqrtVal rt) = .ok x.vals := by
    rw [congrArg MV.vals e]
    generalize x.sub.blades = l
    induction l with
    | nil => rfl
    | cons a l ih =>
      simp only at ih
      rw [List.map_cons, List.mapM_cons, ih]
      simp [MV.sqrtVal, h0, bind, Except.bind, pure, Except.pure]
  rw [MV.sqrt, em]
  simp only [bind, Except.bind]
  rw [MV.copy, MV.construct, if_pos hx.len]
  rfl

/-- Points that lie in each other's tangent space cannot be split. -/
theorem split_degenerate (h5 : A.n < 6) (h2 : (2 : R) ≠ 0) {fuel : Nat} (hf : 4 ≤ fuel) {rt : Roots R} {T : MV R} (hT : WfMV A T) (hh : Homogeneous 2 T)
    {u v : Fin A.n → R} (hv : val A T = wedgeMap A R (vec A u) (vec A v)) (hu0 : dot A u u = 0) (hv0 : dot A v v = 0)
    (hβ : dot A u v = 0) (hne : val A T ≠ 0) (h0 : rt.sqrt 0 = some 0) (sign : R) :
    Conformal.splitPoint A fuel rt T sign = .error .divZero := by
  have hA := h.wf
  have he : EvenSub T.sub := fun b hb => by rw [hh b hb]
  obtain ⟨y, y1, y2, y3, y4, y5⟩ := symmetricReverse_even hA hT he
  have hrev : CliffordAlgebra.reverse (val A T) = - val A T := bivector_rev hA hT hh
  have hyv : val A y = 0 := by
    rw [y3, hrev, mul_neg, hv, wedge_sq hA hu0 hv0, hβ]; simp
  have m1 : y.mul A (.num (-1)) = some ⟨y.sub, y.vals.map (-1 * ·)⟩ := by
    rw [← h.mul_scalar y2, MV.mul, MV.mul, (upcast_num' hA _).1]; rfl
  have w1 : WfMV A (⟨y.sub, y.vals.map (-1 * ·)⟩ : MV R) := ⟨y2.sub, by simp [y2.len]⟩
  have v1 : val A (⟨y.sub, y.vals.map (-1 * ·)⟩ : MV R) = 0 := by
    have : y.vals.map ((-1 : R) * ·) = y.vals.map (- ·) := by congr 1; funext t; ring
    rw [val, this, denote_neg]
    change - val A y = _
    rw [hyv, neg_zero]
  have b1 := h.sqrt_of_zero w1 v1 h0
  have hd : T.truediv A fuel (.mv ⟨y.sub, y.vals.map (-1 * ·)⟩) = .error .divZero := by
    rcases C49_div hA h5 h2 hf hT w1 with ⟨z, _, _, z3⟩ | h'
    · rw [v1, mul_zero] at z3; exact absurd z3.symm hne
    · exact h'
  obtain ⟨Bv, bv1, bv2⟩ := (C14_named hA).2.2.1 (by rw [h.n]; omega)
  have a1 : Conformal.assertIn T.sub Bv = .ok () := by
    rw [Conformal.assertIn, if_pos (contains_iff.2 fun b hb => (bv2.2 b).2 ⟨hT.sub.lt b hb, hh b hb⟩)]
  have y1' : T.normSquared A = some y := y1
  rw [Conformal.splitPoint, bv1]
  simp only [bind, Except.bind, lift_some, a1, y1', m1, b1, hd]

end Conf
end Verif
