import Verif.Proofs.Roots2
import Verif.Model.LogExp
import Verif.Props.Roots
import Mathlib.Tactic.NoncommRing
import Mathlib.Tactic.Module
import Mathlib.Tactic.LinearCombination
/-! # Exponentials and logarithms: subspaces and algebra -/
namespace Verif
open Model Spec Model.Factory Props

variable {A : Alg}

/-- All blades of the subspace have even grade. -/
def EvenSub (S : SubSpace) : Prop := ∀ b ∈ S.blades, popcount b % 2 = 0

theorem even_xor {a c : Nat} (ha : popcount a % 2 = 0) (hc : popcount c % 2 = 0) : popcount (a ^^^ c) % 2 = 0 := by
  have := popcount_xor a c
  omega

theorem evenSub_scalar : EvenSub ⟨[0]⟩ := by
  intro b hb
  rw [List.mem_singleton.1 hb]; rfl

theorem Spec.Homogeneous.even {R : Type} {x : MV R} (h : Homogeneous 2 x) : EvenSub x.sub := fun b hb => by rw [h b hb]

theorem insideEven_iff (hA : WfAlg A) {S : SubSpace} (hS : WfSub A S) : insideEven A S = some true ↔ EvenSub S := by
  obtain ⟨E, E1, E2, E3⟩ := (C14_named hA).2.2.2.2.2.2.2.2.2.2.2.2.1
  rw [insideEven, E1, Option.bind_eq_bind, Option.bind_some, Option.some_inj, contains_iff]
  exact ⟨fun h b hb => ((E3 b).1 (h b hb)).2, fun h b hb => (E3 b).2 ⟨hS.lt b hb, h b hb⟩⟩

theorem insideBivector_iff (hA : WfAlg A) (hn : 2 ≤ A.n) {R : Type} {x : MV R} (hS : WfSub A x.sub) :
    insideBivector A x.sub = some true ↔ Homogeneous 2 x := by
  obtain ⟨E, E1, E2, E3⟩ := (C14_named hA).2.2.1 hn
  rw [insideBivector, E1, Option.bind_eq_bind, Option.bind_some, Option.some_inj, contains_iff]
  exact ⟨fun h b hb => ((E3 b).1 (h b hb)).2, fun h b hb => (E3 b).2 ⟨hS.lt b hb, h b hb⟩⟩

section ring
variable {R : Type} [Field R] [DecidableEq R]

theorem product_even (hA : WfAlg A) {x y z : MV R} (hx : WfMV A x) (hy : WfMV A y) (ex : EvenSub x.sub) (ey : EvenSub y.sub)
    (h : x.product A y = some z) : EvenSub z.sub := by
  rw [MV.product] at h
  obtain ⟨op, o1, _⟩ := product_bin hA (argSem_sub hx.sub) (argSem_sub hy.sub)
  rw [o1] at h
  obtain ⟨U, u1, _, u3⟩ := product_space hA hx.sub hy.sub
  rw [SubSpace.product, o1] at u1
  rw [call_sub h, show op.output = U by simpa using u1]
  intro b hb
  obtain ⟨a, ha, c, hc, rfl, _⟩ := (u3 b).1 hb
  exact even_xor (ex a ha) (ey c hc)

theorem bivectorProduct_sub (hA : WfAlg A) (hn : 2 ≤ A.n) {x y z : MV R} (hx : WfMV A x) (hy : WfMV A y)
    (h : x.bivectorProduct A y = some z) : Homogeneous 2 z := by
  obtain ⟨E, E1, E2, E3⟩ := (C14_named hA).2.2.1 hn
  obtain ⟨gp, g1, g2, g3, _⟩ := product_bin hA (argSem_sub hx.sub) (argSem_sub hy.sub)
  obtain ⟨op, T, _, t2, t3, t4, t5, t6⟩ := restrict_sem hA (i := gp.output) g2.wf_output E2
  obtain ⟨h', e1, _, e3, _⟩ := build_apply [.op gp] (fun a ha => by rw [List.mem_singleton.1 ha]; exact g2) op t3 (Q := []) (O := T) t4
  have e : Factory.bivectorProduct A (.sub x.sub) (.sub y.sub) = some h' := by
    rw [Factory.bivectorProduct, E1, Option.bind_eq_bind, Option.bind_some, nProduct, g1, Option.bind_eq_bind, Option.bind_some, t2, Option.bind_some]
    exact e1
  rw [MV.bivectorProduct, e] at h
  have hs := call_sub h
  rw [Operator.output, e3] at hs
  intro b hb
  rw [hs] at hb
  exact ((E3 b).1 ((t5 b).1 (by simpa using hb)).1).2

theorem selfProduct_even (hA : WfAlg A) {S : SubSpace} (hS : WfSub A S) (he : EvenSub S) :
    (∃ T, S.symmetricReverse A = some T ∧ WfSub A T ∧ EvenSub T ∧ ∀ b ∈ T.blades, pc A.n b % 4 = 0) ∧
    (∃ T, S.squared A = some T ∧ WfSub A T ∧ EvenSub T) := by
  obtain ⟨U, _, u2, u3⟩ := (C14_named hA).2.2.2.2.2.2.2.2.2.2.2.2.1
  have key : ∀ a ∈ S.blades, ∀ c ∈ S.blades, a ^^^ c ∈ U.blades :=
    fun a ha c hc => (u3 _).2 ⟨xor_lt (hS.lt a ha) (hS.lt c hc), even_xor (he a ha) (he c hc)⟩
  constructor
  · obtain ⟨T, t1, t2, t3⟩ := rev_sub hA hS u2 fun a ha c hc _ => key a ha c hc
    obtain ⟨T', t1', _, t3'⟩ := symmetricReverse_sub hA hS
    cases t1.symm.trans t1'
    have h1 : EvenSub T := fun b hb => ((u3 b).1 (t3 b hb)).2
    refine ⟨T, t1, t2, h1, fun b hb => ?_⟩
    have h2 := t3' b hb
    have h3 := h1 b hb
    rw [popcount_of_lt hA.le32 (t2.lt b hb)] at h3
    omega
  · obtain ⟨T, t1, t2, t3⟩ := sq_sub hA hS u2 fun a ha c hc _ => key a ha c hc
    exact ⟨T, t1, t2, fun b hb => ((u3 b).1 (t3 b hb)).2⟩

theorem symmetricReverse_even (hA : WfAlg A) {x : MV R} (hx : WfMV A x) (he : EvenSub x.sub) :
    ∃ z, x.symmetricReverse A = some z ∧ WfMV A z ∧ val A z = val A x * CliffordAlgebra.reverse (val A x) ∧
      EvenSub z.sub ∧ ∀ b ∈ z.sub.blades, pc A.n b % 4 = 0 := by
  obtain ⟨⟨T, t1, t2, t3, t4⟩, _⟩ := selfProduct_even hA hx.sub he
  obtain ⟨z, z1, z2, z3, z4⟩ := symmetricReverse_in hA hx t1
  subst z2
  exact ⟨z, z1, z3, z4, t3, t4⟩

theorem squared_even (hA : WfAlg A) {x : MV R} (hx : WfMV A x) (he : EvenSub x.sub) :
    ∃ z, x.squared A = some z ∧ WfMV A z ∧ val A z = val A x * val A x ∧ EvenSub z.sub := by
  obtain ⟨_, T, t1, t2, t3⟩ := selfProduct_even hA hx.sub he
  obtain ⟨h1, _⟩ := C38_values hA hx
  obtain ⟨z, z1, z2, z3, z4⟩ := self_givesIn h1 t1
  subst z2
  exact ⟨z, z1, z3, z4, t3⟩

theorem add_num_even (hA : WfAlg A) {x : MV R} (hx : WfMV A x) (he : EvenSub x.sub) (c : R) :
    ∃ z, x.add A (.num c) = some z ∧ WfMV A z ∧ val A z = val A x + c • 1 ∧ EvenSub z.sub := by
  obtain ⟨u, u1, u2, u3⟩ := upcast_gives hA c
  obtain ⟨U, U1, z, x1, x2, x3, x4⟩ := combine_gives hA hx u2 (1 : R)
  have hus : u.sub = ⟨[0]⟩ := by rw [MV.upcast, (scalar_eq hA).1] at u1; simp [MV.construct] at u1; rw [← u1]
  refine ⟨z, by rw [MV.add, u1]; exact x1, x3, by rw [x4, u3, one_smul, Algebra.algebraMap_eq_smul_one], ?_⟩
  obtain ⟨V, v1, v2, v3⟩ := union_spec hA hx.sub u2.sub
  cases U1.symm.trans v1
  intro b hb
  rw [x2, v3, hus] at hb
  rcases hb.2 with h | h
  · exact he b h
  · exact evenSub_scalar b h

end ring

section field
variable {R : Type} [Field R] [DecidableEq R]

/-- Inverting an element whose product with an involution of it is a number stays in the subspace. -/
theorem inverse_sub1 (hA : WfAlg A) {fuel : Nat} (hf : 2 ≤ fuel) {x y : MV R} (hx : WfMV A x) (hs : SubSpace.isNSimple A 1 x.sub = some true)
    (h : MV.inverse A fuel x = .ok y) : y.sub = x.sub := by
  obtain ⟨fuel, rfl⟩ : ∃ f, fuel = f + 2 := ⟨fuel - 2, by omega⟩
  by_cases he : x.sub = ⟨[]⟩
  · rw [inverse_empty hA _ he] at h; cases h
  by_cases h0 : x.sub = ⟨[0]⟩
  · obtain ⟨c, c1, _⟩ := val_scalar hx h0
    have hsc : Sc x c := Or.inr (by obtain ⟨S, v⟩ := x; simp only at h0 c1; rw [h0, c1])
    rcases hsc.inverse hA (fuel + 1) with ⟨_, z, z1, z2⟩ | ⟨_, z1⟩
    · rw [z1] at h
      cases h
      rcases z2 with ⟨_, z2⟩ | z2
      · exact absurd z2 (inv_ne_zero (by assumption))
      · rw [z2, h0]
    · rw [z1] at h; cases h
  obtain ⟨⟨c, r⟩, o1, o2, o3⟩ := dispatch_cases hA hx.sub (j := 0) (by omega) (Or.inr rfl) hs
  have hred : MV.inverse A (fuel + 2) x = MV.runInverse A (MV.inverse A (fuel + 1)) x r := by rw [MV.inverse, o2]
  rw [hred] at h
  rcases o3 with o3 | ⟨i, i1, o3⟩ | ⟨i1, _⟩
  · exact absurd o3 (not_options0 hA he h0 o1)
  · obtain rfl : i = 0 := by omega
    obtain ⟨v, T, q, p, ⟨q', q1, q2, q3, q4⟩, ⟨p', p1, p2, p3, p4⟩, hT, _, _, hrun⟩ := rule_unpack hA o3 hx o1
    rw [hrun, q1, p1] at h
    simp only [lift_some, bind, Except.bind, MV.divideWith, (scalar_eq hA).1] at h
    subst p2
    rcases nsimple_zero hA p3.sub hT with e | e
    · rw [if_neg (by rw [e]; simp), inverse_empty hA _ e] at h; cases h
    · rw [if_pos e] at h
      obtain ⟨k, k1, _⟩ := val_scalar p3 e
      rw [MV.divValues, k1] at h
      simp only at h
      split_ifs at h
      rw [MV.copy, MV.construct, if_pos (by simp [q3.len])] at h
      cases h
      exact q2
  · omega

theorem normalized_even (hA : WfAlg A) (h2 : (2 : R) ≠ 0) {rt : Roots R} (hr : RootLaw rt) {fuel : Nat} (hf : 2 ≤ fuel) {x y : MV R} (hx : WfMV A x)
    (he : EvenSub x.sub) (h : x.normalized A rt fuel = .ok y) : EvenSub y.sub := by
  obtain ⟨fuel, rfl⟩ : ∃ f, fuel = f + 2 := ⟨fuel - 2, by omega⟩
  obtain ⟨⟨T, t1, t2, t3, _⟩, _⟩ := selfProduct_even hA hx.sub he
  obtain ⟨z, z1, z2, z3, z4⟩ := symmetricReverse_in hA hx t1
  have e0 : equalsEmpty A T = some (T == ⟨[]⟩) := by rw [equalsEmpty, empty_eq hA]; rfl
  have e1 : equalsScalar A T = some (T == ⟨[0]⟩) := by rw [equalsScalar, (scalar_eq hA).1]; rfl
  have fin : ∀ {s : MV R}, WfMV A s → EvenSub s.sub → lift (s.mul A (.mv x)) = .ok y → EvenSub y.sub := by
    intro s hs es h
    obtain ⟨w, w1, w2, w3⟩ := product_gives hA hs hx
    have : s.mul A (.mv x) = some w := by rw [MV.mul, MV.upcast]; simpa using w1
    rw [this] at h
    cases h
    exact product_even hA hs hx es he w1
  rw [MV.normalized] at h
  simp only [normOptions, Dispatch.matchLoop, t1, Option.bind_eq_bind, Option.bind_some, e0, e1] at h
  cases c0 : T == ⟨[]⟩ with
  | true => rw [c0] at h; cases h
  | false =>
  cases c1 : T == ⟨[0]⟩ with
  | true =>
    rw [c0, c1] at h
    simp only [z1, lift_some, bind, Except.bind] at h
    obtain ⟨c, c2, c3⟩ := val_scalar z3 (z2.trans (beq_iff_eq.1 c1))
    rw [MV.inverseSquareRoot, (scalar_eq hA).1] at h
    simp only [lift_some, bind, Except.bind] at h
    rw [if_pos (z2.trans (beq_iff_eq.1 c1)), c2] at h
    simp only [List.mapM_cons, List.mapM_nil, bind, Except.bind, pure, Except.pure, MV.invSqrtVal] at h
    by_cases hc : c = 0
    · rw [if_pos hc] at h; cases h
    rw [if_neg hc] at h
    cases hq : rt.sqrt c with
    | none => rw [hq] at h; cases h
    | some r =>
      rw [hq] at h
      have e : z.copy [1 / r] = some ⟨⟨[0]⟩, [1 / r]⟩ := by
        rw [MV.copy, MV.construct, z2, beq_iff_eq.1 c1, if_pos (by simp)]
      simp only [e, lift_some] at h
      exact fin (s := ⟨⟨[0]⟩, [1 / r]⟩) ⟨wf_scalar, rfl⟩ evenSub_scalar h
  | false =>
    rw [c0, c1] at h
    simp only at h
    obtain ⟨st, st1, _⟩ := C39_study hA t2
    rw [st1] at h
    cases st with
    | false => cases h
    | true =>
      simp only [z1, lift_some, bind, Except.bind] at h
      cases hq : z.squareRoot A rt (fuel + 2) with
      | error e => rw [hq] at h; cases h
      | ok q =>
        rw [hq] at h
        simp only at h
        obtain ⟨q1, q2, _⟩ := squareRoot_spec hA h2 hr (fuel + 1) z3 hq
        have hst := nsimple_study hA q1.sub (study_mono hA t2 q1.sub st1 (z2 ▸ q2))
        rcases inverse_works1 hA fuel q1 hst with ⟨i, i1, i2, i3⟩ | hd
        swap
        · rw [hd] at h; cases h
        rw [i1] at h
        simp only at h
        refine fin i2 ?_ h
        rw [inverse_sub1 hA (by omega) q1 hst i1]
        intro b hb
        rcases q2 b hb with rfl | hb
        · rfl
        · exact t3 b (z2 ▸ hb)

/-! ### algebra -/

variable {x y : Cl A R}

theorem commute_inv {B : Type*} [Ring B] {c p w : B} (h1 : w * p = 1) (h2 : p * w = 1) (h : Commute c p) : Commute c w := by
  have : c * w = w * c := by
    calc c * w = (w * p) * c * w := by rw [h1, one_mul]
      _ = w * (p * c) * w := by rw [mul_assoc w p c]
      _ = w * (c * p) * w := by rw [h.eq]
      _ = w * c * (p * w) := by simp only [mul_assoc]
      _ = w * c := by rw [h2, mul_one]
  exact this

/-- The self-reverse part of a sum of a self-reverse element and one that reversion negates. -/
theorem self_part (hA : WfAlg A) (h2 : (2 : R) ≠ 0) {s t : Cl A R} (hs : CliffordAlgebra.reverse s = s) (ht : CliffordAlgebra.reverse t = -t) {S : SubSpace}
    (hS : IsSpace A S fun b => popcount b % 4 = 0 ∨ popcount b % 4 = 1) : proj A R (· ∈ S.blades) (s + t) = s := by
  apply ext_coef
  intro b hb
  rw [coef_proj, map_add]
  have hp : b ∈ S.blades ↔ (popcount b % 4 = 0 ∨ popcount b % 4 = 1) := by
    rw [hS.2 b]; exact ⟨fun h => h.2, fun h => ⟨hb, h⟩⟩
  split_ifs with h
  · suffices coef A R b t = 0 by rw [this, add_zero]
    have := congrArg (coef A R b) ht
    have e : (popcount b / 2) % 2 = 0 := by have := hp.1 h; omega
    rw [coef_reverse hA R hb, map_neg, neg_one_pow_mod, if_pos e, one_mul] at this
    have h3 : (2 : R) * coef A R b t = 0 := by linear_combination this
    exact (mul_eq_zero.1 h3).resolve_left h2
  · by_contra h3
    have := selfReverse_grades hA h2 hs hb (fun e => h3 e.symm)
    exact h (hp.2 (by omega))

/-- An even element that reversion negates is a bivector, in dimension below six. -/
theorem anti_bivector (hA : WfAlg A) (h5 : A.n < 6) (h2 : (2 : R) ≠ 0) {t : Cl A R} (ht : CliffordAlgebra.reverse t = -t)
    (he : CliffordAlgebra.involute t = t) : gradePart A R 2 t = t := by
  apply gradePart_of hA
  intro b hb hp
  by_contra h0
  have hl : popcount b ≤ A.n := by rw [popcount_of_lt hA.le32 hb]; exact pc_le A.n b
  have e1 := congrArg (coef A R b) ht
  have e2 := congrArg (coef A R b) he
  rw [coef_reverse hA R hb, map_neg, neg_one_pow_mod] at e1
  rw [coef_involute hA R hb, neg_one_pow_mod] at e2
  have k : ∀ c : R, (2 : R) * c = 0 → c = 0 := fun c hc => (mul_eq_zero.1 hc).resolve_left h2
  split_ifs at e1 with g1
  · exact h0 (k _ (by linear_combination e1))
  split_ifs at e2 with g2
  · omega
  · exact h0 (k _ (by linear_combination -e2))

theorem gradePart_one (hA : WfAlg A) : gradePart A R 2 (1 : Cl A R) = 0 := by
  rw [← blade_zero, gradePart_blade _ (Nat.two_pow_pos _), if_neg (by decide)]

theorem val_even (hA : WfAlg A) {x : MV R} (hx : WfMV A x) (he : EvenSub x.sub) : CliffordAlgebra.involute (val A x) = val A x := by
  apply ext_coef
  intro b hb
  rw [coef_involute hA R hb]
  by_cases h0 : coef A R b (val A x) = 0
  · rw [h0, mul_zero]
  · rw [neg_one_pow_mod, if_pos (he b (mv_coef hx hb h0)), one_mul]

theorem divide_spec (hA : WfAlg A) (h5 : A.n < 6) (h2 : (2 : R) ≠ 0) {fuel : Nat} (hf : 4 ≤ fuel) {x y : MV R} (hx : WfMV A x) (hy : WfMV A y)
    (h4 : ∀ b ∈ y.sub.blades, pc A.n b % 4 = 0) (ex : EvenSub x.sub) (ey : EvenSub y.sub) (h0 : val A x ≠ 0) :
    (∃ z, x.truediv A fuel (.mv y) = .ok z ∧ WfMV A z ∧ EvenSub z.sub ∧ IsUnit (val A y) ∧ val A z * val A y = val A x) ∨
      x.truediv A fuel (.mv y) = .error .divZero ∧ ¬ IsUnit (val A y) := by
  have e : x.truediv A fuel (.mv y) = x.divideWith A (MV.inverse A fuel) y := by rw [MV.truediv, MV.upcast]; rfl
  rw [e, MV.divideWith, (scalar_eq hA).1, lift_some]
  simp only [bind, Except.bind]
  by_cases hs : y.sub = ⟨[0]⟩
  · rw [if_pos hs]
    obtain ⟨c, c1, c2⟩ := val_scalar hy hs
    by_cases hc : c = 0
    · right
      have hv : x.vals ≠ [] := by
        intro hv
        apply h0
        rw [val, hv]
        obtain ⟨⟨S⟩, v⟩ := x
        simp [denote]
      rw [MV.divValues, c1]
      simp only
      rw [if_pos ⟨hc, hv⟩, c2, hc, zero_smul]
      exact ⟨rfl, fun h => unit_ne_zero h rfl⟩
    · left
      obtain ⟨z, z1, z2, z3, z4⟩ := divValues_spec hx c1 (fun h => absurd h hc)
      refine ⟨z, z1, z2, by rw [z3]; exact ex, ?_, ?_⟩
      · have : (c • (1 : Cl A R)) * (c⁻¹ • 1) = 1 := by rw [smul_mul_smul_comm, mul_inv_cancel₀ hc, one_mul, one_smul]
        rw [c2]
        exact ⟨⟨_, _, this, mul_eq_one_comm.1 this⟩, rfl⟩
      · rw [z4, c2, smul_mul_smul_comm, inv_mul_cancel₀ hc, one_smul, mul_one]
  · rw [if_neg hs]
    have hn := nsimple_mod4 hA (by omega) hy.sub h4 0
    rcases C47_inverse hA h5 h2 hf hy with ⟨i, i1, i2, i3, i4⟩ | hd
    · left
      obtain ⟨z, z1, z2, z3⟩ := product_gives hA hx i2
      refine ⟨z, by rw [i1]; simp only [z1]; rfl, z2, product_even hA hx i2 ex ?_ z1, ⟨⟨_, _, i3, i4⟩, rfl⟩, by rw [z3, mul_assoc, i4, mul_one]⟩
      rw [inverse_sub1 hA (by omega) hy hn i1]
      exact ey
    · right
      refine ⟨by rw [hd], fun hu => ?_⟩
      obtain ⟨i, i1, _⟩ := inverse_ok1' hA (by omega) h2 (by omega : 2 ≤ fuel) hy hn hu
      rw [hd] at i1; cases i1

theorem div_num (hA : WfAlg A) (fuel : Nat) {x : MV R} (hx : WfMV A x) {c : R} (h0 : c ≠ 0) :
    ∃ y, x.truediv A fuel (.num c) = .ok y ∧ WfMV A y ∧ y.sub = x.sub ∧ val A y = c⁻¹ • val A x :=
  ⟨_, (C49_scalar hA fuel hx h0).2, ⟨hx.sub, by simp [hx.len]⟩, rfl, denote_div _ _⟩

theorem mul_num (hA : WfAlg A) {x : MV R} (hx : WfMV A x) (c : R) :
    ∃ y, x.mul A (.num c) = some y ∧ WfMV A y ∧ SubOf y.sub x.sub ∧ val A y = c • val A x := by
  obtain ⟨y, y1, y2, y3⟩ := (C44_numbers hA hx c).2.2.2.1
  refine ⟨y, y1, y2, ?_, y3⟩
  rw [MV.mul, upcast_num hA, Option.bind_eq_bind, Option.bind_some] at y1
  exact product_sub_scalar hA hx (Or.inr rfl) y1

theorem bivector_rev (hA : WfAlg A) {b : MV R} (hb : WfMV A b) (hh : Homogeneous 2 b) : CliffordAlgebra.reverse (val A b) = - val A b := by
  rw [(reverse_homogeneous hA hb hh).1]; simp

theorem one_add_ne (h2 : (2 : R) ≠ 0) {c : Cl A R} (hc : CliffordAlgebra.reverse c = -c) : (1 + c) * (1 + c) ≠ 0 := by
  intro h
  have h' := congrArg CliffordAlgebra.reverse h
  rw [CliffordAlgebra.reverse.map_mul, map_add, CliffordAlgebra.reverse.map_one, hc, map_zero] at h'
  have e : (4 : R) • c = 0 := by
    have : (4 : R) • c = (1 + c) * (1 + c) - (1 + -c) * (1 + -c) := by
      rw [show (4 : R) • c = c + c + c + c by module]; noncomm_ring
    rw [this, h, h', sub_zero]
  have h4 : (4 : R) ≠ 0 := by rw [show (4 : R) = 2 * 2 by norm_num]; exact mul_ne_zero h2 h2
  have c0 : c = 0 := (smul_eq_zero.1 e).resolve_left h4
  rw [c0, add_zero, mul_one] at h
  exact one_ne_zero' A R h

/-- `exp_cayley`. -/
theorem expCayley_spec (hA : WfAlg A) (h5 : A.n < 6) (h2 : (2 : R) ≠ 0) {fuel : Nat} (hf : 4 ≤ fuel) {b : MV R} (hb : WfMV A b)
    (hh : Homogeneous 2 b) {c : Cl A R} (hc : val A b = (2 : R) • c) :
    (∃ m, b.expCayley A fuel = .ok m ∧ WfMV A m ∧ EvenSub m.sub ∧ IsUnit ((1 + c) * (1 - c)) ∧
      val A m * ((1 + c) * (1 - c)) = (1 + c) * (1 + c)) ∨
    b.expCayley A fuel = .error .divZero ∧ ¬ IsUnit ((1 + c) * (1 - c)) := by
  obtain ⟨h, h1, h3, h4, h6⟩ := div_num hA fuel hb h2
  obtain ⟨r, r1, w2, r3, r4⟩ := add_num_even hA h3 (by rw [h4]; exact hh.even) (1 : R)
  obtain ⟨s, s1, s2, s3, s4⟩ := squared_even hA w2 r4
  obtain ⟨n, n1, n2, n3, n4, n5⟩ := symmetricReverse_even hA w2 r4
  have hrc : CliffordAlgebra.reverse c = -c := by
    have := bivector_rev hA hb hh
    rw [hc, map_smul, ← smul_neg] at this
    exact smul_right_injective _ h2 this
  have hr : val A r = 1 + c := by rw [r3, h6, hc, smul_smul, inv_mul_cancel₀ h2, one_smul, one_smul, add_comm]
  have hrr : CliffordAlgebra.reverse (val A r) = 1 - c := by rw [hr, map_add, CliffordAlgebra.reverse.map_one, hrc, sub_eq_add_neg]
  rw [hr] at s3
  rw [hrr, hr] at n3
  have hq : b.expCayley A fuel = s.truediv A fuel (.mv n) := by
    simp only [MV.expCayley, bind, Except.bind, h1, r1, s1, n1, lift_some]
  rw [hq, ← n3, ← s3]
  exact divide_spec hA h5 h2 hf s2 n2 n5 s4 n4 (by rw [s3]; exact one_add_ne h2 hrc)

/-- `motor_log_linear_normalized`. -/
theorem logLinear_spec (hA : WfAlg A) (h5 : A.n < 6) (hn : 2 ≤ A.n) (h2 : (2 : R) ≠ 0) {fuel : Nat} (hf : 4 ≤ fuel) {m : MV R} (hm : WfMV A m)
    (he : EvenSub m.sub) {i t : Cl A R} (hv : val A m = i + t) (hi : CliffordAlgebra.reverse i = i) (ht : CliffordAlgebra.reverse t = -t) :
    (∃ d z, i * d = 1 ∧ d * i = 1 ∧ m.logLinearNormalized A fuel = .ok z ∧ WfMV A z ∧ Homogeneous 2 z ∧
      val A z = gradePart A R 2 (val A m * d)) ∨ m.logLinearNormalized A fuel = .error .divZero ∧ ¬ IsUnit i := by
  obtain ⟨S, S1, S2⟩ := (C14_named hA).2.2.2.2.2.2.2.2.2.2.2.2.2.2.1
  obtain ⟨T, t1, p, p1, p2, p3, p4⟩ := restrictSubspace_gives hA hm S2.1
  rw [hv, self_part hA h2 hi ht S2] at p4
  obtain ⟨T', t1', _, t3⟩ := intersection_spec hA S2.1 (T := m.sub)
  cases t1.symm.trans t1'
  have h4 : ∀ b ∈ p.sub.blades, pc A.n b % 4 = 0 := by
    intro b hb
    have hb' := (t3 b).1 (p2 ▸ hb)
    have k1 : popcount b % 4 = 0 ∨ popcount b % 4 = 1 := ((S2.2 b).1 hb'.2.1).2
    have k2 := he b hb'.2.2
    rw [← popcount_of_lt hA.le32 hb'.1]
    omega
  have hs := nsimple_mod4 hA (by omega) p3.sub h4 0
  have e : m.logLinearNormalized A fuel = (do let d ← p.inverse A fuel; lift (m.bivectorProduct A d)) := by
    simp only [MV.logLinearNormalized, S1, p1, lift_some, bind, Except.bind]
  rw [e]
  rcases C47_inverse hA h5 h2 hf p3 with ⟨d, d1, d2, d3, d4⟩ | hd
  · left
    obtain ⟨z, z1, z2, z3⟩ := (C30_graded hA hm d2).2.2.2.2.2 hn
    rw [p4] at d3 d4
    refine ⟨val A d, z, d3, d4, ?_, z2, bivectorProduct_sub hA hn hm d2 z1, z3⟩
    simp only [d1, bind, Except.bind, z1, lift_some]
  · right
    refine ⟨by simp only [hd, bind, Except.bind], fun hu => ?_⟩
    obtain ⟨i, i1, _⟩ := inverse_ok1' hA (by omega) h2 (by omega : 2 ≤ fuel) p3 hs (by rw [p4]; exact hu)
    rw [hd] at i1; cases i1

theorem motorRoot_spec (hA : WfAlg A) {rt : Roots R} {fuel : Nat} {m s : MV R} (hm : WfMV A m)
    (h : m.motorSquareRoot A rt fuel = .ok s) :
    EvenSub m.sub ∧ ∃ x, WfMV A x ∧ EvenSub x.sub ∧ val A x = val A m + 1 ∧ x.normalized A rt fuel = .ok s := by
  obtain ⟨h1, h3⟩ := require_ok h
  have he := (insideEven_iff hA hm.sub).1 h1
  obtain ⟨x, x1, x2, x3, x4⟩ := add_num_even hA hm he (1 : R)
  rw [x1] at h3
  exact ⟨he, x, x2, x4, by rw [x3, one_smul], h3⟩

end field
end Verif
