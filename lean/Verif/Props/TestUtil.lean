import Verif.Proofs.TestUtil2
import Verif.Props.Subspace
/-! # C108: the random multivectors of the test helpers -/
namespace Verif.Props
open Model Spec Model.Factory Model.TestUtil

variable {A : Alg} {R : Type} [Field R] [LinearOrder R] [IsStrictOrderedRing R]

/-- C108: a `random_nonnegative_normal_vector` squares to a number that is not negative for all draws in exactly the algebras without negative basis vectors and
those with exactly one negative and some positive basis vector; in all others (such as spacetime with three negative ones) the docstring is wrong. -/
theorem C108_nonnegative_iff (hA : WfAlg A) :
    (∀ (draw : List R) (r : MV R), randomNonnegative A draw = .ok r → ∃ c : R, 0 ≤ c ∧ val A r * val A r = c • 1) ↔
      A.desc.sig.count (-1) = 0 ∨ (A.desc.sig.count (-1) = 1 ∧ 1 ≤ A.desc.sig.count 1) := by
  constructor
  · intro h
    by_contra hc
    rw [not_or, not_and_or] at hc
    obtain ⟨w, w1, w2, w3⟩ := dot_negative (R := R) hA (by omega) (by omega)
    have hl : (List.ofFn w).length = A.n := by simp
    have hn : (0 : R) ∉ List.ofFn w := by
      rw [List.mem_ofFn]
      rintro ⟨i, hi⟩
      exact w1 i hi
    have hm : (-1 : ℤ) ∈ A.desc.sig := List.count_pos_iff.1 (by omega)
    have e := nonneg_eq hA hl
    rw [crd_ofFn, if_pos ⟨hm, w2⟩, if_neg hn] at e
    obtain ⟨c, c1, c2⟩ := h _ _ e
    obtain ⟨r1, r2, -⟩ := nonneg_vec hA e
    have hv := (crd_val hA r1 r2).2
    rw [hv, vec_sq, List.map_ofFn, crd_ofFn] at c2
    have := congrArg (coef A R 0) c2
    rw [map_smul, map_smul, coef_one, smul_eq_mul, smul_eq_mul, mul_one, mul_one] at this
    have w3' : dot A ((fun x => 1 / x) ∘ w) ((fun x => 1 / x) ∘ w) < 0 := w3
    linarith
  · intro h draw r hr
    obtain ⟨r1, r2, r3, r4⟩ := nonneg_vec hA hr
    refine ⟨dot A (crd A r.vals) (crd A r.vals), ?_, by rw [(crd_val hA r1 r2).2, vec_sq]⟩
    by_cases hm : (-1 : ℤ) ∈ A.desc.sig
    · rcases r4 with ⟨e, h'⟩ | ⟨h1, h2, e⟩
      · rw [e]; exact h' hm
      · have := List.count_pos_iff.2 hm
        have hl := nonneg_length hA hr
        have e' : crd A r.vals = fun i => 1 / crd A draw i := by
          funext i
          simp only [crd, e, List.getD_eq_getElem?_getD]
          rw [List.getElem?_eq_getElem (by simp [hl]), List.getElem?_eq_getElem (by simp [hl])]
          simp
        rw [e']
        refine dot_inverted hA (by omega) (by omega) (fun i hi => h2 ?_) h1
        have hil : (i : Nat) < draw.length := by rw [hl]; exact i.2
        rw [crd, List.getD_eq_getElem?_getD, List.getElem?_eq_getElem hil] at hi
        exact hi ▸ List.getElem_mem hil
    · exact dot_nonneg hA hm _

/-- Spacetime with two dimensions of space. -/
def spacetime3 : Alg := ⟨⟨["t".toList, "x".toList, "y".toList], [1, -1, -1]⟩, 1, 1⟩
theorem wf_spacetime3 : WfAlg spacetime3 := by constructor <;> decide

/-- This draw and its inverse both have a negative square. -/
example : (randomNonnegative spacetime3 [1, 1/10, 10] : Except Fail (MV ℚ)) = .ok ⟨⟨[1, 2, 4]⟩, [1, 10, 1/10]⟩ ∧
    (⟨⟨[1, 2, 4]⟩, [1, 10, 1/10]⟩ : MV ℚ).squared spacetime3 = some ⟨⟨[0]⟩, [-99 - 1/100]⟩ := by decide +kernel

/-- C108: a `random_reflection` is a vector that squares to one. -/
theorem C108_reflection (hA : WfAlg A) (h0 : ∃ j < A.n, A.desc.sig.getD j 0 ≠ 0) {rt : Roots R} (hr : RootLaw rt) {fuel : Nat} {draw : List R} {y : MV R}
    (h : randomReflection A rt fuel draw = .ok y) : WfMV A y ∧ A.vector = some y.sub ∧ val A y * val A y = 1 ∧ CliffordAlgebra.reverse (val A y) = val A y := by
  obtain ⟨y1, y2, r, s, -, e, d⟩ := reflection_ok hA h0 hr h
  exact ⟨y2, y1 ▸ vector_eq hA, by rw [e, vec_sq, d, one_smul], by rw [e]; exact CliffordAlgebra.reverse_ι _⟩

/-- C108: it is returned exactly if the vector it starts from has a positive square. -/
theorem C108_reflection_total (hA : WfAlg A) (h0 : ∃ j < A.n, A.desc.sig.getD j 0 ≠ 0) {rt : Roots R} (hr : RealRoots rt) {fuel : Nat} {draw : List R} :
    (∃ y, randomReflection A rt fuel draw = .ok y) ↔ ∃ (r : MV R) (c : R), randomNonnegative A draw = .ok r ∧ val A r * val A r = c • 1 ∧ 0 < c := by
  constructor
  · rintro ⟨y, hy⟩
    cases hn : randomNonnegative A draw with
    | error e => rw [randomReflection, hn] at hy; cases hy
    | ok r =>
      obtain ⟨r1, r2, -⟩ := nonneg_vec hA hn
      refine ⟨r, dot A (crd A r.vals) (crd A r.vals), rfl, by rw [(crd_val hA r1 r2).2, vec_sq], ?_⟩
      rcases reflection_eq hA h0 rt fuel hn with ⟨s, s1, -⟩ | ⟨e, -, e2⟩
      · rw [MV.invSqrtVal] at s1
        split_ifs at s1 with hc
        rcases lt_trichotomy (dot A (crd A r.vals) (crd A r.vals)) 0 with h | h | h
        · rw [hr.neg _ h] at s1; cases s1
        · exact absurd h hc
        · exact h
      · rw [e2] at hy; cases hy
  · rintro ⟨r, c, hn, hc, hp⟩
    obtain ⟨r1, r2, -⟩ := nonneg_vec hA hn
    rw [(crd_val hA r1 r2).2, vec_sq] at hc
    have := congrArg (coef A R 0) hc
    rw [map_smul, map_smul, coef_one, smul_eq_mul, smul_eq_mul, mul_one, mul_one] at this
    obtain ⟨ρ, h1, -⟩ := hr.nonneg c hp.le
    rcases reflection_eq hA h0 rt fuel hn with ⟨s, -, y, hy, -⟩ | ⟨e, e1, -⟩
    · exact ⟨y, hy⟩
    · rw [this, MV.invSqrtVal, if_neg hp.ne', h1] at e1
      cases e1

/-- Square roots of a few rational numbers. -/
def rootsT : Roots ℚ := ⟨fun a => [1, 5, 4/5, 13].find? fun r => r * r = a, fun a => |a|, 1000⟩

theorem rootsT_law : RootLaw rootsT := by
  intro a r h
  simpa using List.find?_some (show [1, 5, 4/5, 13].find? (fun r => decide (r * r = a)) = some r from h)

example : (∃ j < pga2s.n, pga2s.desc.sig.getD j 0 ≠ 0) ∧ (randomReflection pga2s rootsT 0 [3, 4, 2] : Except Fail (MV ℚ)) = .ok ⟨⟨[1, 2, 4]⟩, [3/5, 4/5, 2/5]⟩ :=
  ⟨⟨1, by decide, by decide⟩, by decide +kernel⟩

/-- C108: a `random_positive_normal_vector` is a vector whose square is at least the margin. -/
theorem C108_positive (hA : WfAlg A) (h0 : ∃ j < A.n, A.desc.sig.getD j 0 ≠ 0) {margin : R} {draw : List R} {draws : List (List R)} {r : MV R}
    (h : randomPositive A margin draw draws = .ok r) : WfMV A r ∧ A.vector = some r.sub ∧ ∃ c : R, margin ≤ c ∧ val A r * val A r = c • 1 := by
  rw [randomPositive] at h
  obtain ⟨x, hx, h'⟩ := bind_ok h
  obtain ⟨x1, x2, -⟩ := nonneg_vec hA hx
  clear hx h
  rename' h' => h
  induction draws generalizing x with
  | nil =>
    have hs := (vector_squared hA h0 x2 (x1 ▸ vector_eq hA)).1
    rw [positiveLoop, hs] at h
    simp only [lift_some, bind, Except.bind, List.any_cons, List.any_nil, Bool.or_false, decide_eq_true_eq] at h
    split_ifs at h with hc
    injection h with h
    subst h
    exact ⟨x2, x1 ▸ vector_eq hA, _, not_lt.1 hc, by rw [(crd_val hA x1 x2).2, (crd_val hA x1 x2).1, vec_sq]⟩
  | cons d draws ih =>
    have hs := (vector_squared hA h0 x2 (x1 ▸ vector_eq hA)).1
    rw [positiveLoop, hs] at h
    simp only [lift_some] at h
    change (if ([dot A (coords A x) (coords A x)].any (· < margin)) = true then _ else _) = _ at h
    simp only [List.any_cons, List.any_nil, Bool.or_false, decide_eq_true_eq] at h
    split_ifs at h with hc
    · obtain ⟨y, hy, h⟩ := bind_ok h
      obtain ⟨z, hz, h⟩ := bind_ok h
      obtain ⟨y1, y2, -⟩ := nonneg_vec hA hy
      have e : z = ⟨x.sub, y.vals⟩ := by
        have := lift_ok hz
        rw [MV.copy, MV.construct] at this
        split_ifs at this
        exact (Option.some.inj this).symm
      subst e
      exact ih _ h x1 ⟨x2.sub, by rw [y2.len, y1, ← x1]⟩
    · injection h with h
      subst h
      exact ⟨x2, x1 ▸ vector_eq hA, _, not_lt.1 hc, by rw [(crd_val hA x1 x2).2, (crd_val hA x1 x2).1, vec_sq]⟩

/-- C108: it returns exactly if one of the draws gives such a vector; what it returns comes from one of the draws. -/
theorem C108_positive_iff (hA : WfAlg A) (h0 : ∃ j < A.n, A.desc.sig.getD j 0 ≠ 0) {margin : R} {draw : List R} {draws : List (List R)}
    (hd : ∀ d ∈ draw :: draws, ∃ r, randomNonnegative A d = .ok r) :
    ((∃ r, randomPositive A margin draw draws = .ok r) ↔
      ∃ d ∈ draw :: draws, ∃ (r : MV R) (c : R), randomNonnegative A d = .ok r ∧ val A r * val A r = c • 1 ∧ margin ≤ c) ∧
    ∀ r, randomPositive A margin draw draws = .ok r → ∃ d ∈ draw :: draws, randomNonnegative A d = .ok r := by
  have hsq : ∀ {x : MV R}, x.sub = vecs A → WfMV A x → ∀ {c : R}, val A x * val A x = c • 1 → dot A (coords A x) (coords A x) = c := by
    intro x x1 x2 c hc
    rw [(crd_val hA x1 x2).2, vec_sq] at hc
    have := congrArg (coef A R 0) hc
    rw [map_smul, map_smul, coef_one, smul_eq_mul, smul_eq_mul, mul_one, mul_one] at this
    rw [(crd_val hA x1 x2).1, this]
  obtain ⟨x, hx⟩ := hd draw List.mem_cons_self
  have e : randomPositive A margin draw draws = positiveLoop A margin x draws := by rw [randomPositive, hx]; rfl
  rw [e]
  clear e
  induction draws generalizing draw x with
  | nil =>
    obtain ⟨x1, x2, -⟩ := nonneg_vec hA hx
    have hs := (vector_squared hA h0 x2 (x1 ▸ vector_eq hA)).1
    have e : positiveLoop A margin x [] = if dot A (coords A x) (coords A x) < margin then .error .fuel else .ok x := by
      rw [positiveLoop, hs]
      change (if ([dot A (coords A x) (coords A x)].any (· < margin)) = true then _ else _) = _
      simp only [List.any_cons, List.any_nil, Bool.or_false, decide_eq_true_eq]
    rw [e]
    refine ⟨⟨?_, ?_⟩, ?_⟩
    · rintro ⟨r, hr⟩
      split_ifs at hr with hc
      exact ⟨draw, List.mem_cons_self, x, _, hx, by rw [(crd_val hA x1 x2).2, vec_sq, ← (crd_val hA x1 x2).1], not_lt.1 hc⟩
    · rintro ⟨d, hd', r, c, hr, hc, hm⟩
      rw [List.mem_singleton.1 hd', hx] at hr
      injection hr with hr
      subst hr
      rw [hsq x1 x2 hc, if_neg (not_lt.2 hm)]
      exact ⟨_, rfl⟩
    · intro r hr
      split_ifs at hr with hc
      injection hr with hr
      exact ⟨draw, List.mem_cons_self, hr ▸ hx⟩
  | cons d draws ih =>
    obtain ⟨x1, x2, -⟩ := nonneg_vec hA hx
    obtain ⟨y, hy⟩ := hd d (by simp)
    obtain ⟨y1, y2, -⟩ := nonneg_vec hA hy
    have hs := (vector_squared hA h0 x2 (x1 ▸ vector_eq hA)).1
    have hcopy : x.copy y.vals = some y := by
      rw [MV.copy, MV.construct, if_pos (by rw [y2.len, y1, ← x1]), x1, ← y1]
    have e : positiveLoop A margin x (d :: draws) = if dot A (coords A x) (coords A x) < margin then positiveLoop A margin y draws else .ok x := by
      rw [positiveLoop, hs]
      change (if ([dot A (coords A x) (coords A x)].any (· < margin)) = true then _ else _) = _
      simp only [List.any_cons, List.any_nil, Bool.or_false, decide_eq_true_eq, hy]
      split_ifs
      · show (lift (x.copy y.vals) >>= _) = _
        rw [hcopy]; rfl
      · rfl
    rw [e]
    have ih' := ih (draw := d) (fun d' hd' => hd d' (List.mem_cons_of_mem _ hd')) y hy
    by_cases hc : dot A (coords A x) (coords A x) < margin
    · rw [if_pos hc]
      refine ⟨ih'.1.trans ⟨?_, ?_⟩, fun r hr => ?_⟩
      · rintro ⟨d', h, h'⟩
        exact ⟨d', List.mem_cons_of_mem _ h, h'⟩
      · rintro ⟨d', h, r, c, hr, hcc, hm⟩
        rcases List.mem_cons.1 h with rfl | h
        · rw [hx] at hr
          injection hr with hr
          subst hr
          rw [hsq x1 x2 hcc] at hc
          exact absurd hm (not_le.2 hc)
        · exact ⟨d', h, r, c, hr, hcc, hm⟩
      · obtain ⟨d', h, h'⟩ := ih'.2 r hr
        exact ⟨d', List.mem_cons_of_mem _ h, h'⟩
    · rw [if_neg hc]
      refine ⟨⟨fun _ => ⟨draw, List.mem_cons_self, x, _, hx, by rw [(crd_val hA x1 x2).2, vec_sq, ← (crd_val hA x1 x2).1], not_lt.1 hc⟩, fun _ => ⟨x, rfl⟩⟩, fun r hr => ?_⟩
      injection hr with hr
      exact ⟨draw, List.mem_cons_self, hr ▸ hx⟩

/-- C108: without positive basis vectors its loop never ends. -/
theorem C108_positive_never (hA : WfAlg A) (h0 : ∃ j < A.n, A.desc.sig.getD j 0 ≠ 0) (hp : (1 : ℤ) ∉ A.desc.sig) {margin : R} (hm : 0 < margin) (draw : List R)
    (draws : List (List R)) (r : MV R) : randomPositive A margin draw draws ≠ .ok r := by
  intro h
  obtain ⟨r1, r2, c, c1, c2⟩ := C108_positive hA h0 h
  have rs : r.sub = vecs A := Option.some.inj (r2.symm.trans (vector_eq hA))
  rw [(crd_val hA rs r1).2, vec_sq] at c2
  have := congrArg (coef A R 0) c2
  rw [map_smul, map_smul, coef_one, smul_eq_mul, smul_eq_mul, mul_one, mul_one] at this
  have hn : dot A (crd A r.vals) (crd A r.vals) ≤ 0 := by
    refine Finset.sum_nonpos fun i _ => ?_
    rw [mul_assoc]
    refine mul_nonpos_of_nonpos_of_nonneg ?_ (mul_self_nonneg _)
    rw [metric_get]
    rcases hA.sig _ (List.get_mem A.desc.sig i) with e | e | e
    · exact absurd (e ▸ List.get_mem A.desc.sig i) hp
    · rw [e]; simp
    · rw [e]; simp
  linarith

example : (randomPositive spacetime3 (1/1000) [1, 1/10, 10] [[1, 1, 0], [2, 1, 0]] : Except Fail (MV ℚ)) = .ok ⟨⟨[1, 2, 4]⟩, [2, 1, 0]⟩ := by decide +kernel

example : ∀ d ∈ [[1, 1/10, 10], [1, 1, 0], [2, 1, 0]], ∃ r, (randomNonnegative spacetime3 d : Except Fail (MV ℚ)) = .ok r := by
  have h : [[1, 1/10, 10], [1, 1, 0], [2, 1, 0]].map (fun d => (randomNonnegative spacetime3 d : Except Fail (MV ℚ)).toOption.isSome) = [true, true, true] := by decide +kernel
  intro d hd
  have := List.mem_map_of_mem (f := fun d => (randomNonnegative spacetime3 d : Except Fail (MV ℚ)).toOption.isSome) hd
  rw [h] at this
  cases e : (randomNonnegative spacetime3 d : Except Fail (MV ℚ)) with
  | ok r => exact ⟨r, rfl⟩
  | error f => simp [e, Except.toOption] at this

/-- C108: a `random_n_reflection` is a product of `n` vectors that square to one. -/
theorem C108_nreflection (hA : WfAlg A) (h0 : ∃ j < A.n, A.desc.sig.getD j 0 ≠ 0) {rt : Roots R} (hr : RootLaw rt) {fuel : Nat} (draw : Nat → List R) (n : Nat) {m : MV R}
    (h : randomNReflection A rt fuel draw n = .ok m) : WfMV A m ∧ val A m * CliffordAlgebra.reverse (val A m) = 1 ∧ CliffordAlgebra.reverse (val A m) * val A m = 1 ∧
      ∃ vs : List (Fin A.n → R), vs.length = n ∧ (∀ v ∈ vs, dot A v v = 1) ∧ val A m = (vs.map (vec A)).prod := by
  suffices WfMV A m ∧ ∃ vs : List (Fin A.n → R), vs.length = n ∧ (∀ v ∈ vs, dot A v v = 1) ∧ val A m = (vs.map (vec A)).prod by
    obtain ⟨w, vs, v1, v2, v3⟩ := this
    obtain ⟨u1, u2⟩ := prod_unit vs v2
    exact ⟨w, by rw [v3, u1], by rw [v3, u2], vs, v1, v2, v3⟩
  induction n generalizing m with
  | zero =>
    rw [randomNReflection, MVFactory.kVector, show A.kVector 0 = some ⟨[0]⟩ from (scalar_eq hA).1] at h
    have e : (MV.default ⟨[0]⟩ : MV R) = m := Option.some.inj (lift_ok h)
    subst e
    obtain ⟨w, v⟩ := C45_default (R := R) (scalar_eq hA).2
    exact ⟨w, [], rfl, by simp, by rw [v]; simp⟩
  | succ n ih =>
    rw [randomNReflection] at h
    obtain ⟨p, hp, h⟩ := bind_ok h
    obtain ⟨y, hy, h⟩ := bind_ok h
    obtain ⟨p1, vs, v1, v2, v3⟩ := ih hp
    obtain ⟨y1, y2, r, s, -, y3, y4⟩ := reflection_ok hA h0 hr hy
    obtain ⟨-, -, z, z1, -, z2, z3⟩ := mul_in hA p1 y2
    cases z1.symm.trans (lift_ok h)
    refine ⟨z2, vs ++ [s • crd A r.vals], by simp [v1], ?_, by rw [z3, v3, y3]; simp⟩
    intro v hv
    rcases List.mem_append.1 hv with h | h
    · exact v2 v h
    · rw [List.mem_singleton.1 h]; exact y4

/-- C108: what `random_motor` returns is even and stores a scalar part; it is zero exactly if that scalar part is, and otherwise it is a motor with a positive scalar
part: `M ~M = ~M M = 1`, and `M x ~M` has the grade of `x`. -/
theorem C108_motor (hA : WfAlg A) (h0 : ∃ j < A.n, A.desc.sig.getD j 0 ≠ 0) {rt : Roots R} (hr : RootLaw rt) {fuel : Nat} {draw : Nat → List R × List R} {m : MV R}
    (h : randomMotor A rt fuel draw = .ok m) :
    WfMV A m ∧ (∀ b ∈ m.sub.blades, popcount b % 2 = 0) ∧ 0 ∈ m.sub.blades ∧
    ((coef A R 0 (val A m) = 0 ∧ val A m = 0) ∨
      (0 < coef A R 0 (val A m) ∧ val A m * CliffordAlgebra.reverse (val A m) = 1 ∧ CliffordAlgebra.reverse (val A m) * val A m = 1 ∧
        ∀ (k : Nat) (x : Cl A R), gradePart A R k x = x →
          gradePart A R k (val A m * x * CliffordAlgebra.reverse (val A m)) = val A m * x * CliffordAlgebra.reverse (val A m))) := by
  rw [randomMotor] at h
  obtain ⟨p, hp, h⟩ := bind_ok h
  have g := ((reflections_good hA h0 hr draw _).2 p hp).1
  obtain ⟨y, y1, y2, y3, y4⟩ := signed_eq hA g.wf g.zero
  rw [y1] at h
  injection h with h
  subst h
  refine ⟨y3, y2 ▸ g.even, y2 ▸ g.zero, ?_⟩
  have hrf : Reflections A (val A y) := y4 ▸ g.refl.smul (sign_cases _)
  have hc : coef A R 0 (val A y) = sign (coef A R 0 (val A p)) * coef A R 0 (val A p) := by rw [y4, map_smul, smul_eq_mul]
  by_cases hz : coef A R 0 (val A p) = 0
  · left
    rw [hz] at hc
    refine ⟨by rw [hc, mul_zero], ?_⟩
    rw [y4, hz]
    simp [sign]
  · right
    have hpos : 0 < coef A R 0 (val A y) := by
      rw [hc, sign]
      rcases lt_or_gt_of_ne hz with h | h
      · rw [if_neg (not_lt.2 h.le), if_pos h]; linarith
      · rw [if_pos h]; linarith
    refine ⟨hpos, ?_⟩
    rcases hrf.motor hA with h | h
    · rw [h, map_zero] at hpos; exact absurd hpos (lt_irrefl _)
    · exact h

/-- C108: `random_motor` returns exactly if all its reflections do. -/
theorem C108_motor_total (hA : WfAlg A) (h0 : ∃ j < A.n, A.desc.sig.getD j 0 ≠ 0) {rt : Roots R} (hr : RootLaw rt) {fuel : Nat} {draw : Nat → List R × List R} :
    (∃ m, randomMotor A rt fuel draw = .ok m) ↔
      ∀ k < A.n / 2, (∃ y, randomReflection A rt fuel (draw k).1 = .ok y) ∧ ∃ y, randomReflection A rt fuel (draw k).2 = .ok y := by
  have hb : ∀ k, (∃ m, randomBireflection A rt fuel (draw k) = .ok m) ↔
      (∃ y, randomReflection A rt fuel (draw k).1 = .ok y) ∧ ∃ y, randomReflection A rt fuel (draw k).2 = .ok y := fun k =>
    ⟨fun ⟨m, hm⟩ => let ⟨l, r, hl, hr'⟩ := (bireflection_good hA h0 hr).2 m hm; ⟨⟨l, hl⟩, ⟨r, hr'⟩⟩,
      fun ⟨⟨l, hl⟩, ⟨r, hr'⟩⟩ => let ⟨m, hm, _⟩ := (bireflection_good hA h0 hr).1 l r hl hr'; ⟨m, hm⟩⟩
  have hg := reflections_good hA h0 hr (fuel := fuel) draw (A.n / 2)
  constructor
  · rintro ⟨m, hm⟩ k hk
    rw [randomMotor] at hm
    obtain ⟨p, hp, -⟩ := bind_ok hm
    exact (hb k).1 ((hg.2 p hp).2 k hk)
  · intro h
    obtain ⟨p, hp⟩ := hg.1 fun k hk => (hb k).2 (h k hk)
    have g := (hg.2 p hp).1
    obtain ⟨y, y1, -⟩ := signed_eq hA g.wf g.zero
    exact ⟨y, by rw [randomMotor, hp]; exact y1⟩

/-- A motor of the plane, and draws at right angles that give zero instead of a motor. -/
example : ((randomMotor pga2s rootsT 0 fun _ => ([3, 4, 7], [-5, -12, 2])).toOption.map fun m => (m.sub.blades, m.vals)) = some ([0, 3, 5, 6], [63/65, 16/65, -41/65, -92/65]) ∧
    ((randomMotor pga2s rootsT 0 fun _ => ([3, 4, 7], [4, -3, 2])).toOption.map fun m => (m.sub.blades, m.vals)) = some ([0, 3, 5, 6], [0, 0, 0, 0]) := by decide +kernel

/-- C108: the `motor_violations` of any multivector are `M ~M - 1` and the part of `M v ~M` that is not a vector. -/
theorem C108_violations (hA : WfAlg A) {m : MV R} (hm : WfMV A m) {draw : List R} (hl : draw.length = A.n) :
    ∃ v w, motorViolations A m draw = some (v, w) ∧ WfMV A v ∧ WfMV A w ∧ val A v = val A m * CliffordAlgebra.reverse (val A m) - 1 ∧
      ∀ b < 2 ^ A.n, coef A R b (val A w) =
        if popcount b = 1 then 0 else coef A R b (val A m * vec A (fun i => draw.getD i 0) * CliffordAlgebra.reverse (val A m)) := by
  obtain ⟨s, s1, s2, s3⟩ := (C38_values hA hm).2.1
  obtain ⟨v, v1, v2, v3⟩ := (C44_numbers hA s2 1).2.1
  have hw := vecs_wf hA hl
  obtain ⟨r, r1, r2, r3⟩ := C36_full hA hm hw
  obtain ⟨U, u1, u2⟩ := difference_spec hA r2.sub (T := vecs A)
  obtain ⟨w, w1, w2, w3, w4⟩ := C25_select r2 u2.1
  refine ⟨v, w, ?_, v2, w3, by rw [v3, s3, map_one], fun b hb => ?_⟩
  · rw [motorViolations, vector_eq hA]
    simp only [Option.bind_eq_bind, Option.bind_some, s1, v1, randomSubspace, MVFactory.multivector, MV.construct]
    rw [if_pos (by simpa using hl), Option.bind_some]
    simp only [r1, Option.bind_some, u1, w1]
    rfl
  · rw [← coeff_eq w3, w4, coeff_eq r2, r3, (crd_val hA rfl hw).2]
    obtain ⟨V, e1, e2⟩ := (C14_named hA).2.1
    rw [vector_eq hA] at e1
    cases e1
    have hv : b ∈ (vecs A).blades ↔ popcount b = 1 := by rw [e2.2]; exact ⟨fun h => h.2, fun h => ⟨hb, h⟩⟩
    by_cases h1 : popcount b = 1
    · rw [if_pos h1, if_neg (fun h => ((u2.2 b).1 h).2.2 (hv.2 h1))]
    · rw [if_neg h1]
      split_ifs with h2
      · rfl
      · have hn : b ∉ r.sub.blades := fun h => h2 ((u2.2 b).2 ⟨hb, h, fun h => h1 (hv.1 h)⟩)
        have := coeff_notMem hn
        rw [coeff_eq r2, r3, (crd_val hA rfl hw).2] at this
        exact this.symm

/-- C108: a random motor that is not zero has no violations. -/
theorem C108_motor_passes (hA : WfAlg A) (h0 : ∃ j < A.n, A.desc.sig.getD j 0 ≠ 0) {rt : Roots R} (hr : RootLaw rt) {fuel : Nat} {draw : Nat → List R × List R} {m : MV R}
    (h : randomMotor A rt fuel draw = .ok m) (hm : val A m ≠ 0) {d : List R} (hl : d.length = A.n) :
    ∃ v w, motorViolations A m d = some (v, w) ∧ val A v = 0 ∧ val A w = 0 := by
  obtain ⟨m1, -, -, m4⟩ := C108_motor hA h0 hr h
  obtain ⟨v, w, e, -, -, h1, h2⟩ := C108_violations hA m1 hl
  rcases m4 with ⟨-, h⟩ | ⟨-, u1, -, u3⟩
  · exact absurd h hm
  refine ⟨v, w, e, by rw [h1, u1, sub_self], ext_coef A _ fun b hb => ?_⟩
  rw [h2 b hb, map_zero]
  split_ifs with hb1
  · rfl
  · rw [← u3 1 _ (by
      have hw := vecs_wf hA hl
      have := gradePart_val hw (k := 1) (fun b hb => by
        obtain ⟨i, hi, rfl⟩ := List.mem_map.1 hb
        exact popcount_two_pow hA (List.mem_range.1 hi))
      rwa [(crd_val hA rfl hw).2] at this), Spec.Euc.coef_gradePart _ _ hb, if_neg hb1]

/-- C108: `check_inverse` passes exactly if no coefficient of `x i - 1` and `i x - 1` exceeds the tolerance. -/
theorem C108_check (hA : WfAlg A) {x i : MV R} (hx : WfMV A x) (hi : WfMV A i) {atol : R} (ht : 0 ≤ atol) :
    ∃ b, checkInverse A x i atol = some b ∧ (b = true ↔
      ∀ c, |coef A R c (val A x * val A i - 1)| ≤ atol ∧ |coef A R c (val A i * val A x - 1)| ≤ atol) := by
  have key : ∀ y : MV R, WfMV A y → ∃ b, assertClose A y (.num 1) atol = some b ∧ (b = true ↔ ∀ c, |coef A R c (val A y - 1)| ≤ atol) := by
    intro y hy
    obtain ⟨z, z1, z2, z3⟩ := (C44_numbers hA hy 1).2.1
    refine ⟨_, by rw [assertClose, z1]; rfl, ?_⟩
    rw [List.all_eq_true]
    have := all_coeff z2 (p := fun v => |v| ≤ atol) (by simpa using ht)
    rw [z3, map_one] at this
    rw [← this]
    refine forall₂_congr fun v _ => ?_
    rw [Bool.and_eq_true, decide_eq_true_eq, decide_eq_true_eq, abs_le]
    constructor
    · rintro ⟨h1, h2⟩; exact ⟨by linarith, h1⟩
    · rintro ⟨h1, h2⟩; exact ⟨h2, by linarith⟩
  obtain ⟨-, -, p, p1, -, p2, p3⟩ := mul_in hA hx hi
  obtain ⟨-, -, q, q1, -, q2, q3⟩ := mul_in hA hi hx
  obtain ⟨a, a1, a2⟩ := key p p2
  obtain ⟨b, b1, b2⟩ := key q q2
  refine ⟨a && b, ?_, ?_⟩
  · rw [checkInverse, p1, q1]
    simp only [Option.bind_eq_bind, Option.bind_some, a1, b1]
    rfl
  · rw [Bool.and_eq_true, a2, b2, p3, q3, forall_and]

/-- C108: with tolerance zero it decides whether `i` is the inverse of `x`. -/
theorem C108_check_exact (hA : WfAlg A) {x i : MV R} (hx : WfMV A x) (hi : WfMV A i) :
    checkInverse A x i 0 = some true ↔ val A x * val A i = 1 ∧ val A i * val A x = 1 := by
  obtain ⟨b, b1, b2⟩ := C108_check hA hx hi (le_refl (0 : R))
  rw [b1, Option.some.injEq, b2]
  constructor
  · intro h
    constructor <;> refine sub_eq_zero.1 (ext_coef A _ fun c _ => ?_) <;> rw [map_zero]
    · exact abs_nonpos_iff.1 (h c).1
    · exact abs_nonpos_iff.1 (h c).2
  · rintro ⟨h1, h2⟩ c
    rw [h1, h2, sub_self, map_zero, abs_zero]
    exact ⟨le_refl _, le_refl _⟩

example : checkInverse pga2s (⟨⟨[0, 3]⟩, [3/5, 4/5]⟩ : MV ℚ) ⟨⟨[0, 3]⟩, [3/5, -4/5]⟩ 0 = some true ∧
    checkInverse pga2s (⟨⟨[0, 3]⟩, [3/5, 4/5]⟩ : MV ℚ) ⟨⟨[0, 3]⟩, [3/5, 4/5]⟩ (1/10) = some false := by decide +kernel

/-- C108: a `random_non_motor` is the `2 ^ n`-th power of one plus a small even multivector. -/
theorem C108_nonmotor (hA : WfAlg A) {E : SubSpace} (hE : A.evenGrade = some E) {draw : List R} (hl : draw.length = E.blades.length) (scale : R) (n : Nat) :
    ∃ m, randomNonMotor A scale n draw = some m ∧ WfMV A m ∧ val A m = (1 + scale • val A (⟨E, draw⟩ : MV R)) ^ 2 ^ n := by
  have hw : WfMV A (⟨E, draw⟩ : MV R) := by
    obtain ⟨S, s1, s2⟩ := (C14_named hA).2.2.2.2.2.2.2.2.2.2.2.2.1
    cases hE.symm.trans s1
    exact ⟨s2.1, hl⟩
  obtain ⟨y, y1, y2, -, y3⟩ := mul_num hA hw scale
  obtain ⟨z, z1, z2, z3⟩ := (C44_numbers hA y2 1).1
  have e : randomNonMotor A scale n draw = (List.range n).foldlM (fun m _ => m.squared A) z := by
    rw [randomNonMotor, hE]
    simp only [Option.bind_eq_bind, Option.bind_some, randomSubspace, MVFactory.multivector, MV.construct]
    rw [if_pos hl, Option.bind_some, y1, Option.bind_some, z1, Option.bind_some]
  rw [e]
  have hz : val A z = 1 + scale • val A (⟨E, draw⟩ : MV R) := by rw [z3, y3, map_one, add_comm]
  rw [← hz]
  clear e z3 z1 hz
  have : ∀ (l : List Nat) (z : MV R), WfMV A z → ∃ m, l.foldlM (fun m _ => m.squared A) z = some m ∧ WfMV A m ∧ val A m = val A z ^ 2 ^ l.length := by
    intro l
    induction l with
    | nil => intro z hz; exact ⟨z, rfl, hz, by simp⟩
    | cons a l ih =>
      intro z hz
      obtain ⟨s, s1, s2, s3⟩ := (C38_values hA hz).1
      obtain ⟨m, m1, m2, m3⟩ := ih s s2
      refine ⟨m, by rw [List.foldlM_cons, s1]; exact m1, m2, ?_⟩
      rw [m3, s3, ← pow_two, ← pow_mul, List.length_cons, pow_succ, mul_comm]
  obtain ⟨m, m1, m2, m3⟩ := this (List.range n) z z2
  exact ⟨m, m1, m2, by rw [m3, List.length_range]⟩

end Verif.Props
